import Verif.Seq.Cache

/-!
# Histories of operations of one thread on a `HashCache`
-/

set_option linter.unusedSectionVars false
set_option linter.unusedSimpArgs false
set_option linter.unusedVariables false

namespace Scc.Seq

open Scc.Index hiding bucketLen
open Scc.Bucket

variable {K V : Type}

/-! ## Operations and what they are allowed to do -/

/-- Operations of a `HashCache`. -/
inductive CacheOp (K V : Type) : Type 1
  /-- `put`, `replace`, and the entry API: `f` decides from the value found -/
  | entry (k : K) (f : Option V → Act V)
  /-- `get` and what is done with the entry -/
  | get (k : K) (f : V → Act V)
  /-- `remove`, `remove_if` -/
  | alter (k : K) (f : V → Act V)
  | read (k : K)
  | len
  | iter
  /-- `retain`, `iter_mut`, `clear` with a closure with state -/
  | retain (σ : Type) (s : σ) (f : σ → K × V → σ × V × Bool)

/-- What an operation reports; `put` reports also the evicted pair. -/
inductive CacheOut (K V : Type)
  | value (o : Option V)
  | put (o : Option V) (ev : Option (K × V))
  | size (n : Nat)
  | visited (l : List (K × V))

/-- An operation executed by the model. -/
def CacheExec [DecidableEq K] (c : Cfg K) (env : Env) (T : Tbl K V) :
    CacheOp K V → CacheOut K V → Tbl K V → Prop
  | .entry k f, out, T' => ∃ o ev, cacheEntryOp c env T k f = some (T', o, ev) ∧ out = .put o ev
  | .get k f, out, T' => ∃ o, cacheAlterOp c env T k true f = some (T', o) ∧ out = .value o
  | .alter k f, out, T' => ∃ o, cacheAlterOp c env T k false f = some (T', o) ∧ out = .value o
  | .read k, out, T' => ∃ o, readOp c env T k = some (T', o) ∧ out = .value o
  | .len, out, T' => ∃ n, lenOp c env T = some (T', n) ∧ out = .size n
  | .iter, out, T' => ∃ l, iterOp c env T = some (T', l) ∧ out = .visited l
  | .retain σ s f, out, T' => ∃ s' l, retainOp c env T f s = some (T', s', l) ∧ out = .visited l

/-- What a finite map that may lose one entry per new key allows: from the contents `m`, reporting
`out`, to the contents `m'`. -/
def CacheAllowed [DecidableEq K] (m : K → Option V) :
    CacheOp K V → CacheOut K V → (K → Option V) → Prop
  | .entry k f, out, m' =>
    (out = .put (m k) none ∧ m' = Spec.set m k ((f (m k)).res (m k))) ∨
    ∃ e v, out = .put none (some e) ∧ m k = none ∧ f none = .put v ∧ e.1 ≠ k ∧ m e.1 = some e.2 ∧
      m' = Spec.set (Spec.set m e.1 none) k (some v)
  | .get k f, out, m' =>
    out = .value (m k) ∧ m' = Spec.set m k ((m k).bind fun v => (f v).res (some v))
  | .alter k f, out, m' =>
    out = .value (m k) ∧ m' = Spec.set m k ((m k).bind fun v => (f v).res (some v))
  | .read k, out, m' => out = .value (m k) ∧ m' = m
  | .len, out, m' => (∃ n, Spec.HasSize m n ∧ out = .size n) ∧ m' = m
  | .iter, out, m' => (∃ l, Spec.Enumerates l m ∧ out = .visited l) ∧ m' = m
  | .retain _ s f, out, m' =>
    ∃ l, Spec.Enumerates l m ∧ out = .visited l ∧ Spec.Enumerates (Spec.pass f s l).2 m'

/-- The pairs an operation hands to the container. A closure that writes to a value in place counts as
handing in the new pair and getting back the old one. -/
def cacheGiven : CacheOp K V → CacheOut K V → List (K × V)
  | .entry k f, .put o _ => (f o).inn k
  | .get k f, .value o => (Act.onSome f o).inn k
  | .alter k f, .value o => (Act.onSome f o).inn k
  | .retain _ s f, .visited l => (Spec.pass f s l).2 ++ passDropped f s l
  | _, _ => []

/-- The pairs an operation hands back to the caller, who owns them from then on. -/
def cacheTaken : CacheOp K V → CacheOut K V → List (K × V)
  | .entry k f, .put o ev => (f o).out .cache k o ++ ev.toList
  | .get k f, .value o => (Act.onSome f o).out .cache k o
  | .alter k f, .value o => (Act.onSome f o).out .cache k o
  | .retain _ s f, .visited l => l ++ passDropped f s l
  | _, _ => []

section
variable [DecidableEq K] {c : Cfg K}

/-! ## The LRU lists under the other operations -/

theorem retain_lruOk {σ : Type} (env : Env) (f : σ → K × V → σ × V × Bool) (fuel : Nat) (b : Bucket K V)
    (p : Ptr) (s : σ) {b' : Bucket K V} {s' : σ} {l : List (K × V)}
    (h : b.retain .cache env f fuel p s = some (b', s', l)) (lo : LruOk b) : LruOk b' := by
  induction fuel generalizing b p s b' s' l with
  | zero => cases h
  | succ fuel ih =>
    unfold Bucket.retain at h
    have hci : ¬ (Kind.cache = Kind.index) := by decide
    simp only [if_neg hci] at h
    split at h
    · split at h
      · cases h
      · rename_i e he
        split at h
        · obtain ⟨r, h1, h2⟩ := Option.map_eq_some_iff.1 h
          cases h2
          exact ih _ _ _ h1 (setVal_lruOk lo _ _)
        · split at h
          · cases h
          · rename_i b2 e2 q' hrm
            obtain ⟨r, h1, h2⟩ := Option.map_eq_some_iff.1 h
            cases h2
            exact ih _ _ _ h1 (remove_lruOk (setVal_lruOk lo _ _) hrm)
    · cases h; exact lo

theorem retainLoop_allLru (hk : c.kind = .cache) (hc : c.Ok) {σ : Type} (env : Env)
    (f : σ → K × V → σ × V × Bool) (n j : Nat) (T : Tbl K V) (s : σ) (ok : T.Ok c) {w : Two K V}
    (hw : T.arr = some w) (hn : j + n = 2 ^ w.cur.lg) (lo : AllLru T)
    {r : Tbl K V × σ × List (K × V) × Bool} (h : retainLoop c env f n j T s = some r) : AllLru r.1 := by
  induction n generalizing j T s w r with
  | zero => cases h; exact lo
  | succ n ih =>
    have hj : j < 2 ^ w.cur.lg := by omega
    obtain ⟨T1, w1, h1, hw1, hl, k1, cl, ho⟩ := prepare_ok hc env.recent T ok hw hj
    have lo1 := prepare_allLru hk hc ok hw hj lo h1
    have hj1 : j < 2 ^ w1.cur.lg := by rw [hl]; exact hj
    obtain ⟨E, C, rd⟩ := ready_cur k1.ok hw1 hj1 cl
    have hidx : c.kind = .index → ∀ s e, (f s e).2.1 = e.2 := by rw [hk]; intro h; cases h
    have hrem := remaining_null rd.wf
    obtain ⟨b', g1, g2, g3⟩ := retain_ok (hash := c.hash) env f hidx ((w1.cur.bkt j).len + 1)
      (w1.cur.bkt j) Ptr.null s rd.wf (by rw [hrem, rd.wf.len]; omega) []
      (by rw [hrem]; exact List.Perm.refl _)
    rw [hrem] at g1 g3
    rw [List.nil_append] at g3
    have hpl : ∀ e ∈ b'.entries c.kind, bucketIndex w1.cur.lg (c.hash e.1) = j := by
      intro e he
      obtain ⟨e', he', hk⟩ := pass_mem_key f (g3.mem_iff.1 he)
      rw [← hk]; exact rd.placed e' he'
    obtain ⟨p1, p2, p3, p4, p5, p6, p7⟩ := rd.put b' g2 hpl
    have hset : T1.setBucket .cur j b' = { T1 with arr := some { w1 with cur := w1.cur.set j b' } } := by
      unfold Tbl.setBucket; rw [hw1]
    have ok2 : (T1.setBucket .cur j b').Ok c := by
      refine ⟨p1, ?_⟩
      have h2 := nodup_perm rd.entries.symm k1.ok.nodup
      have h3 : (((Spec.pass f s ((w1.cur.bkt j).entries c.kind)).2 ++ E).map (·.1)).Nodup := by
        rw [List.map_append] at h2 ⊢
        exact ((pass_keys f s _).append_right _).nodup h2
      exact nodup_perm (p2.trans (g3.append_right E)) h3
    unfold retainLoop at h
    rw [h1] at h
    simp only [rd.bucket, g1] at h
    obtain ⟨q, h2, h3⟩ := Option.map_eq_some_iff.1 h
    cases h3
    show AllLru q.1
    refine ih (j + 1) (T1.setBucket .cur j b') _ ok2 (w := { w1 with cur := w1.cur.set j b' }) (by rw [hset])
      (by show j + 1 + n = 2 ^ w1.cur.lg; rw [hl]; omega) (setBucket_allLru lo1 _ _ ?_) h2
    have lb := bucket_lruOk lo1 rd.bucket
    rw [hk] at g1
    exact retain_lruOk env f _ _ _ _ g1 lb

theorem retainOp_allLru (hk : c.kind = .cache) (hc : c.Ok) {σ : Type} (env : Env)
    (f : σ → K × V → σ × V × Bool) (T : Tbl K V) (s : σ) (ok : T.Ok c) (lo : AllLru T)
    {r : Tbl K V × σ × List (K × V)} (h : retainOp c env T f s = some r) : AllLru r.1 := by
  unfold retainOp at h
  split at h
  · cases h; exact lo
  · rename_i w hw
    obtain ⟨q, h1, h2⟩ := Option.map_eq_some_iff.1 h
    cases h2
    have := retainLoop_allLru hk hc env f _ 0 T s ok hw (by simp) lo h1
    simp only
    split
    · exact tryShrink_allLru this _
    · exact this

theorem iterLoop_allLru (hk : c.kind = .cache) (hc : c.Ok) (env : Env) (n j : Nat) (T : Tbl K V)
    (ok : T.Ok c) {w : Two K V} (hw : T.arr = some w) (hn : j + n = 2 ^ w.cur.lg) (lo : AllLru T)
    {r : Tbl K V × List (K × V)} (h : iterLoop c env n j T = some r) : AllLru r.1 := by
  induction n generalizing j T w r with
  | zero => cases h; exact lo
  | succ n ih =>
    have hj : j < 2 ^ w.cur.lg := by omega
    obtain ⟨T1, w1, h1, hw1, hl, k1, cl, ho⟩ := prepare_ok hc env.recent T ok hw hj
    have lo1 := prepare_allLru hk hc ok hw hj lo h1
    unfold iterLoop at h
    rw [h1] at h
    simp only at h
    split at h
    · cases h
    · split at h
      · cases h
      · obtain ⟨q, h2, h3⟩ := Option.map_eq_some_iff.1 h
        cases h3
        show AllLru q.1
        exact ih (j + 1) T1 k1.ok hw1 (by rw [hl]; omega) lo1 h2

theorem iterOp_allLru (hk : c.kind = .cache) (hc : c.Ok) (env : Env) (T : Tbl K V)
    (ok : T.Ok c) (lo : AllLru T) {r : Tbl K V × List (K × V)} (h : iterOp c env T = some r) :
    AllLru r.1 := by
  unfold iterOp at h
  split at h
  · cases h; exact lo
  · rename_i w hw
    exact iterLoop_allLru hk hc env _ 0 T ok hw (by simp) lo h

theorem lenOp_allLru (hk : c.kind = .cache) (hc : c.Ok) (env : Env) (T : Tbl K V)
    (ok : T.Ok c) (lo : AllLru T) {r : Tbl K V × Nat} (h : lenOp c env T = some r) : AllLru r.1 := by
  unfold lenOp at h
  split at h
  · cases h; exact lo
  · rename_i w hw
    obtain ⟨q, h1, h2⟩ := Option.map_eq_some_iff.1 h
    have cr := incrementalRehash_carried hk hc (ok.two w hw) h1
    have lo1 : AllLru { T with arr := some q.1, gone := T.gone ++ q.2 } := cr.allLru hw rfl lo
    cases h2
    simp only
    split
    · exact tryResize_allLru lo1 _
    · exact lo1

theorem readOp_allLru (hk : c.kind = .cache) (hc : c.Ok) (env : Env) (T : Tbl K V) (ok : T.Ok c)
    (lo : AllLru T) (k : K) {r : Tbl K V × Option V} (h : readOp c env T k = some r) : AllLru r.1 := by
  unfold readOp at h
  split at h
  · cases h
  · rename_i T1 h1; cases h; exact optWriter_allLru hk hc (hc k) ok lo h1
  · rename_i T1 i h1
    split at h
    · cases h
    · cases h; exact optWriter_allLru hk hc (hc k) ok lo h1

/-! ## One operation -/

/-- Every operation returns. -/
theorem cacheExec_total (hk : c.kind = .cache) (hc : c.Ok) (env : Env) (T : Tbl K V) (ok : T.Ok c)
    (lo : AllLru T) (op : CacheOp K V) : ∃ out T', CacheExec c env T op out T' := by
  cases op with
  | entry k f => obtain ⟨T', o, ev, R, h, _⟩ := cacheEntryOp_ok hk hc T ok lo env k f; exact ⟨_, T', o, ev, h, rfl⟩
  | get k f => obtain ⟨T', o, R, h, _⟩ := cacheAlterOp_ok hk hc T ok lo env k true f; exact ⟨_, T', o, h, rfl⟩
  | alter k f => obtain ⟨T', o, R, h, _⟩ := cacheAlterOp_ok hk hc T ok lo env k false f; exact ⟨_, T', o, h, rfl⟩
  | read k => obtain ⟨T', o, R, h, _⟩ := readOp_ok hc T ok env k; exact ⟨_, T', o, h, rfl⟩
  | len => obtain ⟨T', h, _⟩ := lenOp_ok hc T ok env; exact ⟨_, T', _, h, rfl⟩
  | iter => obtain ⟨T', l, h, _⟩ := iterOp_ok hc env T ok; exact ⟨_, T', l, h, rfl⟩
  | retain σ s f =>
    obtain ⟨T', l, h, _⟩ := retainOp_ok f hc env (by rw [hk]; intro h; cases h) T s ok
    exact ⟨_, T', _, l, h, rfl⟩

theorem set_none {m : K → Option V} {k : K} (h : m k = none) : Spec.set m k none = m := by
  funext x
  unfold Spec.set
  split
  · rename_i hx; rw [hx, h]
  · rfl

theorem CacheEffect.mem (hk : c.kind = .cache) {T T' : Tbl K V} {k : K} {f : Option V → Act V}
    {o : Option V} {ev : Option (K × V)} {R : List (K × V)} (ok : T.Ok c)
    (h : CacheEffect c T T' k f o ev R) :
    (((f o).out .cache k o ++ ev.toList) ++ T'.cells ++ T'.gone).Perm
      ((f o).inn k ++ T.cells ++ T.gone) := by
  have ht : c.kind ≠ .index := by rw [hk]; intro h; cases h
  rw [tbl_cells_of_kind ht h.ok, tbl_cells_of_kind ht ok]
  have z1 := h.before
  have z2 := h.after
  have z3 := h.gone
  have z4 : ((f o).out .cache k o ++ pr k ((f o).res o)).Perm ((f o).inn k ++ pr k o) := by
    cases f o <;> cases o <;> simp [Act.out, Act.res, Act.inn, pr] <;> exact List.Perm.swap _ _ _
  rw [perm_iff] at *
  intro x
  have z1 := z1 x
  have z2 := z2 x
  have z3 := z3 x
  have z4 := z4 x
  simp only [cnt_append] at *
  omega

theorem CacheEffect.enum {T T' : Tbl K V} {k : K} {f : Option V → Act V} {o : Option V}
    {ev : Option (K × V)} {R : List (K × V)} (h : CacheEffect c T T' k f o ev R) {m : K → Option V}
    (e : Spec.Enumerates (T.entries c) m) :
    m k = o ∧
    (ev = none → Spec.Enumerates (T'.entries c) (Spec.set m k ((f o).res o))) ∧
    ∀ y, ev = some y → m y.1 = some y.2 ∧
      Spec.Enumerates (T'.entries c) (Spec.set (Spec.set m y.1 none) k ((f o).res o)) := by
  obtain ⟨h1, h2⟩ := enum_pr (enum_perm h.before.symm e) h.other
  refine ⟨h1, ?_, ?_⟩
  · rintro rfl
    exact enum_perm h.after (h2 _)
  · rintro y rfl
    obtain ⟨ho, _⟩ := h.evicts (by simp)
    subst ho
    have e1 : Spec.Enumerates (pr y.1 (some y.2) ++ R) m := enum_perm h.before.symm e
    have hnd := e1.1
    have hR : ∀ x ∈ R, x.1 ≠ y.1 := by
      intro x hx hxy
      have hn : (y.1 :: R.map (·.1)).Nodup := hnd
      rw [List.nodup_cons] at hn
      exact hn.1 (List.mem_map.2 ⟨x, hx, hxy⟩)
    obtain ⟨h3, h4⟩ := enum_pr e1 hR
    have e2 : Spec.Enumerates (pr k none ++ R) (Spec.set m y.1 none) := h4 none
    obtain ⟨_, h5⟩ := enum_pr e2 (fun x hx => h.other x (List.mem_append_right _ hx))
    exact ⟨h3, enum_perm h.after (h5 _)⟩

/-- Every execution of an operation is allowed, and no pair is lost or duplicated. -/
theorem cacheExec_ok (hk : c.kind = .cache) (hc : c.Ok) (env : Env) (T : Tbl K V) (ok : T.Ok c)
    (lo : AllLru T) (op : CacheOp K V) {out : CacheOut K V} {T' : Tbl K V}
    (h : CacheExec c env T op out T') :
    T'.Ok c ∧ AllLru T' ∧
      (∀ m, Spec.Enumerates (T.entries c) m →
        ∃ m', CacheAllowed m op out m' ∧ Spec.Enumerates (T'.entries c) m') ∧
      (cacheTaken op out ++ T'.cells ++ T'.gone).Perm (cacheGiven op out ++ T.cells ++ T.gone) := by
  have ht : c.kind ≠ .index := by rw [hk]; intro h; cases h
  have alt : ∀ (k : K) (f : V → Act V) (touch : Bool) (o : Option V),
      cacheAlterOp c env T k touch f = some (T', o) →
      T'.Ok c ∧ AllLru T' ∧
      (∀ m, Spec.Enumerates (T.entries c) m →
        ∃ m', (CacheOut.value o = (.value (m k) : CacheOut K V) ∧
          m' = Spec.set m k ((m k).bind fun v => (f v).res (some v))) ∧
          Spec.Enumerates (T'.entries c) m') ∧
      ((Act.onSome f o).out .cache k o ++ T'.cells ++ T'.gone).Perm
        ((Act.onSome f o).inn k ++ T.cells ++ T.gone) := by
    intro k f touch o h1
    obtain ⟨T2, o2, R, h2, h3⟩ := cacheAlterOp_ok hk hc T ok lo env k touch f
    rw [h1] at h2; cases h2
    refine ⟨h3.ok, h3.lru, fun m e => ?_, ?_⟩
    · obtain ⟨h4, h5, _⟩ := h3.enum e
      refine ⟨_, ⟨by rw [h4], rfl⟩, ?_⟩
      rw [h4]
      have : (o.bind fun v => (f v).res (some v)) = (Act.onSome f o).res o := by
        cases o <;> rfl
      rw [this]; exact h5 rfl
    · have := h3.mem hk ok
      simpa using this
  cases op with
  | entry k f =>
    obtain ⟨o, ev, h1, rfl⟩ := h
    obtain ⟨T2, o2, ev2, R, h2, h3⟩ := cacheEntryOp_ok hk hc T ok lo env k f
    rw [h1] at h2; cases h2
    refine ⟨h3.ok, h3.lru, fun m e => ?_, h3.mem hk ok⟩
    obtain ⟨h4, h5, h6⟩ := h3.enum e
    cases ev with
    | none =>
      refine ⟨_, Or.inl ⟨by rw [h4], rfl⟩, ?_⟩
      rw [h4]; exact h5 rfl
    | some y =>
      obtain ⟨h7, v, h8⟩ := h3.evicts (by simp)
      subst h7
      obtain ⟨h9, h10⟩ := h6 y rfl
      refine ⟨_, Or.inr ⟨y, v, rfl, h4, h8, h3.other y (by simp), h9, rfl⟩, ?_⟩
      rw [h8] at h10; exact h10
  | get k f =>
    obtain ⟨o, h1, rfl⟩ := h
    exact alt k f true o h1
  | alter k f =>
    obtain ⟨o, h1, rfl⟩ := h
    exact alt k f false o h1
  | read k =>
    obtain ⟨o, h1, rfl⟩ := h
    obtain ⟨T2, o2, R, h2, h3, h4, h5⟩ := readOp_ok hc T ok env k
    have h7 := readOp_allLru hk hc env T ok lo k h1
    rw [h1] at h2; cases h2
    refine ⟨h3.ok, h7, fun m e => ?_, h3.mem⟩
    obtain ⟨h6, _⟩ := enum_pr (enum_perm h4.symm e) h5
    exact ⟨m, ⟨by rw [h6], rfl⟩, enum_perm h3.entries e⟩
  | len =>
    obtain ⟨n, h1, rfl⟩ := h
    obtain ⟨T2, h2, h3⟩ := lenOp_ok hc T ok env
    have h7 := lenOp_allLru hk hc env T ok lo h1
    rw [h1] at h2; cases h2
    exact ⟨h3.ok, h7, fun m e => ⟨m, ⟨⟨_, enum_size e, rfl⟩, rfl⟩, enum_perm h3.entries e⟩, h3.mem⟩
  | iter =>
    obtain ⟨l, h1, rfl⟩ := h
    obtain ⟨T2, l2, h2, h3, h4⟩ := iterOp_ok hc env T ok
    have h7 := iterOp_allLru hk hc env T ok lo h1
    rw [h1] at h2; cases h2
    exact ⟨h3.ok, h7, fun m e => ⟨m, ⟨⟨_, enum_perm h4.symm e, rfl⟩, rfl⟩, enum_perm h3.entries e⟩, h3.mem⟩
  | retain σ s f =>
    obtain ⟨s', l, h1, rfl⟩ := h
    obtain ⟨T2, l2, h2, h3, h4, h5, h6, h7, h8⟩ := retainOp_ok f hc env (fun h => absurd h ht) T s ok
    have h9 := retainOp_allLru hk hc env f T s ok lo h1
    rw [h1] at h2; cases h2
    refine ⟨h3, h9, fun m e => ?_, ?_⟩
    · obtain ⟨m', hm'⟩ : ∃ m', Spec.Enumerates (Spec.pass f s l).2 m' := by
        have hnd : ((Spec.pass f s l).2.map (·.1)).Nodup :=
          (pass_keys f s l).nodup (nodup_perm h4.symm ok.nodup)
        exact enum_exists _ hnd
      exact ⟨m', ⟨l, enum_perm h4.symm e, rfl, hm'⟩, enum_perm h5 hm'⟩
    · simp only [cacheTaken, cacheGiven]
      rw [tbl_cells_of_kind ht h3, tbl_cells_of_kind ht ok]
      have z := h7 ht
      rw [perm_iff] at *
      intro x
      have z1 := h4 x
      have z2 := h5 x
      have z3 := z x
      simp only [cnt_append] at *
      omega

/-! ## Histories -/

/-- A history executed by the model; every operation meets its own epoch environment. -/
inductive CacheRuns (c : Cfg K) : Tbl K V → List (CacheOp K V × CacheOut K V) → Tbl K V → Prop
  | nil (T : Tbl K V) : CacheRuns c T [] T
  | cons {T T1 T' : Tbl K V} {h : List (CacheOp K V × CacheOut K V)} {op : CacheOp K V}
    {out : CacheOut K V} (env : Env) (e : CacheExec c env T op out T1) (r : CacheRuns c T1 h T') :
    CacheRuns c T ((op, out) :: h) T'

/-- A history a finite map with evictions allows. -/
inductive CacheMapRuns : (K → Option V) → List (CacheOp K V × CacheOut K V) → (K → Option V) → Prop
  | nil (m : K → Option V) : CacheMapRuns m [] m
  | cons {m m1 m' : K → Option V} {h : List (CacheOp K V × CacheOut K V)} {op : CacheOp K V}
    {out : CacheOut K V} (e : CacheAllowed m op out m1) (r : CacheMapRuns m1 h m') :
    CacheMapRuns m ((op, out) :: h) m'

theorem withCapacity_allLru (n : Nat) : AllLru (Tbl.withCapacity n : Tbl K V) := by
  unfold Tbl.withCapacity
  split
  · intro w h; cases h
  · intro w h
    cases h
    exact ⟨fun _ => empty_lruOk, fun o h => by cases h⟩

theorem cacheRuns_total (hk : c.kind = .cache) (hc : c.Ok) (ops : List (Env × CacheOp K V)) (T : Tbl K V)
    (ok : T.Ok c) (lo : AllLru T) : ∃ h T', CacheRuns c T h T' ∧ h.map (·.1) = ops.map (·.2) := by
  induction ops generalizing T with
  | nil => exact ⟨[], T, .nil T, rfl⟩
  | cons o ops ih =>
    obtain ⟨out, T1, h1⟩ := cacheExec_total hk hc o.1 T ok lo o.2
    obtain ⟨x1, x2, _⟩ := cacheExec_ok hk hc o.1 T ok lo o.2 h1
    obtain ⟨h, T', h2, h3⟩ := ih T1 x1 x2
    exact ⟨(o.2, out) :: h, T', .cons o.1 h1 h2, by simp [h3]⟩

theorem cacheRuns_ok (hk : c.kind = .cache) (hc : c.Ok) {T T' : Tbl K V}
    {h : List (CacheOp K V × CacheOut K V)} (ok : T.Ok c) (lo : AllLru T) (r : CacheRuns c T h T') :
    T'.Ok c ∧ AllLru T' ∧ (∀ m, Spec.Enumerates (T.entries c) m →
      ∃ m', CacheMapRuns m h m' ∧ Spec.Enumerates (T'.entries c) m') ∧
    ((h.flatMap fun x => cacheTaken x.1 x.2) ++ T'.cells ++ T'.gone).Perm
      ((h.flatMap fun x => cacheGiven x.1 x.2) ++ T.cells ++ T.gone) := by
  induction r with
  | nil T => exact ⟨ok, lo, fun m e => ⟨m, .nil m, e⟩, List.Perm.refl _⟩
  | cons env e r ih =>
    obtain ⟨h1, h1', h2, h3⟩ := cacheExec_ok hk hc env _ ok lo _ e
    obtain ⟨i1, i1', i2, i3⟩ := ih h1 h1'
    refine ⟨i1, i1', ?_, ?_⟩
    · intro m en
      obtain ⟨m1, a1, a2⟩ := h2 m en
      obtain ⟨m', b1, b2⟩ := i2 m1 a2
      exact ⟨m', .cons a1 b1, b2⟩
    · simp only [List.flatMap_cons]
      rw [perm_iff] at *
      intro x
      have z1 := h3 x
      have z2 := i3 x
      simp only [cnt_append] at *
      omega

end

end Scc.Seq
