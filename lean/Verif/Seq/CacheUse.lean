import Verif.Seq.CacheGrow

/-!
# Histories of a `HashCache` that does not shrink
-/

set_option linter.unusedSectionVars false
set_option linter.unusedSimpArgs false
set_option linter.unusedVariables false

namespace Scc.Seq

open Scc.Index hiding bucketLen
open Scc.Bucket

variable {K V : Type}

/-- The keys in the order of their last use, most recent first, after an operation that reports `out`:
a new key and a key looked up with `get` come first, removed and evicted keys leave. -/
def opUse [DecidableEq K] (L : List K) : CacheOp K V → CacheOut K V → List K
  | .entry k f, .put o ev => useList L k false f o ev
  | .get k f, .value o => useList L k true (Act.onSome f) o none
  | .alter k f, .value o => useList L k false (Act.onSome f) o none
  | .retain _ s f, .visited l => L.filter fun x => decide (x ∉ (passDropped f s l).map (·.1))
  | _, _ => L

/-- An operation, what it reports, and `capacity()` before and after it. -/
structure Obs (K V : Type) : Type 1 where
  op : CacheOp K V
  out : CacheOut K V
  before : Nat
  after : Nat

/-- The order of use; a resize forgets it. -/
def recencyStep [DecidableEq K] (L : List K) (x : Obs K V) : List K :=
  resized x.before x.after (opUse L x.op x.out)

/-- The order of use after a history, most recent first: `put` of a new key and `get` move the key to the
front, removed and evicted keys leave, and a resize empties the list. -/
def recency [DecidableEq K] (h : List (Obs K V)) : List K := h.foldl recencyStep []

section
variable [DecidableEq K] {c : Cfg K}

theorem cap_zero_arr {T : Tbl K V} (h : T.capacity = 0) : T.arr = none := by
  cases hT : T.arr with
  | none => rfl
  | some w => exact absurd h (capacity_pos hT)

theorem setBucket_cap (T : Tbl K V) (s : Side) (i : Nat) (b : Bucket K V) :
    (T.setBucket s i b).capacity = T.capacity := by
  unfold Tbl.setBucket Tbl.capacity
  cases hT : T.arr with
  | none => cases s <;> simp only [hT]
  | some w =>
    obtain ⟨a, old⟩ := w
    cases s
    · rfl
    · cases old
      · simp only [hT]
      · rfl

theorem shrink_fine (q : CacheLim c) {T0 T : Tbl K V} (ok : T.Ok c) (l : Lim c T) {L : List K}
    (r : FineT c T L) (i : Nat) (h0 : T.capacity = T0.capacity)
    (g : T0.capacity ≤ (tryShrink c T i).capacity ∨ (tryShrink c T i).capacity = 0) :
    Lim c (tryShrink c T i) ∧ After c T0 (tryShrink c T i) L := by
  rw [← h0] at g
  obtain ⟨h1, h2⟩ := tryShrink_fine q ok l r i g
  refine ⟨h1, ?_⟩
  rcases h2 with h2 | h2
  · rw [h2]; exact Or.inl ⟨h0, r⟩
  · right; rw [← h0]; exact h2

/-- `get`, `remove_if`. -/
theorem cacheAlterOp_fine (q : CacheLim c) {T : Tbl K V} (ok : T.Ok c) (l : Lim c T) {L : List K}
    (r : FineT c T L) (env : Env) (k : K) (touch : Bool) (f : V → Act V) {T' : Tbl K V} {o : Option V}
    (h : cacheAlterOp c env T k touch f = some (T', o))
    (g : T.capacity ≤ T'.capacity ∨ T'.capacity = 0) :
    Lim c T' ∧ FineT c T' (resized T.capacity T'.capacity (useList L k touch (Act.onSome f) o none)) := by
  unfold cacheAlterOp at h
  split at h
  · cases h
  · rename_i T1 hw
    cases h
    obtain ⟨k1, l1, r1, c1, h1, h2⟩ := optWriter_fine q ok l r (q.ok k) hw
    obtain ⟨e1, e2⟩ := h1 rfl
    subst e1
    refine ⟨l, ?_⟩
    have : L = [] := r.none e2
    subst this
    unfold resized
    rw [if_neg (fun h => h.2 rfl)]
    exact r
  · rename_i T1 i hw
    obtain ⟨z, h3, h4⟩ := Option.map_eq_some_iff.1 h
    obtain ⟨Tz, oz, evz⟩ := z
    cases h4
    obtain ⟨k1, l1, r1, c1, h1, h2⟩ := optWriter_fine q ok l r (q.ok k) hw
    obtain ⟨lg, b, E, C, rd, hidx, lk, hcap⟩ := h2 i rfl
    obtain ⟨x1, x2, x3, x4, x5⟩ := cacheAt_fine q k1.ok env rd hidx lk touch (Act.onSome f) h3
      (fun _ => by rw [c1]; exact g)
    have hev : evz = none := by
      cases hev : evz with
      | none => rfl
      | some e =>
        obtain ⟨_, ⟨v, hv⟩, _⟩ := x4.1 (by rw [hev]; simp)
        simp [Act.onSome] at hv
    rw [hev] at x2
    refine ⟨x1, ?_⟩
    have := (x2 rfl).resized (fun h => absurd (c1 ▸ h) (by rw [hcap]; have := Nat.two_pow_pos lg; omega))
    rw [c1] at this
    exact this

theorem readOp_fine (q : CacheLim c) {T : Tbl K V} (ok : T.Ok c) (l : Lim c T) {L : List K}
    (r : FineT c T L) (env : Env) (k : K) {T' : Tbl K V} {o : Option V}
    (h : readOp c env T k = some (T', o)) : Lim c T' ∧ After c T T' L := by
  unfold readOp at h
  split at h
  · cases h
  · rename_i T1 hw
    cases h
    obtain ⟨k1, l1, r1, c1, _⟩ := optWriter_fine q ok l r (q.ok k) hw
    exact ⟨l1, Or.inl ⟨c1, r1⟩⟩
  · rename_i T1 i hw
    obtain ⟨k1, l1, r1, c1, _⟩ := optWriter_fine q ok l r (q.ok k) hw
    split at h
    · cases h
    · cases h; exact ⟨l1, Or.inl ⟨c1, r1⟩⟩

theorem lenOp_fine (q : CacheLim c) {T : Tbl K V} (ok : T.Ok c) (l : Lim c T) {L : List K}
    (r : FineT c T L) (env : Env) {T' : Tbl K V} {n : Nat} (h : lenOp c env T = some (T', n))
    (g : T.capacity ≤ T'.capacity ∨ T'.capacity = 0) : Lim c T' ∧ After c T T' L := by
  unfold lenOp at h
  cases hT : T.arr with
  | none => rw [hT] at h; cases h; exact ⟨l, Or.inl ⟨rfl, r⟩⟩
  | some w =>
    rw [hT] at h
    simp only at h
    obtain ⟨w1, g1, h1, ok1, l1, e1, c1, o1⟩ := incrementalRehash_ok q.ok env.recent w (ok.two w hT)
    have hent : T.entries c = w.entries c := by unfold Tbl.entries; rw [hT]
    rw [h1] at h
    simp only [Option.map_some] at h
    have cr := incrementalRehash_carried q.kind q.ok (ok.two w hT) h1
    have rm := incrementalRehash_room q.kind q.ok (ok.two w hT) (hent ▸ ok.nodup) (r.some w hT).room h1
    have ok2 : (⟨some w1, T.minCap, T.gone ++ g1⟩ : Tbl K V).Ok c :=
      ⟨fun w' h => by cases h; exact ok1, nodup_perm (hent ▸ e1) ok.nodup⟩
    have hcap : (⟨some w1, T.minCap, T.gone ++ g1⟩ : Tbl K V).capacity = T.capacity := by
      rw [capacity_some (w := w1) rfl, capacity_some hT, l1]
    have lm : Lim c (⟨some w1, T.minCap, T.gone ++ g1⟩ : Tbl K V) :=
      ⟨l.min, fun w' h => by cases h; rw [l1]; exact l.cap w hT⟩
    have fn : FineT c (⟨some w1, T.minCap, T.gone ++ g1⟩ : Tbl K V) L := by
      refine ⟨fun w' h => ?_, fun h => by cases h⟩
      cases h
      refine ⟨rm, fun j => ?_⟩
      rw [cr.lg]
      have wj := (ok.two w hT).cur.wf.wf j
      rw [q.kind] at wj
      exact (cr.grows j).order wj ((r.some w hT).order j)
    by_cases hz : oldTotal w1.old + w1.cur.total = 0 ∧ T.minCap = 0
    · rw [if_pos hz] at h
      cases h
      rw [← hcap] at g
      obtain ⟨y1, y2⟩ := tryResize_fine q ok2 lm fn 0 g
      refine ⟨y1, ?_⟩
      rcases y2 with y2 | y2
      · rw [y2]; exact Or.inl ⟨hcap, fn⟩
      · right; rw [← hcap]; exact y2
    · rw [if_neg hz] at h
      cases h
      exact ⟨lm, Or.inl ⟨hcap, fn⟩⟩

theorem iterLoop_fine (q : CacheLim c) (env : Env) (n j : Nat) (T : Tbl K V) (ok : T.Ok c) (l : Lim c T)
    {L : List K} (r : FineT c T L) {w : Two K V} (hw : T.arr = some w) (hn : j + n = 2 ^ w.cur.lg)
    {z : Tbl K V × List (K × V)} (h : iterLoop c env n j T = some z) :
    Lim c z.1 ∧ z.1.capacity = T.capacity ∧ FineT c z.1 L := by
  induction n generalizing j T w z with
  | zero => cases h; exact ⟨l, rfl, r⟩
  | succ n ih =>
    have hj : j < 2 ^ w.cur.lg := by omega
    obtain ⟨T1, w1, h1, hw1, hl, k1, cl, ho⟩ := prepare_ok q.ok env.recent T ok hw hj
    have r1 := prepare_fine q ok hw hj (r.some w hw) h1 hw1
    have l1 : Lim c T1 := prepare_lim (recent := env.recent) (i := 0) hw l k1.minCap hw1 hl
    unfold iterLoop at h
    rw [h1] at h
    simp only at h
    split at h
    · cases h
    · split at h
      · cases h
      · obtain ⟨z1, h2, h3⟩ := Option.map_eq_some_iff.1 h
        cases h3
        obtain ⟨y1, y2, y3⟩ := ih (j + 1) T1 k1.ok l1
          ⟨fun w' h => by rw [hw1] at h; cases h; exact r1, fun h => by rw [hw1] at h; cases h⟩ hw1
          (by rw [hl]; omega) h2
        exact ⟨y1, by rw [y2, capacity_some hw1, capacity_some hw, hl], y3⟩

theorem iterOp_fine (q : CacheLim c) (env : Env) {T : Tbl K V} (ok : T.Ok c) (l : Lim c T)
    {L : List K} (r : FineT c T L) {z : Tbl K V × List (K × V)} (h : iterOp c env T = some z) :
    Lim c z.1 ∧ After c T z.1 L := by
  unfold iterOp at h
  split at h
  · cases h; exact ⟨l, Or.inl ⟨rfl, r⟩⟩
  · rename_i w hw
    obtain ⟨y1, y2, y3⟩ := iterLoop_fine q env _ 0 T ok l r hw (by simp) h
    exact ⟨y1, Or.inl ⟨y2, y3⟩⟩

theorem passDropped_append {σ : Type} (f : σ → K × V → σ × V × Bool) (s : σ) (l l' : List (K × V)) :
    passDropped f s (l ++ l') = passDropped f s l ++ passDropped f (Spec.pass f s l).1 l' := by
  induction l generalizing s with
  | nil => simp [passDropped, Spec.pass]
  | cons e es ih =>
    simp only [List.cons_append, passDropped, Spec.pass, ih]
    split <;> simp

theorem passDropped_key {σ : Type} (f : σ → K × V → σ × V × Bool) {s : σ} {l : List (K × V)} {x : K}
    (h : x ∈ (passDropped f s l).map (·.1)) : ∃ e ∈ l, e.1 = x := by
  induction l generalizing s with
  | nil => simp [passDropped] at h
  | cons e es ih =>
    simp only [passDropped] at h
    split at h
    · obtain ⟨y, hy, hx⟩ := ih h; exact ⟨y, List.mem_cons_of_mem _ hy, hx⟩
    · simp only [List.map_cons, List.mem_cons] at h
      rcases h with h | h
      · exact ⟨e, List.mem_cons_self .., h.symm⟩
      · obtain ⟨y, hy, hx⟩ := ih h; exact ⟨y, List.mem_cons_of_mem _ hy, hx⟩

theorem retainLoop_fine (q : CacheLim c) {σ : Type} (env : Env)
    (f : σ → K × V → σ × V × Bool) (n j : Nat) (T : Tbl K V) (s : σ) (ok : T.Ok c) (l : Lim c T)
    {L : List K} (r : FineT c T L) {w : Two K V}
    (hw : T.arr = some w) (hn : j + n = 2 ^ w.cur.lg)
    {z : Tbl K V × σ × List (K × V) × Bool} (h : retainLoop c env f n j T s = some z) :
    Lim c z.1 ∧ z.1.capacity = T.capacity ∧
      FineT c z.1 (L.filter fun x => decide (x ∉ (passDropped f s z.2.2.1).map (·.1))) := by
  induction n generalizing j T s w z L with
  | zero =>
    cases h
    refine ⟨l, rfl, ?_⟩
    have : (L.filter fun x => decide (x ∉ (passDropped f s ([] : List (K × V))).map (·.1))) = L := by
      rw [List.filter_eq_self]; intro x _; simp [passDropped]
    rw [this]; exact r
  | succ n ih =>
    have hj : j < 2 ^ w.cur.lg := by omega
    obtain ⟨T1, w1, h1, hw1, hl, k1, cl, ho⟩ := prepare_ok q.ok env.recent T ok hw hj
    have r1 := prepare_fine q ok hw hj (r.some w hw) h1 hw1
    have l1 : Lim c T1 := prepare_lim (recent := env.recent) (i := 0) hw l k1.minCap hw1 hl
    have hj1 : j < 2 ^ w1.cur.lg := by rw [hl]; exact hj
    have lk := lock_cur q k1.ok l1 hw1 r1 hj1 (fun o ho x hx => prepare_dead q ok hw hj h1 hw1 ho hx)
    obtain ⟨E, C, rd⟩ := ready_cur k1.ok hw1 hj1 cl
    have hidx : c.kind = .index → ∀ s e, (f s e).2.1 = e.2 := by rw [q.kind]; intro h; cases h
    have hrem := remaining_null rd.wf
    obtain ⟨b', g1, g2, g3⟩ := retain_ok (hash := c.hash) env f hidx ((w1.cur.bkt j).len + 1)
      (w1.cur.bkt j) Ptr.null s rd.wf (by rw [hrem, rd.wf.len]; omega) []
      (by rw [hrem]; exact List.Perm.refl _)
    rw [hrem] at g1 g3
    rw [List.nil_append] at g3
    have hpl : ∀ e ∈ b'.entries c.kind, bucketIndex w1.cur.lg (c.hash e.1) = j := by
      intro e he
      obtain ⟨e', he', hk⟩ := pass_mem_key f (g3.mem_iff.1 he)
      rw [← hk]; exact rd.placed e' he'
    obtain ⟨p1, p2, p3, p4, p5, p6, p7⟩ := rd.put b' g2 hpl
    have hset : T1.setBucket .cur j b' = { T1 with arr := some { w1 with cur := w1.cur.set j b' } } := by
      unfold Tbl.setBucket; rw [hw1]
    have ok2 : (T1.setBucket .cur j b').Ok c := by
      refine ⟨p1, ?_⟩
      have h2 := nodup_perm rd.entries.symm k1.ok.nodup
      have h3 : (((Spec.pass f s ((w1.cur.bkt j).entries c.kind)).2 ++ E).map (·.1)).Nodup := by
        rw [List.map_append] at h2 ⊢
        exact ((pass_keys f s _).append_right _).nodup h2
      exact nodup_perm (p2.trans (g3.append_right E)) h3
    have hnd : (((w1.cur.bkt j).entries c.kind).map (·.1)).Nodup := by
      have := nodup_perm rd.entries.symm k1.ok.nodup
      rw [List.map_append] at this
      exact (List.nodup_append.1 this).1
    have rwf := rd.wf
    have g1' := g1
    rw [q.kind] at rwf hnd g1'
    obtain ⟨u1, u2⟩ := retain_order env f _ _ _ s rwf hnd lk.links lk.order g1'
    have hD : ∀ x, decide (x ∉ (passDropped f s ((w1.cur.bkt j).entries .cache)).map (·.1)) = false →
        bucketIndex w1.cur.lg (c.hash x) = j := by
      intro x hx
      obtain ⟨e, he, hx⟩ := passDropped_key f (by simpa using hx)
      rw [← hx]
      have := rd.placed
      rw [q.kind] at this
      exact this e he
    obtain ⟨v1, v2, v3⟩ := lk.put b' (L.filter fun x =>
        decide (x ∉ (passDropped f s ((w1.cur.bkt j).entries .cache)).map (·.1))) u1 hpl (fun _ =>
      ⟨by rw [part_filter_comm]; exact u2, fun i hi => part_filter_other L hD hi⟩)
    rw [if_pos rfl] at v1
    unfold retainLoop at h
    rw [h1] at h
    simp only [rd.bucket, g1] at h
    obtain ⟨z1, h2, h3⟩ := Option.map_eq_some_iff.1 h
    cases h3
    obtain ⟨y1, y2, y3⟩ := ih (j + 1) (T1.setBucket .cur j b') _ ok2 v3 v1
      (w := { w1 with cur := w1.cur.set j b' }) (by rw [hset])
      (by show j + 1 + n = 2 ^ w1.cur.lg; rw [hl]; omega) h2
    refine ⟨y1, ?_, ?_⟩
    · show z1.1.capacity = _
      rw [y2, v2, capacity_some hw1, capacity_some hw, hl]
    · show FineT c z1.1 _
      rw [List.filter_filter] at y3
      simp only
      rw [q.kind, passDropped_append]
      rw [q.kind] at y3
      have : (fun x => decide (x ∉ (passDropped f s ((w1.cur.bkt j).entries .cache) ++
          passDropped f (Spec.pass f s ((w1.cur.bkt j).entries .cache)).1 z1.2.2.1).map (·.1))) =
        fun x => decide (x ∉ (passDropped f (Spec.pass f s ((w1.cur.bkt j).entries .cache)).1
            z1.2.2.1).map (·.1)) &&
          decide (x ∉ (passDropped f s ((w1.cur.bkt j).entries .cache)).map (·.1)) := by
        funext x
        rw [List.map_append, Bool.eq_iff_iff]
        simp only [decide_eq_true_eq, Bool.and_eq_true, List.mem_append, not_or]
        exact And.comm
      rw [this]; exact y3

theorem retainOp_fine (q : CacheLim c) {σ : Type} (env : Env)
    (f : σ → K × V → σ × V × Bool) {T : Tbl K V} (s : σ) (ok : T.Ok c) (l : Lim c T)
    {L : List K} (r : FineT c T L)
    {z : Tbl K V × σ × List (K × V)} (h : retainOp c env T f s = some z)
    (g : T.capacity ≤ z.1.capacity ∨ z.1.capacity = 0) :
    Lim c z.1 ∧ After c T z.1 (L.filter fun x => decide (x ∉ (passDropped f s z.2.2).map (·.1))) := by
  have hidx : c.kind = .index → ∀ s e, (f s e).2.1 = e.2 := by rw [q.kind]; intro h; cases h
  unfold retainOp at h
  split at h
  · rename_i hT
    cases h
    have := r.none hT
    subst this
    exact ⟨l, Or.inl ⟨rfl, r⟩⟩
  · rename_i w hw
    obtain ⟨z1, h1, h2⟩ := Option.map_eq_some_iff.1 h
    cases h2
    obtain ⟨T', l', Q, fl, i1, i2, _⟩ := retainLoop_ok f q.ok env hidx (2 ^ w.cur.lg) 0 T s ok hw (by simp)
    obtain ⟨y1, y2, y3⟩ := retainLoop_fine q env f _ 0 T s ok l r hw (by simp) h1
    rw [h1] at i1
    cases i1
    simp only at g y1 y2 y3 ⊢
    by_cases hfl : fl = true
    · rw [if_pos hfl] at g ⊢
      exact shrink_fine q i2 y1 y3 0 y2 g
    · rw [if_neg hfl]
      exact ⟨y1, Or.inl ⟨y2, y3⟩⟩

/-- One operation that does not shrink the table. -/
theorem cacheExec_fine (q : CacheLim c) (env : Env) {T : Tbl K V} (ok : T.Ok c) (l : Lim c T)
    {L : List K} (r : FineT c T L) {op : CacheOp K V} {out : CacheOut K V} {T' : Tbl K V}
    (h : CacheExec c env T op out T') (g : T.capacity ≤ T'.capacity ∨ T'.capacity = 0) :
    Lim c T' ∧ FineT c T' (recencyStep L ⟨op, out, T.capacity, T'.capacity⟩) := by
  unfold recencyStep
  simp only
  cases op with
  | entry k f =>
    obtain ⟨o, ev, h1, rfl⟩ := h
    obtain ⟨x1, x2, _⟩ := cacheEntryOp_fine q ok l r env k f h1 g
    exact ⟨x1, x2⟩
  | get k f =>
    obtain ⟨o, h1, rfl⟩ := h
    exact cacheAlterOp_fine q ok l r env k true f h1 g
  | alter k f =>
    obtain ⟨o, h1, rfl⟩ := h
    exact cacheAlterOp_fine q ok l r env k false f h1 g
  | read k =>
    obtain ⟨o, h1, rfl⟩ := h
    obtain ⟨x1, x2⟩ := readOp_fine q ok l r env k h1
    exact ⟨x1, x2.resized r.nil⟩
  | len =>
    obtain ⟨o, h1, rfl⟩ := h
    obtain ⟨x1, x2⟩ := lenOp_fine q ok l r env h1 g
    exact ⟨x1, x2.resized r.nil⟩
  | iter =>
    obtain ⟨o, h1, rfl⟩ := h
    obtain ⟨x1, x2⟩ := iterOp_fine q env ok l r h1
    exact ⟨x1, x2.resized r.nil⟩
  | retain σ s f =>
    obtain ⟨s', l', h1, rfl⟩ := h
    obtain ⟨x1, x2⟩ := retainOp_fine q env f s ok l r h1 g
    exact ⟨x1, x2.resized (fun h => by rw [r.nil h]; rfl)⟩

/-! ## Every key in use is on the list, as long as there is no resize -/

theorem useList_cover {L : List K} {T T' : Tbl K V} {k : K} {touch : Bool} {f : Option V → Act V}
    {o : Option V} {ev : Option (K × V)} {R : List (K × V)} (ok : T.Ok c)
    (h : CacheEffect c T T' k f o ev R) (hL : ∀ e ∈ T.entries c, e.1 ∈ L) :
    ∀ e ∈ T'.entries c, e.1 ∈ useList L k touch f o ev := by
  have hR : ∀ e ∈ R, e.1 ∈ (L.filter fun x => ev.map (·.1) ≠ some x).filter (· ≠ k) := by
    intro e he
    rw [List.mem_filter, List.mem_filter]
    refine ⟨⟨hL e (h.before.mem_iff.2 (by simp [he])), ?_⟩, ?_⟩
    · cases ev with
      | none => simp
      | some y =>
        have nd := nodup_perm h.before.symm ok.nodup
        rw [List.map_append, List.map_append] at nd
        have := (List.nodup_append.1 (List.nodup_append.1 nd).2.1).2.2
        have h2 := this y.1 (by simp) e.1 (List.mem_map.2 ⟨e, he, rfl⟩)
        simpa using h2
    · simpa using h.other e (by simp [he])
  have hR1 : ∀ e ∈ R, e.1 ∈ L.filter fun x => ev.map (·.1) ≠ some x :=
    fun e he => (List.mem_filter.1 (hR e he)).1
  intro e he
  rcases List.mem_append.1 (h.after.mem_iff.1 he) with h1 | h1
  · have hek : e.1 = k := by
      obtain ⟨v, _, hv⟩ := List.mem_map.1 h1
      rw [← hv]
    have hres : (f o).res o ≠ none := by
      intro h0; rw [h0] at h1; simp [pr] at h1
    unfold useList
    simp only
    cases o with
    | none =>
      cases hf : f none with
      | put v => simp only; rw [hek]; exact List.mem_cons_self ..
      | keep => rw [hf] at hres; simp [Act.res] at hres
      | del => rw [hf] at hres; simp [Act.res] at hres
    | some v0 =>
      have hev : ev = none := by
        cases hev : ev with
        | none => rfl
        | some y => have := (h.evicts (by rw [hev]; simp)).1; cases this
      have hkL : k ∈ L.filter fun x => ev.map (·.1) ≠ some x := by
        rw [List.mem_filter, hev]
        refine ⟨hL (k, v0) (h.before.mem_iff.2 (by simp [pr])), by simp⟩
      cases hf : f (some v0) with
      | del => rw [hf] at hres; simp [Act.res] at hres
      | put v =>
        simp only
        split
        · rw [hek]; exact List.mem_cons_self ..
        · rw [hek]; exact hkL
      | keep =>
        simp only
        split
        · rw [hek]; exact List.mem_cons_self ..
        · rw [hek]; exact hkL
  · unfold useList
    simp only
    cases o with
    | none =>
      cases hf : f none with
      | put v => exact List.mem_cons_of_mem _ (hR e h1)
      | keep => exact hR1 e h1
      | del => exact hR1 e h1
    | some v0 =>
      cases hf : f (some v0) with
      | del => exact hR e h1
      | put v =>
        simp only
        split
        · exact List.mem_cons_of_mem _ (hR e h1)
        · exact hR1 e h1
      | keep =>
        simp only
        split
        · exact List.mem_cons_of_mem _ (hR e h1)
        · exact hR1 e h1

theorem pass_kept_not_dropped {σ : Type} (f : σ → K × V → σ × V × Bool) (s : σ) (l : List (K × V))
    (nd : (l.map (·.1)).Nodup) {e : K × V} (he : e ∈ (Spec.pass f s l).2) :
    e.1 ∉ (passDropped f s l).map (·.1) := by
  induction l generalizing s with
  | nil => simp [Spec.pass] at he
  | cons x xs ih =>
    rw [List.map_cons, List.nodup_cons] at nd
    simp only [Spec.pass] at he
    simp only [passDropped]
    by_cases hx : (f s x).2.2 = true
    · rw [if_pos hx] at he ⊢
      rcases List.mem_cons.1 he with h | h
      · intro hd
        obtain ⟨y, hy, hyx⟩ := passDropped_key f hd
        apply nd.1
        rw [h] at hyx
        simp only at hyx
        rw [← hyx]; exact List.mem_map.2 ⟨y, hy, rfl⟩
      · exact ih _ nd.2 h
    · rw [if_neg hx] at he ⊢
      simp only [List.map_cons, List.mem_cons, not_or]
      refine ⟨?_, ih _ nd.2 he⟩
      obtain ⟨y, hy, hyx⟩ := pass_mem_key f he
      intro h
      apply nd.1
      rw [← h, ← hyx]
      exact List.mem_map.2 ⟨y, hy, rfl⟩

/-- One operation that does not resize the table. -/
theorem cacheExec_cover (q : CacheLim c) (env : Env) {T : Tbl K V} (ok : T.Ok c) (lo : AllLru T)
    {L : List K} (hL : ∀ e ∈ T.entries c, e.1 ∈ L) {op : CacheOp K V} {out : CacheOut K V} {T' : Tbl K V}
    (h : CacheExec c env T op out T') : ∀ e ∈ T'.entries c, e.1 ∈ opUse L op out := by
  have hidx : c.kind = .index → ∀ (σ : Type) (f : σ → K × V → σ × V × Bool) s e, (f s e).2.1 = e.2 := by
    rw [q.kind]; intro h; cases h
  cases op with
  | entry k f =>
    obtain ⟨o, ev, h1, rfl⟩ := h
    obtain ⟨T2, o2, ev2, R, h2, h3⟩ := cacheEntryOp_ok q.kind q.ok T ok lo env k f
    rw [h1] at h2; cases h2
    exact useList_cover ok h3 hL
  | get k f =>
    obtain ⟨o, h1, rfl⟩ := h
    obtain ⟨T2, o2, R, h2, h3⟩ := cacheAlterOp_ok q.kind q.ok T ok lo env k true f
    rw [h1] at h2; cases h2
    exact useList_cover ok h3 hL
  | alter k f =>
    obtain ⟨o, h1, rfl⟩ := h
    obtain ⟨T2, o2, R, h2, h3⟩ := cacheAlterOp_ok q.kind q.ok T ok lo env k false f
    rw [h1] at h2; cases h2
    exact useList_cover ok h3 hL
  | read k =>
    obtain ⟨o, h1, rfl⟩ := h
    obtain ⟨T2, o2, R, h2, h3, _⟩ := readOp_ok q.ok T ok env k
    rw [h1] at h2; cases h2
    exact fun e he => hL e (h3.entries.mem_iff.1 he)
  | len =>
    obtain ⟨o, h1, rfl⟩ := h
    obtain ⟨T2, h2, h3⟩ := lenOp_ok q.ok T ok env
    rw [h1] at h2; cases h2
    exact fun e he => hL e (h3.entries.mem_iff.1 he)
  | iter =>
    obtain ⟨o, h1, rfl⟩ := h
    obtain ⟨T2, l, h2, h3, _⟩ := iterOp_ok q.ok env T ok
    rw [h1] at h2; cases h2
    exact fun e he => hL e (h3.entries.mem_iff.1 he)
  | retain σ s f =>
    obtain ⟨s', l', h1, rfl⟩ := h
    obtain ⟨T2, l, h2, h3, h4, h5, _⟩ := retainOp_ok f q.ok env (fun h => hidx h σ f) T s ok
    rw [h1] at h2; cases h2
    intro e he
    have he' := h5.mem_iff.1 he
    obtain ⟨y, hy, hyx⟩ := pass_mem_key f he'
    show e.1 ∈ L.filter _
    rw [List.mem_filter]
    refine ⟨by rw [← hyx]; exact hL y (h4.mem_iff.2 hy), ?_⟩
    simpa using pass_kept_not_dropped f s _ (nodup_perm h4.symm ok.nodup) he'

/-! ## Histories -/

/-- A history executed by the model in which no operation shrinks the table; releasing the array of an
empty cache does not count. -/
inductive GrowRuns (c : Cfg K) : Tbl K V → List (Obs K V) → Tbl K V → Prop
  | nil (T : Tbl K V) : GrowRuns c T [] T
  | cons {T T1 T' : Tbl K V} {h : List (Obs K V)} {op : CacheOp K V} {out : CacheOut K V} (env : Env)
    (e : CacheExec c env T op out T1) (g : T.capacity ≤ T1.capacity ∨ T1.capacity = 0)
    (r : GrowRuns c T1 h T') :
    GrowRuns c T (⟨op, out, T.capacity, T1.capacity⟩ :: h) T'

/-- What holds of a cache that has never shrunk. -/
structure Grown (c : Cfg K) (T : Tbl K V) (L : List K) : Prop where
  ok : T.Ok c
  lru : AllLru T
  lim : Lim c T
  fine : FineT c T L

theorem growRuns_ok (q : CacheLim c) {T T' : Tbl K V} {h : List (Obs K V)} {L : List K}
    (G : Grown c T L) (r : GrowRuns c T h T') : Grown c T' (h.foldl recencyStep L) := by
  induction r generalizing L with
  | nil T => exact G
  | cons env e g r ih =>
    obtain ⟨x1, x2, _⟩ := cacheExec_ok q.kind q.ok env _ G.ok G.lru _ e
    obtain ⟨x3, x4⟩ := cacheExec_fine q env G.ok G.lim G.fine e g
    exact ih ⟨x1, x2, x3, x4⟩

/-- No operation of the history resized a table that holds entries: the capacity changed only from 0
or to 0. -/
def NoResize (h : List (Obs K V)) : Prop := ∀ x ∈ h, x.before = 0 ∨ x.after = x.before ∨ x.after = 0

theorem growRuns_cover (q : CacheLim c) {T T' : Tbl K V} {h : List (Obs K V)} {L : List K}
    (ok : T.Ok c) (lo : AllLru T) (r : GrowRuns c T h T') (hn : NoResize h)
    (hL : ∀ e ∈ T.entries c, e.1 ∈ L) : ∀ e ∈ T'.entries c, e.1 ∈ h.foldl recencyStep L := by
  induction r generalizing L with
  | nil T => exact hL
  | @cons T T1 T' h op out env e g r ih =>
    obtain ⟨x1, x2, _⟩ := cacheExec_ok q.kind q.ok env _ ok lo _ e
    refine ih x1 x2 (fun x hx => hn x (List.mem_cons_of_mem _ hx)) ?_
    by_cases h0 : T1.capacity = 0
    · rw [entries_none (cap_zero_arr h0)]
      intro e he; cases he
    have : recencyStep L ⟨op, out, T.capacity, T1.capacity⟩ = opUse L op out := by
      unfold recencyStep resized
      have := hn _ (List.mem_cons_self ..)
      rw [if_neg]
      rintro ⟨h1, h2⟩
      rcases this with h | h | h
      · exact h1 h
      · exact h2 h
      · exact h0 h
    rw [this]
    exact cacheExec_cover q env ok lo hL e

theorem cacheLim_of {hash : K → Nat} (hc : ∀ k, hash k < 2 ^ 64) (minCap maxCap : Nat) :
    CacheLim (cacheCfg hash minCap maxCap) := by
  obtain ⟨⟨E, h1, h2⟩, h3, _⟩ := c06_cache_limits minCap maxCap
  refine ⟨rfl, cacheCfg_ok hc _ _, E, ?_, h2, h1⟩
  rw [h1] at h3
  exact (Nat.pow_le_pow_iff_right (a := 2) (by omega)).1 (by simpa using h3)

theorem grown_new {hash : K → Nat} (hc : ∀ k, hash k < 2 ^ 64) (minCap maxCap : Nat) :
    Grown (cacheCfg hash minCap maxCap) (Tbl.withCapacity minCap : Tbl K V) [] := by
  obtain ⟨⟨E, h1, h2⟩, h3, h4, h5, _⟩ := c06_cache_limits minCap maxCap
  refine ⟨(withCapacity_ok minCap).1, withCapacity_allLru minCap, ⟨?_, ?_⟩, ⟨?_, fun _ => rfl⟩⟩
  · unfold Tbl.withCapacity
    split
    · exact Nat.zero_le _
    · rename_i h0
      show numSlots (2 ^ log2ArrayLen minCap) ≤ (cacheWithCapacity minCap maxCap).2.2
      refine Nat.le_trans (Nat.le_of_eq ?_) h4
      unfold cacheWithCapacity mapWithCapacity
      rw [if_neg h0, log2ArrayLen_spec]
  · intro w hw
    unfold Tbl.withCapacity at hw
    split at hw
    · cases hw
    · rename_i h0
      cases hw
      show ValidCapacity (cacheWithCapacity minCap maxCap).2.2 (numSlots (2 ^ log2ArrayLen minCap))
      obtain ⟨⟨k, hk⟩, y2, y3⟩ := (c06_new_capacity minCap).1
      refine ⟨?_, ?_, ?_⟩
      · rw [log2ArrayLen_spec]; exact ⟨k, hk⟩
      · rw [log2ArrayLen_spec]; exact y2
      · refine Nat.le_trans (Nat.le_of_eq ?_) h4
        unfold cacheWithCapacity mapWithCapacity
        rw [if_neg h0, log2ArrayLen_spec]
  · intro w hw
    unfold Tbl.withCapacity at hw
    split at hw
    · cases hw
    · cases hw
      exact ⟨⟨fun _ => rfl, fun o h => by cases h⟩, fun j => new_order _ j [] rfl⟩

end

end Scc.Seq
