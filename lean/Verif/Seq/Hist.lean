import Verif.Seq.Pass

/-!
# Histories of operations of one thread
-/

set_option linter.unusedSectionVars false
set_option linter.unusedSimpArgs false
set_option linter.unusedVariables false

namespace Scc.Seq

open Scc.Index hiding bucketLen
open Scc.Bucket

variable {K V : Type}

/-! ## Operations and what they are allowed to do -/

/-- Operations of a container. -/
inductive Op (K V : Type) : Type 1
  /-- an operation that may insert: `f` decides from the value found -/
  | modify (k : K) (f : Option V → Act V)
  /-- an operation that never inserts -/
  | alter (k : K) (f : V → Act V)
  | read (k : K)
  | len
  | reserve (n : Nat)
  | unreserve (n : Nat)
  | iter
  /-- `retain` with a closure with state -/
  | retain (σ : Type) (s : σ) (f : σ → K × V → σ × V × Bool)
  /-- the cursor loop: `begin`, then `remove_and` or `next` at each step -/
  | walk (env : Nat → Env) (rm : Nat → Bool)

/-- What an operation reports. -/
inductive Out (K V : Type)
  | value (o : Option V)
  | size (n : Nat)
  | unit
  | visited (l : List (K × V))
  | steps (L : List (Pres K V))

/-- `HashIndex` hands out shared references only. -/
def Op.Valid (t : Kind) : Op K V → Prop
  | .retain _ _ f => t = .index → ∀ s e, (f s e).2.1 = e.2
  | _ => True

/-- An operation executed by the model. -/
def Exec [DecidableEq K] (c : Cfg K) (env : Env) (T : Tbl K V) : Op K V → Out K V → Tbl K V → Prop
  | .modify k f, out, T' => ∃ o, modifyOp c env T k f = some (T', o) ∧ out = .value o
  | .alter k f, out, T' => ∃ o, alterOp c env T k f = some (T', o) ∧ out = .value o
  | .read k, out, T' => ∃ o, readOp c env T k = some (T', o) ∧ out = .value o
  | .len, out, T' => ∃ n, lenOp c env T = some (T', n) ∧ out = .size n
  | .reserve n, out, T' => (reserveOp c T n).1 = T' ∧ out = .unit
  | .unreserve n, out, T' => unreserveOp c T n = T' ∧ out = .unit
  | .iter, out, T' => ∃ l, iterOp c env T = some (T', l) ∧ out = .visited l
  | .retain σ s f, out, T' => ∃ s' l, retainOp c env T f s = some (T', s', l) ∧ out = .visited l
  | .walk e rm, out, T' => ∃ fuel L, traversal c e rm fuel T = some (T', L) ∧ out = .steps L

/-- What a finite map allows: from the contents `m`, reporting `out`, to the contents `m'`. -/
def Allowed [DecidableEq K] (m : K → Option V) : Op K V → Out K V → (K → Option V) → Prop
  | .modify k f, out, m' => out = .value (m k) ∧ m' = Spec.set m k ((f (m k)).res (m k))
  | .alter k f, out, m' =>
    out = .value (m k) ∧ m' = Spec.set m k ((m k).bind fun v => (f v).res (some v))
  | .read k, out, m' => out = .value (m k) ∧ m' = m
  | .len, out, m' => (∃ n, Spec.HasSize m n ∧ out = .size n) ∧ m' = m
  | .reserve _, out, m' => out = .unit ∧ m' = m
  | .unreserve _, out, m' => out = .unit ∧ m' = m
  | .iter, out, m' => (∃ l, Spec.Enumerates l m ∧ out = .visited l) ∧ m' = m
  | .retain _ s f, out, m' =>
    ∃ l, Spec.Enumerates l m ∧ out = .visited l ∧ Spec.Enumerates (Spec.pass f s l).2 m'
  | .walk _ _, out, m' =>
    ∃ L, out = .steps L ∧ (∀ k v, m k = some v ↔ (k, v) ∈ shown L) ∧
      (∀ k v, m' k = some v ↔ m k = some v ∧ (k, v) ∉ dropped L) ∧ ((dropped L).map (·.1)).Nodup

/-- The pairs an operation hands to the container. A closure that writes to a value in place counts as
handing in the new pair and getting back the old one. -/
def given (t : Kind) : Op K V → Out K V → List (K × V)
  | .modify k f, .value o => (f o).inn k
  | .alter k f, .value o => (Act.onSome f o).inn k
  | .retain _ s f, .visited l => if t = .index then [] else (Spec.pass f s l).2 ++ passDropped f s l
  | _, _ => []

/-- The pairs an operation hands back to the caller, who owns them from then on. -/
def taken (t : Kind) : Op K V → Out K V → List (K × V)
  | .modify k f, .value o => (f o).out t k o
  | .alter k f, .value o => (Act.onSome f o).out t k o
  | .retain _ s f, .visited l => if t = .index then [] else l ++ passDropped f s l
  | .walk _ _, .steps L => if t = .index then [] else dropped L
  | _, _ => []

section
variable [DecidableEq K] {c : Cfg K}

theorem traversal_unique {env : Nat → Env} {rm : Nat → Bool} {f f' : Nat} {T : Tbl K V}
    {q q' : Tbl K V × List (Pres K V)} (h : traversal c env rm f T = some q)
    (h' : traversal c env rm f' T = some q') : q = q' := by
  unfold traversal at h h'
  cases hb : beginOp c (env 0) T with
  | none => rw [hb] at h; cases h
  | some r =>
    obtain ⟨T1, r⟩ := r
    rw [hb] at h h'
    simp only at h h'
    have h1 := traverse_fuel h (f' := f + f') (by omega)
    have h2 := traverse_fuel h' (f' := f + f') (by omega)
    rw [h1] at h2
    exact Option.some.inj h2

/-- Every operation returns. -/
theorem exec_total (hc : c.Ok) (env : Env) (T : Tbl K V) (ok : T.Ok c) (op : Op K V)
    (hv : op.Valid c.kind) : ∃ out T', Exec c env T op out T' := by
  cases op with
  | modify k f => obtain ⟨T', o, R, h, _⟩ := modifyOp_ok hc T ok env k f; exact ⟨_, T', o, h, rfl⟩
  | alter k f => obtain ⟨T', o, R, h, _⟩ := alterOp_ok hc T ok env k f; exact ⟨_, T', o, h, rfl⟩
  | read k => obtain ⟨T', o, R, h, _⟩ := readOp_ok hc T ok env k; exact ⟨_, T', o, h, rfl⟩
  | len => obtain ⟨T', h, _⟩ := lenOp_ok hc T ok env; exact ⟨_, T', _, h, rfl⟩
  | reserve n => exact ⟨_, _, rfl, rfl⟩
  | unreserve n => exact ⟨_, _, rfl, rfl⟩
  | iter => obtain ⟨T', l, h, _⟩ := iterOp_ok hc env T ok; exact ⟨_, T', l, h, rfl⟩
  | retain σ s f =>
    obtain ⟨T', l, h, _⟩ := retainOp_ok f hc env hv T s ok
    exact ⟨_, T', _, l, h, rfl⟩
  | walk e rm =>
    obtain ⟨fuel, T', L, h, _⟩ := traversal_ok hc e rm T ok
    exact ⟨_, T', fuel, L, h, rfl⟩

theorem enum_perm {l l' : List (K × V)} {m : K → Option V} (h : l'.Perm l) (e : Spec.Enumerates l m) :
    Spec.Enumerates l' m :=
  ⟨nodup_perm h e.1, fun k v => (e.2 k v).trans h.mem_iff.symm⟩

theorem enum_pr {k : K} {o : Option V} {R : List (K × V)} {m : K → Option V}
    (e : Spec.Enumerates (pr k o ++ R) m) (hR : ∀ y ∈ R, y.1 ≠ k) :
    m k = o ∧ ∀ o' : Option V, Spec.Enumerates (pr k o' ++ R) (Spec.set m k o') := by
  have hm : ∀ (o : Option V) k' v, (k', v) ∈ pr k o ↔ k' = k ∧ o = some v := by
    intro o k' v
    cases o with
    | none => simp [pr]
    | some w =>
      simp only [pr, Option.toList_some, List.map_cons, List.map_nil, List.mem_singleton, Prod.mk.injEq,
        Option.some.injEq]
      exact and_congr_right fun _ => eq_comm
  have hkR : ∀ v, (k, v) ∉ R := fun v h => hR _ h rfl
  constructor
  · apply Option.ext
    intro v
    rw [e.2 k v, List.mem_append, hm]
    simp [hkR]
  · intro o'
    refine ⟨nodup_pr.2 ⟨(nodup_pr.1 e.1).1, fun _ => hR⟩, ?_⟩
    intro k' v
    unfold Spec.set
    rw [List.mem_append, hm]
    by_cases h : k' = k
    · subst h
      simp [hkR]
    · rw [if_neg h, e.2 k' v, List.mem_append, hm]
      simp [h]

theorem enum_size {l : List (K × V)} {m : K → Option V} (e : Spec.Enumerates l m) :
    Spec.HasSize m l.length := by
  refine ⟨l.map (·.1), e.1, ?_, by simp⟩
  intro k
  rw [List.mem_map]
  constructor
  · rintro ⟨y, hy, rfl⟩ h
    have := (e.2 y.1 y.2).2 hy
    rw [h] at this; cases this
  · intro h
    obtain ⟨v, hv⟩ := Option.ne_none_iff_exists'.1 h
    exact ⟨(k, v), (e.2 k v).1 hv, rfl⟩

theorem Effect.enum {T T' : Tbl K V} {k : K} {a : Act V} {o : Option V} {R : List (K × V)}
    (h : Effect c T T' k a o R) {m : K → Option V} (e : Spec.Enumerates (T.entries c) m) :
    m k = o ∧ Spec.Enumerates (T'.entries c) (Spec.set m k (a.res o)) := by
  obtain ⟨h1, h2⟩ := enum_pr (enum_perm h.before.symm e) h.other
  exact ⟨h1, enum_perm h.after (h2 _)⟩

theorem enum_exists (l : List (K × V)) (h : (l.map (·.1)).Nodup) : ∃ m, Spec.Enumerates l m := by
  refine ⟨fun k => (l.find? fun e => decide (e.1 = k)).map (·.2), h, ?_⟩
  induction l with
  | nil => intro k v; simp
  | cons e es ih =>
    intro k v
    rw [List.map_cons, List.nodup_cons] at h
    simp only at ih ⊢
    by_cases hk : e.1 = k
    · subst hk
      rw [List.find?_cons_of_pos (by simp)]
      simp only [Option.map_some, Option.some.injEq, List.mem_cons]
      constructor
      · rintro rfl; exact Or.inl rfl
      · rintro (h1 | h1)
        · rw [← h1]
        · exact absurd (List.mem_map.2 ⟨_, h1, rfl⟩) h.1
    · rw [List.find?_cons_of_neg (by simpa using hk), ih h.2 k v, List.mem_cons]
      constructor
      · exact Or.inr
      · rintro (h1 | h1)
        · exact absurd (by rw [← h1]) hk
        · exact h1

/-- Every execution of an operation is allowed, and no pair is lost or duplicated. -/
theorem exec_ok (hc : c.Ok) (env : Env) (T : Tbl K V) (ok : T.Ok c) (op : Op K V) (hv : op.Valid c.kind)
    {out : Out K V} {T' : Tbl K V} (h : Exec c env T op out T') :
    T'.Ok c ∧
      (∀ m, Spec.Enumerates (T.entries c) m →
        ∃ m', Allowed m op out m' ∧ Spec.Enumerates (T'.entries c) m') ∧
      (taken c.kind op out ++ T'.cells ++ T'.gone).Perm (given c.kind op out ++ T.cells ++ T.gone) := by
  cases op with
  | modify k f =>
    obtain ⟨o, h1, rfl⟩ := h
    obtain ⟨T2, o2, R, h2, h3⟩ := modifyOp_ok hc T ok env k f
    rw [h1] at h2; cases h2
    refine ⟨h3.ok, fun m e => ?_, h3.mem⟩
    obtain ⟨h4, h5⟩ := h3.enum e
    refine ⟨_, ⟨by rw [h4], rfl⟩, ?_⟩
    rw [h4]; exact h5
  | alter k f =>
    obtain ⟨o, h1, rfl⟩ := h
    obtain ⟨T2, o2, R, h2, h3⟩ := alterOp_ok hc T ok env k f
    rw [h1] at h2; cases h2
    refine ⟨h3.ok, fun m e => ?_, h3.mem⟩
    obtain ⟨h4, h5⟩ := h3.enum e
    refine ⟨_, ⟨by rw [h4], rfl⟩, ?_⟩
    rw [h4]
    have : (o.bind fun v => (f v).res (some v)) = (Act.onSome f o).res o := by
      cases o <;> rfl
    rw [this]; exact h5
  | read k =>
    obtain ⟨o, h1, rfl⟩ := h
    obtain ⟨T2, o2, R, h2, h3, h4, h5⟩ := readOp_ok hc T ok env k
    rw [h1] at h2; cases h2
    refine ⟨h3.ok, fun m e => ?_, h3.mem⟩
    obtain ⟨h6, _⟩ := enum_pr (enum_perm h4.symm e) h5
    exact ⟨m, ⟨by rw [h6], rfl⟩, enum_perm h3.entries e⟩
  | len =>
    obtain ⟨n, h1, rfl⟩ := h
    obtain ⟨T2, h2, h3⟩ := lenOp_ok hc T ok env
    rw [h1] at h2; cases h2
    exact ⟨h3.ok, fun m e => ⟨m, ⟨⟨_, enum_size e, rfl⟩, rfl⟩, enum_perm h3.entries e⟩, h3.mem⟩
  | reserve n =>
    obtain ⟨rfl, rfl⟩ := h
    have h3 := reserveOp_ok T ok n
    exact ⟨h3.ok, fun m e => ⟨m, ⟨rfl, rfl⟩, enum_perm h3.entries e⟩, h3.mem⟩
  | unreserve n =>
    obtain ⟨rfl, rfl⟩ := h
    have h3 := unreserveOp_ok T ok n
    exact ⟨h3.ok, fun m e => ⟨m, ⟨rfl, rfl⟩, enum_perm h3.entries e⟩, h3.mem⟩
  | iter =>
    obtain ⟨l, h1, rfl⟩ := h
    obtain ⟨T2, l2, h2, h3, h4⟩ := iterOp_ok hc env T ok
    rw [h1] at h2; cases h2
    exact ⟨h3.ok, fun m e => ⟨m, ⟨⟨_, enum_perm h4.symm e, rfl⟩, rfl⟩, enum_perm h3.entries e⟩, h3.mem⟩
  | retain σ s f =>
    obtain ⟨s', l, h1, rfl⟩ := h
    obtain ⟨T2, l2, h2, h3, h4, h5, h6, h7, h8⟩ := retainOp_ok f hc env hv T s ok
    rw [h1] at h2; cases h2
    refine ⟨h3, fun m e => ?_, ?_⟩
    · obtain ⟨m', hm'⟩ : ∃ m', Spec.Enumerates (Spec.pass f s l).2 m' := by
        have hnd : ((Spec.pass f s l).2.map (·.1)).Nodup :=
          (pass_keys f s l).nodup (nodup_perm h4.symm ok.nodup)
        exact enum_exists _ hnd
      exact ⟨m', ⟨l, enum_perm h4.symm e, rfl, hm'⟩, enum_perm h5 hm'⟩
    · by_cases ht : c.kind = .index
      · simp only [taken, given, if_pos ht, List.nil_append]
        exact h6 ht
      · simp only [taken, given, if_neg ht]
        rw [tbl_cells_of_kind ht h3, tbl_cells_of_kind ht ok]
        have z := h7 ht
        rw [perm_iff] at *
        intro x
        have z1 := h4 x
        have z2 := h5 x
        have z3 := z x
        simp only [cnt_append] at *
        omega
  | walk e rm =>
    obtain ⟨fuel, L, h1, rfl⟩ := h
    obtain ⟨fuel2, T2, L2, h2, h3, h4, h5, h6, h7⟩ := traversal_ok hc e rm T ok
    have := traversal_unique h1 h2
    cases this
    refine ⟨h3, fun m en => ?_, h6⟩
    have hn := nodup_perm h5 ok.nodup
    rw [List.map_append, List.nodup_append] at hn
    refine ⟨fun k => if k ∈ (dropped L).map (·.1) then none else m k, ⟨L, rfl, ?_, ?_, hn.1⟩, hn.2.1, ?_⟩
    · intro k v; rw [en.2 k v, h4]
    · intro k v
      by_cases hk : k ∈ (dropped L).map (·.1)
      · simp only [hk, if_true]
        constructor
        · intro h; cases h
        · rintro ⟨ha, hb⟩
          exfalso
          obtain ⟨y, hy, rfl⟩ := List.mem_map.1 hk
          have h8 : y ∈ T.entries c := h5.mem_iff.1 (List.mem_append_left _ hy)
          have h9 := (en.2 y.1 y.2).2 h8
          rw [h9] at ha
          cases ha
          exact hb hy
      · simp only [hk, if_false]
        constructor
        · intro h
          exact ⟨h, fun h' => hk (List.mem_map.2 ⟨_, h', rfl⟩)⟩
        · exact fun h => h.1
    · intro k v
      by_cases hk : k ∈ (dropped L).map (·.1)
      · simp only [hk, if_true]
        constructor
        · intro h; cases h
        · intro h
          exact absurd rfl (hn.2.2 k hk k (List.mem_map.2 ⟨_, h, rfl⟩))
      · simp only [hk, if_false]
        rw [en.2 k v, ← h5.mem_iff, List.mem_append]
        constructor
        · rintro (h | h)
          · exact absurd (List.mem_map.2 ⟨_, h, rfl⟩) hk
          · exact h
        · exact Or.inr

/-! ## Histories -/

/-- A history executed by the model; every operation meets its own epoch environment. -/
inductive Runs (c : Cfg K) : Tbl K V → List (Op K V × Out K V) → Tbl K V → Prop
  | nil (T : Tbl K V) : Runs c T [] T
  | cons {T T1 T' : Tbl K V} {h : List (Op K V × Out K V)} {op : Op K V} {out : Out K V} (env : Env)
    (hv : op.Valid c.kind) (e : Exec c env T op out T1) (r : Runs c T1 h T') : Runs c T ((op, out) :: h) T'

/-- A history a finite map allows. -/
inductive MapRuns : (K → Option V) → List (Op K V × Out K V) → (K → Option V) → Prop
  | nil (m : K → Option V) : MapRuns m [] m
  | cons {m m1 m' : K → Option V} {h : List (Op K V × Out K V)} {op : Op K V} {out : Out K V}
    (e : Allowed m op out m1) (r : MapRuns m1 h m') : MapRuns m ((op, out) :: h) m'

theorem runs_total (hc : c.Ok) (ops : List (Env × Op K V)) (T : Tbl K V) (ok : T.Ok c)
    (hv : ∀ o ∈ ops, o.2.Valid c.kind) : ∃ h T', Runs c T h T' ∧ h.map (·.1) = ops.map (·.2) := by
  induction ops generalizing T with
  | nil => exact ⟨[], T, .nil T, rfl⟩
  | cons o ops ih =>
    obtain ⟨out, T1, h1⟩ := exec_total hc o.1 T ok o.2 (hv o (by simp))
    obtain ⟨h, T', h2, h3⟩ := ih T1 (exec_ok hc o.1 T ok o.2 (hv o (by simp)) h1).1
      (fun o' h => hv o' (by simp [h]))
    exact ⟨(o.2, out) :: h, T', .cons o.1 (hv o (by simp)) h1 h2, by simp [h3]⟩

theorem runs_ok (hc : c.Ok) {T T' : Tbl K V} {h : List (Op K V × Out K V)} (ok : T.Ok c)
    (r : Runs c T h T') :
    T'.Ok c ∧ (∀ m, Spec.Enumerates (T.entries c) m →
      ∃ m', MapRuns m h m' ∧ Spec.Enumerates (T'.entries c) m') ∧
    ((h.flatMap fun x => taken c.kind x.1 x.2) ++ T'.cells ++ T'.gone).Perm
      ((h.flatMap fun x => given c.kind x.1 x.2) ++ T.cells ++ T.gone) := by
  induction r with
  | nil T => exact ⟨ok, fun m e => ⟨m, .nil m, e⟩, List.Perm.refl _⟩
  | cons env hv e r ih =>
    obtain ⟨h1, h2, h3⟩ := exec_ok hc env _ ok _ hv e
    obtain ⟨i1, i2, i3⟩ := ih h1
    refine ⟨i1, ?_, ?_⟩
    · intro m en
      obtain ⟨m1, a1, a2⟩ := h2 m en
      obtain ⟨m', b1, b2⟩ := i2 m1 a2
      exact ⟨m', .cons a1 b1, b2⟩
    · simp only [List.flatMap_cons]
      rw [perm_iff] at *
      intro x
      have z1 := h3 x
      have z2 := i3 x
      simp only [cnt_append] at *
      omega

end

end Scc.Seq
