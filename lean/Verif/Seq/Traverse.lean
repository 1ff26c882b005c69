import Verif.Seq.Cursor

/-!
# Traversing a container with a cursor (C11)
-/

set_option linter.unusedSectionVars false
set_option linter.unusedSimpArgs false
set_option linter.unusedVariables false

namespace Scc.Seq

open Scc.Index hiding bucketLen
open Scc.Bucket

variable {K V : Type}

/-- What the user sees at one step: the entry, the capacity of the container, and whether the user
chose to remove the entry. -/
structure Pres (K V : Type) where
  entry : K × V
  capacity : Nat
  removed : Bool

/-- The loop of the user: look at the entry, then call `remove_and` if `rm` says so at this step, and
`next` otherwise, until there is no further entry. (/repo/src/hash_map.rs 2008-2120.) -/
def traverse (c : Cfg K) (env : Nat → Env) (rm : Nat → Bool) :
    Nat → Nat → Tbl K V → Option Cur → Option (Tbl K V × List (Pres K V))
  | _, _, T, none => some (T, [])
  | 0, _, _, some _ => none
  | fuel + 1, n, T, some x =>
    match getAt T x with
    | none => none
    | some e =>
      match (if rm n then (removeAndOp c (env n) T x).map fun r => (r.1, r.2.2)
        else nextOp c (env n) T x) with
      | none => none
      | some (T', r) =>
        (traverse c env rm fuel (n + 1) T' r).map fun q => (q.1, ⟨e, T.capacity, rm n⟩ :: q.2)

/-- The traversal from `begin`. -/
def traversal (c : Cfg K) (env : Nat → Env) (rm : Nat → Bool) (fuel : Nat) (T : Tbl K V) :
    Option (Tbl K V × List (Pres K V)) :=
  match beginOp c (env 0) T with
  | none => none
  | some (T1, r) => traverse c env rm fuel 1 T1 r

/-- From one step to the next the container never shrinks to less than half its capacity. -/
def Gentle : List (Pres K V) → Prop
  | [] => True
  | [_] => True
  | a :: b :: l => a.capacity ≤ 2 * b.capacity ∧ Gentle (b :: l)

/-- The entries presented. -/
def shown (L : List (Pres K V)) : List (K × V) := L.map (·.entry)

/-- The entries removed. -/
def dropped (L : List (Pres K V)) : List (K × V) := (L.filter (·.removed)).map (·.entry)

section
variable {c : Cfg K}

/-- A run of the loop from a cursor at `e`. -/
structure Run (c : Cfg K) (T T' : Tbl K V) (e : K × V) (P : List (K × V)) (L : List (Pres K V)) :
    Prop where
  ok : T'.Ok c
  all : ∀ y ∈ e :: P, y ∈ shown L
  old : ∀ y ∈ shown L, y ∈ T.entries c
  rest : (dropped L ++ T'.entries c).Perm (T.entries c)
  mem : ((if c.kind = .index then [] else dropped L) ++ T'.cells ++ T'.gone).Perm (T.cells ++ T.gone)
  minCap : T'.minCap = T.minCap
  once : Gentle L → (shown L).Perm (e :: P)
  head : ∃ p l, L = p :: l ∧ p.capacity = T.capacity

/-- One step in front of a run, or at the end. -/
theorem Run.step {T T1 T' : Tbl K V} {e e' : K × V} {P P' D : List (K × V)} {L : List (Pres K V)}
    {b : Bool} (r : Run c T1 T' e' P' L) (he : e ∈ T.entries c)
    (h1 : ((if b = true then [e] else []) ++ T1.entries c).Perm (T.entries c))
    (h2 : ((if c.kind = .index then [] else if b = true then [e] else []) ++ T1.cells ++ T1.gone).Perm
      (T.cells ++ T.gone)) (h3 : T1.minCap = T.minCap)
    (h4 : (D ++ P).Perm (e' :: P')) (h5 : T.capacity ≤ 2 * T1.capacity → D = []) :
    Run c T T' e P (⟨e, T.capacity, b⟩ :: L) where
  ok := r.ok
  all y hy := by
    rcases List.mem_cons.1 hy with h | h
    · subst h; exact List.mem_cons_self ..
    · exact List.mem_cons_of_mem _ (r.all y (h4.mem_iff.1 (List.mem_append_right _ h)))
  old y hy := by
    rcases List.mem_cons.1 hy with h | h
    · rw [h]; exact he
    · exact h1.mem_iff.1 (List.mem_append_right _ (r.old y h))
  rest := by
    have hd : dropped (⟨e, T.capacity, b⟩ :: L) = (if b = true then [e] else []) ++ dropped L := by
      unfold dropped; cases b <;> rfl
    rw [hd]
    have q := r.rest
    rw [perm_iff] at *
    intro x
    have z1 := h1 x
    have z2 := q x
    simp only [cnt_append] at *
    omega
  mem := by
    have hd : dropped (⟨e, T.capacity, b⟩ :: L) = (if b = true then [e] else []) ++ dropped L := by
      unfold dropped; cases b <;> rfl
    rw [hd]
    have q := r.mem
    by_cases ht : c.kind = .index
    · rw [if_pos ht] at *
      simp only [List.nil_append] at *
      exact q.trans h2
    · rw [if_neg ht] at *
      rw [perm_iff] at *
      intro x
      have z1 := h2 x
      have z2 := q x
      simp only [cnt_append] at *
      omega
  minCap := r.minCap.trans h3
  once hg := by
    obtain ⟨p, l, h6, h7⟩ := r.head
    subst h6
    obtain ⟨g1, g2⟩ := hg
    have hD := h5 (by rw [← h7]; exact g1)
    subst hD
    exact ((r.once g2).trans h4.symm).cons e
  head := ⟨_, _, rfl, rfl⟩

theorem Run.last {T T1 : Tbl K V} {e : K × V} {b : Bool} (ok : T1.Ok c) (he : e ∈ T.entries c)
    (h1 : ((if b = true then [e] else []) ++ T1.entries c).Perm (T.entries c))
    (h2 : ((if c.kind = .index then [] else if b = true then [e] else []) ++ T1.cells ++ T1.gone).Perm
      (T.cells ++ T.gone)) (h3 : T1.minCap = T.minCap) :
    Run c T T1 e [] [⟨e, T.capacity, b⟩] where
  ok := ok
  all y hy := hy
  old y hy := by rw [List.mem_singleton.1 hy]; exact he
  rest := by
    have hd : dropped [(⟨e, T.capacity, b⟩ : Pres K V)] = if b = true then [e] else [] := by
      unfold dropped; cases b <;> rfl
    rw [hd]; exact h1
  mem := by
    have hd : dropped [(⟨e, T.capacity, b⟩ : Pres K V)] = if b = true then [e] else [] := by
      unfold dropped; cases b <;> rfl
    rw [hd]; exact h2
  minCap := h3
  once _ := List.Perm.refl _
  head := ⟨_, _, rfl, rfl⟩

theorem traverse_ok (hc : c.Ok) (env : Nat → Env) (rm : Nat → Bool) (N : Nat) :
    ∀ (M n : Nat) (T : Tbl K V) (x : Cur) (w : Two K V) (e : K × V), At c T x w →
      PointsTo c.kind (w.cur.bkt x.idx) x.ptr e → (T.entries c).length ≤ N →
      (pending c w x).length = M →
      ∃ fuel T' L, traverse c env rm fuel n T (some x) = some (T', L) ∧
        Run c T T' e (pending c w x) L := by
  induction N with
  | zero =>
    intro M n T x w e a hp hN hM
    have := (getAt_ok a hp).2
    rw [List.length_eq_zero_iff.1 (Nat.le_zero.1 hN)] at this
    cases this
  | succ N ihN =>
    intro M
    induction M using Nat.strongRecOn with
    | ind M ihM =>
      intro n T x w e a hp hN hM
      obtain ⟨g1, g2⟩ := getAt_ok a hp
      by_cases hrm : rm n = true
      · obtain ⟨T1, r, s1, s2, s3, s4, s5, s6, s7⟩ := removeAndOp_ok hc (env n) T x a hp
        have hmem : ((if c.kind = .index then [] else if true = true then [e] else []) ++ T1.cells ++
            T1.gone).Perm (T.cells ++ T.gone) := by
          have : (if c.kind = .index then [] else if true = true then [e] else []) =
              takenOut c.kind e := by unfold takenOut; simp
          rw [this]; exact s4
        cases r with
        | none =>
          refine ⟨1, T1, [⟨e, T.capacity, true⟩], ?_, ?_⟩
          · unfold traverse
            rw [g1]
            simp only [hrm, if_true, s1, Option.map_some]
            rfl
          · rw [s6 rfl]
            exact Run.last s2 g2 s3.symm hmem s5
        | some x' =>
          obtain ⟨w', e', D, d1, d2, d3, d4, d5⟩ := s7 x' rfl
          obtain ⟨fuel, T', L, l1, l2⟩ := ihN _ (n + 1) T1 x' w' e' d1 d2
            (by have := s3.length_eq; simp at this; omega) rfl
          refine ⟨fuel + 1, T', ⟨e, T.capacity, true⟩ :: L, ?_, ?_⟩
          · rw [traverse, g1]
            simp only [hrm, if_true, s1, Option.map_some, l1]
          · exact l2.step g2 s3.symm hmem s5 d3 d5
      · have hrm' : rm n = false := by simpa using hrm
        obtain ⟨T1, r, s1, s2, s3, s4⟩ := nextOp_ok hc (env n) T x a
        have hmem : ((if c.kind = .index then [] else if false = true then [e] else []) ++ T1.cells ++
            T1.gone).Perm (T.cells ++ T.gone) := by
          have : (if c.kind = .index then [] else if false = true then [e] else []) = ([] : List (K × V)) := by
            split <;> rfl
          rw [this]; exact s2.mem
        cases r with
        | none =>
          refine ⟨1, T1, [⟨e, T.capacity, false⟩], ?_, ?_⟩
          · unfold traverse
            rw [g1]
            simp only [hrm', Bool.false_eq_true, if_false, s1]
            rfl
          · rw [s3 rfl]
            exact Run.last s2.ok g2 s2.entries hmem s2.minCap
        | some x' =>
          obtain ⟨w', e', D, d1, d2, d3, d4, d5, d6⟩ := s4 x' rfl
          have hD : D = [] := d6 (by
            intro h
            have := PointsTo.mem ((a.ok.two w a.arr).cur.wf.wf x.idx) hp
            rw [h] at this; cases this)
          have hlen : (pending c w' x').length < M := by
            have := d3.length_eq
            rw [hD] at this
            simp at this
            omega
          obtain ⟨fuel, T', L, l1, l2⟩ := ihM _ hlen (n + 1) T1 x' w' e' d1 d2
            (by rw [s2.entries.length_eq]; exact hN) rfl
          refine ⟨fuel + 1, T', ⟨e, T.capacity, false⟩ :: L, ?_, ?_⟩
          · rw [traverse, g1]
            simp only [hrm', Bool.false_eq_true, if_false, s1, l1, Option.map_some]
          · exact l2.step g2 s2.entries hmem s2.minCap d3 d5

/-- `begin`. -/
theorem beginOp_ok (hc : c.Ok) (env : Env) (T : Tbl K V) (ok : T.Ok c) :
    ∃ T' r, beginOp c env T = some (T', r) ∧ Keeps c T T' ∧ (r = none → T.entries c = []) ∧
      (∀ x, r = some x → ∃ w e, At c T' x w ∧ PointsTo c.kind (w.cur.bkt x.idx) x.ptr e ∧
        (T.entries c).Perm (e :: pending c w x)) := by
  unfold beginOp seekFrom
  cases hT : T.arr with
  | none =>
    exact ⟨T, none, rfl, Keeps.refl ok, fun _ => (by unfold Tbl.entries; rw [hT]), fun x h => by cases h⟩
  | some w =>
    simp only [true_or, if_true]
    obtain ⟨T2, w2, r2, i1, i2, i3, i4, i5, i6⟩ := seek_ok hc env.recent (2 ^ w.cur.lg - 0) 0 T ok hT
      (by simp)
    have hall : fut c w.cur.lg 0 (T.entries c) = T.entries c := fut_all fun e _ => Nat.zero_le _
    rw [hall] at i5 i6
    refine ⟨T2, r2, i1, i2, i5, ?_⟩
    intro x hx
    obtain ⟨a1, e, a2, a3⟩ := i6 x hx
    exact ⟨w2, e, a1, a2, a3⟩

theorem traversal_ok (hc : c.Ok) (env : Nat → Env) (rm : Nat → Bool) (T : Tbl K V) (ok : T.Ok c) :
    ∃ fuel T' L, traversal c env rm fuel T = some (T', L) ∧ T'.Ok c ∧
      (∀ y, y ∈ shown L ↔ y ∈ T.entries c) ∧ (dropped L ++ T'.entries c).Perm (T.entries c) ∧
      ((if c.kind = .index then [] else dropped L) ++ T'.cells ++ T'.gone).Perm (T.cells ++ T.gone) ∧
      (Gentle L → (shown L).Perm (T.entries c)) := by
  obtain ⟨T1, r, b1, b2, b3, b4⟩ := beginOp_ok hc (env 0) T ok
  unfold traversal
  rw [b1]
  cases r with
  | none =>
    have he := b3 rfl
    refine ⟨0, T1, [], rfl, b2.ok, ?_, b2.entries, ?_, ?_⟩
    · rw [he]; intro y; exact Iff.rfl
    · have : (if c.kind = .index then [] else dropped ([] : List (Pres K V))) = [] := by
        split <;> rfl
      rw [this]; exact b2.mem
    · intro _; rw [he]; exact List.Perm.refl _
  | some x =>
    obtain ⟨w, e, a1, a2, a3⟩ := b4 x rfl
    obtain ⟨fuel, T', L, l1, l2⟩ := traverse_ok hc env rm _ _ 1 T1 x w e a1 a2 (Nat.le_refl _) rfl
    refine ⟨fuel, T', L, l1, l2.ok, ?_, l2.rest.trans b2.entries, l2.mem.trans b2.mem, ?_⟩
    · intro y
      constructor
      · intro h; exact b2.entries.mem_iff.1 (l2.old y h)
      · intro h; exact l2.all y (a3.mem_iff.1 h)
    · intro hg; exact (l2.once hg).trans a3.symm

/-- More fuel changes nothing. -/
theorem traverse_fuel {env : Nat → Env} {rm : Nat → Bool} {f f' n : Nat} {T : Tbl K V} {x : Option Cur}
    {q : Tbl K V × List (Pres K V)} (h : traverse c env rm f n T x = some q) (hf : f ≤ f') :
    traverse c env rm f' n T x = some q := by
  induction f generalizing f' n T x q with
  | zero =>
    cases x with
    | none => cases f' <;> exact h
    | some x => unfold traverse at h; cases h
  | succ f ih =>
    cases x with
    | none => cases f' <;> exact h
    | some x =>
      obtain ⟨f'', rfl⟩ : ∃ f'', f' = f'' + 1 := ⟨f' - 1, by omega⟩
      rw [traverse] at h ⊢
      cases hg : getAt T x with
      | none => rw [hg] at h; cases h
      | some e =>
        rw [hg] at h
        simp only at h ⊢
        cases hs : (if rm n then (removeAndOp c (env n) T x).map fun r => (r.1, r.2.2)
            else nextOp c (env n) T x) with
        | none => rw [hs] at h; cases h
        | some s =>
          rw [hs] at h
          obtain ⟨T1, r⟩ := s
          simp only at h ⊢
          cases ht : traverse c env rm f (n + 1) T1 r with
          | none => rw [ht] at h; cases h
          | some q' => rw [ih ht (by omega)]; rw [ht] at h; exact h

end

end Scc.Seq
