import Verif.Grove.Grow

/-!
# What threads may rely on
-/

namespace Scc.Grove

local notation "Key" => Nat
local notation "Id" => Nat
local notation "Thr" => Nat

variable {V : Type} {m m' : Mem V} {A : Key → Option V} {src src' : Ref → Ref}

/-- What every step does to the objects that threads have pointers to. -/
structure Evo (m m' : Mem V) (A : Key → Option V) : Prop where
  on : ∀ k x, On m.root m.node k x → On m'.root m'.node k x ∨ m'.dead x = true ∨
    (Retired m'.node m'.leaf x ∧ A k = none)
  dead : ∀ x, m.dead x = true → m'.dead x = true
  ret : ∀ x, Alloc m.nN m.nL x → Retired m.node m.leaf x → Retired m'.node m'.leaf x
  nN : m.nN ≤ m'.nN
  nL : m.nL ≤ m'.nL
  node : ∀ n, m'.dead (.node n) = true → m'.node n = m.node n
  leaf : ∀ l, m'.dead (.leaf l) = true → m'.leaf l = m.leaf l

/-- What every step preserves. -/
structure Next (m m' : Mem V) (A : Key → Option V) (src : Ref → Ref) : Prop where
  inv : Inv m' A src
  evo : Evo m m' A

/-- Leaf `y` was created to replace leaf `x`, and this change is under way. -/
def Twin (m : Mem V) (src : Ref → Ref) (x y : Id) : Prop :=
  src (.leaf y) = .leaf x ∧
    ((∃ n i, m.phase n = .single i x y) ∨ ∃ n J, (m.phase n).job = some J ∧ .leaf x ∈ J.ch ∧
      ∀ i x xl xh mid ch cl, m.phase n ≠ .full i x xl xh mid ch cl)

/-- Leaf `x` is taken out of a node because it has retired. -/
def Fell (m m' : Mem V) (x : Id) : Prop := ∃ n i, m.phase n = .locked ∧ (m.node n).cell i = .to (.leaf x) ∧
  (m'.phase n = .coal i ∨ (m'.phase n = .locked ∧ i = 0 ∧ (m'.node n).cell 0 = .ret))

/-- What a structural change does to the leaves that search paths lead to. -/
structure Drift (m m' : Mem V) (A : Key → Option V) (src : Ref → Ref) : Prop where
  /-- The path of a key leads to the same leaf, to a leaf that was created to replace it, or away from a leaf
  that has retired. -/
  to : ∀ k x, On m.root m.node k (.leaf x) → On m'.root m'.node k (.leaf x) ∨
    (m'.dead (.leaf x) = true ∧ ∃ y, Twin m src x y ∧ On m'.root m'.node k (.leaf y) ∧
      (m.leaf y).get k = (m.leaf x).get k) ∨
    ((m.leaf x).retired = true ∧ A k = none ∧ ¬ Lit m'.root m'.node (.leaf x) ∧ Fell m m' x)
  /-- A leaf with a path has one that has led to it before, or all of its paths have led to a leaf that it was
  created to replace. -/
  of : ∀ l, Lit m'.root m'.node (.leaf l) →
    (∃ k, On m.root m.node k (.leaf l) ∧ On m'.root m'.node k (.leaf l)) ∨
    ((∀ k, On m'.root m'.node k (.leaf l) → ∃ x, Twin m src x l ∧ On m.root m.node k (.leaf x)) ∧
      ∀ k, (m.leaf l).get k ≠ none → On m'.root m'.node k (.leaf l))
  /-- The smaller keys are led to the new leaf first. -/
  low : ∀ k1 k2 x y, x ≠ y → On m.root m.node k2 (.leaf x) → On m'.root m'.node k2 (.leaf y) →
    On m'.root m'.node k1 (.leaf x) → k2 < k1

/-- The paths have not changed. -/
theorem Drift.same (hl : Lev m.node) (h : ∀ k x, On m'.root m'.node k x ↔ On m.root m.node k x) : Drift m m' A src := by
  refine ⟨fun k x ho => .inl ((h k _).2 ho), fun l ⟨k, ho⟩ => .inl ⟨k, (h k _).1 ho, ho⟩, fun k1 k2 x y hne h1 h2 _ => ?_⟩
  have := h1.unique hl ((h _ _).1 h2) rfl
  cases this
  exact absurd rfl hne

theorem Drift.quiet (hl : Lev m.node) (h1 : m'.root = m.root) (h2 : m'.node = m.node) : Drift m m' A src :=
  .same hl fun k x => by rw [h1, h2]

theorem Drift.grow (I : Inv m A src) (h1 : m'.root = m.root) (h2 : ∀ n, n < m.nN → m'.node n = m.node n) {src' : Ref → Ref} :
    Drift m m' A src' := by
  have hlt : ∀ n, Lit m.root m.node (.node n) → n < m.nN := fun n ⟨k, h⟩ => I.on_al h
  refine .same I.shape.lev fun k x => ?_
  rw [h1]
  constructor
  · exact On.congr' fun n hn => by rw [h2 n (hlt n hn)]
  · exact On.congr fun n hn => by rw [h2 n (hlt n hn)]

/-- Both. -/
structure Both (m m' : Mem V) (A : Key → Option V) (src : Ref → Ref) : Prop where
  next : Next m m' A src
  drift : Drift m m' A src

/-- A thread that looks for a key has come to an object. `H` is what the key was mapped to since the call of
the thread began. -/
inductive Good (m : Mem V) (H : Option V → Prop) (k : Key) : Ref → Prop
  /-- The object is on the search path. -/
  | on {x : Ref} (h : On m.root m.node k x) : Good m H k x
  /-- It is an obsolete leaf. -/
  | leaf {l : Id} (h : m.dead (.leaf l) = true) (hh : H ((m.leaf l).get k)) : Good m H k (.leaf l)
  /-- It has retired. -/
  | ret {x : Ref} (ha : Alloc m.nN m.nL x) (h : Retired m.node m.leaf x) (hh : H none) : Good m H k x
  /-- It is an obsolete node. -/
  | step {n : Id} {y : Ref} (h : m.dead (.node n) = true) (hd : (m.node n).dest k = .to y) (hy : Good m H k y) :
    Good m H k (.node n)
  | stop {n : Id} (h : m.dead (.node n) = true) (hd : ∀ y, (m.node n).dest k ≠ .to y) (hh : H none) :
    Good m H k (.node n)

/-- What was on the search path. -/
theorem Evo.good (E : Evo m m' A) (I : Inv m A src) {H : Option V → Prop} {k : Key} (hA : H (A k)) :
    ∀ (j : Nat) (x : Ref), lvl m.node x = j → On m.root m.node k x → Good m' H k x := by
  intro j
  induction j using Nat.strongRecOn with
  | _ j ih =>
    intro x hj ho
    rcases E.on k x ho with h | h | ⟨h, h'⟩
    · exact .on h
    · cases x with
      | leaf l =>
        refine .leaf h ?_
        rw [E.leaf l h, I.mean.leaf k l ho]
        exact hA
      | node n =>
        have hN := E.node n h
        by_cases hd : ∃ y, (m.node n).dest k = .to y
        · obtain ⟨y, hd⟩ := hd
          have h1 := I.shape.lev.dest hd
          simp only [lvl_node] at hj
          exact .step h (by rw [hN]; exact hd) (ih _ (by omega) y rfl (.step ho hd))
        · have hd' : ∀ y, (m.node n).dest k ≠ .to y := fun y hy => hd ⟨y, hy⟩
          refine .stop h (by rw [hN]; exact hd') ?_
          rw [I.mean.null k n ho hd'] at hA
          exact hA
    · rw [h'] at hA
      exact .ret ((I.on_al ho).mono E.nN E.nL) h hA

theorem Good.evo (I : Inv m A src) (E : Evo m m' A) {H H' : Option V → Prop} {k : Key} {x : Ref}
    (hH : ∀ o, H o → H' o) (hA : H' (A k)) (h : Good m H k x) : Good m' H' k x := by
  induction h with
  | on h => exact E.good I hA _ _ rfl h
  | @leaf l h hh =>
    have h' := E.dead _ h
    exact .leaf h' (by rw [E.leaf l h']; exact hH _ hh)
  | ret ha h hh => exact .ret (ha.mono E.nN E.nL) (E.ret _ ha h) (hH _ hh)
  | @step n y h hd _ ih =>
    have h' := E.dead _ h
    exact .step h' (by rw [E.node n h']; exact hd) ih
  | @stop n h hd hh =>
    have h' := E.dead _ h
    exact .stop h' (by rw [E.node n h']; exact hd) (hH _ hh)

/-- Objects and pointers stay as they are. -/
theorem Evo.quiet (h1 : m'.root = m.root) (h2 : m'.node = m.node) (h3 : m'.leaf = m.leaf) (h4 : m'.dead = m.dead)
    (h5 : m'.nN = m.nN) (h6 : m'.nL = m.nL) : Evo m m' A := by
  refine ⟨fun k x h => .inl (by rw [h1, h2]; exact h), fun x h => by rw [h4]; exact h, fun x _ h => by rw [h2, h3]; exact h,
    Nat.le_of_eq h5.symm, Nat.le_of_eq h6.symm, fun n _ => by rw [h2], fun l _ => by rw [h3]⟩

/-- New objects are created. -/
theorem Evo.grow (I : Inv m A src) (h1 : m'.root = m.root) (h2 : ∀ n, n < m.nN → m'.node n = m.node n)
    (h3 : ∀ l, l < m.nL → m'.leaf l = m.leaf l) (h4 : m'.dead = m.dead)
    (h5 : m.nN ≤ m'.nN) (h6 : m.nL ≤ m'.nL) : Evo m m' A := by
  refine ⟨fun k x h => .inl ?_, fun x h => by rw [h4]; exact h, fun x ha h => ?_, h5, h6, fun n h => ?_, fun l h => ?_⟩
  · rw [h1]
    refine h.congr fun n hn => ?_
    rw [h2 n (I.lit_al hn)]
  · cases x with
    | leaf l => simp only [Retired, h3 l ha]; exact h
    | node n => simp only [Retired, h2 n ha]; exact h
  · rw [h4] at h
    exact h2 n (I.shape.dead_al _ h)
  · rw [h4] at h
    exact h3 l (I.shape.dead_al _ h)

end Scc.Grove
