import Verif.Tree.Spec
import Verif.Tree.IterRange
import Verif.Leaf.Props

/-!
# Properties of the tree index (C31-C34, C37, C38)
-/

set_option linter.unusedSimpArgs false
set_option linter.unusedSectionVars false
set_option linter.unusedVariables false

namespace Scc.Tree

open Scc.Leaf Scc.Leaf.Spec
open Scc.Tree.Spec (Map InBounds Enumerates)

variable {K V C : Type} [KeyOrd K]

/-! ## A tree and the map it stands for -/

/-- A tree at rest whose entries are those of the map. -/
structure Holds (x : Ix K V) (m : Map K V) : Prop where
  inv : x.Inv
  enum : Enumerates m x.toList

theorem enumerates_unique {m : Map K V} {xs ys : List (K × V)} (hx : Enumerates m xs) (hy : Enumerates m ys) :
    xs = ys :=
  sorted_ext hx.1 hy.1 (fun e => (hx.2 e.1 e.2).trans (hy.2 e.1 e.2).symm)

theorem get_enum {m : Map K V} {xs : List (K × V)} (h : Enumerates m xs) (k : K) :
    Leaf.Spec.get xs k = (m k).map (fun v => (k, v)) := by
  cases hg : Leaf.Spec.get xs k with
  | none =>
    cases hm : m k with
    | none => rfl
    | some v => exact absurd rfl (get_none hg _ ((h.2 k v).2 hm))
  | some e =>
    obtain ⟨h1, h2⟩ := get_some hg
    obtain ⟨k', v⟩ := e
    simp only at h2; subst h2
    rw [(h.2 _ _).1 h1]; rfl

theorem contains_iff (a b : Bd K) (k : K) : contains a b k = true ↔ InBounds a b k := by
  unfold contains InBounds
  rw [Bool.and_eq_true]
  refine and_congr ?_ ?_
  · cases a with
    | incl s =>
      simp only [bne_iff_ne, ne_eq, cmp_gt]
      constructor
      · intro h
        rcases KeyOrd.tri s k with h' | h' | h'
        · exact .inl h'
        · exact .inr h'
        · exact absurd h' h
      · rintro (h | h) h'
        · exact KeyOrd.irrefl _ (KeyOrd.trans _ _ _ h h')
        · subst h; exact KeyOrd.irrefl _ h'
    | excl s => simp only [beq_iff_eq, cmp_lt]
    | unb => simp
  · cases b with
    | incl s =>
      simp only [bne_iff_ne, ne_eq, cmp_lt]
      constructor
      · intro h
        rcases KeyOrd.tri s k with h' | h' | h'
        · exact absurd h' h
        · exact .inr h'.symm
        · exact .inl h'
      · rintro (h | h) h'
        · exact KeyOrd.irrefl _ (KeyOrd.trans _ _ _ h h')
        · subst h; exact KeyOrd.irrefl _ h'
    | excl s => simp only [beq_iff_eq, cmp_gt]
    | unb => simp

theorem enum_del {m : Map K V} {xs : List (K × V)} (h : Enumerates m xs) (k : K) {m' : Map K V}
    (hm : ∀ j, m' j = none ∧ j = k ∨ m' j = m j ∧ j ≠ k) : Enumerates m' (del xs k) := by
  refine ⟨h.1.filter _, fun j v => ?_⟩
  rw [mem_del, h.2]
  rcases hm j with ⟨h1, h2⟩ | ⟨h1, h2⟩
  · rw [h1]; simp [h2]
  · rw [h1]; simp [h2]

theorem enum_del_absent {m : Map K V} {xs : List (K × V)} (h : Enumerates m xs) {k : K} (hk : m k = none)
    {m' : Map K V} (hm : ∀ j, m' j = none ∧ j = k ∨ m' j = m j ∧ j ≠ k) : Enumerates m' xs := by
  refine ⟨h.1, fun j v => ?_⟩
  rw [h.2]
  rcases hm j with ⟨h1, h2⟩ | ⟨h1, h2⟩
  · rw [h1, h2, hk]
  · rw [h1]

open Classical in
theorem removeIf_holds {x : Ix K V} {m : Map K V} (h : Holds x m) {f : Nat} (hf : 1 ≤ f) (k : K) (cond : V → Bool) :
    Holds (x.removeIf f k cond).1 (Spec.step m (.removeIf k cond)).1 ∧
    (x.removeIf f k cond).2.map .rem = some (Spec.step m (.removeIf k cond)).2 := by
  obtain ⟨f, rfl⟩ : ∃ g, f = g + 1 := ⟨f - 1, by omega⟩
  obtain ⟨h1, h2⟩ := Ix.removeIf_spec h.inv k cond f
  have hg := get_enum h.enum k
  rcases h2 with ⟨⟨e, h2, h3⟩, h4, h5⟩ | ⟨h2, h4, h5⟩
  · rw [h2] at hg
    cases hm : m k with
    | none => rw [hm] at hg; cases hg
    | some v =>
      rw [hm] at hg
      simp only [Option.map_some, Option.some.injEq] at hg
      subst hg
      simp only [Spec.step, hm]
      rw [if_pos h3, h4]
      refine ⟨⟨h1, ?_⟩, rfl⟩
      rw [h5]
      refine enum_del h.enum k (fun j => ?_)
      by_cases hj : j = k <;> simp [hj]
  · cases hm : m k with
    | none => simp only [Spec.step, hm]; exact ⟨⟨h1, by rw [h5]; exact h.enum⟩, by rw [h4]; rfl⟩
    | some v =>
      rw [hm] at hg
      have := h2 _ hg
      simp only [Spec.step, hm]
      rw [if_neg (by simpa using this), h4]
      exact ⟨⟨h1, by rw [h5]; exact h.enum⟩, rfl⟩

open Classical in
/-- One call. -/
theorem call_holds {x : Ix K V} {m : Map K V} (h : Holds x m) {f : Nat} (hf : 2 ≤ f) (o : TOp K V) :
    Holds (x.call f o).1 (Spec.step m o).1 ∧ (x.call f o).2 = some (Spec.step m o).2 := by
  cases o with
  | insert k v =>
    obtain ⟨f, rfl⟩ : ∃ g, f = g + 2 := ⟨f - 2, by omega⟩
    obtain ⟨h1, h2⟩ := Ix.insert_spec h.inv k v f
    have hg := get_enum h.enum k
    unfold Ix.call
    simp only []
    rcases h2 with ⟨h2, h3, h4⟩ | ⟨h2, h3, h4⟩
    · rw [h2] at hg
      have hm : m k = none := by cases hm : m k <;> rw [hm] at hg <;> simp at hg ⊢
      simp only [Spec.step, hm, h3]
      refine ⟨⟨h1, ?_⟩, rfl⟩
      rw [h4]
      refine ⟨sorted_put h.inv.sorted k v, fun j u => ?_⟩
      rw [mem_put (get_none h2), h.enum.2]
      by_cases hj : j = k
      · subst hj; simp [hm, eq_comm]
      · simp [hj]
    · rw [hg] at h2
      cases hm : m k with
      | none => rw [hm] at h2; cases h2
      | some w =>
        simp only [Spec.step, hm, h3]
        exact ⟨⟨h1, by rw [h4]; exact h.enum⟩, rfl⟩
  | remove k =>
    obtain ⟨h1, h2⟩ := removeIf_holds h (by omega : 1 ≤ f) k (fun _ => true)
    unfold Ix.call
    simp only []
    have : (Spec.step m (.removeIf k (fun _ => true))).1 = (Spec.step m (.remove k)).1 ∧
        (Spec.step m (.removeIf k (fun _ => true))).2 = (Spec.step m (.remove k)).2 := by
      cases hm : m k with
      | some v => simp [Spec.step, hm]
      | none =>
        simp only [Spec.step, hm]
        refine ⟨?_, rfl⟩
        funext j
        by_cases hj : j = k
        · subst hj; simp [hm]
        · simp [hj]
    rw [this.1] at h1
    rw [this.2] at h2
    exact ⟨h1, h2⟩
  | removeIf k cond => exact removeIf_holds h (by omega) k cond
  | removeRange a b =>
    obtain ⟨h1, h2⟩ := Ix.removeRange_spec h.inv a b
    refine ⟨⟨h1, ?_⟩, rfl⟩
    show Enumerates _ (x.removeRange a b).toList
    rw [h2]
    refine ⟨h.inv.sorted.filter _, fun j v => ?_⟩
    unfold keep
    simp only [List.mem_filter, Bool.not_eq_true', Spec.step]
    rw [h.enum.2]
    cases hc : contains a b j with
    | true => rw [if_pos ((contains_iff a b j).1 hc)]; simp
    | false => rw [if_neg (fun hi => by rw [(contains_iff a b j).2 hi] at hc; cases hc)]; simp
  | peek k =>
    refine ⟨h, ?_⟩
    show some (TRes.val ((x.peek k).map (fun e => e.2))) = _
    rw [Ix.peek_spec h.inv, get_enum h.enum]
    simp only [Spec.step]
    cases m k <;> rfl
  | clear =>
    obtain ⟨h1, h2⟩ := Ix.clear_spec h.inv
    refine ⟨⟨h1, ?_⟩, rfl⟩
    show Enumerates _ x.clear.toList
    rw [h2]
    exact ⟨List.Pairwise.nil, fun k v => ⟨fun h => (by cases h), fun h => (by cases h)⟩⟩

theorem calls_holds {f : Nat} (hf : 2 ≤ f) : ∀ (os : List (TOp K V)) {x : Ix K V} {m : Map K V}, Holds x m →
    Holds (x.calls f os).1 (Spec.calls m os).1 ∧ (x.calls f os).2 = (Spec.calls m os).2.map some := by
  intro os
  induction os with
  | nil => intro x m h; exact ⟨h, rfl⟩
  | cons o os ih =>
    intro x m h
    obtain ⟨h1, h2⟩ := call_holds h hf o
    obtain ⟨h3, h4⟩ := ih h1
    refine ⟨h3, ?_⟩
    show (x.call f o).2 :: ((x.call f o).1.calls f os).2 = _
    rw [h2, h4]; rfl

theorem holds_new : Holds (Ix.new : Ix K V) Map.empty :=
  ⟨inv_new, List.Pairwise.nil, fun k v => ⟨fun h => (by cases h), fun h => (by cases h)⟩⟩

/-! ## C31: an ordered map -/

/-- Every sequence of calls on a new tree returns what the map returns. No loop needs more than two
rounds, and the code never reaches `unreachable!()` or unwraps nothing (both would be results that are
missing). -/
theorem c31_map {f : Nat} (hf : 2 ≤ f) (os : List (TOp K V)) :
    ((Ix.new : Ix K V).calls f os).2 = (Spec.calls Map.empty os).2.map some :=
  (calls_holds hf os holds_new).2

/-- What is found by lookups at the end is what the map holds. -/
theorem c31_contents {f : Nat} (hf : 2 ≤ f) (os : List (TOp K V)) (k : K) :
    (((Ix.new : Ix K V).calls f os).1.peek k).map (fun e => e.2) = (Spec.calls Map.empty os).1 k := by
  have h := (calls_holds hf os holds_new).1
  rw [Ix.peek_spec h.inv, get_enum h.enum]
  cases (Spec.calls Map.empty os).1 k <;> rfl

/-! ## C32: iteration -/

/-- `iter()` yields all entries in strictly ascending order and then `None`. -/
theorem c32_iter {f : Nat} (hf : 2 ≤ f) (os : List (TOp K V)) :
    ∃ xs, Enumerates (Spec.calls Map.empty os).1 xs ∧
      ((Ix.new : Ix K V).calls f os).1.iterCalls (xs.length + 1) none = xs.map some ++ [none] := by
  have h := (calls_holds hf os (holds_new (K := K) (V := V))).1
  exact ⟨_, h.enum, iterCalls_spec h.inv 0 _ none (iterAt_new _)⟩

/-- `len` and `is_empty`. -/
theorem c32_len {f : Nat} (hf : 2 ≤ f) (os : List (TOp K V)) :
    ∃ xs, Enumerates (Spec.calls Map.empty os).1 xs ∧
      (∀ n, xs.length < n → ((Ix.new : Ix K V).calls f os).1.len n = xs.length) ∧
      ((Ix.new : Ix K V).calls f os).1.isEmpty = xs.isEmpty := by
  have h := (calls_holds hf os (holds_new (K := K) (V := V))).1
  refine ⟨_, h.enum, ?_, ?_⟩
  · intro n hn
    unfold Ix.len
    rw [iterTake_spec h.inv _ none n (iterAt_new _) hn]
  · unfold Ix.isEmpty
    rcases iterNext_spec h.inv (iterAt_new _) with ⟨h1, h2⟩ | ⟨it, e, R, h1, h2, _⟩
    · rw [h1, h2]; rfl
    · rw [h1, h2]; rfl

/-! ## C33: ranges -/

/-- `range(a, b)` yields all entries with keys within the bounds in strictly ascending order and then
`None`. The loop in `next` makes at most as many rounds as there are entries, and one. -/
theorem c33_range {f : Nat} (hf : 2 ≤ f) (os : List (TOp K V)) (a b : Bd K) :
    ∃ xs : List (K × V), xs.Pairwise (fun e e' => KeyOrd.lt e.1 e'.1) ∧
      (∀ k v, (k, v) ∈ xs ↔ (Spec.calls Map.empty os).1 k = some v ∧ InBounds a b k) ∧
      ∃ N, ∀ g, N ≤ g → ((Ix.new : Ix K V).calls f os).1.rangeCalls a b g (xs.length + 1) Rng.new =
        xs.map (fun e => some (some e)) ++ [some none] := by
  have h := (calls_holds hf os (holds_new (K := K) (V := V))).1
  refine ⟨((Ix.new : Ix K V).calls f os).1.toList.filter (fun e => contains a b e.1), h.enum.1.filter _, ?_,
    ((Ix.new : Ix K V).calls f os).1.toList.length + 1, fun g hg => rangeCalls_spec h.inv a b (by omega)⟩
  intro k v
  rw [List.mem_filter, h.enum.2, contains_iff]

/-! ## C34: removal of a range -/

/-- After `remove_range(a, b)` lookups find exactly the entries with keys outside the bounds, and so does
iteration. -/
theorem c34_remove_range {f : Nat} (hf : 2 ≤ f) (os : List (TOp K V)) (a b : Bd K) :
    let x := ((Ix.new : Ix K V).calls f os).1
    (∀ k, InBounds a b k → (x.removeRange a b).peek k = none) ∧
    (∀ k, ¬ InBounds a b k → (x.removeRange a b).peek k = x.peek k) ∧
    ∃ xs : List (K × V), (x.removeRange a b).iterCalls (xs.length + 1) none = xs.map some ++ [none] ∧
      xs.Pairwise (fun e e' => KeyOrd.lt e.1 e'.1) ∧
      ∀ k v, (k, v) ∈ xs ↔ (Spec.calls Map.empty os).1 k = some v ∧ ¬ InBounds a b k := by
  have h := (calls_holds hf os (holds_new (K := K) (V := V))).1
  have h' := (call_holds h hf (.removeRange a b)).1
  simp only []
  have hp : ∀ k, (((Ix.new : Ix K V).calls f os).1.removeRange a b).peek k = _ :=
    fun k => (Ix.peek_spec h'.inv k).trans (get_enum h'.enum k)
  refine ⟨fun k hk => ?_, fun k hk => ?_, _, iterCalls_spec h'.inv 0 _ none (iterAt_new _), h'.enum.1, ?_⟩
  · rw [hp]; simp [Spec.step, hk]
  · rw [hp, Ix.peek_spec h.inv, get_enum h.enum]; simp [Spec.step, hk]
  · intro k v
    rw [h'.enum.2]
    by_cases hk : InBounds a b k <;> simp [Spec.step, hk]

/-! ## C38: copies and comparison -/

theorem foldl_insert {f : Nat} : ∀ (xs : List (K × V)) {x : Ix K V} {pre : List (K × V)}, x.Inv → x.toList = pre →
    Sorted (pre ++ xs) → (xs.foldl (fun y e => (y.insert (f + 2) e.1 e.2).1) x).Inv ∧
      (xs.foldl (fun y e => (y.insert (f + 2) e.1 e.2).1) x).toList = pre ++ xs := by
  intro xs
  induction xs with
  | nil => intro x pre hx hp _; exact ⟨hx, by simpa using hp⟩
  | cons e xs ih =>
    intro x pre hx hp hs
    obtain ⟨h1, h2⟩ := Ix.insert_spec hx e.1 e.2 f
    have hlt : ∀ a ∈ pre, KeyOrd.lt a.1 e.1 := by
      intro a ha
      exact (List.pairwise_append.1 hs).2.2 a ha e (List.mem_cons_self ..)
    have hg : Leaf.Spec.get x.toList e.1 = none := by
      cases hg : Leaf.Spec.get x.toList e.1 with
      | none => rfl
      | some a =>
        obtain ⟨g1, g2⟩ := get_some hg
        rw [hp] at g1
        have := hlt a g1
        rw [g2] at this
        exact absurd this (KeyOrd.irrefl _)
    rcases h2 with ⟨_, _, h4⟩ | ⟨h2, _, _⟩
    · have h5 : (x.insert (f + 2) e.1 e.2).1.toList = pre ++ [e] := by
        rw [h4, hp]
        unfold put
        rw [List.filter_eq_self.2 (fun a ha => by simpa using hlt a ha)]
        rw [List.filter_eq_nil_iff.2 (fun a ha => by
          simp only [decide_eq_true_eq]
          exact fun h => KeyOrd.irrefl _ (KeyOrd.trans _ _ _ h (hlt a ha)))]
      have := ih (x := (x.insert (f + 2) e.1 e.2).1) (pre := pre ++ [e]) h1 h5 (by simpa using hs)
      simpa using this
    · rw [hg] at h2; cases h2

/-- The clone of a tree holds the same entries, in a tree of its own. -/
theorem c38_tree_clone {f : Nat} (hf : 2 ≤ f) (os : List (TOp K V)) :
    let x := ((Ix.new : Ix K V).calls f os).1
    ∃ N, ∀ n, N ≤ n → (∀ k, (x.clone f n).peek k = x.peek k) ∧
      ∃ xs, Enumerates (Spec.calls Map.empty os).1 xs ∧
        (x.clone f n).iterCalls (xs.length + 1) none = xs.map some ++ [none] := by
  have h := (calls_holds hf os (holds_new (K := K) (V := V))).1
  simp only []
  generalize ((Ix.new : Ix K V).calls f os).1 = x at h
  refine ⟨x.toList.length + 1, fun n hn => ?_⟩
  obtain ⟨f, rfl⟩ : ∃ g, f = g + 2 := ⟨f - 2, by omega⟩
  have hc : (x.clone (f + 2) n).Inv ∧ (x.clone (f + 2) n).toList = x.toList := by
    unfold Ix.clone
    rw [iterTake_spec h.inv _ none n (iterAt_new _) (by omega)]
    have := foldl_insert (f := f) x.toList (x := (Ix.new : Ix K V)) (pre := []) inv_new rfl (by simpa using h.inv.sorted)
    simpa using this
  refine ⟨fun k => ?_, _, h.enum, ?_⟩
  · rw [Ix.peek_spec hc.1, Ix.peek_spec h.inv, hc.2]
  · have := iterCalls_spec hc.1 0 _ none (iterAt_new _)
    rw [hc.2] at this
    exact this

theorem eqLoop_spec [DecidableEq K] [DecidableEq V] {x y : Ix K V} (hx : x.Inv) (hy : y.Inv) :
    ∀ (n : Nat) (R S : List (K × V)) (i j : Option Scn), IterAt x i R → IterAt y j S → R.length < n →
      x.eqLoop y n i j = some (decide (R = S)) := by
  intro n
  induction n with
  | zero => intro R S i j _ _ h; omega
  | succ n ih =>
    intro R S i j hi hj hn
    unfold Ix.eqLoop
    rcases iterNext_spec hx hi with ⟨h1, h2⟩ | ⟨it, e, R', h1, h2, h3⟩
    · rcases iterNext_spec hy hj with ⟨g1, g2⟩ | ⟨jt, e', S', g1, g2, g3⟩
      · rw [h2, g2, h1, g1]; rfl
      · rw [h2, g2, h1, g1]; simp
    · rcases iterNext_spec hy hj with ⟨g1, g2⟩ | ⟨jt, e', S', g1, g2, g3⟩
      · rw [h2, g2, h1, g1]; simp
      · rw [h2, g2, h1, g1]
        simp only []
        by_cases he : e = e'
        · subst he
          rw [if_pos rfl, ih R' S' it jt h3 g3 (by rw [h1] at hn; simp at hn; omega)]
          simp
        · rw [if_neg he]
          simp [he]

/-- `==` of two trees is equality of the maps they hold. -/
theorem c38_tree_eq [DecidableEq K] [DecidableEq V] {f : Nat} (hf : 2 ≤ f) (os os' : List (TOp K V)) :
    let x := ((Ix.new : Ix K V).calls f os).1
    let y := ((Ix.new : Ix K V).calls f os').1
    ∃ N, ∀ n, N ≤ n → ∃ r, x.eqLoop y n none none = some r ∧
      (r = true ↔ (Spec.calls Map.empty os).1 = (Spec.calls Map.empty os').1) := by
  have h := (calls_holds hf os (holds_new (K := K) (V := V))).1
  have h' := (calls_holds hf os' (holds_new (K := K) (V := V))).1
  simp only []
  refine ⟨((Ix.new : Ix K V).calls f os).1.toList.length + 1, fun n hn =>
    ⟨_, eqLoop_spec h.inv h'.inv n _ _ none none (iterAt_new _) (iterAt_new _) (by omega), ?_⟩⟩
  rw [decide_eq_true_eq]
  constructor
  · intro he
    funext k
    have g := get_enum h.enum k
    have g' := get_enum h'.enum k
    rw [he] at g
    rw [g] at g'
    cases h1 : (Spec.calls Map.empty os).1 k <;> cases h2 : (Spec.calls Map.empty os').1 k <;>
      rw [h1, h2] at g' <;> simp at g' ⊢
    exact g'
  · intro he
    exact enumerates_unique h.enum (by rw [he]; exact h'.enum)

/-! ## C37: splitting a node -/

/-- A node `n` with the keyed children `xs` (any list of children that has ever been filled) and the
unbounded child `u`, in which one child was split into `p.low`, with greatest key `p.mid`, and `p.high`,
which keeps the place of that child. The two nodes that replace `n` hold all children in the same order,
none lost and none twice; the smaller keys are on the left; both parts have at least one child; the key
handed to the parent separates them. -/
theorem c37_node (os : List (LOp K C)) (u : C) (p : SplitOp K C) {Y : List (K × C)} {w : C} :
    let n : Nd K C := { kids := ((Leaf.new : Leaf K C).calls os).1, ub := some u, dead := false }
    ((∃ k c A B, p.okey = some k ∧ n.kids.toList = A ++ (k, c) :: B ∧
        Y = A ++ (p.mid, p.low) :: (k, p.high) :: B ∧ w = u) ∨
      (p.okey = none ∧ Y = n.kids.toList ++ [(p.mid, p.low)] ∧ w = p.high)) →
    Y.Pairwise (fun e e' => KeyOrd.lt e.1 e'.1) →
    ∃ (lo hi : Nd K C) (m : K) (c : C), splitNd n p = some (lo, hi, some m) ∧
      lo.kids.toList ++ (m, c) :: hi.kids.toList = Y ∧ lo.ub = some c ∧ hi.ub = some w ∧
      (∀ e ∈ lo.kids.toList, KeyOrd.lt e.1 m) ∧ (∀ e ∈ hi.kids.toList, KeyOrd.lt m e.1) := by
  simp only []
  intro hY hs
  have wl : WL ((Leaf.new : Leaf K C).calls os).1 := ⟨_, (calls_rel os rel_new).1⟩
  generalize ((Leaf.new : Leaf K C).calls os).1 = l at *
  have hlen : l.toList.length ≤ 14 := wl.len14
  have hY1 : 1 ≤ Y.length ∧ Y.length ≤ 15 := by
    rcases hY with ⟨k, c, A, B, _, h2, h3, _⟩ | ⟨_, h2, _⟩
    · rw [h2] at hlen
      rw [h3]
      simp at hlen ⊢
      omega
    · rw [h2]; simp; omega
  have he : entryArray (⟨l, some u, false⟩ : Nd K C) p = keyed Y ++ [(none, w)] := by
    rcases hY with ⟨k, c, A, B, h1, h2, h3, h4⟩ | ⟨h1, h2, h3⟩
    · rw [entryArray_eq (n := ⟨l, some u, false⟩) wl (A := keyed A) (B := keyed B ++ [(none, u)]) (c := c) p
        (by unfold ents; simp only [h2, h1, keyed, List.map_append, List.map_cons]; simp) (allSome_keyed A),
        h3, h4, h1]
      simp [keyed]
    · rw [entryArray_eq (n := ⟨l, some u, false⟩) wl (A := keyed l.toList) (B := []) (c := u) p
        (by unfold ents; simp only [h1, keyed]; simp) (allSome_keyed _), h2, h3, h1]
      simp [keyed]
  have hb := optimalBoundary_range l.w
  generalize hbb : min (optimalBoundary l.w) (Y.length + 1 - 1) = b
  have hb1 : 1 ≤ b := by omega
  have hb2 : b ≤ 13 := by omega
  have hb3 : b ≤ Y.length := by omega
  have hF : Y = Y.take (b - 1) ++ Y.drop (b - 1) := (List.take_append_drop ..).symm
  have hl1 : (Y.take (b - 1)).length = b - 1 := by rw [List.length_take]; omega
  have hl2 : (Y.drop (b - 1)).length = Y.length - (b - 1) := List.length_drop ..
  generalize Y.take (b - 1) = D at hF hl1
  generalize Y.drop (b - 1) = R at hF hl2
  cases R with
  | nil => simp at hl2; omega
  | cons e R =>
    obtain ⟨mid, c⟩ := e
    simp at hl2
    obtain ⟨kl, pl, fl⟩ := fill_lo (b := b) (mid := mid) (c := c) (T := keyed R ++ [(none, w)])
      (hi := Nd.new) (m := none) D [] (Nd.new : Nd K C) packed_new (by simp; omega)
      (by simp [numEntries]; omega)
    obtain ⟨kh, ph, fh⟩ := fill_hi (b := b) (u := w) (lo := ⟨kl, some c, false⟩)
      (m := some mid) R [] (Nd.new : Nd K C) packed_new (by simp [numEntries]; omega)
    rw [List.nil_append] at pl ph
    rw [hF] at hs
    obtain ⟨s1, s2, s3⟩ := List.pairwise_append.1 hs
    obtain ⟨s4, s5⟩ := List.pairwise_cons.1 s2
    obtain ⟨_, tl, _⟩ := wl_of_rel (pl.rel s1)
    obtain ⟨_, th, _⟩ := wl_of_rel (ph.rel s5)
    have tl : kl.toList = D := tl
    have th : kh.toList = R := th
    refine ⟨⟨kl, some c, false⟩, ⟨kh, some w, false⟩, mid, c, ?_, ?_, rfl, rfl, ?_, ?_⟩
    · unfold splitNd
      simp only []
      rw [he, List.length_append, List.length_singleton]
      rw [show (keyed Y).length = Y.length by simp [keyed], hbb, hF]
      have : keyed (D ++ (mid, c) :: R) ++ [(none, w)] = keyed D ++ (some mid, c) :: (keyed R ++ [(none, w)]) := by
        simp [keyed]
      rw [this]
      exact fl.trans fh
    · simp only []; rw [tl, th, hF]
    · simp only []; rw [tl]; exact fun e he => s3 e he _ (List.mem_cons_self ..)
    · simp only []; rw [th]; exact s4

/-- The insertion that found its leaf full, and perhaps all nodes above it, is retried once and succeeds. -/
theorem c37_retry {f : Nat} (hf : 2 ≤ f) (os : List (TOp K V)) (k : K) (v : V) :
    let x := ((Ix.new : Ix K V).calls f os).1
    x.peek k = none → (x.insert 2 k v).2 = some true := by
  have h := (calls_holds hf os (holds_new (K := K) (V := V))).1
  simp only []
  intro hk
  rw [Ix.peek_spec h.inv] at hk
  rcases (Ix.insert_spec h.inv k v 0).2 with ⟨_, h2, _⟩ | ⟨h2, _, _⟩
  · exact h2
  · rw [hk] at h2; cases h2

/-! ## Instances -/

/-- Fifteen keys in ascending order fill a leaf and split it; two are removed again, one of them by a
range, one key is inserted twice. -/
def sample : List (TOp Nat Nat) :=
  (List.range 15).map (fun i => .insert (i * 10) i) ++
    [.insert 30 99, .remove 30, .remove 30, .removeIf 40 (fun v => v == 5), .removeRange (.excl 40) (.incl 60),
      .peek 40, .peek 50, .peek 60, .peek 70]

set_option maxRecDepth 100000 in
/-- What the model returns for it (C31), the last nine results. -/
example : ((Ix.new : Ix Nat Nat).calls 2 sample).2.drop 15 =
    [some (.ins false), some (.rem true), some (.rem false), some (.rem false), some .unit,
      some (.val (some 4)), some (.val none), some (.val none), some (.val (some 7))] := by decide +kernel

set_option maxRecDepth 100000 in
/-- The tree has grown a second leaf; iteration (C32) and ranges with all kinds of bounds (C33). -/
example : let x := ((Ix.new : Ix Nat Nat).calls 2 sample).1
    x.depth = 1 ∧ (x.root.map (fun r => (leaves (r.1 + 1) r.2).length)) = some 2 ∧
    (x.iterCalls 13 none).map (fun e => e.map (fun e => e.1)) =
      [some 0, some 10, some 20, some 40, some 70, some 80, some 90, some 100, some 110, some 120, some 130,
        some 140, none] ∧
    (x.rangeCalls (.incl 20) (.excl 80) 20 4 Rng.new).map (fun r => r.map (fun e => e.map (fun e => e.1))) =
      [some (some 20), some (some 40), some (some 70), some none] ∧
    (x.rangeCalls (.excl 20) (.incl 70) 20 3 Rng.new).map (fun r => r.map (fun e => e.map (fun e => e.1))) =
      [some (some 40), some (some 70), some none] ∧
    x.rangeCalls (.incl 90) (.excl 20) 20 1 Rng.new = [some none] := by decide +kernel

set_option maxRecDepth 100000 in
/-- A key that is absent while its leaf is full (C37): the insertion splits the leaf. -/
example : let x := ((Ix.new : Ix Nat Nat).calls 2 ((List.range 14).map (fun i => .insert (i * 10) i))).1
    x.peek 55 = none ∧ (x.insert 1 55 0).2 = none ∧ (x.insert 2 55 0).2 = some true := by decide +kernel

/-- Twelve children with keys `10, 20, .., 120`. -/
def children : List (LOp Nat Nat) := (List.range 12).map (fun i => .insert ((i + 1) * 10) i)

set_option maxRecDepth 100000 in
/-- The hypotheses of `c37_node` can be met: the child with key `50` was split at `45`. -/
example : ∃ (A B : List (Nat × Nat)) (c : Nat), ((Leaf.new : Leaf Nat Nat).calls children).1.toList = A ++ (50, c) :: B ∧
    (A ++ (45, 100) :: (50, 101) :: B).map (fun e => e.1) = [10, 20, 30, 40, 45, 50, 60, 70, 80, 90, 100, 110, 120] :=
  ⟨[(10, 0), (20, 1), (30, 2), (40, 3)], [(60, 5), (70, 6), (80, 7), (90, 8), (100, 9), (110, 10), (120, 11)], 4,
    by decide +kernel, by decide +kernel⟩

end Scc.Tree
