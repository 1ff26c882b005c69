import Verif.Leaf.Split

/-!
# Properties of a TreeIndex leaf (C27, C28, and the leaf part of C37)
-/

namespace Scc.Leaf

open Spec (SLeaf Sorted)

variable {K V : Type} [KeyOrd K]

/-! ## C27: the metadata word -/

/-- Writing the state of a slot: the slot reads back what was written, every other slot and both flags
read what they read before. -/
theorem c27_slot_update (w : Word) {i x : Nat} (hi : i < numEntries) (hx : x < 16) :
    rank (augment w i x) i = x ∧ (∀ j, j ≠ i → rank (augment w i x) j = rank w j) ∧
    frozen (augment w i x) = frozen w ∧ retired (augment w i x) = retired w :=
  ⟨rank_augment_self w (by unfold numEntries at hi; omega) hx, fun _ h => rank_augment_ne w hx h,
    frozen_augment w hi hx, retired_augment w hi hx⟩

/-- The two single-instruction slot updates: clearing a slot and marking it removed. -/
theorem c27_clear_mark (w : Word) {i : Nat} (hi : i < numEntries) :
    rank (clearSlot w i) i = 0 ∧ rank (markRemoved w i) i = removed ∧
    (∀ j, j ≠ i → rank (clearSlot w i) j = rank w j ∧ rank (markRemoved w i) j = rank w j) ∧
    frozen (clearSlot w i) = frozen w ∧ frozen (markRemoved w i) = frozen w ∧
    retired (clearSlot w i) = retired w ∧ retired (markRemoved w i) = retired w := by
  rw [clearSlot_eq, markRemoved_eq]
  have h1 := c27_slot_update w hi (x := 0) (by decide)
  have h2 := c27_slot_update w hi (x := removed) (by decide)
  exact ⟨h1.1, h2.1, fun j h => ⟨h1.2.1 j h, h2.2.1 j h⟩, h1.2.2.1, h2.2.2.1, h1.2.2.2, h2.2.2.2⟩

/-- Flag updates touch neither the other flag nor any slot. -/
theorem c27_flags (w : Word) {i : Nat} (hi : i < numEntries) :
    frozen (freeze w) = true ∧ frozen (thaw w) = false ∧ retired (retire w) = true ∧
    retired (freeze w) = retired w ∧ retired (thaw w) = retired w ∧ frozen (retire w) = frozen w ∧
    rank (freeze w) i = rank w i ∧ rank (thaw w) i = rank w i ∧ rank (retire w) i = rank w i := by
  refine ⟨by simp, by simp, by simp, by simp, by simp, by simp, rank_freeze w hi, rank_thaw w hi,
    rank_retire w hi⟩

/-- The word can hold every combination of slot states and flags. -/
theorem c27_states_independent (f : Nat → Nat) (hf : ∀ i, i < numEntries → f i < 16) (a b : Bool) :
    ∃ w : Word, (∀ i, i < numEntries → rank w i = f i) ∧ frozen w = a ∧ retired w = b := by
  have key : ∀ n, n ≤ numEntries → ∃ w : Word, (∀ i, i < n → rank w i = f i) ∧ frozen w = a ∧
      retired w = b := by
    intro n
    induction n with
    | zero =>
      intro _
      refine ⟨(if b then retire else id) ((if a then freeze else id) 0#64), ?_, ?_, ?_⟩
      · intro i hi; cases hi
      · cases a <;> cases b <;> decide
      · cases a <;> cases b <;> decide
    | succ n ih =>
      intro hn
      obtain ⟨w, h1, h2, h3⟩ := ih (by omega)
      have hf' := hf n (by omega)
      have hu := c27_slot_update w (i := n) (by omega) hf'
      refine ⟨augment w n (f n), ?_, hu.2.2.1.trans h2, hu.2.2.2.trans h3⟩
      intro i hi
      rcases Nat.lt_succ_iff_lt_or_eq.1 hi with h | h
      · rw [hu.2.1 i (by omega)]; exact h1 i h
      · subst h; exact hu.1
  exact key numEntries (Nat.le_refl _)

example : rank (augment (augment (freeze 0#64) 3 15) 4 7) 3 = 15 ∧
    rank (augment (augment (freeze 0#64) 3 15) 4 7) 4 = 7 ∧
    frozen (augment (augment (freeze 0#64) 3 15) 4 7) = true ∧
    retired (augment (augment (freeze 0#64) 13 15) 13 7) = false := by decide +kernel

/-! ## C28: a leaf is a sorted map of bounded size -/

/-- The calls on a leaf. -/
inductive LOp (K V : Type) where
  | insert (k : K) (v : V)
  | remove (k : K) (cond : V → Bool)
  | removeRange (contains : K → Bool)
  | search (k : K)
  | below (k : K)
  | atLeast (k : K)
  | max
  | iter
  | isEmpty
  | freeze
  | thaw

/-- Their answers. -/
inductive LRes (K V : Type) where
  | ins (r : InsRes)
  | rem (r : RemRes)
  | entry (e : Option (K × V))
  | entries (es : List (K × V))
  | flag (b : Bool)
  | done

/-- A call on the modelled leaf. -/
def Leaf.call (l : Leaf K V) : LOp K V → Leaf K V × LRes K V
  | .insert k v => ((l.insert k v).1, .ins (l.insert k v).2)
  | .remove k c => ((l.removeIf k c).1, .rem (l.removeIf k c).2)
  | .removeRange c => (l.removeRange c, .done)
  | .search k => (l, .entry (l.search k))
  | .below k => (l, .entry (l.maxLessEntry k))
  | .atLeast k => (l, .entry (l.minGreaterEqual k))
  | .max => (l, .entry l.maxEntry)
  | .iter => (l, .entries l.toList)
  | .isEmpty => (l, .flag l.isEmpty)
  | .freeze => (l.freezeLeaf.1, .flag l.freezeLeaf.2)
  | .thaw => (l.thawLeaf.1, .flag l.thawLeaf.2)

/-- The same call on a sorted list with a slot budget of 14. -/
def Spec.SLeaf.call (s : SLeaf K V) : LOp K V → SLeaf K V × LRes K V
  | .insert k v => ((s.insert 14 k v).1, .ins (s.insert 14 k v).2)
  | .remove k c => ((s.removeIf k c).1, .rem (s.removeIf k c).2)
  | .removeRange c => (s.removeRange c, .done)
  | .search k => (s, .entry (Spec.get s.xs k))
  | .below k => (s, .entry (Spec.below s.xs k))
  | .atLeast k => (s, .entry (Spec.atLeast s.xs k))
  | .max => (s, .entry s.xs.getLast?)
  | .iter => (s, .entries s.xs)
  | .isEmpty => (s, .flag s.xs.isEmpty)
  | .freeze => ({ s with frozen := true }, .flag (!s.frozen))
  | .thaw => ({ s with frozen := false }, .flag s.frozen)

def Leaf.calls (l : Leaf K V) : List (LOp K V) → Leaf K V × List (LRes K V)
  | [] => (l, [])
  | o :: os => (((l.call o).1.calls os).1, (l.call o).2 :: ((l.call o).1.calls os).2)

def Spec.SLeaf.calls (s : SLeaf K V) : List (LOp K V) → SLeaf K V × List (LRes K V)
  | [] => (s, [])
  | o :: os => (((s.call o).1.calls os).1, (s.call o).2 :: ((s.call o).1.calls os).2)

theorem call_rel {l : Leaf K V} {s : SLeaf K V} (r : Rel l s) (o : LOp K V) :
    Rel (l.call o).1 (s.call o).1 ∧ (l.call o).2 = (s.call o).2 := by
  cases o with
  | insert k v =>
    have h := insert_rel r k v
    exact ⟨h.1, congrArg LRes.ins h.2⟩
  | remove k c =>
    have h := removeIf_rel r k c
    exact ⟨h.1, congrArg LRes.rem h.2⟩
  | removeRange c => exact ⟨removeRange_rel r c, rfl⟩
  | search k => exact ⟨r, congrArg LRes.entry (search_rel r k)⟩
  | below k => exact ⟨r, congrArg LRes.entry (maxLess_rel r k)⟩
  | atLeast k => exact ⟨r, congrArg LRes.entry (minGreaterEqual_rel r k)⟩
  | max => exact ⟨r, congrArg LRes.entry (maxEntry_rel r)⟩
  | iter => exact ⟨r, congrArg LRes.entries (toList_rel r)⟩
  | isEmpty => exact ⟨r, congrArg LRes.flag (isEmpty_rel r)⟩
  | freeze =>
    have h := freeze_rel r
    simp only [Leaf.call, Spec.SLeaf.call, Leaf.freezeLeaf, ← r.frz]
    cases hf : s.frozen with
    | true =>
      simp only [if_true]
      have : ({ s with frozen := true } : SLeaf K V) = s := by cases s; cases hf; rfl
      exact ⟨this ▸ r, rfl⟩
    | false => simp only [Bool.false_eq_true, if_false]; exact ⟨h, rfl⟩
  | thaw =>
    have h := thaw_rel r
    simp only [Leaf.call, Spec.SLeaf.call, Leaf.thawLeaf, ← r.frz]
    cases hf : s.frozen with
    | true => simp only [if_true]; exact ⟨h, trivial⟩
    | false =>
      simp only [Bool.false_eq_true, if_false]
      have : ({ s with frozen := false } : SLeaf K V) = s := by cases s; cases hf; rfl
      exact ⟨this ▸ r, trivial⟩

theorem calls_rel (os : List (LOp K V)) : ∀ {l : Leaf K V} {s : SLeaf K V}, Rel l s →
    Rel (l.calls os).1 (s.calls os).1 ∧ (l.calls os).2 = (s.calls os).2 := by
  induction os with
  | nil => intro l s r; exact ⟨r, rfl⟩
  | cons o os ih =>
    intro l s r
    have h := call_rel r o
    have h2 := ih h.1
    exact ⟨h2.1, by simp only [Leaf.calls, Spec.SLeaf.calls]; rw [h.2, h2.2]⟩

/-- Whatever calls are made on a new leaf, each answers what a sorted list with a budget of fourteen
slots answers. -/
theorem c28_leaf_refines_sorted_map (os : List (LOp K V)) :
    ((Leaf.new : Leaf K V).calls os).2 = ((SLeaf.new : SLeaf K V).calls os).2 :=
  (calls_rel os rel_new).2

/-- The list stays sorted, within the budget, and a retired leaf holds nothing. -/
theorem c28_leaf_sorted_bounded (os : List (LOp K V)) :
    let l := ((Leaf.new : Leaf K V).calls os).1
    Sorted l.toList ∧ l.toList.length ≤ 14 ∧ (retired l.w = true → l.toList = []) := by
  have r := (calls_rel os (rel_new (K := K) (V := V))).1
  simp only []
  rw [toList_rel r]
  refine ⟨r.sorted, ?_, ?_⟩
  · have h1 := r.length_le
    have h2 := used_le ((Leaf.new : Leaf K V).calls os).1.w
    have h3 := r.used
    unfold numEntries at h2; omega
  · intro h
    generalize hx : ((SLeaf.new : SLeaf K V).calls os).1.xs = xs
    cases xs with
    | nil => rfl
    | cons e es =>
      have : e ∈ ((SLeaf.new : SLeaf K V).calls os).1.xs := by rw [hx]; exact List.mem_cons_self ..
      obtain ⟨i, hi, hr, _⟩ := (r.mem e).1 this
      exact absurd hr (r.ok.ret h i hi)

/-- What an insertion into a leaf that can arise does: it answers `Full` only if every one of the
fourteen slots has been used and the key is absent, `Duplicate` only if the key is present, and on
success the entries are the old ones and the new one. -/
theorem c28_insert (os : List (LOp K V)) (k : K) (v : V) :
    let l := ((Leaf.new : Leaf K V).calls os).1
    let l' := (l.insert k v).1
    match (l.insert k v).2 with
    | .success => (∀ e ∈ l.toList, e.1 ≠ k) ∧ ∀ e, e ∈ l'.toList ↔ e ∈ l.toList ∨ e = (k, v)
    | .duplicate => (∃ e ∈ l.toList, e.1 = k) ∧ l'.toList = l.toList
    | .full => freeSlot l.w = none ∧ (∀ e ∈ l.toList, e.1 ≠ k) ∧ l'.toList = l.toList
    | .frozen => frozen l.w = true ∧ l'.toList = l.toList
    | .retired => retired l.w = true ∧ l'.toList = l.toList := by
  simp only []
  have r := (calls_rel os (rel_new (K := K) (V := V))).1
  generalize ((Leaf.new : Leaf K V).calls os).1 = l at r
  generalize ((SLeaf.new : SLeaf K V).calls os).1 = s at r
  have h := insert_rel r k v
  rw [h.2, toList_rel r, toList_rel h.1]
  unfold SLeaf.insert
  by_cases h1 : s.retired = true
  · simp only [if_pos h1]; exact ⟨by rw [← r.ret]; exact h1, trivial⟩
  simp only [if_neg h1]
  by_cases h2 : s.frozen = true
  · simp only [if_pos h2]; exact ⟨by rw [← r.frz]; exact h2, trivial⟩
  simp only [if_neg h2]
  by_cases h3 : (Spec.get s.xs k).isSome = true
  · simp only [if_pos h3]
    obtain ⟨e, he⟩ := Option.isSome_iff_exists.1 h3
    obtain ⟨h4, h5⟩ := get_some he
    exact ⟨⟨e, h4, h5⟩, trivial⟩
  simp only [if_neg h3]
  have hn : Spec.get s.xs k = none := by
    cases h : Spec.get s.xs k with
    | none => rfl
    | some e => rw [h] at h3; simp at h3
  by_cases h4 : s.used < numEntries
  · simp only [if_pos h4]
    exact ⟨get_none hn, fun e => mem_put (get_none hn)⟩
  · simp only [if_neg h4]
    refine ⟨?_, get_none hn, trivial⟩
    have hfu := freeSlot_used (w := l.w)
    cases hf : freeSlot l.w with
    | none => rfl
    | some i =>
      rw [hf] at hfu
      have := hfu.1 rfl
      rw [r.used] at h4; exact absurd this h4

/-- Sixteen insertions in scrambled order, with one removal in between: the slots run out at the
fifteenth entry, the order is the key order, the removed key is gone and its slot is not reused. -/
def sampleCalls : List (LOp Nat Nat) :=
  ([9, 3, 12, 5, 1, 14, 7, 2, 11, 4, 13, 6, 8].map (fun k => LOp.insert k (k * k))) ++
    [.remove 12 (fun v => v == 144), .insert 12 0, .insert 10 0, .insert 5 1, .search 9, .search 10,
     .below 9, .atLeast 10, .max, .iter]

set_option maxRecDepth 100000 in
example : (((SLeaf.new : SLeaf Nat Nat).calls sampleCalls).2.drop 13).map (fun
    | .ins r => (1, match r with | .success => 0 | .duplicate => 1 | .full => 2 | .frozen => 3 | .retired => 4, 0)
    | .rem r => (2, match r with | .success => 0 | .fail => 1 | .frozen => 2 | .retired => 3, 0)
    | .entry e => (3, (e.map (·.1)).getD 99, (e.map (·.2)).getD 99)
    | .entries es => (4, es.length, ((es.map (·.1)).foldl (fun a k => a * 16 + k) 0))
    | .flag _ => (5, 0, 0)
    | .done => (6, 0, 0)) =
  [(2, 0, 0), (1, 0, 0), (1, 2, 0), (1, 1, 0), (3, 9, 81), (3, 99, 99), (3, 8, 64), (3, 11, 121),
    (3, 14, 196), (4, 13, 0x1234567_89bcde)] := by decide +kernel

/-! ## C37, leaf part: splitting -/

/-- The split point of any leaf lies strictly inside. -/
theorem c37_boundary (w : Word) : 1 ≤ optimalBoundary w ∧ optimalBoundary w ≤ 13 :=
  optimalBoundary_range w

/-- Distributing a leaf that can arise keeps every entry, in order, and puts the smaller keys in the
low part; both new leaves are unfrozen, unretired and use one slot per entry. -/
theorem c37_distribute (os : List (LOp K V)) :
    let l := ((Leaf.new : Leaf K V).calls os).1
    let d := (l.freezeAndDistribute).2
    d.1.toList ++ (d.2.elim [] Leaf.toList) = l.toList ∧
    (∀ a ∈ d.1.toList, ∀ b ∈ d.2.elim [] Leaf.toList, KeyOrd.lt a.1 b.1) ∧
    Rel d.1 (SLeaf.packed d.1.toList) ∧ (∀ h, d.2 = some h → Rel h (SLeaf.packed h.toList) ∧ h.toList ≠ []) ∧
    d.1.toList.length ≤ 13 := by
  simp only []
  have r := (calls_rel os (rel_new (K := K) (V := V))).1
  generalize ((Leaf.new : Leaf K V).calls os).1 = l at r
  generalize ((SLeaf.new : SLeaf K V).calls os).1 = s at r
  have hb := optimalBoundary_range l.w
  have h := distribute_rel r (optimalBoundary l.w) (by unfold numEntries; omega)
  unfold Leaf.freezeAndDistribute
  simp only []
  generalize distribute (optimalBoundary l.w) 0 l.toList Leaf.new none = d at h
  obtain ⟨lo, hi⟩ := d
  simp only [] at h ⊢
  obtain ⟨h1, h2⟩ := h
  have hlo : lo.toList = s.xs.take (optimalBoundary l.w) := toList_rel h1
  have hlen : lo.toList.length ≤ 13 := by rw [hlo, List.length_take]; omega
  rw [toList_rel r]
  cases hi with
  | none =>
    simp only [] at h2
    simp only [Option.elim]
    refine ⟨?_, ?_, ?_, ?_, hlen⟩
    · rw [List.append_nil, hlo, List.take_of_length_le h2]
    · intro a _ b hb; cases hb
    · rw [hlo]; exact h1
    · intro h hh; cases hh
  | some x =>
    simp only [] at h2
    simp only [Option.elim]
    have hx : x.toList = s.xs.drop (optimalBoundary l.w) := toList_rel h2.2
    refine ⟨?_, ?_, ?_, ?_, hlen⟩
    · rw [hlo, hx, List.take_append_drop]
    · intro a ha b hb
      rw [hlo] at ha; rw [hx] at hb
      have := r.sorted
      unfold Sorted at this
      rw [← List.take_append_drop (optimalBoundary l.w) s.xs] at this
      exact (List.pairwise_append.1 this).2.2 a ha b hb
    · rw [hlo]; exact h1
    · intro h hh
      cases hh
      rw [hx]
      refine ⟨h2.2, ?_⟩
      intro hnil
      rw [List.drop_eq_nil_iff] at hnil
      omega

/-- A leaf with fourteen live entries splits into two non-empty leaves, each with a free slot, so that
the insertion that found it full succeeds in whichever part is responsible for its key. -/
theorem c37_split_full (os : List (LOp K V)) (k : K) (v : V) :
    let l := ((Leaf.new : Leaf K V).calls os).1
    l.toList.length = 14 → (∀ e ∈ l.toList, e.1 ≠ k) →
    ∃ lo hi, (l.freezeAndDistribute).2 = (lo, some hi) ∧ lo.toList ≠ [] ∧ hi.toList ≠ [] ∧
      (lo.insert k v).2 = .success ∧ (hi.insert k v).2 = .success := by
  simp only []
  intro hlen hk
  have r := (calls_rel os (rel_new (K := K) (V := V))).1
  have hd := c37_distribute (K := K) (V := V) os
  simp only [] at hd
  generalize ((Leaf.new : Leaf K V).calls os).1 = l at *
  generalize ((SLeaf.new : SLeaf K V).calls os).1 = s at r
  rcases hp : (l.freezeAndDistribute).2 with ⟨lo, hi⟩
  rw [hp] at hd
  simp only [] at hd
  obtain ⟨h1, h2, h3, h4, h5⟩ := hd
  have hb := optimalBoundary_range l.w
  have hlo : lo.toList.length = optimalBoundary l.w := by
    have h := (distribute_rel r (optimalBoundary l.w) (by unfold numEntries; omega)).1
    have : (distribute (optimalBoundary l.w) 0 l.toList Leaf.new none).1 = lo := by
      have : (l.freezeAndDistribute).2.1 = lo := by rw [hp]
      exact this
    rw [this] at h
    rw [toList_rel h]
    show (s.xs.take _).length = _
    rw [List.length_take, ← toList_rel r, hlen]; omega
  cases hi with
  | none =>
    simp only [Option.elim, List.append_nil] at h1
    rw [h1] at hlo; omega
  | some x =>
    simp only [Option.elim] at h1
    obtain ⟨h6, h7⟩ := h4 x rfl
    have hxl : x.toList.length + lo.toList.length = 14 := by
      rw [← hlen, ← h1, List.length_append]; omega
    have sub : ∀ ys : List (K × V), (∀ e ∈ ys, e ∈ l.toList) → ys.length < 14 →
        ((SLeaf.packed ys).insert numEntries k v).2 = .success := by
      intro ys hsub hl
      unfold SLeaf.insert SLeaf.packed
      simp only [Bool.false_eq_true, if_false]
      have hg : Spec.get ys k = none := by
        cases h : Spec.get ys k with
        | none => rfl
        | some e =>
          obtain ⟨a, b⟩ := get_some h
          exact absurd b (hk e (hsub e a))
      simp only [hg]
      rw [if_neg (by simp), if_pos (by unfold numEntries; exact hl)]
    refine ⟨lo, x, rfl, ?_, h7, ?_, ?_⟩
    · intro h; rw [h] at hlo; simp at hlo; omega
    · rw [(insert_rel h3 k v).2]
      exact sub _ (fun e he => by rw [← h1]; exact List.mem_append_left _ he) (by omega)
    · rw [(insert_rel h6 k v).2]
      exact sub _ (fun e he => by rw [← h1]; exact List.mem_append_right _ he) (by omega)

/-- A full leaf filled in ascending order: the high part is small, so that ascending insertions keep
finding room. -/
def ascending : List (LOp Nat Nat) := (List.range 14).map (fun i => .insert (i * 10) i)

set_option maxRecDepth 100000 in
example : let l := ((Leaf.new : Leaf Nat Nat).calls ascending).1
    l.toList.length = 14 ∧ (∀ e ∈ l.toList, e.1 ≠ 55) ∧
    (l.freezeAndDistribute).2.1.toList.map (·.1) = [0, 10, 20, 30, 40, 50, 60, 70, 80, 90, 100, 110, 120] ∧
    (l.freezeAndDistribute).2.2.map (fun h => h.toList.map (·.1)) = some [130] := by decide +kernel

end Scc.Leaf
