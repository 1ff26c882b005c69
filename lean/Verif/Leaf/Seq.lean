import Verif.Leaf.Ok

/-!
# A leaf used by one thread refines the specification
-/

set_option linter.unusedSimpArgs false

namespace Scc.Leaf

open Spec (SLeaf Sorted)

variable {K V : Type} [KeyOrd K]

/-! ## Sorted lists -/

theorem sorted_head {a : K × V} {xs : List (K × V)} (h : Sorted (a :: xs)) :
    ∀ e ∈ xs, KeyOrd.lt a.1 e.1 := (List.pairwise_cons.1 h).1

theorem sorted_tail {a : K × V} {xs : List (K × V)} (h : Sorted (a :: xs)) : Sorted xs :=
  (List.pairwise_cons.1 h).2

theorem sorted_ext : ∀ {xs ys : List (K × V)}, Sorted xs → Sorted ys → (∀ e, e ∈ xs ↔ e ∈ ys) → xs = ys
  | [], [], _, _, _ => rfl
  | [], b :: ys, _, _, h => absurd ((h b).2 (List.mem_cons_self ..)) (by simp)
  | a :: xs, [], _, _, h => absurd ((h a).1 (List.mem_cons_self ..)) (by simp)
  | a :: xs, b :: ys, hx, hy, h => by
    have hab : a = b := by
      rcases List.mem_cons.1 ((h a).1 (List.mem_cons_self ..)) with e | e
      · exact e
      · rcases List.mem_cons.1 ((h b).2 (List.mem_cons_self ..)) with e' | e'
        · exact e'.symm
        · exact absurd (sorted_head hx b e') (lt_asymm (sorted_head hy a e))
    subst hab
    congr 1
    refine sorted_ext (sorted_tail hx) (sorted_tail hy) ?_
    intro e
    have he := h e
    constructor
    · intro h1
      rcases List.mem_cons.1 (he.1 (List.mem_cons_of_mem _ h1)) with e1 | e1
      · subst e1; exact absurd (sorted_head hx e h1) (KeyOrd.irrefl _)
      · exact e1
    · intro h1
      rcases List.mem_cons.1 (he.2 (List.mem_cons_of_mem _ h1)) with e1 | e1
      · subst e1; exact absurd (sorted_head hy e h1) (KeyOrd.irrefl _)
      · exact e1

theorem sorted_key_inj {xs : List (K × V)} (h : Sorted xs) {a b : K × V} (ha : a ∈ xs) (hb : b ∈ xs)
    (e : a.1 = b.1) : a = b := by
  induction xs with
  | nil => cases ha
  | cons x xs ih =>
    rcases List.mem_cons.1 ha with h1 | h1 <;> rcases List.mem_cons.1 hb with h2 | h2
    · rw [h1, h2]
    · subst h1; have := sorted_head h b h2; rw [e] at this; exact absurd this (KeyOrd.irrefl _)
    · subst h2; have := sorted_head h a h1; rw [e] at this; exact absurd this (KeyOrd.irrefl _)
    · exact ih (sorted_tail h) h1 h2

theorem get_some {xs : List (K × V)} {k : K} {e : K × V} (h : Spec.get xs k = some e) :
    e ∈ xs ∧ e.1 = k := by
  unfold Spec.get at h
  have h1 := List.mem_of_find?_eq_some h
  have h2 := List.find?_some h
  simp at h2
  exact ⟨h1, eq_of_not_lt h2.1 h2.2⟩

theorem get_none {xs : List (K × V)} {k : K} (h : Spec.get xs k = none) : ∀ e ∈ xs, e.1 ≠ k := by
  unfold Spec.get at h
  rw [List.find?_eq_none] at h
  intro e he hk
  have := h e he
  rw [hk] at this
  simp [KeyOrd.irrefl] at this

theorem get_iff {xs : List (K × V)} (hs : Sorted xs) {k : K} {e : K × V} :
    Spec.get xs k = some e ↔ e ∈ xs ∧ e.1 = k := by
  constructor
  · exact get_some
  · rintro ⟨h1, h2⟩
    cases h : Spec.get xs k with
    | none => exact absurd h2 (get_none h e h1)
    | some e' =>
      obtain ⟨h3, h4⟩ := get_some h
      rw [sorted_key_inj hs h3 h1 (h4.trans h2.symm)]

theorem atLeast_none {xs : List (K × V)} {k : K} : Spec.atLeast xs k = none ↔ ∀ e ∈ xs, KeyOrd.lt e.1 k := by
  unfold Spec.atLeast
  rw [List.find?_eq_none]
  simp

theorem atLeast_iff {xs : List (K × V)} (hs : Sorted xs) {k : K} {e : K × V} :
    Spec.atLeast xs k = some e ↔ e ∈ xs ∧ ¬ KeyOrd.lt e.1 k ∧
      ∀ e' ∈ xs, ¬ KeyOrd.lt e'.1 k → ¬ KeyOrd.lt e'.1 e.1 := by
  induction xs with
  | nil => simp [Spec.atLeast]
  | cons x xs ih =>
    unfold Spec.atLeast at ih ⊢
    rw [List.find?_cons]
    by_cases hx : KeyOrd.lt x.1 k
    · simp only [hx, decide_true, Bool.not_true]
      rw [ih (sorted_tail hs)]
      constructor
      · rintro ⟨h1, h2, h3⟩
        refine ⟨List.mem_cons_of_mem _ h1, h2, ?_⟩
        intro e' he' hk
        rcases List.mem_cons.1 he' with h4 | h4
        · subst h4; exact absurd hx hk
        · exact h3 e' h4 hk
      · rintro ⟨h1, h2, h3⟩
        rcases List.mem_cons.1 h1 with h4 | h4
        · subst h4; exact absurd hx h2
        · exact ⟨h4, h2, fun e' he' => h3 e' (List.mem_cons_of_mem _ he')⟩
    · simp only [hx, decide_false, Bool.not_false, Option.some.injEq]
      constructor
      · intro h; subst h
        refine ⟨List.mem_cons_self .., hx, ?_⟩
        intro e' he' _
        rcases List.mem_cons.1 he' with h4 | h4
        · subst h4; exact KeyOrd.irrefl _
        · exact lt_asymm (sorted_head hs e' h4)
      · rintro ⟨h1, h2, h3⟩
        rcases List.mem_cons.1 h1 with h4 | h4
        · exact h4.symm
        · exact absurd (sorted_head hs e h4) (h3 x (List.mem_cons_self ..) hx)

theorem sorted_getLast {xs : List (K × V)} (hs : Sorted xs) {e : K × V} :
    xs.getLast? = some e ↔ e ∈ xs ∧ ∀ e' ∈ xs, ¬ KeyOrd.lt e.1 e'.1 := by
  induction xs with
  | nil => simp
  | cons x xs ih =>
    cases xs with
    | nil =>
      simp only [List.getLast?_singleton, Option.some.injEq, List.mem_singleton]
      constructor
      · intro h; subst h; exact ⟨rfl, fun e' h => by subst h; exact KeyOrd.irrefl _⟩
      · intro h; exact h.1.symm
    | cons y ys =>
      rw [List.getLast?_cons_cons, ih (sorted_tail hs)]
      constructor
      · rintro ⟨h1, h2⟩
        refine ⟨List.mem_cons_of_mem _ h1, ?_⟩
        intro e' he'
        rcases List.mem_cons.1 he' with h3 | h3
        · subst h3; exact lt_asymm (sorted_head hs e h1)
        · exact h2 e' h3
      · rintro ⟨h1, h2⟩
        rcases List.mem_cons.1 h1 with h3 | h3
        · subst h3
          exact absurd (sorted_head hs y (List.mem_cons_self ..))
            (h2 y (List.mem_cons_of_mem _ (List.mem_cons_self ..)))
        · exact ⟨h3, fun e' he' => h2 e' (List.mem_cons_of_mem _ he')⟩

theorem sorted_filter {xs : List (K × V)} (hs : Sorted xs) (p : K × V → Bool) : Sorted (xs.filter p) :=
  List.Pairwise.filter p hs

theorem mem_put {xs : List (K × V)} {k : K} {v : V} (h : ∀ e ∈ xs, e.1 ≠ k) {e : K × V} :
    e ∈ Spec.put xs k v ↔ e ∈ xs ∨ e = (k, v) := by
  unfold Spec.put
  simp only [List.mem_append, List.mem_cons, List.mem_filter, decide_eq_true_eq]
  constructor
  · rintro (h1 | h1 | h1)
    · exact .inl h1.1
    · exact .inr h1
    · exact .inl h1.1
  · rintro (h1 | h1)
    · rcases KeyOrd.tri e.1 k with h2 | h2 | h2
      · exact .inl ⟨h1, h2⟩
      · exact absurd h2 (h e h1)
      · exact .inr (.inr ⟨h1, h2⟩)
    · exact .inr (.inl h1)

theorem sorted_put {xs : List (K × V)} (hs : Sorted xs) (k : K) (v : V) : Sorted (Spec.put xs k v) := by
  unfold Spec.put
  refine List.pairwise_append.2 ⟨sorted_filter hs _, List.pairwise_cons.2 ⟨?_, sorted_filter hs _⟩, ?_⟩
  · intro e he
    exact of_decide_eq_true (List.mem_filter.1 he).2
  · intro a ha b hb
    have h1 := of_decide_eq_true (List.mem_filter.1 ha).2
    rcases List.mem_cons.1 hb with h2 | h2
    · subst h2; exact h1
    · exact KeyOrd.trans _ _ _ h1 (of_decide_eq_true (List.mem_filter.1 h2).2)

theorem mem_del {xs : List (K × V)} {k : K} {e : K × V} : e ∈ Spec.del xs k ↔ e ∈ xs ∧ e.1 ≠ k := by
  unfold Spec.del
  simp only [List.mem_filter, Bool.or_eq_true, decide_eq_true_eq]
  constructor
  · rintro ⟨h1, h2⟩
    refine ⟨h1, ?_⟩
    intro h; rw [h] at h2
    rcases h2 with h2 | h2 <;> exact KeyOrd.irrefl _ h2
  · rintro ⟨h1, h2⟩
    refine ⟨h1, ?_⟩
    rcases KeyOrd.tri e.1 k with h | h | h
    · exact .inl h
    · exact absurd h h2
    · exact .inr h

/-! ## The refinement relation -/

/-- The leaf `l`, not in use by anybody else, stands for `s`. -/
structure Rel (l : Leaf K V) (s : SLeaf K V) : Prop where
  ok : Ok l (fun _ => false)
  sorted : Sorted s.xs
  mem : ∀ e, e ∈ s.xs ↔ Holds l e
  used : s.used = used l.w
  frz : s.frozen = frozen l.w
  ret : s.retired = retired l.w

/-- What can be read from a leaf, or from a leaf as it was when its word was loaded. -/
structure View (l : Leaf K V) (xs : List (K × V)) : Prop where
  ord : Ordered l.w l.entry
  sorted : Sorted xs
  mem : ∀ e, e ∈ xs ↔ Holds l e

theorem Rel.view {l : Leaf K V} {s : SLeaf K V} (r : Rel l s) : View l s.xs := ⟨r.ok.ord, r.sorted, r.mem⟩

theorem rel_new : Rel (Leaf.new : Leaf K V) SLeaf.new := by
  refine ⟨ok_new, List.Pairwise.nil, ?_, ?_, ?_, ?_⟩
  · intro e
    simp only [SLeaf.new, List.not_mem_nil, false_iff]
    rintro ⟨i, _, h, _⟩
    simp [Ranked, Leaf.new] at h
  · show 0 = cnt _
    have : cnt (fun i => rank (Leaf.new : Leaf K V).w i != 0) = cnt (fun _ => false) :=
      cnt_congr (fun i _ => by simp [Leaf.new])
    rw [this]; decide
  · show false = frozen 0#64
    decide
  · show false = retired 0#64
    decide

theorem View.search {l : Leaf K V} {xs : List (K × V)} (r : View l xs) (k : K) : l.search k = Spec.get xs k := by
  unfold Leaf.search
  cases h : l.searchSlot k l.w with
  | some i =>
    obtain ⟨h1, h2, v, h3⟩ := searchSlot_some r.ord h
    rw [Option.bind_some, h3, eq_comm, get_iff r.sorted]
    exact ⟨(r.mem _).2 ⟨i, h1, h2, h3⟩, rfl⟩
  | none =>
    have h' := searchSlot_none r.ord h
    rw [Option.bind_none]
    cases hg : Spec.get xs k with
    | none => rfl
    | some e =>
      obtain ⟨h1, h2⟩ := get_some hg
      obtain ⟨i, h3, h4, h5⟩ := (r.mem e).1 h1
      exact absurd h2 (h' i e h3 h4 h5)

theorem search_rel {l : Leaf K V} {s : SLeaf K V} (r : Rel l s) (k : K) : l.search k = Spec.get s.xs k :=
  r.view.search k

theorem View.searchSlot {l : Leaf K V} {xs : List (K × V)} (r : View l xs) (k : K) :
    (l.searchSlot k l.w).isSome = (Spec.get xs k).isSome := by
  rw [← r.search k]
  unfold Leaf.search
  cases h : l.searchSlot k l.w with
  | none => rfl
  | some i =>
    obtain ⟨_, _, v, h3⟩ := searchSlot_some r.ord h
    simp [h3]

theorem searchSlot_isSome {l : Leaf K V} {s : SLeaf K V} (r : Rel l s) (k : K) :
    (l.searchSlot k l.w).isSome = (Spec.get s.xs k).isSome :=
  r.view.searchSlot k

theorem insert_rel {l : Leaf K V} {s : SLeaf K V} (r : Rel l s) (k : K) (v : V) :
    Rel (l.insert k v).1 (s.insert numEntries k v).1 ∧ (l.insert k v).2 = (s.insert numEntries k v).2 := by
  unfold Leaf.insert SLeaf.insert
  rw [r.ret, r.frz]
  by_cases hret : retired l.w = true
  · simp only [if_pos hret]; exact ⟨r, trivial⟩
  simp only [if_neg hret]
  by_cases hfrz : frozen l.w = true
  · simp only [if_pos hfrz]; exact ⟨r, trivial⟩
  simp only [if_neg hfrz]
  have hret' : retired l.w = false := by simpa using hret
  have hfrz' : frozen l.w = false := by simpa using hfrz
  cases hfree : freeSlot l.w with
  | none =>
    simp only []
    have hu : ¬ s.used < numEntries := by
      rw [r.used, ← freeSlot_used, hfree]; simp
    rw [searchSlot_isSome r k]
    by_cases hg : (Spec.get s.xs k).isSome = true
    · rw [if_pos hg, if_pos hg]; exact ⟨r, rfl⟩
    · rw [if_neg hg, if_neg hg, if_neg hu]; exact ⟨r, rfl⟩
  | some i =>
    simp only []
    obtain ⟨hi, h0⟩ := freeSlot_some hfree
    have hu : s.used < numEntries := by
      rw [r.used, ← freeSlot_used, hfree]; simp
    obtain ⟨o1, hR1⟩ := r.ok.reserve hi h0
    have o2 := o1.write (i := i) (by simp) k v
    generalize hl' : ({ l with w := augment l.w i removed } : Leaf K V).write i k v = l' at *
    have hw' : l'.w = augment l.w i removed := by rw [← hl']; rfl
    have hent : l'.entry i = some (k, v) := by rw [← hl']; simp [Leaf.write]
    have hent' : ∀ j, j ≠ i → l'.entry j = l.entry j := by
      intro j hj; rw [← hl']; simp [Leaf.write, hj]
    have hnr : ¬ Ranked l.w i := by intro h; have := h.1; omega
    have hholds : ∀ e, (∃ j, j < numEntries ∧ Ranked l'.w j ∧ l'.entry j = some e) ↔ Holds l e := by
      intro e
      constructor
      · rintro ⟨j, h1, h2, h3⟩
        rw [hw'] at h2
        have h2' := (hR1 j h1).1 h2
        refine ⟨j, h1, h2', ?_⟩
        rw [← hent' j (by intro e; subst e; exact hnr h2')]; exact h3
      · rintro ⟨j, h1, h2, h3⟩
        refine ⟨j, h1, by rw [hw']; exact (hR1 j h1).2 h2, ?_⟩
        rw [hent' j (by intro e; subst e; exact hnr h2)]; exact h3
    have hfr : frozen l'.w = false := by rw [hw', frozen_augment _ hi (by decide), hfrz']
    have hrt : retired l'.w = false := by rw [hw', retired_augment _ hi (by decide), hret']
    have hP0 : (fun j => j != i && (j == i || false)) = (fun _ => false) := by
      funext j
      by_cases e : j = i
      · simp [e]
      · simp [e]
    cases hp : l'.postWord k i l'.w with
    | none =>
      simp only []
      obtain ⟨j, v', h1, h2, h3⟩ := postWord_none o2.ord (o2.rank_small (i := i) (by simp)) hp
      have hin : (k, v') ∈ s.xs := (r.mem _).2 ((hholds _).1 ⟨j, h1, h2, h3⟩)
      have hg : (Spec.get s.xs k).isSome = true := by
        rw [(get_iff r.sorted).2 ⟨hin, rfl⟩]; rfl
      rw [if_pos hg]
      obtain ⟨o3, hR3⟩ := o2.rollback (i := i) (by simp)
      rw [hP0] at o3
      have hcf : frozen (clearSlot l'.w i) = false := by
        rw [clearSlot_eq, frozen_augment _ hi (by omega), hfr]
      have hcr : retired (clearSlot l'.w i) = false := by
        rw [clearSlot_eq, retired_augment _ hi (by omega), hrt]
      refine ⟨⟨o3, r.sorted, ?_, ?_, ?_, ?_⟩, ?_⟩
      · intro e
        rw [r.mem, ← hholds]
        constructor
        · rintro ⟨j, h1, h2, h3⟩; exact ⟨j, h1, (hR3 j h1).2 h2, h3⟩
        · rintro ⟨j, h1, h2, h3⟩; exact ⟨j, h1, (hR3 j h1).1 h2, h3⟩
      · rw [r.used]
        apply cnt_congr
        intro j hj
        show _ = (rank (clearSlot l'.w i) j != 0)
        rw [clearSlot_eq]
        by_cases e : j = i
        · subst e
          rw [rank_augment_self _ (by unfold numEntries at hj; omega) (by omega), h0]
        · rw [rank_augment_ne _ (by omega) e, hw', rank_augment_ne _ (by decide) e]
      · show s.frozen = frozen (clearSlot l'.w i)
        rw [hcf, r.frz, hfrz']
      · show s.retired = retired (clearSlot l'.w i)
        rw [hcr, r.ret, hret']
      · unfold rollbackRes; rw [hcf, hcr]; rfl
    | some w' =>
      simp only []
      have hb := o2.rank_small (i := i) (by simp)
      obtain ⟨hne, hbump, hslot, -, -, -, hf', ht'⟩ := postWord_some o2.ord hb hi hp
      obtain ⟨o3, hR3⟩ := o2.finish (i := i) (by simp) hent hrt hp
      rw [hP0] at o3
      have hg : ¬ (Spec.get s.xs k).isSome = true := by
        intro h
        obtain ⟨e, he⟩ := Option.isSome_iff_exists.1 h
        obtain ⟨h1, h2⟩ := get_some he
        obtain ⟨j, h3, h4, h5⟩ := (hholds e).2 ((r.mem e).1 h1)
        exact hne j e h3 h4 h5 h2
      rw [if_neg hg, if_pos hu]
      have hnone : Spec.get s.xs k = none := by
        cases h : Spec.get s.xs k with
        | none => rfl
        | some e => rw [h] at hg; simp at hg
      refine ⟨⟨o3, sorted_put r.sorted k v, ?_, ?_, ?_, ?_⟩, rfl⟩
      · intro e
        rw [mem_put (get_none hnone), r.mem, ← hholds]
        constructor
        · rintro (⟨j, h1, h2, h3⟩ | h)
          · exact ⟨j, h1, (hR3 j h1).2 (.inl h2), h3⟩
          · subst h; exact ⟨i, hi, (hR3 i hi).2 (.inr rfl), hent⟩
        · rintro ⟨j, h1, h2, h3⟩
          rcases (hR3 j h1).1 h2 with h4 | h4
          · exact .inl ⟨j, h1, h4, h3⟩
          · subst h4; right
            simp only [] at h3
            rw [hent] at h3; cases h3; rfl
      · show s.used + 1 = Scc.Leaf.used w'
        rw [r.used]
        symm
        apply cnt_add hi
        · simp [h0]
        · have := hslot.1; simp; omega
        · intro j hj hji
          have hz : rank w' j = 0 ↔ rank l.w j = 0 := by
            rw [hbump j hj hji]
            have e2 : rank l'.w j = rank l.w j := by
              rw [hw', rank_augment_ne _ (by decide) hji]
            unfold bump
            split
            · split
              · rename_i hc; have := hc.1.1; omega
              · rw [e2]
            · rw [e2]
          rw [Bool.eq_iff_iff]; simp [hz]
      · show frozen l.w = frozen w'
        rw [hf', hfr, hfrz']
      · show retired l.w = retired w'
        rw [ht', hrt, hret']

theorem removeIf_rel {l : Leaf K V} {s : SLeaf K V} (r : Rel l s) (k : K) (c : V → Bool) :
    Rel (l.removeIf k c).1 (s.removeIf k c).1 ∧ (l.removeIf k c).2 = (s.removeIf k c).2 := by
  unfold Leaf.removeIf SLeaf.removeIf
  rw [r.frz]
  by_cases hfrz : frozen l.w = true
  · simp only [if_pos hfrz]; exact ⟨r, trivial⟩
  simp only [if_neg hfrz]
  have hfrz' : frozen l.w = false := by simpa using hfrz
  have hss : (loop (l.scanBody k) l.w Scan.start).eq = l.searchSlot k l.w := rfl
  rw [hss, ← search_rel r k]
  unfold Leaf.search
  cases h : l.searchSlot k l.w with
  | none => simp only [Option.bind_none]; exact ⟨r, trivial⟩
  | some i =>
    obtain ⟨hi, hr, v, he⟩ := searchSlot_some r.ok.ord h
    simp only [Option.bind_some, he]
    by_cases hc : (!c v) = true
    · simp only [if_pos hc]; exact ⟨r, trivial⟩
    simp only [if_neg hc]
    obtain ⟨o, hR⟩ := r.ok.remove hi hr
    have hH : ∀ e, Holds { l with w := removeWord l.w i } e ↔ e ∈ Spec.del s.xs k := by
      intro e
      rw [mem_del, r.mem]
      constructor
      · rintro ⟨j, h1, h2, h3⟩
        have h4 := (hR j h1).1 h2
        refine ⟨⟨j, h1, h4.1, h3⟩, ?_⟩
        intro hk
        exact h4.2 (r.ok.ord.key_inj h1 hi h4.1 hr h3 he hk)
      · rintro ⟨⟨j, h1, h2, h3⟩, hk⟩
        refine ⟨j, h1, (hR j h1).2 ⟨h2, ?_⟩, h3⟩
        intro e'; subst e'
        rw [he] at h3; cases h3; exact hk rfl
    have hemp : (Spec.del s.xs k).isEmpty = emptyBut l.w i := by
      rw [Bool.eq_iff_iff, emptyBut_iff, List.isEmpty_iff]
      constructor
      · intro hnil j hj hji hrj
        obtain ⟨e, hej⟩ := r.ok.ord.init j hj hrj
        have : e ∈ Spec.del s.xs k := (hH e).1 ⟨j, hj, (hR j hj).2 ⟨hrj, hji⟩, hej⟩
        rw [hnil] at this; cases this
      · intro hall
        cases hd : Spec.del s.xs k with
        | nil => rfl
        | cons e es =>
          have : e ∈ Spec.del s.xs k := by rw [hd]; exact List.mem_cons_self ..
          obtain ⟨j, h1, h2, _⟩ := (hH e).2 this
          have h3 := (hR j h1).1 h2
          exact absurd h3.1 (hall j h1 h3.2)
    have hused : used l.w = used (removeWord l.w i) := by
      apply cnt_congr
      intro j hj
      rw [removeWord_rank hi hj]
      split
      · rename_i e; subst e
        have := hr.1
        have e2 : (rank l.w j != 0) = true := by simp; omega
        rw [e2]; rfl
      · rfl
    rw [hemp]
    by_cases he2 : emptyBut l.w i = true
    · simp only [if_pos he2]
      refine ⟨⟨o, List.Pairwise.nil, ?_, r.used.trans hused, ?_, ?_⟩, trivial⟩
      · intro e
        rw [hH]
        rw [he2, List.isEmpty_iff] at hemp
        rw [hemp]
      · show frozen l.w = frozen (removeWord l.w i)
        rw [removeWord_frozen hi]
      · show true = retired (removeWord l.w i)
        rw [removeWord_retired hi, he2]; rfl
    · simp only [if_neg he2]
      refine ⟨⟨o, sorted_filter r.sorted _, fun e => (hH e).symm, r.used.trans hused, ?_, ?_⟩, trivial⟩
      · show frozen l.w = frozen (removeWord l.w i)
        rw [removeWord_frozen hi]
      · show s.retired = retired (removeWord l.w i)
        simp only [Bool.not_eq_true] at he2
        rw [removeWord_retired hi, he2, r.ret]; rfl

/-! ## Ordered access -/

theorem View.minGreaterEqual {l : Leaf K V} {xs : List (K × V)} (r : View l xs) (k : K) :
    l.minGreaterEqual k = Spec.atLeast xs k := by
  unfold Leaf.minGreaterEqual
  simp only []
  have hI := scan_inv (w := l.w) r.ord k
  generalize loop (l.scanBody k) l.w Scan.start = sc at hI
  cases hs : sc.eq with
  | some i =>
    simp only [ScanInv, hs] at hI
    obtain ⟨h1, h2, v, h3⟩ := hI
    simp only []
    rw [h3, eq_comm, atLeast_iff r.sorted]
    exact ⟨(r.mem _).2 ⟨i, h1, h2, h3⟩, KeyOrd.irrefl _, fun e' _ h => h⟩
  | none =>
    simp only [ScanInv, hs] at hI
    obtain ⟨b, hne, hh⟩ := hI
    simp only []
    rcases hh with ⟨h1, h2⟩ | ⟨h1, h2, h3⟩
    · rw [if_neg (by simp [h2]), eq_comm, atLeast_none]
      intro e he
      obtain ⟨j, hj, hr, hej⟩ := (r.mem e).1 he
      by_cases hk : KeyOrd.lt e.1 k
      · exact hk
      · have := b.hi_min j e hj hr hej hk
        have := hr.2; omega
    · rw [if_pos (by omega)]
      obtain ⟨e, he⟩ := r.ord.init _ h1 h2
      rw [he, eq_comm, atLeast_iff r.sorted]
      have hlt : ¬ KeyOrd.lt e.1 k := by
        intro hk
        have h4 := b.lo_max _ e h1 h2 he hk
        have h5 := b.lo_lt_hi r.ord (Nat.le_refl _)
        omega
      refine ⟨(r.mem _).2 ⟨_, h1, h2, he⟩, hlt, ?_⟩
      intro e' he' hk' hlt'
      obtain ⟨j, hj, hr, hej⟩ := (r.mem e').1 he'
      have h4 := b.hi_min j e' hj hr hej hk'
      have h5 := r.ord.lt_rank hj h1 hr h2 hej he hlt'
      omega

theorem minGreaterEqual_rel {l : Leaf K V} {s : SLeaf K V} (r : Rel l s) (k : K) :
    l.minGreaterEqual k = Spec.atLeast s.xs k :=
  r.view.minGreaterEqual k

/-- The entry at the slot found by `max_less`. -/
def Leaf.maxLessEntry (l : Leaf K V) (k : K) : Option (K × V) :=
  if l.maxLess k l.w ≠ numEntries then l.entry (l.maxLess k l.w) else none

theorem View.maxLess {l : Leaf K V} {xs : List (K × V)} (r : View l xs) (k : K) :
    l.maxLessEntry k = Spec.below xs k := by
  unfold Leaf.maxLessEntry Spec.below
  obtain ⟨hi, b⟩ := maxLess_inv (w := l.w) r.ord k
  rcases b.lo_spec with ⟨h1, h2⟩ | ⟨h1, h2, h3, e, h4, h5⟩
  · rw [if_neg (by simp [h2])]
    have : xs.filter (fun e => decide (KeyOrd.lt e.1 k)) = [] := by
      rw [List.filter_eq_nil_iff]
      intro e he
      simp only [decide_eq_true_eq]
      intro hk
      obtain ⟨j, hj, hr, hej⟩ := (r.mem e).1 he
      have := b.lo_max j e hj hr hej hk
      have := hr.1; omega
    rw [this]; rfl
  · rw [if_pos (by omega), h4, eq_comm, sorted_getLast (sorted_filter r.sorted _)]
    refine ⟨List.mem_filter.2 ⟨(r.mem _).2 ⟨_, h1, h2, h4⟩, decide_eq_true h5⟩, ?_⟩
    intro e' he' hlt
    obtain ⟨h6, h7⟩ := List.mem_filter.1 he'
    obtain ⟨j, hj, hr, hej⟩ := (r.mem e').1 h6
    have h8 := b.lo_max j e' hj hr hej (of_decide_eq_true h7)
    have h9 := r.ord.lt_rank h1 hj h2 hr h4 hej hlt
    omega

theorem maxLess_rel {l : Leaf K V} {s : SLeaf K V} (r : Rel l s) (k : K) :
    l.maxLessEntry k = Spec.below s.xs k :=
  r.view.maxLess k

theorem maxSlot_spec (w : Word) :
    ((maxSlot w).1 = 0 ∧ (maxSlot w).2 = numEntries ∧ ∀ j, j < numEntries → ¬ Ranked w j) ∨
    ((maxSlot w).2 < numEntries ∧ Ranked w (maxSlot w).2 ∧
      ∀ j, j < numEntries → Ranked w j → rank w j ≤ rank w (maxSlot w).2) := by
  have := loop_ind (f := fun (s : Nat × Nat) i r => if s.1 < r ∧ r ≠ removed then (r, i) else s)
    (w := w) (s := (0, numEntries)) (by intro s i; rw [if_neg (by omega)])
    (fun n s => (s.1 = 0 ∧ s.2 = numEntries ∧ ∀ j, j < n → ¬ Ranked w j) ∨
      (s.2 < n ∧ Ranked w s.2 ∧ rank w s.2 = s.1 ∧ ∀ j, j < n → Ranked w j → rank w j ≤ s.1))
    (.inl ⟨rfl, rfl, fun j h => absurd h (Nat.not_lt_zero _)⟩) (by
      intro n s hn hI
      have h16 := rank_lt w n
      by_cases hc : s.1 < rank w n ∧ rank w n ≠ removed
      · rw [if_pos hc]
        right
        have hr : Ranked w n := ⟨by omega, by have := hc.2; unfold removed at *; omega⟩
        refine ⟨by simp, hr, rfl, ?_⟩
        intro j hj hrj
        rcases Nat.lt_succ_iff_lt_or_eq.1 hj with h3 | h3
        · rcases hI with ⟨_, _, h⟩ | ⟨_, _, _, h⟩
          · exact absurd hrj (h j h3)
          · have := h j h3 hrj; simp only []; omega
        · subst h3; exact Nat.le_refl _
      · rw [if_neg hc]
        have hcase : ¬ Ranked w n ∨ rank w n ≤ s.1 := by
          by_cases hr : Ranked w n
          · right; have := hr.2; unfold removed at *; omega
          · exact .inl hr
        rcases hI with ⟨h1, h2, h3⟩ | ⟨h1, h2, h3, h4⟩
        · left
          refine ⟨h1, h2, ?_⟩
          intro j hj hrj
          rcases Nat.lt_succ_iff_lt_or_eq.1 hj with h5 | h5
          · exact h3 j h5 hrj
          · subst h5
            rcases hcase with h6 | h6
            · exact h6 hrj
            · have := hrj.1; omega
        · right
          refine ⟨by omega, h2, h3, ?_⟩
          intro j hj hrj
          rcases Nat.lt_succ_iff_lt_or_eq.1 hj with h5 | h5
          · exact h4 j h5 hrj
          · subst h5
            rcases hcase with h6 | h6
            · exact absurd hrj h6
            · exact h6)
  rcases this with h | ⟨h1, h2, h3, h4⟩
  · exact .inl h
  · right
    refine ⟨h1, h2, ?_⟩
    intro j hj hr
    have h5 := h4 j hj hr
    unfold maxSlot
    rw [h3]; exact h5

theorem View.maxEntry {l : Leaf K V} {xs : List (K × V)} (r : View l xs) : l.maxEntry = xs.getLast? := by
  unfold Leaf.maxEntry
  rcases maxSlot_spec l.w with ⟨_, h2, h3⟩ | ⟨h1, h2, h3⟩
  · rw [if_neg (by simp [h2])]
    cases hx : xs with
    | nil => rfl
    | cons e es =>
      have : e ∈ xs := by rw [hx]; exact List.mem_cons_self ..
      obtain ⟨j, hj, hr, _⟩ := (r.mem e).1 this
      exact absurd hr (h3 j hj)
  · rw [if_pos (by omega)]
    obtain ⟨e, he⟩ := r.ord.init _ h1 h2
    rw [he, eq_comm, sorted_getLast r.sorted]
    refine ⟨(r.mem _).2 ⟨_, h1, h2, he⟩, ?_⟩
    intro e' he' hlt
    obtain ⟨j, hj, hr, hej⟩ := (r.mem e').1 he'
    have h4 := r.ord.lt_rank h1 hj h2 hr he hej hlt
    have h5 := h3 j hj hr
    omega

theorem maxEntry_rel {l : Leaf K V} {s : SLeaf K V} (r : Rel l s) : l.maxEntry = s.xs.getLast? :=
  r.view.maxEntry

theorem View.isEmpty {l : Leaf K V} {xs : List (K × V)} (r : View l xs) : l.isEmpty = xs.isEmpty := by
  have := loop_ind (f := fun (s : Bool) _ r => s && !(r != 0 && r != removed)) (w := l.w)
    (s := true) (by intro s j; simp)
    (fun n s => s = true ↔ ∀ j, j < n → ¬ Ranked l.w j) (by simp) (by
      intro n s hn hI
      simp only [Bool.and_eq_true, hI]
      have hlt := rank_lt l.w n
      constructor
      · rintro ⟨h1, h2⟩ j hj hr
        rcases Nat.lt_succ_iff_lt_or_eq.1 hj with h3 | h3
        · exact h1 j h3 hr
        · subst h3
          have := hr.1; have h4 := hr.2
          have e2 : (rank l.w j != 0) = true := by simp; omega
          have e3 : (rank l.w j != removed) = true := by simp; omega
          simp [e2, e3] at h2
      · intro h
        refine ⟨fun j hj => h j (by omega), ?_⟩
        have h' := not_ranked_cases (h n (by omega))
        rcases h' with h' | h' <;> simp [h'])
  unfold Leaf.isEmpty
  rw [Bool.eq_iff_iff, this, List.isEmpty_iff]
  constructor
  · intro h
    cases hx : xs with
    | nil => rfl
    | cons e es =>
      have : e ∈ xs := by rw [hx]; exact List.mem_cons_self ..
      obtain ⟨j, hj, hr, _⟩ := (r.mem e).1 this
      exact absurd hr (h j hj)
  · intro h j hj hr
    obtain ⟨e, he⟩ := r.ord.init j hj hr
    have : e ∈ xs := (r.mem e).2 ⟨j, hj, hr, he⟩
    rw [h] at this; cases this

theorem isEmpty_rel {l : Leaf K V} {s : SLeaf K V} (r : Rel l s) : l.isEmpty = s.xs.isEmpty :=
  r.view.isEmpty

/-! ## Iteration -/

/-- The rank a scanner at slot `index` has passed. -/
def curRank (index : Nat) (w : Word) : Nat := if index = numEntries then 0 else rank w index

theorem nextSlot_spec {w : Word} {index : Nat} (hx : index = numEntries ∨ Ranked w index) :
    (nextSlot index w = numEntries ∧ ∀ j, j < numEntries → Ranked w j → rank w j ≤ curRank index w) ∨
    (nextSlot index w < numEntries ∧ Ranked w (nextSlot index w) ∧
      curRank index w < rank w (nextSlot index w) ∧
      ∀ j, j < numEntries → Ranked w j → curRank index w < rank w j →
        rank w (nextSlot index w) ≤ rank w j) := by
  unfold nextSlot
  simp only []
  have hcr : (if index = numEntries then 0 else rank w index) = curRank index w := rfl
  rw [hcr]
  generalize hc : curRank index w = cur
  by_cases hlt : cur < numEntries
  · rw [if_pos hlt]
    have hI := loop_ind (f := nextBody index cur) (w := w)
      (s := { rank := removed, idx := numEntries, ret := false })
      (by intro s i; unfold nextBody; split; · rfl
          · rw [if_neg (by omega)])
      (fun n s => if s.ret then s.idx < numEntries ∧ Ranked w s.idx ∧ rank w s.idx = cur + 1
        else (s.rank = removed ∧ s.idx = numEntries ∧ ∀ j, j < n → Ranked w j → rank w j ≤ cur) ∨
          (s.idx < n ∧ Ranked w s.idx ∧ rank w s.idx = s.rank ∧ cur < s.rank ∧
            ∀ j, j < n → Ranked w j → cur < rank w j → s.rank ≤ rank w j))
      (by
        simp only [Bool.false_eq_true, if_false]
        exact .inl ⟨by trivial, by trivial, fun j h => absurd h (Nat.not_lt_zero _)⟩) (by
        intro n s hn hI
        unfold nextBody
        cases hret : s.ret with
        | true => simp only [hret, if_true] at hI ⊢; exact hI
        | false =>
          simp only [hret, Bool.false_eq_true, if_false] at hI ⊢
          have hsr : s.rank ≤ removed := by
            rcases hI with ⟨h, _⟩ | ⟨_, h, h', _⟩
            · omega
            · have := h.2; omega
          by_cases hcond : n ≠ index ∧ rank w n ≠ 0 ∧ rank w n < s.rank
          · rw [if_pos hcond]
            have hrn : Ranked w n := ⟨by omega, by omega⟩
            by_cases h1 : rank w n = cur + 1
            · rw [if_pos h1]
              simp only [if_true]
              exact ⟨hn, hrn, h1⟩
            · rw [if_neg h1]
              by_cases h2 : cur < rank w n
              · rw [if_pos h2]
                simp only [hret, Bool.false_eq_true, if_false]
                right
                refine ⟨by omega, hrn, trivial, h2, ?_⟩
                intro j hj hr hcj
                rcases Nat.lt_succ_iff_lt_or_eq.1 hj with h5 | h5
                · rcases hI with ⟨_, _, h⟩ | ⟨_, _, _, _, h⟩
                  · have := h j h5 hr; omega
                  · have := h j h5 hr hcj; omega
                · subst h5; exact Nat.le_refl _
              · rw [if_neg h2]
                simp only [hret, Bool.false_eq_true, if_false]
                rcases hI with ⟨h3, h4, h⟩ | ⟨h3, h4, h5, h6, h⟩
                · left; refine ⟨h3, h4, ?_⟩
                  intro j hj hr
                  rcases Nat.lt_succ_iff_lt_or_eq.1 hj with h5 | h5
                  · exact h j h5 hr
                  · subst h5; omega
                · right; refine ⟨by omega, h4, h5, h6, ?_⟩
                  intro j hj hr hcj
                  rcases Nat.lt_succ_iff_lt_or_eq.1 hj with h7 | h7
                  · exact h j h7 hr hcj
                  · subst h7; omega
          · rw [if_neg hcond]
            simp only [hret, Bool.false_eq_true, if_false]
            have hidx : n = index → rank w n = cur := by
              intro e; rw [← hc]; unfold curRank; rw [if_neg (by omega), e]
            have hcase : Ranked w n → cur < rank w n → s.rank ≤ rank w n := by
              intro hr hcn
              have h0 := hr.1
              by_cases e : n = index
              · have := hidx e; omega
              · apply Nat.le_of_not_lt; intro h; exact hcond ⟨e, by omega, h⟩
            rcases hI with ⟨h3, h4, h⟩ | ⟨h3, h4, h5, h6, h⟩
            · left; refine ⟨h3, h4, ?_⟩
              intro j hj hr
              rcases Nat.lt_succ_iff_lt_or_eq.1 hj with h5 | h5
              · exact h j h5 hr
              · subst h5
                apply Nat.le_of_not_lt
                intro hcj
                have := hcase hr hcj
                have := hr.2
                omega
            · right; refine ⟨by omega, h4, h5, h6, ?_⟩
              intro j hj hr hcj
              rcases Nat.lt_succ_iff_lt_or_eq.1 hj with h7 | h7
              · exact h j h7 hr hcj
              · subst h7; exact hcase hr hcj)
    generalize loop (nextBody index cur) w { rank := removed, idx := numEntries, ret := false } = s at hI
    cases hret : s.ret with
    | true =>
      simp only [hret, if_true] at hI
      right
      refine ⟨hI.1, hI.2.1, by omega, ?_⟩
      intro j _ _ hj; omega
    | false =>
      simp only [hret, Bool.false_eq_true, if_false] at hI
      rcases hI with ⟨h1, h2, h3⟩ | ⟨h1, h2, h3, h4, h5⟩
      · exact .inl ⟨h2, h3⟩
      · right
        exact ⟨h1, h2, by omega, fun j hj hr hcj => by have := h5 j hj hr hcj; omega⟩
  · rw [if_neg hlt]
    left
    refine ⟨rfl, ?_⟩
    intro j _ hr
    have := hr.2
    unfold removed at this; unfold numEntries at hlt; omega

theorem scanFrom_spec {l : Leaf K V} {w : Word} (o : Ordered w l.entry) :
    ∀ n index, (index = numEntries ∨ (index < numEntries ∧ Ranked w index)) →
      removed - curRank index w ≤ n →
      Sorted (l.scanFrom w n index) ∧ ∀ e, e ∈ l.scanFrom w n index ↔
        ∃ i, i < numEntries ∧ Ranked w i ∧ curRank index w < rank w i ∧ l.entry i = some e := by
  intro n
  induction n with
  | zero =>
    intro index hx hn
    exfalso
    have : curRank index w < removed := by
      unfold curRank
      rcases hx with h | ⟨h1, h⟩
      · rw [if_pos h]; decide
      · split
        · decide
        · exact h.2
    omega
  | succ n ih =>
    intro index hx hn
    have hns := nextSlot_spec (w := w) (index := index) (by
      rcases hx with h | ⟨_, h⟩
      · exact .inl h
      · exact .inr h)
    unfold Leaf.scanFrom
    simp only []
    rcases hns with ⟨h1, h2⟩ | ⟨h1, h2, h3, h4⟩
    · rw [if_pos h1]
      refine ⟨List.Pairwise.nil, ?_⟩
      intro e
      simp only [List.not_mem_nil, false_iff]
      rintro ⟨i, hi, hr, hc, _⟩
      have := h2 i hi hr; omega
    · rw [if_neg (by omega)]
      obtain ⟨e0, he0⟩ := o.init _ h1 h2
      have hcur : curRank (nextSlot index w) w = rank w (nextSlot index w) := by
        unfold curRank; rw [if_neg (by omega)]
      obtain ⟨i1, i2⟩ := ih (nextSlot index w) (.inr ⟨h1, h2⟩) (by rw [hcur]; omega)
      rw [he0]
      simp only [Option.toList_some, List.singleton_append]
      refine ⟨List.pairwise_cons.2 ⟨?_, i1⟩, ?_⟩
      · intro e he
        obtain ⟨i, hi, hr, hc, hei⟩ := (i2 e).1 he
        rw [hcur] at hc
        exact o.mono _ _ _ _ h1 hi h2 hr hc he0 hei
      · intro e
        rw [List.mem_cons, i2]
        constructor
        · rintro (h | ⟨i, hi, hr, hc, hei⟩)
          · subst h; exact ⟨_, h1, h2, h3, he0⟩
          · rw [hcur] at hc; exact ⟨i, hi, hr, by omega, hei⟩
        · rintro ⟨i, hi, hr, hc, hei⟩
          have := h4 i hi hr hc
          rcases Nat.lt_or_eq_of_le this with h5 | h5
          · right; exact ⟨i, hi, hr, by rw [hcur]; exact h5, hei⟩
          · left
            have := o.inj _ _ h1 hi h2 hr h5
            rw [← this, he0] at hei; cases hei; rfl

theorem View.toList {l : Leaf K V} {xs : List (K × V)} (r : View l xs) : l.toList = xs := by
  obtain ⟨h1, h2⟩ := scanFrom_spec (w := l.w) r.ord (numEntries + 1) numEntries (.inl rfl) (by
    unfold curRank; simp; decide)
  refine sorted_ext h1 r.sorted ?_
  intro e
  rw [r.mem]
  have := h2 e
  unfold Leaf.toList
  rw [this]
  have hc : curRank numEntries l.w = 0 := by unfold curRank; simp
  rw [hc]
  constructor
  · rintro ⟨i, a, b, _, d⟩; exact ⟨i, a, b, d⟩
  · rintro ⟨i, a, b, d⟩; exact ⟨i, a, b, b.1, d⟩

theorem toList_rel {l : Leaf K V} {s : SLeaf K V} (r : Rel l s) : l.toList = s.xs :=
  r.view.toList

theorem freeze_rel {l : Leaf K V} {s : SLeaf K V} (r : Rel l s) :
    Rel { l with w := freeze l.w } { s with frozen := true } := by
  refine ⟨r.ok.freeze, r.sorted, ?_, ?_, ?_, ?_⟩
  · intro e
    rw [r.mem]
    constructor
    · rintro ⟨i, a, b, d⟩; exact ⟨i, a, by unfold Ranked; rw [rank_freeze _ a]; exact b, d⟩
    · rintro ⟨i, a, b, d⟩
      refine ⟨i, a, ?_, d⟩
      simp only [] at b
      unfold Ranked at b; rw [rank_freeze _ a] at b; exact b
  · show s.used = _
    rw [r.used]; apply cnt_congr; intro i hi; simp only [rank_freeze _ hi]
  · simp
  · show s.retired = _
    rw [r.ret]; simp

theorem thaw_rel {l : Leaf K V} {s : SLeaf K V} (r : Rel l s) :
    Rel { l with w := thaw l.w } { s with frozen := false } := by
  refine ⟨r.ok.thaw, r.sorted, ?_, ?_, ?_, ?_⟩
  · intro e
    rw [r.mem]
    constructor
    · rintro ⟨i, a, b, d⟩; exact ⟨i, a, by unfold Ranked; rw [rank_thaw _ a]; exact b, d⟩
    · rintro ⟨i, a, b, d⟩
      refine ⟨i, a, ?_, d⟩
      simp only [] at b
      unfold Ranked at b; rw [rank_thaw _ a] at b; exact b
  · show s.used = _
    rw [r.used]; apply cnt_congr; intro i hi; simp only [rank_thaw _ hi]
  · simp
  · show s.retired = _
    rw [r.ret]; simp

end Scc.Leaf
