import Verif.Tree.Model
import Verif.Leaf.Split

/-!
# What a tree needs to know about leaves

The facts of `Verif/Leaf`, restated for `toList`.
-/

set_option linter.unusedSimpArgs false

namespace Scc.Tree

open Scc.Leaf Scc.Leaf.Spec

variable {K V C : Type} [KeyOrd K]

/-- A leaf that obeys the leaf invariant. -/
def WL (l : Leaf K V) : Prop := ∃ s, Rel l s

theorem WL.rel {l : Leaf K V} (w : WL l) :
    Rel l { xs := l.toList, used := used l.w, frozen := frozen l.w, retired := retired l.w } := by
  obtain ⟨s, r⟩ := w
  have : s = { xs := l.toList, used := used l.w, frozen := frozen l.w, retired := retired l.w } := by
    cases s
    simp only [SLeaf.mk.injEq]
    exact ⟨(toList_rel r).symm, r.used, r.frz, r.ret⟩
  rw [← this]; exact r

theorem wl_of_rel {l : Leaf K V} {s : SLeaf K V} (r : Rel l s) :
    WL l ∧ l.toList = s.xs ∧ used l.w = s.used ∧ frozen l.w = s.frozen ∧ retired l.w = s.retired :=
  ⟨⟨s, r⟩, toList_rel r, r.used.symm, r.frz.symm, r.ret.symm⟩

theorem wl_new : WL (Leaf.new : Leaf K V) := ⟨_, rel_new⟩

theorem toList_new : (Leaf.new : Leaf K V).toList = [] := toList_rel rel_new

theorem WL.sorted {l : Leaf K V} (w : WL l) : Sorted l.toList := w.rel.sorted

theorem WL.length {l : Leaf K V} (w : WL l) : l.toList.length ≤ used l.w := w.rel.length_le

theorem WL.len14 {l : Leaf K V} (w : WL l) : l.toList.length ≤ 14 :=
  Nat.le_trans w.length (used_le _)

theorem WL.retired {l : Leaf K V} (w : WL l) (h : retired l.w = true) : l.toList = [] := by
  apply List.eq_nil_iff_forall_not_mem.2
  intro e he
  obtain ⟨i, hi, hr, _⟩ := (w.rel.mem e).1 he
  exact w.rel.ok.ret h i hi hr

theorem WL.mge {l : Leaf K V} (w : WL l) (k : K) : l.minGreaterEqual k = atLeast l.toList k :=
  minGreaterEqual_rel w.rel k

theorem WL.search {l : Leaf K V} (w : WL l) (k : K) : l.search k = get l.toList k := search_rel w.rel k

theorem WL.below {l : Leaf K V} (w : WL l) (k : K) : l.maxLessEntry k = below l.toList k :=
  maxLess_rel w.rel k

theorem WL.maxEntry {l : Leaf K V} (w : WL l) : l.maxEntry = l.toList.getLast? := maxEntry_rel w.rel

theorem WL.isEmpty {l : Leaf K V} (w : WL l) : l.isEmpty = l.toList.isEmpty := isEmpty_rel w.rel

/-- The four outcomes of an insertion into a leaf that is not frozen. -/
theorem WL.insert {l : Leaf K V} (w : WL l) (hf : frozen l.w = false) (k : K) (v : V) :
    (Scc.Leaf.retired l.w = true ∧ l.insert k v = (l, .retired)) ∨
    (Scc.Leaf.retired l.w = false ∧ (get l.toList k).isSome = true ∧ ∃ l', l.insert k v = (l', .duplicate) ∧
      WL l' ∧ l'.toList = l.toList ∧ frozen l'.w = false ∧ Scc.Leaf.retired l'.w = false) ∨
    (Scc.Leaf.retired l.w = false ∧ get l.toList k = none ∧ used l.w < 14 ∧
      ∃ l', l.insert k v = (l', .success) ∧
      WL l' ∧ l'.toList = put l.toList k v ∧ frozen l'.w = false ∧ Scc.Leaf.retired l'.w = false) ∨
    (Scc.Leaf.retired l.w = false ∧ get l.toList k = none ∧ ¬ used l.w < 14 ∧ l.insert k v = (l, .full)) := by
  have hr := insert_rel w.rel k v
  rcases hp : l.insert k v with ⟨l', r⟩
  rw [hp] at hr
  simp only [SLeaf.insert] at hr
  obtain ⟨h1, h2⟩ := hr
  by_cases hret : Scc.Leaf.retired l.w = true
  · refine .inl ⟨hret, ?_⟩
    have : l.insert k v = (l, .retired) := by unfold Leaf.insert; simp only [if_pos hret]
    rw [← hp, this]
  have hret' : Scc.Leaf.retired l.w = false := by simpa using hret
  simp only [hret', hf, if_neg (show ¬ (false = true) by simp)] at h1 h2
  by_cases hg : (get l.toList k).isSome = true
  · simp only [if_pos hg] at h1 h2
    obtain ⟨a, b, _, c, d⟩ := wl_of_rel h1
    refine .inr (.inl ⟨hret', hg, l', ?_, a, b, c, d⟩)
    rw [h2]
  have hg' : get l.toList k = none := by simpa using hg
  simp only [if_neg hg] at h1 h2
  by_cases hu : used l.w < numEntries
  · simp only [if_pos hu] at h1 h2
    obtain ⟨a, b, _, c, d⟩ := wl_of_rel h1
    refine .inr (.inr (.inl ⟨hret', hg', hu, l', ?_, a, b, c, d⟩))
    rw [h2]
  · simp only [if_neg hu] at h1 h2
    refine .inr (.inr (.inr ⟨hret', hg', hu, ?_⟩))
    have hfs : freeSlot l.w = none := by
      cases h : freeSlot l.w with
      | none => rfl
      | some i =>
        exact absurd (by rw [← freeSlot_used, h]; rfl) hu
    have hs : (l.searchSlot k l.w).isSome = false := by
      rw [searchSlot_isSome w.rel]; simpa using hg
    have : l.insert k v = (l, .full) := by
      unfold Leaf.insert
      simp only [hret', hf, hfs, hs, if_neg (show ¬ (false = true) by simp)]
    rw [← hp, this]

/-- The outcomes of a removal from a leaf that is not frozen. -/
theorem WL.removeIf {l : Leaf K V} (w : WL l) (hf : frozen l.w = false) (k : K) (c : V → Bool) :
    ((∀ e, get l.toList k = some e → c e.2 = false) ∧ l.removeIf k c = (l, .fail)) ∨
    (∃ e, get l.toList k = some e ∧ c e.2 = true ∧ ∃ l', WL l' ∧ l'.toList = del l.toList k ∧
      frozen l'.w = false ∧
      ((l'.toList = [] ∧ Scc.Leaf.retired l'.w = true ∧ l.removeIf k c = (l', .retired)) ∨
       (l'.toList ≠ [] ∧ Scc.Leaf.retired l'.w = false ∧ l.removeIf k c = (l', .success)))) := by
  have hr := removeIf_rel w.rel k c
  rcases hp : l.removeIf k c with ⟨l', r⟩
  rw [hp] at hr
  simp only [SLeaf.removeIf, hf, if_neg (show ¬ (false = true) by simp)] at hr
  obtain ⟨h1, h2⟩ := hr
  have hunf : l.removeIf k c = (match l.searchSlot k l.w with
    | none => (l, .fail)
    | some i =>
      match l.entry i with
      | none => (l, .fail)
      | some e =>
        if !c e.2 then (l, .fail)
        else ({ l with w := removeWord l.w i }, if emptyBut l.w i then .retired else .success)) := by
    unfold Leaf.removeIf
    simp only [hf, if_neg (show ¬ (false = true) by simp)]
    rfl
  have hsearch := w.search k
  unfold Leaf.search at hsearch
  cases hg : get l.toList k with
  | none =>
    refine .inl ⟨fun e he => (by cases he), ?_⟩
    have : l.searchSlot k l.w = none := by
      have := searchSlot_isSome w.rel k
      rw [hg] at this
      simpa using this
    rw [← hp, hunf, this]
  | some e =>
    simp only [hg] at h1 h2
    rw [hg] at hsearch
    cases hs : l.searchSlot k l.w with
    | none => rw [hs] at hsearch; cases hsearch
    | some i =>
      rw [hs, Option.bind_some] at hsearch
      by_cases hc : c e.2 = true
      · right
        simp only [hc, Bool.not_true, if_neg (show ¬ (false = true) by simp)] at h1 h2
        refine ⟨e, rfl, hc, l', ?_⟩
        by_cases hd : (del l.toList k).isEmpty = true
        · simp only [if_pos hd] at h1 h2
          obtain ⟨a, b, _, c', d⟩ := wl_of_rel h1
          have hd' : del l.toList k = [] := List.isEmpty_iff.1 hd
          refine ⟨a, by rw [b, hd'], by rw [c'], .inl ⟨b, d, by rw [h2]⟩⟩
        · simp only [if_neg hd] at h1 h2
          obtain ⟨a, b, _, c', d⟩ := wl_of_rel h1
          have hne : l'.toList ≠ [] := by
            rw [b]; intro h; exact hd (List.isEmpty_iff.2 h)
          refine ⟨a, b, by rw [c'], .inr ⟨hne, ?_, by rw [h2]⟩⟩
          rw [d]
          show Scc.Leaf.retired l.w = false
          by_cases hret : Scc.Leaf.retired l.w = true
          · have := w.retired hret
            rw [this] at hg; cases hg
          · simpa using hret
      · left
        refine ⟨fun e' he => (by cases he; simpa using hc), ?_⟩
        rw [← hp, hunf, hs]
        simp only [hsearch]
        simp [hc]

theorem WL.removeRange {l : Leaf K V} (w : WL l) (hf : frozen l.w = false) (c : K → Bool) :
    WL (l.removeRange c) ∧ (l.removeRange c).toList = l.toList.filter (fun e => !c e.1) ∧
    frozen (l.removeRange c).w = false := by
  have hr := removeRange_rel w.rel c
  simp only [SLeaf.removeRange, hf, if_neg (show ¬ (false = true) by simp)] at hr
  obtain ⟨a, b, _, d, _⟩ := wl_of_rel hr
  exact ⟨a, b, d⟩

theorem WL.freeze {l : Leaf K V} (w : WL l) :
    WL l.freezeLeaf.1 ∧ l.freezeLeaf.1.toList = l.toList ∧ used l.freezeLeaf.1.w = used l.w ∧
    Scc.Leaf.retired l.freezeLeaf.1.w = Scc.Leaf.retired l.w := by
  unfold Leaf.freezeLeaf
  split
  · exact ⟨w, rfl, rfl, rfl⟩
  · obtain ⟨a, b, c, _, e⟩ := wl_of_rel (freeze_rel w.rel)
    exact ⟨a, b, c, e⟩

theorem WL.thaw {l : Leaf K V} (w : WL l) :
    WL l.thawLeaf.1 ∧ l.thawLeaf.1.toList = l.toList ∧ used l.thawLeaf.1.w = used l.w ∧
    frozen l.thawLeaf.1.w = false ∧ Scc.Leaf.retired l.thawLeaf.1.w = Scc.Leaf.retired l.w := by
  unfold Leaf.thawLeaf
  split
  · obtain ⟨a, b, c, d, e⟩ := wl_of_rel (thaw_rel w.rel)
    exact ⟨a, b, c, d, e⟩
  · rename_i h
    exact ⟨w, rfl, rfl, by simpa using h, rfl⟩

/-- Distribution of the entries of a leaf over one or two new leaves. -/
theorem WL.distribute {l : Leaf K V} (w : WL l) :
    ∃ b, 1 ≤ b ∧ b ≤ 13 ∧
    (let d := l.freezeAndDistribute
     (WL d.2.1 ∧ d.2.1.toList = l.toList.take b ∧ used d.2.1.w = (l.toList.take b).length ∧
      frozen d.2.1.w = false ∧ Scc.Leaf.retired d.2.1.w = false) ∧
     match d.2.2 with
     | none => l.toList.length ≤ b
     | some h => b < l.toList.length ∧ WL h ∧ h.toList = l.toList.drop b ∧
        used h.w = (l.toList.drop b).length ∧ frozen h.w = false ∧ Scc.Leaf.retired h.w = false) := by
  have hb := optimalBoundary_range l.w
  refine ⟨optimalBoundary l.w, hb.1, hb.2, ?_⟩
  have := distribute_rel w.rel (optimalBoundary l.w) (by unfold numEntries; omega)
  simp only [Leaf.freezeAndDistribute]
  obtain ⟨h1, h2⟩ := this
  obtain ⟨a1, a2, a3, a4, a5⟩ := wl_of_rel h1
  refine ⟨⟨a1, a2, a3, a4, a5⟩, ?_⟩
  split
  · rename_i h; rw [h] at h2; exact h2
  · rename_i h; rw [h] at h2
    obtain ⟨h3, h4⟩ := h2
    obtain ⟨b1, b2, b3, b4, b5⟩ := wl_of_rel h4
    exact ⟨h3, b1, b2, b3, b4, b5⟩

/-! ## Sorted lists with a focus -/

theorem sorted_split {A B : List (K × V)} {e : K × V} (h : Sorted (A ++ e :: B)) :
    (∀ a ∈ A, KeyOrd.lt a.1 e.1) ∧ (∀ b ∈ B, KeyOrd.lt e.1 b.1) := by
  unfold Sorted at h
  rw [List.pairwise_append] at h
  refine ⟨fun a ha => h.2.2 a ha e (List.mem_cons_self ..), ?_⟩
  intro b hb
  exact (List.pairwise_cons.1 h.2.1).1 b hb

theorem lt_asymm' {a b : K} (h : KeyOrd.lt a b) : ¬ KeyOrd.lt b a :=
  fun h' => KeyOrd.irrefl _ (KeyOrd.trans _ _ _ h h')

theorem filter_lt_split {A B : List (K × V)} {k : K} (hA : ∀ a ∈ A, KeyOrd.lt a.1 k)
    (hB : ∀ b ∈ B, KeyOrd.lt k b.1) :
    (A ++ B).filter (fun e => decide (KeyOrd.lt e.1 k)) = A ∧
    (A ++ B).filter (fun e => decide (KeyOrd.lt k e.1)) = B := by
  constructor
  · rw [List.filter_append, List.filter_eq_self.2 (fun a ha => decide_eq_true (hA a ha)),
      List.filter_eq_nil_iff.2 (fun b hb => by simpa using lt_asymm' (hB b hb)), List.append_nil]
  · rw [List.filter_append, List.filter_eq_self.2 (fun b hb => decide_eq_true (hB b hb)),
      List.filter_eq_nil_iff.2 (fun a ha => by simpa using lt_asymm' (hA a ha)), List.nil_append]

theorem put_split {A B : List (K × V)} {k : K} (v : V) (hA : ∀ a ∈ A, KeyOrd.lt a.1 k)
    (hB : ∀ b ∈ B, KeyOrd.lt k b.1) : put (A ++ B) k v = A ++ (k, v) :: B := by
  unfold put
  rw [(filter_lt_split hA hB).1, (filter_lt_split hA hB).2]

theorem del_split {A B : List (K × V)} {k : K} {v : V} (hA : ∀ a ∈ A, KeyOrd.lt a.1 k)
    (hB : ∀ b ∈ B, KeyOrd.lt k b.1) : del (A ++ (k, v) :: B) k = A ++ B := by
  unfold del
  rw [List.filter_append, List.filter_cons]
  simp only [decide_eq_false (KeyOrd.irrefl k), Bool.or_self, if_neg (show ¬ (false = true) by simp)]
  rw [List.filter_eq_self.2 (fun a ha => by simp [hA a ha]),
    List.filter_eq_self.2 (fun b hb => by simp [hB b hb])]

/-- Only the middle part matters for a key that is above everything on the left and below everything on
the right. -/
theorem get_mid {A B M : List (K × V)} {k : K} (hA : ∀ a ∈ A, KeyOrd.lt a.1 k)
    (hB : ∀ b ∈ B, KeyOrd.lt k b.1) : Spec.get (A ++ M ++ B) k = Spec.get M k := by
  unfold Spec.get
  rw [List.find?_append, List.find?_append]
  have h1 : A.find? (fun e => !decide (KeyOrd.lt e.1 k) && !decide (KeyOrd.lt k e.1)) = none := by
    rw [List.find?_eq_none]; intro a ha; simp [hA a ha]
  have h2 : B.find? (fun e => !decide (KeyOrd.lt e.1 k) && !decide (KeyOrd.lt k e.1)) = none := by
    rw [List.find?_eq_none]; intro b hb; simp [hB b hb]
  rw [h1, h2]; simp

theorem put_mid {A B M : List (K × V)} {k : K} (v : V) (hA : ∀ a ∈ A, KeyOrd.lt a.1 k)
    (hB : ∀ b ∈ B, KeyOrd.lt k b.1) : put (A ++ M ++ B) k v = A ++ put M k v ++ B := by
  unfold put
  have h1 : A.filter (fun e => decide (KeyOrd.lt e.1 k)) = A :=
    List.filter_eq_self.2 (fun a ha => decide_eq_true (hA a ha))
  have h2 : A.filter (fun e => decide (KeyOrd.lt k e.1)) = [] :=
    List.filter_eq_nil_iff.2 (fun a ha => by simpa using lt_asymm' (hA a ha))
  have h3 : B.filter (fun e => decide (KeyOrd.lt e.1 k)) = [] :=
    List.filter_eq_nil_iff.2 (fun b hb => by simpa using lt_asymm' (hB b hb))
  have h4 : B.filter (fun e => decide (KeyOrd.lt k e.1)) = B :=
    List.filter_eq_self.2 (fun b hb => decide_eq_true (hB b hb))
  simp only [List.filter_append, h1, h2, h3, h4]
  simp

theorem del_mid {A B M : List (K × V)} {k : K} (hA : ∀ a ∈ A, KeyOrd.lt a.1 k)
    (hB : ∀ b ∈ B, KeyOrd.lt k b.1) : del (A ++ M ++ B) k = A ++ del M k ++ B := by
  unfold del
  have h1 : A.filter (fun e => decide (KeyOrd.lt e.1 k) || decide (KeyOrd.lt k e.1)) = A :=
    List.filter_eq_self.2 (fun a ha => by simp [hA a ha])
  have h4 : B.filter (fun e => decide (KeyOrd.lt e.1 k) || decide (KeyOrd.lt k e.1)) = B :=
    List.filter_eq_self.2 (fun b hb => by simp [hB b hb])
  simp only [List.filter_append, h1, h4]

/-- Taking out the child with key `k`. -/
theorem WL.removeKey {l : Leaf K V} (w : WL l) (hf : frozen l.w = false) {A B : List (K × V)} {k : K} {v : V}
    (h : l.toList = A ++ (k, v) :: B) :
    WL (l.removeIf k (fun _ => true)).1 ∧ (l.removeIf k (fun _ => true)).1.toList = A ++ B ∧
    frozen (l.removeIf k (fun _ => true)).1.w = false := by
  have hs := w.sorted
  rw [h] at hs
  have hsp := sorted_split hs
  have hg : get l.toList k = some (k, v) := by
    rw [h, get_iff hs]
    exact ⟨by simp, rfl⟩
  rcases w.removeIf hf k (fun _ => true) with ⟨h1, _⟩ | ⟨e, _, _, l', h2, h3, h4, h5⟩
  · exact absurd (h1 _ hg) (by simp)
  · have : (l.removeIf k (fun _ => true)).1 = l' := by
      rcases h5 with ⟨_, _, h5⟩ | ⟨_, _, h5⟩ <;> rw [h5]
    rw [this, h3, h, del_split hsp.1 hsp.2]
    exact ⟨h2, rfl, h4⟩

/-- Replacing the value of key `k`. -/
theorem WL.setVal {l : Leaf K C} (w : WL l) {A B : List (K × C)} {k : K} {v : C}
    (h : l.toList = A ++ (k, v) :: B) (c : C) :
    WL (l.setVal k c) ∧ (l.setVal k c).toList = A ++ (k, c) :: B ∧ (l.setVal k c).w = l.w := by
  have hs := w.sorted
  rw [h] at hs
  have hsp := sorted_split hs
  have hg : get l.toList k = some (k, v) := by
    rw [h, get_iff hs]
    exact ⟨by simp, rfl⟩
  have hsl : (l.searchSlot k l.w).isSome = true := by
    rw [searchSlot_isSome w.rel]; simp [hg]
  obtain ⟨i, hi⟩ := Option.isSome_iff_exists.1 hsl
  obtain ⟨h1, h2, u, h3⟩ := searchSlot_some w.rel.ok.ord hi
  have hu : u = v := by
    have := w.search k
    unfold Leaf.search at this
    rw [hi, Option.bind_some, h3, hg] at this
    cases this; rfl
  subst hu
  have hl : l.setVal k c = { l with entry := fun j => if j = i then some (k, c) else l.entry j } := by
    unfold Leaf.setVal
    rw [hi]; simp [h3]
  have hord : ∀ j, j < numEntries → Ranked l.w j → j ≠ i → ∀ e, l.entry j = some e → e.1 ≠ k := by
    intro j hj hr hne e he hk
    exact hne (w.rel.ok.ord.key_inj hj h1 hr h2 he h3 hk)
  have hs' : Sorted (A ++ (k, c) :: B) := by
    unfold Sorted at hs ⊢
    rw [List.pairwise_append, List.pairwise_cons] at hs ⊢
    refine ⟨hs.1, ⟨hs.2.1.1, hs.2.1.2⟩, ?_⟩
    intro a ha b hb
    rcases List.mem_cons.1 hb with hb | hb
    · subst hb; exact hs.2.2 a ha (k, u) (List.mem_cons_self ..)
    · exact hs.2.2 a ha b (List.mem_cons_of_mem _ hb)
  have hr' : Rel (l.setVal k c) ⟨A ++ (k, c) :: B, used l.w, frozen l.w, Scc.Leaf.retired l.w⟩ := by
    have o := w.rel.ok
    rw [hl]
    refine ⟨⟨⟨?_, ?_, ?_⟩, o.bound, o.pend, o.ret⟩, hs', ?_, rfl, rfl, rfl⟩
    · intro j hj hr
      by_cases e : j = i
      · exact ⟨(k, c), by simp [e]⟩
      · obtain ⟨x, hx⟩ := o.ord.init j hj hr
        exact ⟨x, by simp [e, hx]⟩
    · intro a b ha hb hra hrb he
      exact o.ord.inj a b ha hb hra hrb he
    · intro a b x y ha hb hra hrb hlt hx hy
      have hkey : ∀ j z, (if j = i then some (k, c) else l.entry j) = some z →
          ∃ z', l.entry j = some z' ∧ z'.1 = z.1 := by
        intro j z hz
        by_cases e : j = i
        · rw [if_pos e] at hz; cases hz; exact ⟨(k, u), by rw [e]; exact h3, rfl⟩
        · rw [if_neg e] at hz; exact ⟨z, hz, rfl⟩
      obtain ⟨x', hx', ex⟩ := hkey a x hx
      obtain ⟨y', hy', ey⟩ := hkey b y hy
      rw [← ex, ← ey]
      exact o.ord.mono a b x' y' ha hb hra hrb hlt hx' hy'
    · intro e
      show e ∈ A ++ (k, c) :: B ↔ _
      have hm := w.rel.mem
      simp only [h] at hm
      constructor
      · intro he
        by_cases hk : e.1 = k
        · have : e = (k, c) := sorted_key_inj hs' he (by simp) hk
          subst this
          exact ⟨i, h1, h2, by simp⟩
        · have he' : e ∈ A ++ (k, u) :: B := by
            simp only [List.mem_append, List.mem_cons] at he ⊢
            rcases he with he | he | he
            · exact .inl he
            · exact absurd (by rw [he]) hk
            · exact .inr (.inr he)
          obtain ⟨j, hj, hr, hjj⟩ := (hm e).1 he'
          have hne : j ≠ i := by
            intro hji
            subst hji
            rw [h3] at hjj; cases hjj; exact hk rfl
          exact ⟨j, hj, hr, by simp [hne, hjj]⟩
      · rintro ⟨j, hj, hr, hjj⟩
        by_cases e' : j = i
        · subst e'
          simp at hjj
          subst hjj
          simp
        · simp [e'] at hjj
          have h5 := (hm e).2 ⟨j, hj, hr, hjj⟩
          have hk : e.1 ≠ k := hord j hj hr e' e hjj
          simp only [List.mem_append, List.mem_cons] at h5 ⊢
          rcases h5 with h5 | h5 | h5
          · exact .inl h5
          · exact absurd (by rw [h5]) hk
          · exact .inr (.inr h5)
  exact ⟨⟨_, hr'⟩, toList_rel hr', by rw [hl]⟩

end Scc.Tree
