import Verif.Tree.Shape

/-!
# The linked list of leaves
-/

set_option linter.unusedSimpArgs false
set_option linter.unusedSectionVars false
set_option linter.unusedVariables false

namespace Scc.Tree

open Scc.Leaf Scc.Leaf.Spec

variable {K V C : Type} [KeyOrd K]

/-- The leaves of `G` are linked to each other, the last one to `z`. -/
def ChainTo (H : Hp K V) : List Nat → Option Nat → Prop
  | [], _ => True
  | a :: r, z => H.next a = r.head?.or z ∧ ChainTo H r z

theorem chainTo_append {H : Hp K V} {A B : List Nat} {z : Option Nat} :
    ChainTo H (A ++ B) z ↔ ChainTo H A (B.head?.or z) ∧ ChainTo H B z := by
  induction A with
  | nil => simp [ChainTo]
  | cons a A ih =>
    simp only [List.cons_append, ChainTo]
    rw [ih, List.head?_append, Option.or_assoc, and_assoc]

theorem chainTo_congr {H H' : Hp K V} {A : List Nat} {z : Option Nat} (h : ∀ i ∈ A, H'.next i = H.next i) :
    ChainTo H' A z ↔ ChainTo H A z := by
  induction A with
  | nil => exact Iff.rfl
  | cons a A ih =>
    simp only [ChainTo]
    rw [ih (fun i hi => h i (List.mem_cons_of_mem _ hi)), h a (List.mem_cons_self ..)]

/-- `G` is the linked list, deleted leaves included. -/
structure LinkG (H : Hp K V) (G : List Nat) : Prop where
  nodup : G.Nodup
  lt : ∀ i ∈ G, i < H.fresh
  chain : ChainTo H G none
  clean : ∀ i, H.fresh ≤ i → H.del i = false
  unl : ∀ i, H.fresh ≤ i → H.next i = none

/-- What is left of `G` without the deleted leaves. -/
def live (H : Hp K V) (G : List Nat) : List Nat := G.filter (fun i => !H.del i)

/-- `L` is the linked list of leaves, deleted leaves left out. -/
def Linked (H : Hp K V) (L : List Nat) : Prop := ∃ G, LinkG H G ∧ live H G = L

theorem Linked.nodup {H : Hp K V} {L : List Nat} (h : Linked H L) : L.Nodup := by
  obtain ⟨G, g, rfl⟩ := h
  exact List.Pairwise.filter _ g.nodup

theorem Linked.lt {H : Hp K V} {L : List Nat} (h : Linked H L) : ∀ i ∈ L, i < H.fresh := by
  obtain ⟨G, g, rfl⟩ := h
  intro i hi
  exact g.lt i (List.mem_filter.1 hi).1

theorem Linked.alive {H : Hp K V} {L : List Nat} (h : Linked H L) : ∀ i ∈ L, H.del i = false := by
  obtain ⟨G, g, rfl⟩ := h
  intro i hi
  simpa using (List.mem_filter.1 hi).2

/-- Focus on one leaf. -/
theorem live_split {H : Hp K V} {G pre post : List Nat} {a : Nat} (h : live H G = pre ++ a :: post) :
    ∃ X Y, G = X ++ a :: Y ∧ live H X = pre ∧ live H Y = post ∧ H.del a = false := by
  unfold live at h
  obtain ⟨X, R, h1, h2, h3⟩ := List.filter_eq_append_iff.1 h
  obtain ⟨X', Y, h4, h5, h6, h7⟩ := List.filter_eq_cons_iff.1 h3
  refine ⟨X ++ X', Y, by rw [h1, h4]; simp, ?_, h7, by simpa using h6⟩
  unfold live
  rw [List.filter_append, h2]
  have : X'.filter (fun i => !H.del i) = [] := List.filter_eq_nil_iff.2 h5
  rw [this, List.append_nil]

/-- `next_ptr` finds the next leaf that is not deleted. -/
theorem nextFrom_live {H : Hp K V} {Y : List Nat} : ∀ {f a : Nat}, ChainTo H (a :: Y) none → Y.length < f →
    H.nextFrom f a = (live H Y).head? := by
  induction Y with
  | nil =>
    intro f a h hf
    cases f with
    | zero => cases hf
    | succ f =>
      have := h.1
      simp at this
      simp [Hp.nextFrom, this, live]
  | cons b Y ih =>
    intro f a h hf
    cases f with
    | zero => cases hf
    | succ f =>
      have h1 := h.1
      simp at h1
      simp only [Hp.nextFrom, h1, live, List.filter_cons]
      by_cases hd : H.del b = true
      · simp only [hd, if_pos]
        have := ih (f := f) h.2 (by simp at hf; omega)
        unfold live at this
        simpa using this
      · simp at hd
        simp [hd]

theorem nodup_length_le {n : Nat} : ∀ {G : List Nat}, G.Nodup → (∀ i ∈ G, i < n) → G.length ≤ n := by
  induction n with
  | zero =>
    intro G _ hG
    cases G with
    | nil => simp
    | cons a G => exact absurd (hG a (List.mem_cons_self ..)) (Nat.not_lt_zero _)
  | succ n ih =>
    intro G hn hG
    have h1 : (G.erase n).length ≤ n := by
      apply ih (hn.erase n)
      intro i hi
      have h2 := hG i (List.mem_of_mem_erase hi)
      have h3 : i ≠ n := by
        intro e; subst e
        exact (List.Nodup.not_mem_erase hn) hi
      omega
    have h2 := List.length_erase_le (a := n) (l := G)
    by_cases hm : n ∈ G
    · have := List.length_erase_of_mem hm; omega
    · rw [List.erase_of_not_mem hm] at h1; omega

theorem Linked.nextPtr {H : Hp K V} {pre post : List Nat} {a : Nat} (h : Linked H (pre ++ a :: post)) :
    H.nextPtr a = post.head? := by
  obtain ⟨G, g, h⟩ := h
  obtain ⟨X, Y, h1, h2, h3, h4⟩ := live_split h
  subst h1
  have hc := (chainTo_append.1 g.chain).2
  have hl : (X ++ a :: Y).length ≤ H.fresh := nodup_length_le g.nodup g.lt
  unfold Hp.nextPtr
  rw [nextFrom_live hc (by simp at hl; omega), h3]

/-! ## Heap operations -/

theorem LinkG.setLeaf {H : Hp K V} {G : List Nat} (g : LinkG H G) (i : Nat) (l : Leaf K V) :
    LinkG (H.setLeaf i l) G :=
  ⟨g.nodup, g.lt, (chainTo_congr (H := H) (H' := H.setLeaf i l) (fun _ _ => rfl)).2 g.chain, g.clean, g.unl⟩

theorem LinkG.alloc {H : Hp K V} {G : List Nat} (g : LinkG H G) (l : Leaf K V) : LinkG (H.alloc l) G := by
  refine ⟨g.nodup, ?_, (chainTo_congr (H := H) (H' := H.alloc l) (fun _ _ => rfl)).2 g.chain, ?_, ?_⟩
  · intro i hi
    exact Nat.lt_succ_of_lt (g.lt i hi)
  · intro i hi
    exact g.clean i (Nat.le_of_succ_le hi)
  · intro i hi
    exact g.unl i (Nat.le_of_succ_le hi)

theorem LinkG.push {H : Hp K V} {X Y : List Nat} {a b : Nat} (g : LinkG H (X ++ a :: Y)) (hb : b < H.fresh)
    (hn : b ∉ X ++ a :: Y) (hdel : H.del a = false) : LinkG (H.pushBack a b) (X ++ a :: b :: Y) := by
  have hnd := g.nodup
  rw [List.nodup_append, List.nodup_cons] at hnd
  obtain ⟨hX, ⟨haY, hY⟩, hd⟩ := hnd
  simp only [List.mem_append, List.mem_cons, not_or] at hn
  have hab : b ≠ a := hn.2.1
  refine ⟨?_, ?_, ?_, g.clean, ?_⟩
  · rw [List.nodup_append, List.nodup_cons, List.nodup_cons]
    refine ⟨hX, ⟨?_, hn.2.2, hY⟩, ?_⟩
    · simp only [List.mem_cons, not_or]; exact ⟨fun h => hab h.symm, haY⟩
    · intro x hx y hy
      simp only [List.mem_cons] at hy
      rcases hy with rfl | rfl | hy
      · exact hd x hx _ (List.mem_cons_self ..)
      · intro e; subst e; exact hn.1 hx
      · exact hd x hx _ (List.mem_cons_of_mem _ hy)
  · intro i hi
    show i < H.fresh
    simp only [List.mem_append, List.mem_cons] at hi
    rcases hi with hi | rfl | rfl | hi
    · exact g.lt i (by simp [hi])
    · exact g.lt _ (by simp)
    · exact hb
    · exact g.lt i (by simp [hi])
  · have hc := chainTo_append.1 g.chain
    rw [chainTo_append]
    refine ⟨(chainTo_congr ?_).2 hc.1, ?_, ?_, (chainTo_congr ?_).2 hc.2.2⟩
    · intro i hi
      have h1 : i ≠ a := hd i hi a (List.mem_cons_self ..)
      have h2 : i ≠ b := by intro e; subst e; exact hn.1 hi
      simp [Hp.pushBack, hdel, h1, h2]
    · simp [Hp.pushBack, hdel]
    · simp only [Hp.pushBack, hdel, Bool.false_eq_true, if_false, if_neg hab, if_true]
      exact hc.2.1
    · intro i hi
      have h1 : i ≠ a := by intro e; subst e; exact haY hi
      have h2 : i ≠ b := by intro e; subst e; exact hn.2.2 hi
      simp [Hp.pushBack, hdel, h1, h2]
  · intro i hi
    have hi : H.fresh ≤ i := hi
    have ha := g.lt a (by simp)
    have h1 : i ≠ a := by omega
    have h2 : i ≠ b := by omega
    simp [Hp.pushBack, hdel, h1, h2, g.unl i hi]

theorem LinkG.delete {H : Hp K V} {G : List Nat} (g : LinkG H G) {a : Nat} (ha : a < H.fresh) :
    LinkG (H.deleteSelf a) G := by
  refine ⟨g.nodup, g.lt, (chainTo_congr (H := H) (H' := H.deleteSelf a) (fun _ _ => rfl)).2 g.chain, ?_, g.unl⟩
  intro i hi
  have : i ≠ a := by have : H.fresh ≤ i := hi; omega
  simp only [Hp.deleteSelf, if_neg this]
  exact g.clean i hi

theorem live_delete_not_mem {H : Hp K V} {G : List Nat} {a : Nat} (h : a ∉ G) :
    live (H.deleteSelf a) G = live H G := by
  unfold live
  apply List.filter_congr
  intro i hi
  have : i ≠ a := by intro e; subst e; exact h hi
  simp [Hp.deleteSelf, this]

theorem live_delete {H : Hp K V} {X Y : List Nat} {a : Nat} (h : (X ++ a :: Y).Nodup) :
    live (H.deleteSelf a) (X ++ a :: Y) = live H X ++ live H Y := by
  rw [List.nodup_append, List.nodup_cons] at h
  have h1 : a ∉ X := fun hx => h.2.2 a hx a (List.mem_cons_self ..) rfl
  have e1 := live_delete_not_mem (H := H) h1
  have e2 := live_delete_not_mem (H := H) h.2.1.1
  unfold live at e1 e2 ⊢
  rw [List.filter_append, List.filter_cons, e1]
  have : (H.deleteSelf a).del a = true := by simp [Hp.deleteSelf]
  simp [this, e2]

/-! ## Effects of operations -/

/-- What an operation on the leaves `I`, which become `I'`, does to the heap. -/
structure Eff (H H' : Hp K V) (I I' : List Nat) : Prop where
  fresh : H.fresh ≤ H'.fresh
  frame : ∀ i, i < H.fresh → i ∉ I → H'.leaf i = H.leaf i
  sub : ∀ i ∈ I', i ∈ I ∨ H.fresh ≤ i
  lt : ∀ i ∈ I', i < H'.fresh
  nodup : I'.Nodup
  link : ∀ pre post, Linked H (pre ++ I ++ post) → Linked H' (pre ++ I' ++ post)

theorem Eff.refl {H : Hp K V} {I : List Nat} (hn : I.Nodup) (hl : ∀ i ∈ I, i < H.fresh) : Eff H H I I :=
  ⟨Nat.le_refl _, fun _ _ _ => rfl, fun _ h => .inl h, hl, hn, fun _ _ h => h⟩

theorem Eff.trans {H1 H2 H3 : Hp K V} {I1 I2 I3 : List Nat} (a : Eff H1 H2 I1 I2) (b : Eff H2 H3 I2 I3) :
    Eff H1 H3 I1 I3 := by
  refine ⟨Nat.le_trans a.fresh b.fresh, ?_, ?_, b.lt, b.nodup, fun pre post h => b.link _ _ (a.link _ _ h)⟩
  · intro i hi hn
    rw [b.frame i (Nat.lt_of_lt_of_le hi a.fresh), a.frame i hi hn]
    intro h
    rcases a.sub i h with h | h
    · exact hn h
    · omega
  · intro i hi
    rcases b.sub i hi with h | h
    · exact a.sub i h
    · exact .inr (Nat.le_trans a.fresh h)

theorem Eff.embed {H H' : Hp K V} {I I' X Y : List Nat} (e : Eff H H' I I') (hn : (X ++ I ++ Y).Nodup)
    (hl : ∀ i ∈ X ++ I ++ Y, i < H.fresh) : Eff H H' (X ++ I ++ Y) (X ++ I' ++ Y) := by
  rw [List.nodup_append, List.nodup_append] at hn
  obtain ⟨⟨hX, hI, hXI⟩, hY, hXY⟩ := hn
  refine ⟨e.fresh, ?_, ?_, ?_, ?_, ?_⟩
  · intro i hi hni
    apply e.frame i hi
    intro h; apply hni; simp [h]
  · intro i hi
    simp only [List.mem_append] at hi ⊢
    rcases hi with (hi | hi) | hi
    · exact .inl (.inl (.inl hi))
    · rcases e.sub i hi with h | h
      · exact .inl (.inl (.inr h))
      · exact .inr h
    · exact .inl (.inr hi)
  · intro i hi
    simp only [List.mem_append] at hi
    rcases hi with (hi | hi) | hi
    · exact Nat.lt_of_lt_of_le (hl i (by simp [hi])) e.fresh
    · exact e.lt i hi
    · exact Nat.lt_of_lt_of_le (hl i (by simp [hi])) e.fresh
  · rw [List.nodup_append, List.nodup_append]
    refine ⟨⟨hX, e.nodup, ?_⟩, hY, ?_⟩
    · intro a ha b hb hab
      subst hab
      rcases e.sub a hb with h | h
      · exact hXI a ha a h rfl
      · have := hl a (by simp [ha]); omega
    · intro a ha b hb hab
      subst hab
      rcases List.mem_append.1 ha with ha | ha
      · exact hXY a (by simp [ha]) a hb rfl
      · rcases e.sub a ha with h | h
        · exact hXY a (by simp [h]) a hb rfl
        · have := hl a (by simp [hb]); omega
  · intro pre post h
    have := e.link (pre ++ X) (Y ++ post) (by simpa using h)
    simpa using this

theorem Eff.setLeaf {H : Hp K V} {I : List Nat} (hn : I.Nodup) (hl : ∀ i ∈ I, i < H.fresh) {i : Nat}
    (hi : i ∈ I) (l : Leaf K V) : Eff H (H.setLeaf i l) I I := by
  refine ⟨Nat.le_refl _, ?_, fun _ h => .inl h, hl, hn, ?_⟩
  · intro j _ hj
    have : j ≠ i := by intro e; subst e; exact hj hi
    simp [Hp.setLeaf, this]
  · rintro pre post ⟨G, g, h⟩
    exact ⟨G, g.setLeaf i l, h⟩

/-- The leaf `a` is deleted. -/
theorem Eff.delete {H : Hp K V} {a : Nat} (ha : a < H.fresh) : Eff H (H.deleteSelf a) [a] [] := by
  refine ⟨Nat.le_refl _, fun _ _ _ => rfl, fun _ h => (by cases h), fun _ h => (by cases h), List.nodup_nil, ?_⟩
  rintro pre post ⟨G, g, h⟩
  rw [List.append_assoc] at h
  obtain ⟨X, Y, h1, h2, h3, h4⟩ := live_split h
  subst h1
  exact ⟨_, g.delete ha, by rw [live_delete g.nodup, h2, h3]; simp⟩

/-- Writing to a leaf on the way out does no harm. -/
theorem Eff.after {H H' : Hp K V} {I I' : List Nat} (e : Eff H H' I I') {i : Nat} (hi : i ∈ I ∨ H.fresh ≤ i)
    (l : Leaf K V) : Eff H (H'.setLeaf i l) I I' := by
  refine ⟨e.fresh, ?_, e.sub, e.lt, e.nodup, ?_⟩
  · intro j h1 h2
    have : j ≠ i := by
      intro e; subst e
      rcases hi with h | h
      · exact h2 h
      · omega
    simp only [Hp.setLeaf, if_neg this]
    exact e.frame j h1 h2
  · intro pre post h
    obtain ⟨G, g, h'⟩ := e.link pre post h
    exact ⟨G, g.setLeaf i l, h'⟩

/-- The leaf `a` is replaced by a new one. -/
theorem Eff.replace1 {H : Hp K V} {a : Nat} (ha : a < H.fresh) (l x : Leaf K V) :
    Eff H (((((H.setLeaf a x).alloc l).pushBack a H.fresh).deleteSelf a)) [a] [H.fresh] := by
  refine ⟨Nat.le_succ _, ?_, fun i h => .inr (by simp at h; omega), fun i h => ?_, by simp, ?_⟩
  · intro i hi hn
    have h1 : i ≠ a := by simpa using hn
    have h2 : i ≠ H.fresh := by omega
    simp [Hp.deleteSelf, Hp.pushBack, Hp.alloc, Hp.setLeaf, h1, h2]
  · simp at h; subst h; exact Nat.lt_succ_self _
  · rintro pre post ⟨G, g, h⟩
    rw [List.append_assoc] at h
    obtain ⟨X, Y, h1, h2, h3, h4⟩ := live_split h
    subst h1
    have g1 := (g.setLeaf a x).alloc l
    have hnot : H.fresh ∉ X ++ a :: Y := fun h => Nat.lt_irrefl _ (g.lt _ h)
    have g2 := g1.push (b := H.fresh) (Nat.lt_succ_self _) hnot h4
    have g3 := g2.delete (a := a) (Nat.lt_succ_of_lt ha)
    refine ⟨_, g3, ?_⟩
    rw [live_delete g2.nodup]
    show live H X ++ live H (H.fresh :: Y) = _
    have hc := g.clean H.fresh (Nat.le_refl _)
    rw [h2]
    show _ ++ (H.fresh :: Y).filter _ = _
    rw [List.filter_cons]
    simp only [hc, Bool.not_false, if_true]
    show _ ++ (H.fresh :: live H Y) = _
    rw [h3]; simp

/-- The leaf `a` is replaced by two new ones. -/
theorem Eff.replace2 {H : Hp K V} {a : Nat} (ha : a < H.fresh) (l m x : Leaf K V) :
    Eff H (((((((H.setLeaf a x).alloc l).alloc m).pushBack a (H.fresh + 1)).pushBack a H.fresh).deleteSelf a))
      [a] [H.fresh, H.fresh + 1] := by
  refine ⟨Nat.le_trans (Nat.le_succ _) (Nat.le_succ _), ?_, fun i h => .inr (by simp at h; omega),
    fun i h => ?_, by simp, ?_⟩
  · intro i hi hn
    have h1 : i ≠ a := by simpa using hn
    have h2 : i ≠ H.fresh := by omega
    have h3 : i ≠ H.fresh + 1 := by omega
    simp [Hp.deleteSelf, Hp.pushBack, Hp.alloc, Hp.setLeaf, h1, h2, h3]
  · show i < H.fresh + 1 + 1
    simp at h; omega
  · rintro pre post ⟨G, g, h⟩
    rw [List.append_assoc] at h
    obtain ⟨X, Y, h1, h2, h3, h4⟩ := live_split h
    subst h1
    have g1 := ((g.setLeaf a x).alloc l).alloc m
    have hnot : H.fresh ∉ X ++ a :: Y := fun h => Nat.lt_irrefl _ (g.lt _ h)
    have hnot1 : H.fresh + 1 ∉ X ++ a :: Y := fun h => by have := g.lt _ h; omega
    have g2 := g1.push (b := H.fresh + 1) (Nat.lt_succ_self _) hnot1 h4
    have g3 := g2.push (b := H.fresh) (show H.fresh < H.fresh + 1 + 1 by omega) (by
      intro h
      simp only [List.mem_append, List.mem_cons] at h hnot
      rcases h with h | h | h | h
      · exact hnot (.inl h)
      · exact hnot (.inr (.inl h))
      · omega
      · exact hnot (.inr (.inr h))) h4
    have g4 := g3.delete (a := a) (show a < H.fresh + 1 + 1 by omega)
    refine ⟨_, g4, ?_⟩
    rw [live_delete g3.nodup]
    show live H X ++ live H (H.fresh :: (H.fresh + 1) :: Y) = _
    have hc := g.clean H.fresh (Nat.le_refl _)
    have hc1 := g.clean (H.fresh + 1) (Nat.le_succ _)
    rw [h2]
    show _ ++ (H.fresh :: (H.fresh + 1) :: Y).filter _ = _
    rw [List.filter_cons, List.filter_cons]
    simp only [hc, hc1, Bool.not_false, if_true]
    show _ ++ (H.fresh :: (H.fresh + 1) :: live H Y) = _
    rw [h3]; simp

end Scc.Tree
