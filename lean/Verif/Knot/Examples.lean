import Verif.Knot.Props

/-! # Executions of the lock protocol -/

namespace Scc.Knot

/-- The root, a leaf node, is full: a new root `1` with two leaf nodes `2` and `3`. The old one is poisoned. -/
theorem two_leaves : ∃ s, Reach s ∧ s.root = some 1 ∧ s.kids 1 = [2, 3] ∧ s.next = 4 ∧ (s.leaf 1 = false ∧ s.leaf 2 = true ∧ s.leaf 3 = true) ∧
    s.lock 0 = .poison ∧ (∀ n, n ≠ 0 → s.lock n = .free) ∧ ∀ t, s.pc t = .idle := by
  have h := Reach.init
  have h := h.step (.plant (t := 0) rfl rfl)
  have h := h.step (.split (t := 0) (n := 0) rfl (by decide) rfl rfl)
  have h := h.step (.grow (t := 0) (x := 0) (sub := []) (g := fun _ => []) rfl rfl ⟨rfl, rfl⟩)
  have h := h.step (.rel (t := 0) rfl)
  have h := h.step (.rel (t := 0) rfl)
  have h := h.step (.rel (t := 0) rfl)
  have h := h.step (.poi (t := 0) rfl)
  have h := h.step (.over (t := 0) rfl)
  refine ⟨_, h, rfl, rfl, rfl, ⟨rfl, rfl, rfl⟩, rfl, ?_, ?_⟩
  · intro n hn
    simp only [State.go, State.take, State.prune, State.copy, State.init, upd]
    repeat' split
    all_goals first | rfl | omega | skip
    all_goals simp only [List.length_cons, List.length_nil] at *
    all_goals omega
  · intro t
    simp only [State.go, State.take, State.prune, State.copy, State.init, upd]
    split <;> rfl

/-- `c63_chain`: thread 2, which inserts, waits for thread 0, which is about to remove a range and waits with the lock of the root held
for thread 1, which splits a leaf node. -/
theorem c63_two : ∃ s, Reach s ∧ Waits s 2 0 ∧ Waits s 0 1 ∧ Below s 3 := by
  have h := Reach.init
  have h := h.step (.plant (t := 0) rfl rfl)
  have h := h.step (.split (t := 0) (n := 0) rfl (by decide) rfl rfl)
  have h := h.step (.grow (t := 0) (x := 0) (sub := []) (g := fun _ => []) rfl rfl ⟨rfl, rfl⟩)
  have h := h.step (.rel (t := 0) rfl)
  have h := h.step (.rel (t := 0) rfl)
  have h := h.step (.rel (t := 0) rfl)
  have h := h.step (.poi (t := 0) rfl)
  have h := h.step (.over (t := 0) rfl)
  have h := h.step (.split (t := 1) (n := 2) rfl (by decide) rfl rfl)
  have h := h.step (.mow (t := 0) (r := 1) rfl rfl)
  have h := h.step (.mowTake (t := 0) rfl rfl)
  have h := h.step (.down (t := 0) (ks := [2, 3]) (d := 2) rfl (List.Sublist.refl _) (by decide))
  have h := h.step (.mowBusy (t := 0) rfl (fun e => by cases e))
  have h := h.step (.split (t := 2) (n := 3) rfl (by decide) rfl rfl)
  have h := h.step (.upBusy (t := 2) (p := 1) rfl (by decide) (fun e => by cases e))
  have h := h.step (.rel (t := 2) rfl)
  have h := h.step (.overWait (t := 2) rfl)
  exact ⟨_, h, ⟨1, [], rfl, rfl⟩, ⟨2, [1], rfl, rfl⟩, .kid (p := 1) (.root rfl) (by decide)⟩

/-- Splits up to the root, and one that ends halfway: the tree has three levels. -/
theorem three_levels : ∃ s, Reach s ∧ s.root = some 4 ∧ s.kids 4 = [5, 6] ∧ s.kids 5 = [7] ∧ s.kids 6 = [8, 9, 10] ∧
    (s.lock 0 = .poison ∧ s.lock 1 = .poison ∧ s.lock 2 = .poison ∧ s.lock 3 = .poison) := by
  have h := Reach.init
  have h := h.step (.plant (t := 0) rfl rfl)
  have h := h.step (.split (t := 0) (n := 0) rfl (by decide) rfl rfl)
  have h := h.step (.grow (t := 0) (x := 0) (sub := []) (g := fun _ => []) rfl rfl ⟨rfl, rfl⟩)
  have h := h.step (.rel (t := 0) rfl)
  have h := h.step (.rel (t := 0) rfl)
  have h := h.step (.rel (t := 0) rfl)
  have h := h.step (.poi (t := 0) rfl)
  have h := h.step (.over (t := 0) rfl)
  have h := h.step (.split (t := 0) (n := 2) rfl (by decide) rfl rfl)
  have h := h.step (.up (t := 0) (p := 1) rfl (by decide) rfl rfl)
  have h := h.step (.full (t := 0) rfl (by decide))
  have h := h.step (.grow (t := 0) (g := fun n => if n = 5 then [7] else if n = 6 then [8, 3] else []) rfl rfl ⟨rfl, rfl, rfl⟩)
  have h := h.step (.rel (t := 0) rfl)
  have h := h.step (.poi (t := 0) rfl)
  have h := h.step (.rel (t := 0) rfl)
  have h := h.step (.rel (t := 0) rfl)
  have h := h.step (.poi (t := 0) rfl)
  have h := h.step (.over (t := 0) rfl)
  have h := h.step (.split (t := 1) (n := 3) rfl (by decide) rfl rfl)
  have h := h.step (.up (t := 1) (p := 6) rfl (by decide) rfl rfl)
  have h := h.step (.publish (t := 1) (g := fun _ => []) rfl (by decide) ⟨rfl, rfl⟩)
  have h := h.step (.rel (t := 1) rfl)
  have h := h.step (.rel (t := 1) rfl)
  have h := h.step (.rel (t := 1) rfl)
  have h := h.step (.poi (t := 1) rfl)
  exact ⟨_, h, rfl, rfl, rfl, rfl, rfl, rfl, rfl, rfl⟩

/-- `c63_can_step`, `c63_end`, `c63_over`: a thread in a call. -/
example : ∃ s, Reach s ∧ s.pc 0 ≠ .idle ∧ ∃ s', Goes s s' := by
  have h := Reach.init
  have h := h.step (.plant (t := 0) rfl rfl)
  have h := h.step (.split (t := 0) (n := 0) rfl (by decide) rfl rfl)
  exact ⟨_, h, (fun e => by cases e), _, 0, (fun e => by cases e), .roomy (t := 0) (n := 0) rfl⟩

/-- `c63_over`: nobody is in a call. -/
example : ∃ s, Reach s ∧ ∀ s', ¬ Goes s s' := ⟨_, .init, (fun _ ⟨_, h, _⟩ => h rfl)⟩

/-- `c63_holder`. -/
example : ∃ s, Reach s ∧ s.lock 0 = .held 0 := by
  have h := Reach.init
  have h := h.step (.plant (t := 0) rfl rfl)
  have h := h.step (.split (t := 0) (n := 0) rfl (by decide) rfl rfl)
  exact ⟨_, h, rfl⟩

/-- `c63_tree`. -/
example : ∃ s, Reach s ∧ Below s 1 ∧ 3 ∈ s.kids 1 := by
  obtain ⟨s, h, h1, h2, _⟩ := two_leaves
  exact ⟨s, h, .root h1, by rw [h2]; decide⟩

end Scc.Knot
