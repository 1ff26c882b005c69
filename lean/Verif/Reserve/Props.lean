import Verif.Reserve.Model

/-!
# C07, C08: reservations and the capacity range
-/

namespace Scc.Reserve

/-- The word is the exact sum, plus the lock bit. -/
structure Inv (maxCap m : Nat) (s : State) : Prop where
  word : s.word = m + s.live.sum + (if s.locked then resizing else 0)
  bound : m + s.live.sum ≤ maxCap
  seen : ∀ p ∈ s.pending, admits maxCap p.1 p.2 = true

theorem masked_eq {maxCap m : Nat} {s : State} (hmax : maxCap ≤ 2 ^ 62) (h : Inv maxCap m s) :
    masked s.word = m + s.live.sum := by
  have := h.bound
  unfold masked
  rw [h.word]
  split
  · unfold resizing
    rw [Nat.add_mod_right, Nat.mod_eq_of_lt]; omega
  · rw [Nat.add_zero, Nat.mod_eq_of_lt]; omega

theorem wrappingSub_eq {a b : Nat} (ha : a < 2 ^ 64) (hb : b ≤ a) : wrappingSub a b = a - b := by
  unfold wrappingSub
  rw [Nat.mod_eq_of_lt (by omega : b < 2 ^ 64)]
  have : a + (2 ^ 64 - b) = 2 ^ 64 + (a - b) := by omega
  rw [this, Nat.add_mod_left, Nat.mod_eq_of_lt (by omega)]

theorem admits_iff {maxCap n w : Nat} (hmax : maxCap ≤ 2 ^ 62) (hw : masked w ≤ maxCap) :
    admits maxCap n w = true ↔ masked w + n ≤ maxCap := by
  unfold admits
  rw [wrappingSub_eq (by omega) hw]
  simp; omega

theorem inv_step {maxCap m : Nat} (hmax : maxCap ≤ 2 ^ 62) {s s' : State} {e : Event}
    (h : Inv maxCap m s) (st : Step maxCap s e s') : Inv maxCap m s' := by
  have hm := masked_eq hmax h
  have hb := h.bound
  cases st with
  | load ha =>
    refine ⟨h.word, hb, ?_⟩
    intro p hp
    rcases List.mem_cons.1 hp with rfl | hp
    · exact ha
    · exact h.seen p hp
  | refuse _ => exact h
  | refuseRetry hp _ =>
    refine ⟨h.word, hb, ?_⟩
    intro p hmem
    apply h.seen p
    rw [hp]
    simp at hmem ⊢
    rcases hmem with h | h
    · exact Or.inl h
    · exact Or.inr (Or.inr h)
  | retry hp ha =>
    refine ⟨h.word, hb, ?_⟩
    intro p hmem
    simp only [List.mem_append, List.mem_cons] at hmem
    rcases hmem with h' | rfl | h'
    · exact h.seen p (by rw [hp]; simp [h'])
    · exact ha
    · exact h.seen p (by rw [hp]; simp [h'])
  | @reserved n seen l r hp hs =>
    have hadm := h.seen (n, seen) (by rw [hp]; simp)
    simp only at hadm
    rw [← hs] at hadm
    rw [admits_iff hmax (by omega), hm] at hadm
    have hsum : (if n = 0 then s.live else n :: s.live).sum = n + s.live.sum := by
      split
      · rename_i h0; rw [h0]; omega
      · simp
    refine ⟨?_, ?_, ?_⟩
    · show wrappingAdd n seen =
        m + (if n = 0 then s.live else n :: s.live).sum + (if s.locked then resizing else 0)
      rw [hsum, ← hs, h.word]
      unfold wrappingAdd
      rw [Nat.mod_eq_of_lt]
      · omega
      · unfold resizing; split <;> omega
    · show m + (if n = 0 then s.live else n :: s.live).sum ≤ maxCap
      rw [hsum]; omega
    · intro p hmem
      apply h.seen p
      rw [hp]
      simp at hmem ⊢
      rcases hmem with h | h
      · exact Or.inl h
      · exact Or.inr (Or.inr h)
  | @release n l r hl =>
    have hsum : s.live.sum = (l ++ r).sum + n := by rw [hl]; simp; omega
    refine ⟨?_, ?_, h.seen⟩
    · show wrappingSub s.word n = m + (l ++ r).sum + (if s.locked then resizing else 0)
      rw [wrappingSub_eq]
      · rw [h.word, hsum]; omega
      · rw [h.word]; unfold resizing; split <;> omega
      · rw [h.word]; omega
    · show m + (l ++ r).sum ≤ maxCap
      omega
  | lock hlt =>
    have hlk : s.locked = false := by
      cases hl : s.locked with
      | false => rfl
      | true =>
        have := h.word
        rw [hl] at this
        simp at this
        unfold resizing at *
        omega
    refine ⟨?_, hb, h.seen⟩
    show wrappingAdd s.word resizing = _
    have hw := h.word
    rw [hlk] at hw
    simp at hw
    simp only [if_true]
    unfold wrappingAdd
    rw [Nat.mod_eq_of_lt]
    · omega
    · unfold resizing at *; omega
  | unlock hl =>
    refine ⟨?_, hb, h.seen⟩
    show wrappingSub s.word resizing = _
    have hw := h.word
    rw [hl] at hw
    simp at hw
    rw [wrappingSub_eq]
    · simp; omega
    · unfold resizing at *; omega
    · omega

theorem reachable_inv {maxCap m : Nat} (hmax : maxCap ≤ 2 ^ 62) (hm : m ≤ maxCap) {s : State}
    (h : Reachable maxCap m s) : Inv maxCap m s := by
  induction h with
  | init => exact ⟨by simp [init], by simpa [init] using hm, by simp [init]⟩
  | step _ st ih => exact inv_step hmax ih st

/-! ## C07 -/

/-- In every reachable state the minimum capacity is the initial minimum plus the sum of all live
reservations, and it never exceeds the maximum. -/
theorem c07_minimum_is_sum {maxCap m : Nat} (hmax : maxCap ≤ 2 ^ 62) (hm : m ≤ maxCap) {s : State}
    (h : Reachable maxCap m s) :
    s.minimumCapacity = m + s.live.sum ∧ s.minimumCapacity ≤ maxCap := by
  have hi := reachable_inv hmax hm h
  have := masked_eq hmax hi
  exact ⟨this, by unfold State.minimumCapacity; rw [this]; exact hi.bound⟩

/-- `reserve n` gives up only at a moment when the request really does not fit, and it obtains its
reservation only if the request fits at that moment. -/
theorem c07_reserve_decision {maxCap m : Nat} (hmax : maxCap ≤ 2 ^ 62) (hm : m ≤ maxCap)
    {s s' : State} {n : Nat} (h : Reachable maxCap m s) :
    (Step maxCap s (.refuse n) s' → maxCap < m + s.live.sum + n) ∧
      (Step maxCap s (.reserved n) s' → m + s.live.sum + n ≤ maxCap ∧
        s'.minimumCapacity = s.minimumCapacity + n) := by
  have hi := reachable_inv hmax hm h
  have hme := masked_eq hmax hi
  have hb := hi.bound
  refine ⟨?_, ?_⟩
  · intro st
    have hno : admits maxCap n s.word = false → maxCap < m + s.live.sum + n := by
      intro ha
      have := admits_iff (n := n) hmax (by omega : masked s.word ≤ maxCap)
      rw [ha, hme] at this
      simp at this; omega
    cases st with
    | refuse ha => exact hno ha
    | refuseRetry _ ha => exact hno ha
  · intro st
    have hi' := inv_step hmax hi st
    have hme' := masked_eq hmax hi'
    have hb' := hi'.bound
    unfold State.minimumCapacity
    rw [hme, hme']
    cases st with
    | reserved hp hs =>
      simp only at hb' ⊢
      split at hb'
      · rename_i h0; subst h0; simp; omega
      · rename_i h0; simp [h0] at hb' ⊢; omega

/-- Dropping a `Reserve` never underflows: the word is at least the amount (the code's
`debug_assert!`), and exactly that amount is given back. -/
theorem c07_release_no_underflow {maxCap m : Nat} (hmax : maxCap ≤ 2 ^ 62) (hm : m ≤ maxCap)
    {s s' : State} {n : Nat} (h : Reachable maxCap m s) (st : Step maxCap s (.release n) s') :
    n ≤ s.word ∧ s'.minimumCapacity + n = s.minimumCapacity := by
  have hi := reachable_inv hmax hm h
  have hi' := inv_step hmax hi st
  have hme := masked_eq hmax hi
  have hme' := masked_eq hmax hi'
  cases st with
  | @release _ l r hl =>
    have hsum : s.live.sum = (l ++ r).sum + n := by rw [hl]; simp; omega
    refine ⟨by rw [hi.word, hsum]; omega, ?_⟩
    unfold State.minimumCapacity
    rw [hme, hme', hsum]
    simp only; omega

/-- The resize lock is exclusive: it cannot be taken while it is held. -/
theorem c07_resize_lock_exclusive {maxCap m : Nat} (hmax : maxCap ≤ 2 ^ 62) (hm : m ≤ maxCap)
    {s s' : State} (h : Reachable maxCap m s) (st : Step maxCap s .lock s') : s.locked = false := by
  have hi := reachable_inv hmax hm h
  cases st with
  | lock hlt =>
    cases hl : s.locked with
    | false => rfl
    | true =>
      have := hi.word
      rw [hl] at this
      simp at this
      unfold resizing at *
      omega

/-- Two reservations overlapping a resize, one released. -/
def sampleState : State :=
  { word := 64 + 1000 + 2 ^ 63, live := [1000], pending := [], locked := true }

theorem sample_reachable : Reachable (2 ^ 62) 64 sampleState := by
  have h0 : Reachable (2 ^ 62) 64 (init 64) := .init
  have h1 := h0.step (Step.load (n := 1000) (by decide))
  have h2 := h1.step (Step.load (n := 5) (by decide))
  have h3 := h2.step (Step.reserved (l := []) (r := [(1000, 64)]) (n := 5) (seen := 64) rfl rfl)
  have h4 := h3.step (Step.lock (by decide))
  have h5 := h4.step (Step.retry (l := []) (r := []) (n := 1000) (seen := 64) rfl (by decide))
  have h6 := h5.step (Step.reserved (l := []) (r := []) (n := 1000) (seen := 64 + 5 + 2 ^ 63) rfl rfl)
  have h7 := h6.step (Step.release (l := [1000]) (r := []) (n := 5) rfl)
  exact h7

example : sampleState.minimumCapacity = 64 + [1000].sum :=
  (c07_minimum_is_sum (by decide) (by decide) sample_reachable).1

/-! ## C08 -/

/-- The property fails: while a thread holds the resize lock, the range reported by
`capacity_range()` starts above its end. -/
theorem c08_capacity_range_invalid :
    ∃ s, Reachable (2 ^ 62) 64 s ∧ s.capacityRangeStart > 2 ^ 62 ∧
      s.capacityRangeStart ≠ s.minimumCapacity :=
  ⟨sampleState, sample_reachable, by decide, by decide⟩

/-- What holds: at moments when no thread is resizing the range is valid and starts at the minimum
capacity. -/
theorem c08_capacity_range_partial {maxCap m : Nat} (hmax : maxCap ≤ 2 ^ 62) (hm : m ≤ maxCap)
    {s : State} (h : Reachable maxCap m s) (hl : s.locked = false) :
    s.capacityRangeStart = s.minimumCapacity ∧ s.capacityRangeStart ≤ maxCap := by
  have hi := reachable_inv hmax hm h
  have hme := masked_eq hmax hi
  have hw := hi.word
  rw [hl] at hw
  simp at hw
  unfold State.capacityRangeStart State.minimumCapacity
  rw [hme, hw]
  exact ⟨rfl, hi.bound⟩

end Scc.Reserve
