import Verif.Index.Model

namespace Scc.Index

theorem le_nextPow2 (n : Nat) : n ≤ nextPow2 n := by
  unfold nextPow2; split
  · omega
  · have := Nat.lt_log2_self (n := n - 1)
    omega

theorem nextPow2_isPow (n : Nat) : ∃ k, nextPow2 n = 2 ^ k := by
  unfold nextPow2; split
  · exact ⟨0, rfl⟩
  · exact ⟨_, rfl⟩

/-- `nextPow2 n` is the least power of two that is at least `n`. -/
theorem nextPow2_le {n k : Nat} (h : n ≤ 2 ^ k) : nextPow2 n ≤ 2 ^ k := by
  unfold nextPow2; split
  · exact Nat.one_le_two_pow
  · rename_i h1
    have h2 : n - 1 ≠ 0 := by omega
    have h3 : Nat.log2 (n - 1) < k := (Nat.log2_lt h2).2 (by omega)
    exact Nat.pow_le_pow_right (by omega) h3

theorem nextPow2_pow (k : Nat) : nextPow2 (2 ^ k) = 2 ^ k :=
  Nat.le_antisymm (nextPow2_le (Nat.le_refl _)) (le_nextPow2 _)

theorem nextPow2_lt {n : Nat} (h : 1 ≤ n) : nextPow2 n < 2 * n := by
  unfold nextPow2; split
  · omega
  · rename_i h1
    have := Nat.log2_self_le (n := n - 1) (by omega)
    rw [Nat.pow_succ]; omega

theorem pow_max (a b : Nat) : max (2 ^ a) (2 ^ b) = 2 ^ max a b := by
  rcases Nat.le_total a b with h | h
  · rw [Nat.max_eq_right h, Nat.max_eq_right (Nat.pow_le_pow_right (by omega) h)]
  · rw [Nat.max_eq_left h, Nat.max_eq_left (Nat.pow_le_pow_right (by omega) h)]

theorem minimumCapacity_eq : minimumCapacity = 2 ^ 6 := by decide

/-- The length of a new array as a power of two with bounds on the exponent. -/
theorem arrayLen_pow (capacity : Nat) :
    ∃ k, arrayLen capacity = 2 ^ k ∧ 1 ≤ k ∧ k ≤ 57 ∧ min capacity (2 ^ 62) ≤ 2 ^ k * 32 := by
  obtain ⟨j, hj⟩ := nextPow2_isPow (min capacity (2 ^ 62))
  have h1 : nextPow2 (min capacity (2 ^ 62)) ≤ 2 ^ 62 := nextPow2_le (Nat.min_le_right _ _)
  have h2 := le_nextPow2 (min capacity (2 ^ 62))
  rw [hj] at h1 h2
  have hj62 : j ≤ 62 := (Nat.pow_le_pow_iff_right (by omega)).1 h1
  refine ⟨max j 6 - 5, ?_, by omega, by omega, ?_⟩
  · unfold arrayLen
    rw [hj, minimumCapacity_eq, pow_max]
    show 2 ^ max j 6 / 2 ^ 5 = _
    rw [Nat.pow_div (by omega) (by omega)]
  · have : 2 ^ (max j 6 - 5) * 32 = 2 ^ max j 6 := by
      show _ * 2 ^ 5 = _
      rw [← Nat.pow_add]; congr 1; omega
    rw [this]
    exact Nat.le_trans h2 (Nat.pow_le_pow_right (by omega) (by omega))

theorem log2ArrayLen_spec (capacity : Nat) : 2 ^ log2ArrayLen capacity = arrayLen capacity := by
  obtain ⟨k, hk, _⟩ := arrayLen_pow capacity
  unfold log2ArrayLen; rw [hk, Nat.log2_two_pow]

theorem bucketIndex_eq (lg hash : Nat) : bucketIndex lg hash = hash / 2 ^ (64 - lg) := by
  unfold bucketIndex; rw [Nat.shiftRight_eq_div_pow]

theorem bucketIndex_lt {lg hash : Nat} (hl : lg ≤ 64) (hh : hash < 2 ^ 64) :
    bucketIndex lg hash < 2 ^ lg := by
  rw [bucketIndex_eq]
  apply Nat.div_lt_of_lt_mul
  rw [← Nat.pow_add]
  have : 64 - lg + lg = 64 := by omega
  rw [this]; exact hh

/-- The bucket index in a smaller array is the prefix of the one in a larger array. -/
theorem bucketIndex_prefix {a b hash : Nat} (hab : a ≤ b) (hb : b ≤ 64) :
    bucketIndex a hash = bucketIndex b hash / 2 ^ (b - a) := by
  rw [bucketIndex_eq, bucketIndex_eq, Nat.div_div_eq_div_mul, ← Nat.pow_add]
  congr 2; omega

theorem range_grow {a b : Nat} (h : a < b) (i : Nat) :
    fromIndexToRange (2 ^ a) (2 ^ b) i = (i * 2 ^ (b - a), i * 2 ^ (b - a) + 2 ^ (b - a)) := by
  unfold fromIndexToRange
  rw [if_pos ((Nat.pow_lt_pow_iff_right (by omega)).2 h), Nat.pow_div (by omega) (by omega)]

theorem range_shrink {a b : Nat} (h : b ≤ a) (i : Nat) :
    fromIndexToRange (2 ^ a) (2 ^ b) i = (i / 2 ^ (a - b), i / 2 ^ (a - b) + 1) := by
  unfold fromIndexToRange
  rw [if_neg (by
    have := (Nat.pow_le_pow_iff_right (a := 2) (by omega)).2 h
    omega), Nat.pow_div h (by omega)]

/-- Membership of a range. -/
def InRange (r : Nat × Nat) (j : Nat) : Prop := r.1 ≤ j ∧ j < r.2

instance (r j) : Decidable (InRange r j) := inferInstanceAs (Decidable (_ ∧ _))

theorem inRange_grow {a b : Nat} (h : a < b) (i j : Nat) :
    InRange (fromIndexToRange (2 ^ a) (2 ^ b) i) j ↔ j / 2 ^ (b - a) = i := by
  rw [range_grow h]
  have hp : 0 < 2 ^ (b - a) := Nat.two_pow_pos _
  unfold InRange
  simp only
  rw [Nat.div_eq_iff hp]
  generalize 2 ^ (b - a) = r at *
  rw [Nat.mul_comm i r]
  omega

theorem inRange_shrink {a b : Nat} (h : b ≤ a) (i j : Nat) :
    InRange (fromIndexToRange (2 ^ a) (2 ^ b) i) j ↔ j = i / 2 ^ (a - b) := by
  rw [range_shrink h]; unfold InRange; simp only; omega

theorem and_not64 {x k : Nat} (hx : x < 2 ^ 64) (hk : k ≤ 64) :
    x &&& not64 (2 ^ k - 1) = x / 2 ^ k * 2 ^ k := by
  apply Nat.eq_of_testBit_eq
  intro i
  have hnot : (not64 (2 ^ k - 1)).testBit i = decide (k ≤ i ∧ i < 64) := by
    unfold not64
    rw [Nat.testBit_xor, Nat.testBit_two_pow_sub_one, Nat.testBit_two_pow_sub_one]
    by_cases h1 : i < 64 <;> by_cases h2 : i < k <;> simp [h1, h2] <;> omega
  rw [Nat.testBit_and, hnot, Nat.mul_comm, Nat.testBit_two_pow_mul, Nat.testBit_div_two_pow]
  by_cases h1 : k ≤ i
  · by_cases h2 : i < 64
    · simp [h1, h2]
    · have : x.testBit i = false := by
        apply Nat.testBit_lt_two_pow
        exact Nat.lt_of_lt_of_le hx (Nat.pow_le_pow_right (by omega) (by omega))
      simp [h1, h2, this]
  · simp [h1]

theorem doubleLoop_spec (est maxE : Nat) : ∀ (fuel e : Nat), e ≤ maxE → maxE ≤ e + fuel →
    ∃ e', doubleLoop est (2 ^ maxE) fuel (2 ^ e) = 2 ^ e' ∧ e ≤ e' ∧ e' ≤ maxE ∧
      (est ≤ 2 ^ e' / 2 ∨ e' = maxE) ∧ (e' = e ∨ 2 ^ e' / 4 < est)
  | 0, e, h1, h2 => ⟨e, rfl, by omega, by omega, Or.inr (by omega), Or.inl rfl⟩
  | fuel + 1, e, h1, h2 => by
    unfold doubleLoop
    by_cases hh : 2 ^ e / 2 < est
    · rw [if_pos hh]
      by_cases hm : 2 ^ e ≥ 2 ^ maxE
      · rw [if_pos hm]
        have : maxE ≤ e := (Nat.pow_le_pow_iff_right (by omega)).1 hm
        exact ⟨e, rfl, by omega, by omega, Or.inr (by omega), Or.inl rfl⟩
      · rw [if_neg hm]
        have hlt : e < maxE := by
          have h3 : 2 ^ e < 2 ^ maxE := by omega
          exact (Nat.pow_lt_pow_iff_right (by omega)).1 h3
        rw [← Nat.pow_succ]
        obtain ⟨e', he, h3, h4, h5, h6⟩ := doubleLoop_spec est maxE fuel (e + 1) (by omega) (by omega)
        refine ⟨e', he, by omega, h4, h5, ?_⟩
        rcases h6 with h6 | h6
        · right; subst h6; rw [Nat.pow_succ]; omega
        · exact Or.inr h6
    · rw [if_neg hh]
      exact ⟨e, rfl, by omega, by omega, Or.inl (by omega), Or.inl rfl⟩

end Scc.Index
