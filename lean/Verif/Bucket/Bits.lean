/-!
# 32-bit slot bitmaps

`u32` words with the few operations the bucket code uses.
-/

namespace Scc.Bucket

/-- A slot bitmap (`AtomicU32` fields of `Metadata`, /repo/src/hash_table/bucket.rs 95-99). -/
abbrev Word := BitVec 32

/-- `1_u32 << i`. -/
def bit (i : Nat) : Word := 1#32 <<< i

/-- `u32::trailing_zeros` (32 for the zero word). -/
def tz (w : Word) : Nat := ((List.range 32).find? fun i => w.getLsbD i).getD 32

/-- `u32::trailing_ones`. -/
def to (w : Word) : Nat := tz (~~~w)

/-- `!((1_u32 << c) - 1)`: the bits from position `c` on. -/
def from_ (c : Nat) : Word := ~~~(bit c - 1#32)

/-- `u32::count_ones`. -/
def ones (w : Word) : Nat := (List.range 32).countP fun i => w.getLsbD i

theorem getLsbD_bit (i j : Nat) : (bit i).getLsbD j = (decide (j = i) && decide (i < 32)) := by
  unfold bit
  rw [BitVec.getLsbD_shiftLeft, BitVec.getLsbD_one]
  by_cases h1 : j = i
  · subst h1; by_cases h2 : j < 32 <;> simp [h2]
  · by_cases h2 : j < i
    · simp [h1, h2]
    · by_cases h3 : j < 32
      · have : j - i ≠ 0 := by omega
        simp [h1, h2, h3, this]
      · simp [h1, h3]

theorem getLsbD_set (w : Word) (i j : Nat) :
    (w ||| bit i).getLsbD j = (w.getLsbD j || (decide (j = i) && decide (i < 32))) := by
  rw [BitVec.getLsbD_or, getLsbD_bit]

theorem getLsbD_clear (w : Word) (i j : Nat) :
    (w &&& ~~~bit i).getLsbD j = (w.getLsbD j && !decide (j = i)) := by
  rw [BitVec.getLsbD_and, BitVec.getLsbD_not, getLsbD_bit]
  by_cases h : j < 32
  · by_cases h2 : j = i
    · subst h2; simp [h]
    · simp [h, h2]
  · rw [BitVec.getLsbD_of_ge w j (by omega)]; simp

theorem getLsbD_from {c : Nat} (hc : c < 32) (j : Nat) :
    (from_ c).getLsbD j = (decide (c ≤ j) && decide (j < 32)) := by
  unfold from_
  rw [BitVec.getLsbD_not]
  have hb : (bit c - 1#32).getLsbD j = decide (j < c) := by
    rw [BitVec.getLsbD, BitVec.toNat_sub]
    have h1 : (bit c).toNat = 2 ^ c := by
      unfold bit
      rw [BitVec.toNat_shiftLeft, BitVec.toNat_ofNat, Nat.shiftLeft_eq]
      have : 2 ^ c < 2 ^ 32 := Nat.pow_lt_pow_right (by omega) hc
      simp; omega
    rw [h1]
    have h2 : 2 ^ 32 - (1#32).toNat + 2 ^ c = 2 ^ 32 + (2 ^ c - 1) := by
      have := Nat.two_pow_pos c
      simp; omega
    rw [h2, Nat.add_mod_left, Nat.mod_eq_of_lt, Nat.testBit_two_pow_sub_one]
    have : 2 ^ c < 2 ^ 32 := Nat.pow_lt_pow_right (by omega) hc
    omega
  rw [hb]
  by_cases h1 : j < 32 <;> by_cases h2 : j < c <;> simp [h1, h2] <;> omega

theorem tz_le (w : Word) : tz w ≤ 32 := by
  unfold tz
  cases h : (List.range 32).find? fun i => w.getLsbD i with
  | none => simp
  | some i =>
    have := List.mem_of_find?_eq_some h
    simp at this
    simp; omega

theorem tz_lt {w : Word} (h : tz w < 32) :
    w.getLsbD (tz w) = true ∧ ∀ j, j < tz w → w.getLsbD j = false := by
  unfold tz at h ⊢
  cases hf : (List.range 32).find? fun i => w.getLsbD i with
  | none => rw [hf] at h; simp at h
  | some i =>
    have h1 := List.find?_some hf
    refine ⟨by simpa using h1, ?_⟩
    intro j hj
    simp only [Option.getD_some] at hj
    have h2 := List.find?_range_eq_some.1 hf
    have := h2.2.2 j hj
    simpa using this

theorem tz_eq_32 {w : Word} (h : tz w = 32) (j : Nat) : w.getLsbD j = false := by
  unfold tz at h
  cases hf : (List.range 32).find? fun i => w.getLsbD i with
  | none =>
    by_cases hj : j < 32
    · have := List.find?_eq_none.1 hf j (by simpa using hj)
      simpa using this
    · exact BitVec.getLsbD_of_ge w j (by omega)
  | some i =>
    rw [hf] at h
    have := List.mem_of_find?_eq_some hf
    simp at this h; omega

theorem tz_le_of_bit {w : Word} {j : Nat} (h : w.getLsbD j = true) : tz w ≤ j := by
  by_cases h32 : tz w < 32
  · have := (tz_lt h32).2
    apply Nat.le_of_not_lt
    intro hlt
    rw [this j hlt] at h; exact absurd h (by simp)
  · have := tz_le w
    rw [tz_eq_32 (by omega) j] at h; exact absurd h (by simp)

theorem to_lt {w : Word} (h : to w < 32) :
    w.getLsbD (to w) = false ∧ ∀ j, j < to w → w.getLsbD j = true := by
  obtain ⟨h1, h2⟩ := tz_lt (w := ~~~w) h
  refine ⟨?_, ?_⟩
  · have : (~~~w).getLsbD (to w) = true := h1
    rw [BitVec.getLsbD_not] at this
    simp at this; exact this.2
  · intro j hj
    have := h2 j hj
    rw [BitVec.getLsbD_not] at this
    have hlt : j < 32 := by unfold to at hj h; omega
    simpa [hlt] using this

theorem to_eq_32 {w : Word} (h : to w = 32) {j : Nat} (hj : j < 32) : w.getLsbD j = true := by
  have := tz_eq_32 (w := ~~~w) h j
  rw [BitVec.getLsbD_not] at this
  simpa [hj] using this

theorem to_le_of_not {w : Word} {j : Nat} (hj : j < 32) (h : w.getLsbD j = false) : to w ≤ j := by
  apply tz_le_of_bit
  rw [BitVec.getLsbD_not, h]; simp [hj]

theorem allOnes_iff (w : Word) : w = BitVec.allOnes 32 ↔ ∀ j, j < 32 → w.getLsbD j = true := by
  constructor
  · rintro rfl j hj
    rw [BitVec.getLsbD_allOnes]; exact decide_eq_true hj
  · intro h
    apply BitVec.eq_of_getLsbD_eq
    intro i hi
    rw [h i hi, BitVec.getLsbD_allOnes]; exact (decide_eq_true hi).symm

theorem zero_iff (w : Word) : w = 0#32 ↔ ∀ j, w.getLsbD j = false := by
  constructor
  · rintro rfl j; simp
  · intro h
    apply BitVec.eq_of_getLsbD_eq
    intro i hi
    rw [h i]; simp

end Scc.Bucket
