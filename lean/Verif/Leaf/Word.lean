/-!
# The metadata word of a leaf

/repo/src/tree_index/leaf.rs 771-856 (`Dimension`), for 64-bit targets: 14 entries, 4 bits of state per
entry, bit 62 is "frozen", bit 63 is "retired". State `0` is "uninit", `1 … 14` is a rank, `15` is
"removed".
-/

namespace Scc.Leaf

/-- `DIMENSION.num_entries` (leaf.rs 848-851). -/
def numEntries : Nat := 14

/-- `Dimension::removed_rank` (leaf.rs 813-815). -/
def removed : Nat := 15

/-- The bit of a slot's state field. -/
abbrev Word := BitVec 64

/-- `Dimension::frozen` (leaf.rs 773-775). -/
def frozen (w : Word) : Bool := w &&& (1#64 <<< 62) != 0#64

/-- `Dimension::freeze` (leaf.rs 778-780). -/
def freeze (w : Word) : Word := w ||| (1#64 <<< 62)

/-- `Dimension::thaw` (leaf.rs 783-785). -/
def thaw (w : Word) : Word := w &&& ~~~(1#64 <<< 62)

/-- `Dimension::retired` (leaf.rs 788-790). -/
def retired (w : Word) : Bool := w &&& (1#64 <<< 63) != 0#64

/-- `Dimension::retire` (leaf.rs 793-795). -/
def retire (w : Word) : Word := w ||| (1#64 <<< 63)

/-- `Dimension::rank_mask` (leaf.rs 798-800). -/
def rankMask (i : Nat) : Word := ((1#64 <<< 4) - 1#64) <<< (i * 4)

/-- `Dimension::rank` (leaf.rs 803-805). -/
def rank (w : Word) (i : Nat) : Nat := ((w >>> (i * 4)) % (1#64 <<< 4)).toNat

/-- `Dimension::augment` (leaf.rs 818-820). -/
def augment (w : Word) (i r : Nat) : Word := (w &&& ~~~(rankMask i)) ||| (BitVec.ofNat 64 r <<< (i * 4))

/-- The word stored by a removal, `metadata | rank_mask(i)` (leaf.rs 441). -/
def markRemoved (w : Word) (i : Nat) : Word := w ||| rankMask i

/-- The word stored by a rollback, `metadata & !rank_mask(i)` (leaf.rs 289-292). -/
def clearSlot (w : Word) (i : Nat) : Word := w &&& ~~~(rankMask i)

/-! ## Reading back -/

theorem one_shl (n i : Nat) : (1#64 <<< n).getLsbD i = (decide (i < 64) && decide (i = n)) := by
  simp only [BitVec.getLsbD_shiftLeft, BitVec.getLsbD_one]
  rw [Bool.eq_iff_iff]
  simp
  omega

theorem test_bit (w : Word) {n : Nat} (hn : n < 64) : (w &&& (1#64 <<< n) != 0#64) = w.getLsbD n := by
  rw [Bool.eq_iff_iff]
  simp only [bne_iff_ne, ne_eq]
  constructor
  · intro h
    by_cases hb : w.getLsbD n = true
    · exact hb
    · exfalso; apply h
      apply BitVec.eq_of_getLsbD_eq
      intro i hi
      rw [BitVec.getLsbD_and, one_shl, BitVec.getLsbD_zero]
      by_cases e : i = n
      · subst e; simp at hb; simp [hb]
      · simp [e]
  · intro h e
    have := congrArg (fun x => x.getLsbD n) e
    simp only [BitVec.getLsbD_and, one_shl, BitVec.getLsbD_zero, h] at this
    simp [hn] at this

theorem frozen_eq (w : Word) : frozen w = w.getLsbD 62 := test_bit w (by omega)

theorem retired_eq (w : Word) : retired w = w.getLsbD 63 := test_bit w (by omega)

theorem mask_bit (i b : Nat) :
    (rankMask i).getLsbD b = (decide (b < 64) && decide (i * 4 ≤ b) && decide (b < i * 4 + 4)) := by
  have e : ((1#64 <<< 4) - 1#64) = 15#64 := rfl
  have h15 : ∀ x : Nat, (15#64).getLsbD x = decide (x < 4) := by
    intro x
    match x with
    | 0 | 1 | 2 | 3 => rfl
    | x + 4 =>
      rw [BitVec.getLsbD_ofNat]
      have : Nat.testBit 15 (x + 4) = false := by
        apply Nat.testBit_lt_two_pow
        calc 15 < 2 ^ 4 := by decide
          _ ≤ 2 ^ (x + 4) := Nat.pow_le_pow_right (by decide) (by omega)
      simp [this]
  unfold rankMask
  rw [e, BitVec.getLsbD_shiftLeft, h15, Bool.eq_iff_iff]
  simp
  omega

theorem rank_bit (w : Word) (i b : Nat) :
    (rank w i).testBit b = (decide (b < 4) && w.getLsbD (i * 4 + b)) := by
  have e : ((w >>> (i * 4)) % (1#64 <<< 4)).toNat = (w >>> (i * 4)).toNat % 2 ^ 4 := rfl
  unfold rank
  rw [e, Nat.testBit_mod_two_pow, BitVec.testBit_toNat, BitVec.getLsbD_ushiftRight]

theorem rank_lt (w : Word) (i : Nat) : rank w i < 16 := by
  have e : ((w >>> (i * 4)) % (1#64 <<< 4)).toNat = (w >>> (i * 4)).toNat % 2 ^ 4 := rfl
  unfold rank
  rw [e]
  exact Nat.mod_lt _ (by decide)

theorem rank_ext {w w' : Word} {i j : Nat}
    (h : ∀ b, b < 4 → w.getLsbD (i * 4 + b) = w'.getLsbD (j * 4 + b)) : rank w i = rank w' j := by
  apply Nat.eq_of_testBit_eq
  intro b
  rw [rank_bit, rank_bit]
  by_cases hb : b < 4
  · simp [hb, h b hb]
  · simp [hb]

theorem rank_augment_ne (w : Word) {i j r : Nat} (hr : r < 16) (h : j ≠ i) :
    rank (augment w i r) j = rank w j := by
  apply rank_ext
  intro b hb
  unfold augment
  rw [BitVec.getLsbD_or, BitVec.getLsbD_and, BitVec.getLsbD_not, mask_bit, BitVec.getLsbD_shiftLeft,
    BitVec.getLsbD_ofNat]
  have ht : j * 4 + b < i * 4 ∨ 4 ≤ j * 4 + b - i * 4 := by omega
  have hm : ¬ (i * 4 ≤ j * 4 + b ∧ j * 4 + b < i * 4 + 4) := by omega
  by_cases h64 : j * 4 + b < 64
  · have h1 : (decide (j * 4 + b < 64) && decide (i * 4 ≤ j * 4 + b) &&
        decide (j * 4 + b < i * 4 + 4)) = false := by
      simp; omega
    have h2 : (decide (j * 4 + b < 64) && !decide (j * 4 + b < i * 4) &&
        (decide (j * 4 + b - i * 4 < 64) && r.testBit (j * 4 + b - i * 4))) = false := by
      rcases ht with ht | ht
      · simp [ht]
      · have : r.testBit (j * 4 + b - i * 4) = false := by
          apply Nat.testBit_lt_two_pow
          calc r < 2 ^ 4 := hr
            _ ≤ 2 ^ (j * 4 + b - i * 4) := Nat.pow_le_pow_right (by decide) ht
        simp [this]
    rw [h1, h2]
    simp [h64]
  · have : w.getLsbD (j * 4 + b) = false := BitVec.getLsbD_of_ge _ _ (by omega)
    simp [h64, this]

theorem rank_augment_self (w : Word) {i r : Nat} (hi : i < 16) (hr : r < 16) :
    rank (augment w i r) i = r := by
  apply Nat.eq_of_testBit_eq
  intro b
  rw [rank_bit]
  by_cases hb : b < 4
  · unfold augment
    rw [BitVec.getLsbD_or, BitVec.getLsbD_and, BitVec.getLsbD_not, mask_bit,
      BitVec.getLsbD_shiftLeft, BitVec.getLsbD_ofNat]
    have h1 : i * 4 + b < 64 := by omega
    have h2 : i * 4 + b - i * 4 = b := by omega
    rw [h2]
    have h3 : b < 64 := by omega
    have h4 : ¬ (i * 4 + b < i * 4) := by omega
    simp [hb, h1, h3, h4]
  · have : r.testBit b = false := by
      apply Nat.testBit_lt_two_pow
      calc r < 2 ^ 4 := hr
        _ ≤ 2 ^ b := Nat.pow_le_pow_right (by decide) (by omega)
    simp [hb, this]

theorem bit_augment (w : Word) {i r b : Nat} (hr : r < 16) (hb : i * 4 + 4 ≤ b) :
    (augment w i r).getLsbD b = w.getLsbD b := by
  unfold augment
  rw [BitVec.getLsbD_or, BitVec.getLsbD_and, BitVec.getLsbD_not, mask_bit, BitVec.getLsbD_shiftLeft,
    BitVec.getLsbD_ofNat]
  have : r.testBit (b - i * 4) = false := by
    apply Nat.testBit_lt_two_pow
    calc r < 2 ^ 4 := hr
      _ ≤ 2 ^ (b - i * 4) := Nat.pow_le_pow_right (by decide) (by omega)
  have h2 : ¬ b < i * 4 + 4 := by omega
  by_cases h64 : b < 64
  · simp [this, h2, h64]
  · have hw : w.getLsbD b = false := BitVec.getLsbD_of_ge _ _ (by omega)
    simp [this, hw]

theorem frozen_augment (w : Word) {i r : Nat} (hi : i < numEntries) (hr : r < 16) :
    frozen (augment w i r) = frozen w := by
  rw [frozen_eq, frozen_eq, bit_augment w hr (by unfold numEntries at hi; omega)]

theorem retired_augment (w : Word) {i r : Nat} (hi : i < numEntries) (hr : r < 16) :
    retired (augment w i r) = retired w := by
  rw [retired_eq, retired_eq, bit_augment w hr (by unfold numEntries at hi; omega)]

theorem clearSlot_eq (w : Word) (i : Nat) : clearSlot w i = augment w i 0 := by
  unfold clearSlot augment
  simp

theorem markRemoved_eq (w : Word) (i : Nat) : markRemoved w i = augment w i removed := by
  apply BitVec.eq_of_getLsbD_eq
  intro b hb
  have e : ((1#64 <<< 4) - 1#64) = BitVec.ofNat 64 removed := rfl
  unfold markRemoved augment
  rw [BitVec.getLsbD_or, BitVec.getLsbD_or, BitVec.getLsbD_and, BitVec.getLsbD_not]
  have hm : (BitVec.ofNat 64 removed <<< (i * 4)) = rankMask i := by rw [← e]; rfl
  rw [hm]
  simp only [hb, decide_true, Bool.true_and]
  cases w.getLsbD b <;> cases (rankMask i).getLsbD b <;> rfl

theorem freeze_bit (w : Word) {b : Nat} (h : b < 64) :
    (freeze w).getLsbD b = (w.getLsbD b || decide (b = 62)) := by
  unfold freeze
  rw [BitVec.getLsbD_or, one_shl]
  simp [h]

theorem thaw_bit (w : Word) {b : Nat} (h : b < 64) :
    (thaw w).getLsbD b = (w.getLsbD b && !decide (b = 62)) := by
  unfold thaw
  rw [BitVec.getLsbD_and, BitVec.getLsbD_not, one_shl]
  simp [h]

theorem retire_bit (w : Word) {b : Nat} (h : b < 64) :
    (retire w).getLsbD b = (w.getLsbD b || decide (b = 63)) := by
  unfold retire
  rw [BitVec.getLsbD_or, one_shl]
  simp [h]

@[simp] theorem frozen_freeze (w : Word) : frozen (freeze w) = true := by
  rw [frozen_eq, freeze_bit w (by omega)]; simp

@[simp] theorem frozen_thaw (w : Word) : frozen (thaw w) = false := by
  rw [frozen_eq, thaw_bit w (by omega)]; simp

@[simp] theorem frozen_retire (w : Word) : frozen (retire w) = frozen w := by
  rw [frozen_eq, frozen_eq, retire_bit w (by omega)]; simp

@[simp] theorem retired_freeze (w : Word) : retired (freeze w) = retired w := by
  rw [retired_eq, retired_eq, freeze_bit w (by omega)]; simp

@[simp] theorem retired_thaw (w : Word) : retired (thaw w) = retired w := by
  rw [retired_eq, retired_eq, thaw_bit w (by omega)]; simp

@[simp] theorem retired_retire (w : Word) : retired (retire w) = true := by
  rw [retired_eq, retire_bit w (by omega)]; simp

theorem rank_freeze (w : Word) {i : Nat} (hi : i < numEntries) : rank (freeze w) i = rank w i := by
  apply rank_ext
  intro b hb
  unfold numEntries at hi
  rw [freeze_bit w (by omega)]
  have : ¬ i * 4 + b = 62 := by omega
  simp [this]

theorem rank_thaw (w : Word) {i : Nat} (hi : i < numEntries) : rank (thaw w) i = rank w i := by
  apply rank_ext
  intro b hb
  unfold numEntries at hi
  rw [thaw_bit w (by omega)]
  have : ¬ i * 4 + b = 62 := by omega
  simp [this]

theorem rank_retire (w : Word) {i : Nat} (hi : i < numEntries) : rank (retire w) i = rank w i := by
  apply rank_ext
  intro b hb
  unfold numEntries at hi
  rw [retire_bit w (by omega)]
  have : ¬ i * 4 + b = 63 := by omega
  simp [this]

@[simp] theorem rank_zero (i : Nat) : rank 0#64 i = 0 := by
  apply Nat.eq_of_testBit_eq
  intro b
  rw [rank_bit]
  simp

end Scc.Leaf
