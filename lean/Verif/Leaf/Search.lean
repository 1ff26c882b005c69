import Verif.Leaf.Proof

/-!
# Search loops find what they should
-/

set_option linter.unusedSimpArgs false

namespace Scc.Leaf

variable {K V : Type} [KeyOrd K]

theorem Bracket.hi_le {w : Word} {entry : Nat → Option (K × V)} {key : K} {n lo hi loIdx : Nat}
    (b : Bracket w entry key n lo hi loIdx) : hi ≤ removed := by
  rcases b.hi_spec with h | ⟨j, _, _, h, h', _⟩
  · omega
  · have := h.2; omega

theorem not_ranked_cases {w : Word} {i : Nat} (h : ¬ Ranked w i) : rank w i = 0 ∨ rank w i = removed := by
  unfold Ranked at h
  have := rank_lt w i
  unfold removed at *
  omega

/-- The state of a search loop after the slots below `n`. -/
def ScanInv (w : Word) (entry : Nat → Option (K × V)) (key : K) (n : Nat) (s : Scan) : Prop :=
  match s.eq with
  | some i => i < numEntries ∧ Ranked w i ∧ ∃ v, entry i = some (key, v)
  | none => Bracket w entry key n s.lo s.hi s.loIdx ∧
      (∀ j e, j < n → Ranked w j → entry j = some e → e.1 ≠ key) ∧
      ((s.hi = removed ∧ s.hiIdx = numEntries) ∨
        (s.hiIdx < n ∧ Ranked w s.hiIdx ∧ rank w s.hiIdx = s.hi))

theorem scan_inv {w : Word} {l : Leaf K V} (o : Ordered w l.entry) (key : K) :
    ScanInv w l.entry key numEntries (loop (l.scanBody key) w Scan.start) := by
  apply loop_ind (f := l.scanBody key)
  · intro s i
    unfold Leaf.scanBody
    split
    · rfl
    · rw [if_neg (by omega)]
  · exact ⟨Bracket.start _ _ _, fun _ _ h => absurd h (Nat.not_lt_zero _), .inl ⟨rfl, rfl⟩⟩
  · intro n s hn hI
    unfold Leaf.scanBody
    cases hs : s.eq with
    | some i =>
      simp only [Option.isSome_some, if_true]
      simp only [ScanInv, hs] at hI ⊢
      exact hI
    | none =>
      simp only [Option.isSome_none, Bool.false_eq_true, if_false]
      simp only [ScanInv, hs] at hI
      obtain ⟨b, hne, hh⟩ := hI
      have hh' : (s.hi = removed ∧ s.hiIdx = numEntries) ∨
          (s.hiIdx < n + 1 ∧ Ranked w s.hiIdx ∧ rank w s.hiIdx = s.hi) := by
        rcases hh with h | ⟨h1, h2⟩
        · exact .inl h
        · exact .inr ⟨by omega, h2⟩
      by_cases hr : Ranked w n
      · obtain ⟨e, he⟩ := o.init n hn hr
        by_cases hin : rank w n < s.hi ∧ s.lo < rank w n
        · rw [if_pos hin, cmpAt_some he]
          cases hc : cmp e.1 key with
          | lt =>
            have hk := cmp_lt.1 hc
            simp only [ScanInv, hs]
            refine ⟨b.raise hr he hin.2 hk, ?_, hh'⟩
            intro j e' hj hr' he'
            rcases Nat.lt_succ_iff_lt_or_eq.1 hj with h1 | h1
            · exact hne j e' h1 hr' he'
            · subst h1; rw [he] at he'; cases he'
              intro hx; rw [hx] at hk; exact KeyOrd.irrefl _ hk
          | gt =>
            have hk := cmp_gt.1 hc
            simp only [ScanInv, hs]
            refine ⟨b.lower hr he hin.1 (lt_asymm hk), ?_, .inr ⟨by omega, hr, trivial⟩⟩
            intro j e' hj hr' he'
            rcases Nat.lt_succ_iff_lt_or_eq.1 hj with h1 | h1
            · exact hne j e' h1 hr' he'
            · subst h1; rw [he] at he'; cases he'
              intro hx; rw [hx] at hk; exact KeyOrd.irrefl _ hk
          | eq =>
            have hk := cmp_eq.1 hc
            simp only [ScanInv]
            exact ⟨hn, hr, e.2, by rw [he, ← hk]⟩
        · rw [if_neg hin]
          obtain ⟨b', hc⟩ := b.outside o hn hr he hin
          simp only [ScanInv, hs]
          refine ⟨b', ?_, hh'⟩
          intro j e' hj hr' he'
          rcases Nat.lt_succ_iff_lt_or_eq.1 hj with h1 | h1
          · exact hne j e' h1 hr' he'
          · subst h1; rw [he] at he'; cases he'
            rcases hc with ⟨_, hk⟩ | ⟨_, _, hk⟩
            · intro hx; rw [hx] at hk; exact KeyOrd.irrefl _ hk
            · exact hk
      · have hz := not_ranked_cases hr
        have hle := b.hi_le
        rw [if_neg (by omega)]
        simp only [ScanInv, hs]
        refine ⟨b.skip hr, ?_, hh'⟩
        intro j e' hj hr' he'
        rcases Nat.lt_succ_iff_lt_or_eq.1 hj with h1 | h1
        · exact hne j e' h1 hr' he'
        · subst h1; exact absurd hr' hr

theorem searchSlot_some {w : Word} {l : Leaf K V} (o : Ordered w l.entry) {key : K} {i : Nat}
    (h : l.searchSlot key w = some i) : i < numEntries ∧ Ranked w i ∧ ∃ v, l.entry i = some (key, v) := by
  have := scan_inv o key
  unfold Leaf.searchSlot at h
  simp only [ScanInv, h] at this
  exact this

theorem searchSlot_none {w : Word} {l : Leaf K V} (o : Ordered w l.entry) {key : K}
    (h : l.searchSlot key w = none) :
    ∀ j e, j < numEntries → Ranked w j → l.entry j = some e → e.1 ≠ key := by
  have := scan_inv o key
  unfold Leaf.searchSlot at h
  simp only [ScanInv, h] at this
  exact this.2.1

theorem searchSlot_iff {w : Word} {l : Leaf K V} (o : Ordered w l.entry) {key : K} {i : Nat} :
    l.searchSlot key w = some i ↔ i < numEntries ∧ Ranked w i ∧ ∃ v, l.entry i = some (key, v) := by
  constructor
  · exact searchSlot_some o
  · rintro ⟨h1, h2, v, h3⟩
    cases h : l.searchSlot key w with
    | none => exact absurd rfl (searchSlot_none o h i _ h1 h2 h3)
    | some j =>
      obtain ⟨h1', h2', v', h3'⟩ := searchSlot_some o h
      rw [o.key_inj h1' h1 h2' h2 h3' h3 rfl]

/-- `max_less`: the greatest smaller key. -/
theorem maxLess_inv {w : Word} {l : Leaf K V} (o : Ordered w l.entry) (key : K) :
    ∃ hi, Bracket w l.entry key numEntries (loop (l.maxLessBody key) w Scan.start).lo hi
      (l.maxLess key w) := by
  refine ⟨(loop (l.maxLessBody key) w Scan.start).hi, ?_⟩
  unfold Leaf.maxLess
  refine loop_ind (f := l.maxLessBody key)
    (I := fun n s => Bracket w l.entry key n s.lo s.hi s.loIdx) ?_ ?_ ?_
  · intro s i
    unfold Leaf.maxLessBody
    rw [if_neg (by omega)]
  · exact Bracket.start _ _ _
  · intro n s hn b
    unfold Leaf.maxLessBody
    by_cases hr : Ranked w n
    · obtain ⟨e, he⟩ := o.init n hn hr
      by_cases hin : rank w n < s.hi ∧ s.lo < rank w n
      · rw [if_pos hin, cmpAt_some he]
        cases hc : cmp e.1 key with
        | lt => exact b.raise hr he hin.2 (cmp_lt.1 hc)
        | gt => exact b.lower hr he hin.1 (lt_asymm (cmp_gt.1 hc))
        | eq =>
          have hk := cmp_eq.1 hc
          exact b.lower hr he hin.1 (by rw [hk]; exact KeyOrd.irrefl _)
      · rw [if_neg hin]
        exact (b.outside o hn hr he hin).1
    · have hz := not_ranked_cases hr
      have hle := b.hi_le
      rw [if_neg (by omega)]
      exact b.skip hr

/-! ## Insertion -/

/-- The rank a slot gets when `key` is inserted. -/
def bump (w : Word) (entry : Nat → Option (K × V)) (key : K) (j : Nat) : Nat :=
  match entry j with
  | some e => if Ranked w j ∧ KeyOrd.lt key e.1 then rank w j + 1 else rank w j
  | none => rank w j

def PostInv (w : Word) (entry : Nat → Option (K × V)) (key : K) (n : Nat) (s : Post) : Prop :=
  if s.dup then ∃ i v, i < numEntries ∧ Ranked w i ∧ entry i = some (key, v)
  else (∃ loIdx, Bracket w entry key n s.lo s.hi loIdx) ∧
    (∀ j e, j < n → Ranked w j → entry j = some e → e.1 ≠ key) ∧
    (∀ j, j < n → rank s.new j = bump w entry key j) ∧
    (∀ j, n ≤ j → j < numEntries → rank s.new j = rank w j) ∧
    frozen s.new = frozen w ∧ retired s.new = retired w

theorem bump_same {w : Word} {entry : Nat → Option (K × V)} {key : K} {j : Nat}
    (h : ∀ e, entry j = some e → Ranked w j → ¬ KeyOrd.lt key e.1) : bump w entry key j = rank w j := by
  unfold bump
  split
  · rename_i e he
    rw [if_neg]
    rintro ⟨h1, h2⟩
    exact h e he h1 h2
  · rfl

theorem post_inv {w : Word} {l : Leaf K V} (o : Ordered w l.entry) (key : K)
    (hb : ∀ i, i < numEntries → Ranked w i → rank w i < numEntries) :
    PostInv w l.entry key numEntries
      (loop (l.postBody key) w { lo := 0, hi := removed, new := w, dup := false }) := by
  apply loop_ind (f := l.postBody key)
  · intro s i
    unfold Leaf.postBody
    split
    · rfl
    · rw [if_neg (by omega), if_neg (by omega)]
  · simp only [PostInv, Bool.false_eq_true, if_false]
    exact ⟨⟨_, Bracket.start _ _ _⟩, fun _ _ h => absurd h (Nat.not_lt_zero _),
      fun _ h => absurd h (Nat.not_lt_zero _), fun _ _ _ => trivial, trivial, trivial⟩
  · intro n s hn hI
    unfold Leaf.postBody
    cases hd : s.dup with
    | true =>
      simp only [if_true]
      simp only [PostInv, hd, if_true] at hI ⊢
      exact hI
    | false =>
      simp only [Bool.false_eq_true, if_false]
      simp only [PostInv, hd, Bool.false_eq_true, if_false] at hI
      obtain ⟨⟨loIdx, b⟩, hne, hlow, hhigh, hf, ht⟩ := hI
      -- the ranks after leaving slot `n` alone
      have keep : bump w l.entry key n = rank w n →
          (∀ j, j < n + 1 → rank s.new j = bump w l.entry key j) ∧
          (∀ j, n + 1 ≤ j → j < numEntries → rank s.new j = rank w j) := by
        intro h
        refine ⟨?_, fun j h1 h2 => hhigh j (by omega) h2⟩
        intro j hj
        rcases Nat.lt_succ_iff_lt_or_eq.1 hj with h1 | h1
        · exact hlow j h1
        · subst h1; rw [h]; exact hhigh j (Nat.le_refl _) hn
      -- the ranks after incrementing slot `n`
      have inc : rank w n < numEntries → bump w l.entry key n = rank w n + 1 →
          (∀ j, j < n + 1 → rank (augment s.new n (rank w n + 1)) j = bump w l.entry key j) ∧
          (∀ j, n + 1 ≤ j → j < numEntries →
            rank (augment s.new n (rank w n + 1)) j = rank w j) ∧
          frozen (augment s.new n (rank w n + 1)) = frozen w ∧
          retired (augment s.new n (rank w n + 1)) = retired w := by
        intro hr16 h
        have hlt : rank w n + 1 < 16 := by unfold numEntries at hr16; omega
        have hn16 : n < 16 := by unfold numEntries at hn; omega
        refine ⟨?_, ?_, ?_, ?_⟩
        · intro j hj
          rcases Nat.lt_succ_iff_lt_or_eq.1 hj with h1 | h1
          · rw [rank_augment_ne _ hlt (by omega)]; exact hlow j h1
          · subst h1; rw [rank_augment_self _ hn16 hlt, h]
        · intro j h1 h2
          rw [rank_augment_ne _ hlt (by omega)]; exact hhigh j (by omega) h2
        · rw [frozen_augment _ hn hlt, hf]
        · rw [retired_augment _ hn hlt, ht]
      have neNext : (∀ e, l.entry n = some e → Ranked w n → e.1 ≠ key) →
          ∀ j e, j < n + 1 → Ranked w j → l.entry j = some e → e.1 ≠ key := by
        intro h j e hj hr he
        rcases Nat.lt_succ_iff_lt_or_eq.1 hj with h1 | h1
        · exact hne j e h1 hr he
        · subst h1; exact h e he hr
      by_cases hr : Ranked w n
      · obtain ⟨e, he⟩ := o.init n hn hr
        have hb' := hb n hn hr
        by_cases hin : rank w n < s.hi ∧ s.lo < rank w n
        · rw [if_pos hin, cmpAt_some he]
          cases hc : cmp e.1 key with
          | lt =>
            have hk := cmp_lt.1 hc
            have hbp : bump w l.entry key n = rank w n := by
              apply bump_same; intro e' he' _
              rw [he] at he'; cases he'; exact lt_asymm hk
            simp only [PostInv, hd, Bool.false_eq_true, if_false]
            refine ⟨⟨n, b.raise hr he hin.2 hk⟩, neNext ?_, (keep hbp).1, (keep hbp).2, hf, ht⟩
            intro e' he' _ hx
            rw [he] at he'; cases he'
            rw [hx] at hk; exact KeyOrd.irrefl _ hk
          | gt =>
            have hk := cmp_gt.1 hc
            have hbp : bump w l.entry key n = rank w n + 1 := by
              unfold bump; rw [he]; simp only []; rw [if_pos ⟨hr, hk⟩]
            simp only [PostInv, hd, Bool.false_eq_true, if_false]
            obtain ⟨i1, i2, i3, i4⟩ := inc hb' hbp
            refine ⟨⟨loIdx, b.lower hr he hin.1 (lt_asymm hk)⟩, neNext ?_, i1, i2, i3, i4⟩
            intro e' he' _ hx
            rw [he] at he'; cases he'
            rw [hx] at hk; exact KeyOrd.irrefl _ hk
          | eq =>
            have hk := cmp_eq.1 hc
            simp only [PostInv, if_true]
            exact ⟨n, e.2, hn, hr, by rw [he, ← hk]⟩
        · rw [if_neg hin]
          obtain ⟨b', hcase⟩ := b.outside o hn hr he hin
          rcases hcase with ⟨h1, hk⟩ | ⟨h1, h2, hk⟩
          · have hlh := b.lo_lt_hi o (by omega)
            rw [if_neg (by omega)]
            have hbp : bump w l.entry key n = rank w n := by
              apply bump_same; intro e' he' _
              rw [he] at he'; cases he'; exact lt_asymm hk
            simp only [PostInv, hd, Bool.false_eq_true, if_false]
            refine ⟨⟨loIdx, b'⟩, neNext ?_, (keep hbp).1, (keep hbp).2, hf, ht⟩
            intro e' he' _ hx
            rw [he] at he'; cases he'
            rw [hx] at hk; exact KeyOrd.irrefl _ hk
          · have hr15 := hr.2
            rw [if_pos ⟨by omega, h1⟩]
            have hgt : KeyOrd.lt key e.1 := by
              rcases KeyOrd.tri key e.1 with h | h | h
              · exact h
              · exact absurd h.symm hk
              · exact absurd h h2
            have hbp : bump w l.entry key n = rank w n + 1 := by
              unfold bump; rw [he]; simp only []; rw [if_pos ⟨hr, hgt⟩]
            simp only [PostInv, hd, Bool.false_eq_true, if_false]
            obtain ⟨i1, i2, i3, i4⟩ := inc hb' hbp
            refine ⟨⟨loIdx, b'⟩, neNext ?_, i1, i2, i3, i4⟩
            intro e' he' _
            rw [he] at he'; cases he'; exact hk
      · have hz := not_ranked_cases hr
        have hle := b.hi_le
        rw [if_neg (by omega), if_neg (by omega)]
        have hbp : bump w l.entry key n = rank w n := by
          apply bump_same; intro _ _ h; exact absurd h hr
        simp only [PostInv, hd, Bool.false_eq_true, if_false]
        exact ⟨⟨loIdx, b.skip hr⟩, neNext (fun _ _ h => absurd h hr), (keep hbp).1, (keep hbp).2, hf, ht⟩

end Scc.Leaf
