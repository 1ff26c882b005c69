import Verif.Leaf.Spec

/-!
# Proofs about leaf operations
-/

namespace Scc.Leaf

variable {K V : Type} [KeyOrd K]

/-! ## Order -/

theorem lt_asymm {a b : K} (h : KeyOrd.lt a b) : ¬ KeyOrd.lt b a :=
  fun h' => KeyOrd.irrefl a (KeyOrd.trans _ _ _ h h')

theorem cmp_lt {a b : K} : cmp a b = .lt ↔ KeyOrd.lt a b := by
  unfold cmp
  split
  · simp [*]
  · split <;> simp [*]

theorem cmp_gt {a b : K} : cmp a b = .gt ↔ KeyOrd.lt b a := by
  unfold cmp
  split
  · rename_i h; simp [lt_asymm h]
  · split <;> simp [*]

theorem cmp_eq {a b : K} : cmp a b = .eq ↔ a = b := by
  unfold cmp
  split
  · rename_i h
    simp
    intro e; subst e; exact KeyOrd.irrefl _ h
  · split
    · rename_i h
      simp
      intro e; subst e; exact KeyOrd.irrefl _ h
    · rename_i h1 h2
      simp
      rcases KeyOrd.tri a b with h | h | h
      · exact absurd h h1
      · exact h
      · exact absurd h h2

theorem eq_of_not_lt {a b : K} (h1 : ¬ KeyOrd.lt a b) (h2 : ¬ KeyOrd.lt b a) : a = b := by
  rcases KeyOrd.tri a b with h | h | h
  · exact absurd h h1
  · exact h
  · exact absurd h h2

/-! ## Loops over the word -/

theorem loopFrom_zero {σ : Type} (f : σ → Nat → Nat → σ) (n i : Nat) (s : σ) :
    loopFrom f n i 0#64 s = s := by
  cases n <;> simp [loopFrom]

theorem rank_of_shift (w : Word) (i : Nat) : rank w i = ((w >>> (i * 4)) % (1#64 <<< 4)).toNat := rfl

/-- A loop that does nothing for state 0 visits all slots. -/
theorem loopFrom_ind {σ : Type} {f : σ → Nat → Nat → σ} (hf : ∀ s i, f s i 0 = s) {w : Word}
    (I : Nat → σ → Prop) :
    ∀ n i s, I i s → (∀ j s, i ≤ j → j < i + n → I j s → I (j + 1) (f s j (rank w j))) →
      I (i + n) (loopFrom f n i (w >>> (i * 4)) s) := by
  intro n
  induction n with
  | zero => intro i s h _; simpa [loopFrom] using h
  | succ n ih =>
    intro i s h hs
    rw [loopFrom]
    by_cases hz : w >>> (i * 4) = 0#64
    · rw [if_pos hz]
      have hr : ∀ j, i ≤ j → rank w j = 0 := by
        intro j hj
        apply Nat.eq_of_testBit_eq
        intro b
        rw [rank_bit]
        have h1 : j * 4 + b = i * 4 + (j * 4 + b - i * 4) := by omega
        have h2 := congrArg (fun x : Word => x.getLsbD (j * 4 + b - i * 4)) hz
        simp only [BitVec.getLsbD_ushiftRight, BitVec.getLsbD_zero] at h2
        rw [← h1] at h2
        simp [h2]
      have : ∀ m, m ≤ n + 1 → I (i + m) s := by
        intro m
        induction m with
        | zero => intro _; exact h
        | succ m ihm =>
          intro hm
          have := hs (i + m) s (by omega) (by omega) (ihm (by omega))
          rw [hr _ (by omega), hf] at this
          exact this
      exact this _ (Nat.le_refl _)
    · rw [if_neg hz]
      have e : (w >>> (i * 4)) >>> 4 = w >>> ((i + 1) * 4) := by
        rw [← BitVec.shiftRight_add]; congr 1; omega
      rw [e, ← rank_of_shift]
      have h1 := hs i s (Nat.le_refl _) (by omega) h
      have := ih (i + 1) _ h1 (fun j s hj hj' => hs j s (by omega) (by omega))
      have e2 : i + 1 + n = i + (n + 1) := by omega
      rw [e2] at this
      exact this

theorem loop_ind {σ : Type} {f : σ → Nat → Nat → σ} (hf : ∀ s i, f s i 0 = s) {w : Word} {s : σ}
    (I : Nat → σ → Prop) (h0 : I 0 s)
    (hs : ∀ j s, j < numEntries → I j s → I (j + 1) (f s j (rank w j))) :
    I numEntries (loop f w s) := by
  have h := loopFrom_ind hf (w := w) I numEntries 0 s h0
    (fun j s _ hj hI => hs j s (by omega) hI)
  have e : w >>> (0 * 4) = w := by simp
  rw [e, Nat.zero_add] at h
  exact h

/-! ## Well-formed words -/

/-- The slot holds a reachable entry. -/
def Ranked (w : Word) (i : Nat) : Prop := 0 < rank w i ∧ rank w i < removed

instance (w : Word) (i : Nat) : Decidable (Ranked w i) := inferInstanceAs (Decidable (_ ∧ _))

/-- Ranks order the keys. -/
structure Ordered (w : Word) (entry : Nat → Option (K × V)) : Prop where
  init : ∀ i, i < numEntries → Ranked w i → ∃ e, entry i = some e
  inj : ∀ i j, i < numEntries → j < numEntries → Ranked w i → Ranked w j → rank w i = rank w j → i = j
  mono : ∀ i j e e', i < numEntries → j < numEntries → Ranked w i → Ranked w j →
    rank w i < rank w j → entry i = some e → entry j = some e' → KeyOrd.lt e.1 e'.1

theorem cmpAt_some {l : Leaf K V} {key : K} {i : Nat} {e : K × V} (h : l.entry i = some e) :
    l.cmpAt key i = cmp e.1 key := by
  unfold Leaf.cmpAt; rw [h]

theorem Ordered.lt_rank {w : Word} {entry : Nat → Option (K × V)} (o : Ordered w entry) {i j : Nat}
    {e e' : K × V} (hi : i < numEntries) (hj : j < numEntries) (ri : Ranked w i) (rj : Ranked w j)
    (he : entry i = some e) (he' : entry j = some e') (h : KeyOrd.lt e.1 e'.1) :
    rank w i < rank w j := by
  rcases Nat.lt_trichotomy (rank w i) (rank w j) with h1 | h1 | h1
  · exact h1
  · have := o.inj i j hi hj ri rj h1
    subst this
    rw [he] at he'; cases he'
    exact absurd h (KeyOrd.irrefl _)
  · exact absurd h (lt_asymm (o.mono j i e' e hj hi rj ri h1 he' he))

theorem Ordered.key_inj {w : Word} {entry : Nat → Option (K × V)} (o : Ordered w entry) {i j : Nat}
    {e e' : K × V} (hi : i < numEntries) (hj : j < numEntries) (ri : Ranked w i) (rj : Ranked w j)
    (he : entry i = some e) (he' : entry j = some e') (h : e.1 = e'.1) : i = j := by
  rcases Nat.lt_trichotomy (rank w i) (rank w j) with h1 | h1 | h1
  · have := o.mono i j e e' hi hj ri rj h1 he he'
    rw [h] at this; exact absurd this (KeyOrd.irrefl _)
  · exact o.inj i j hi hj ri rj h1
  · have := o.mono j i e' e hj hi rj ri h1 he' he
    rw [h] at this; exact absurd this (KeyOrd.irrefl _)

/-! ## Searching -/

/-- What the variables of a search loop mean after slots below `n` were visited. `low` are the keys
that raise the lower end. -/
structure Bracket (w : Word) (entry : Nat → Option (K × V)) (key : K) (n lo hi loIdx : Nat) : Prop where
  lo_spec : (lo = 0 ∧ loIdx = numEntries) ∨ (loIdx < n ∧ Ranked w loIdx ∧ rank w loIdx = lo ∧
    ∃ e, entry loIdx = some e ∧ KeyOrd.lt e.1 key)
  lo_max : ∀ j e, j < n → Ranked w j → entry j = some e → KeyOrd.lt e.1 key → rank w j ≤ lo
  hi_spec : hi = removed ∨ ∃ j e, j < n ∧ Ranked w j ∧ rank w j = hi ∧ entry j = some e ∧
    ¬ KeyOrd.lt e.1 key
  hi_min : ∀ j e, j < n → Ranked w j → entry j = some e → ¬ KeyOrd.lt e.1 key → hi ≤ rank w j

theorem Bracket.start (w : Word) (entry : Nat → Option (K × V)) (key : K) :
    Bracket w entry key 0 0 removed numEntries :=
  ⟨.inl ⟨rfl, rfl⟩, fun _ _ h => absurd h (Nat.not_lt_zero _), .inl rfl,
    fun _ _ h => absurd h (Nat.not_lt_zero _)⟩

/-- A slot without a rank changes nothing. -/
theorem Bracket.skip {w : Word} {entry : Nat → Option (K × V)} {key : K} {n lo hi loIdx : Nat}
    (b : Bracket w entry key n lo hi loIdx) (h : ¬ Ranked w n) :
    Bracket w entry key (n + 1) lo hi loIdx := by
  refine ⟨?_, ?_, ?_, ?_⟩
  · rcases b.lo_spec with h1 | ⟨h1, h2⟩
    · exact .inl h1
    · exact .inr ⟨by omega, h2⟩
  · intro j e hj hr
    rcases Nat.lt_succ_iff_lt_or_eq.1 hj with h1 | h1
    · exact b.lo_max j e h1 hr
    · subst h1; exact absurd hr h
  · rcases b.hi_spec with h1 | ⟨j, e, h1, h2⟩
    · exact .inl h1
    · exact .inr ⟨j, e, by omega, h2⟩
  · intro j e hj hr
    rcases Nat.lt_succ_iff_lt_or_eq.1 hj with h1 | h1
    · exact b.hi_min j e h1 hr
    · subst h1; exact absurd hr h

/-- A slot between the ends with a smaller key. -/
theorem Bracket.raise {w : Word} {entry : Nat → Option (K × V)} {key : K} {n lo hi loIdx : Nat}
    (b : Bracket w entry key n lo hi loIdx) {e : K × V} (hr : Ranked w n) (he : entry n = some e)
    (hlo : lo < rank w n) (hk : KeyOrd.lt e.1 key) :
    Bracket w entry key (n + 1) (rank w n) hi n := by
  refine ⟨.inr ⟨by omega, hr, rfl, e, he, hk⟩, ?_, ?_, ?_⟩
  · intro j e' hj hr' he' hk'
    rcases Nat.lt_succ_iff_lt_or_eq.1 hj with h1 | h1
    · have := b.lo_max j e' h1 hr' he' hk'; omega
    · subst h1; exact Nat.le_refl _
  · rcases b.hi_spec with h1 | ⟨j, e, h1, h2⟩
    · exact .inl h1
    · exact .inr ⟨j, e, by omega, h2⟩
  · intro j e' hj hr' he' hk'
    rcases Nat.lt_succ_iff_lt_or_eq.1 hj with h1 | h1
    · exact b.hi_min j e' h1 hr' he' hk'
    · subst h1; rw [he] at he'; cases he'; exact absurd hk hk'

/-- A slot between the ends with a key that is not smaller. -/
theorem Bracket.lower {w : Word} {entry : Nat → Option (K × V)} {key : K} {n lo hi loIdx : Nat}
    (b : Bracket w entry key n lo hi loIdx) {e : K × V} (hr : Ranked w n) (he : entry n = some e)
    (hhi : rank w n < hi) (hk : ¬ KeyOrd.lt e.1 key) :
    Bracket w entry key (n + 1) lo (rank w n) loIdx := by
  refine ⟨?_, ?_, .inr ⟨n, e, by omega, hr, rfl, he, hk⟩, ?_⟩
  · rcases b.lo_spec with h1 | ⟨h1, h2⟩
    · exact .inl h1
    · exact .inr ⟨by omega, h2⟩
  · intro j e' hj hr' he' hk'
    rcases Nat.lt_succ_iff_lt_or_eq.1 hj with h1 | h1
    · exact b.lo_max j e' h1 hr' he' hk'
    · subst h1; rw [he] at he'; cases he'; exact absurd hk' hk
  · intro j e' hj hr' he' hk'
    rcases Nat.lt_succ_iff_lt_or_eq.1 hj with h1 | h1
    · have := b.hi_min j e' h1 hr' he' hk'; omega
    · subst h1; exact Nat.le_refl _

/-- A slot outside the ends: its key is known to be smaller or larger. -/
theorem Bracket.outside {w : Word} {entry : Nat → Option (K × V)} (o : Ordered w entry) {key : K}
    {n lo hi loIdx : Nat} (hn : n < numEntries) (b : Bracket w entry key n lo hi loIdx) {e : K × V}
    (hr : Ranked w n) (he : entry n = some e) (h : ¬ (rank w n < hi ∧ lo < rank w n)) :
    Bracket w entry key (n + 1) lo hi loIdx ∧
      ((rank w n < lo ∧ KeyOrd.lt e.1 key) ∨ (hi < rank w n ∧ ¬ KeyOrd.lt e.1 key ∧ e.1 ≠ key)) := by
  have hcase : (rank w n < lo ∧ KeyOrd.lt e.1 key) ∨
      (hi < rank w n ∧ ¬ KeyOrd.lt e.1 key ∧ e.1 ≠ key) := by
    by_cases h1 : lo < rank w n
    · right
      have h2 : hi ≤ rank w n := by omega
      rcases b.hi_spec with h3 | ⟨j, e', hj, hrj, hrk, hej, hkj⟩
      · have := hr.2; omega
      · have hne : rank w j ≠ rank w n := by
          intro hh
          have := o.inj j n (by omega) hn hrj hr hh
          omega
        have hlt : rank w j < rank w n := by omega
        have hm := o.mono j n e' e (by omega) hn hrj hr hlt hej he
        refine ⟨by omega, ?_, ?_⟩
        · intro hk; exact hkj (KeyOrd.trans _ _ _ hm hk)
        · intro hk; rw [hk] at hm; exact hkj hm
    · left
      rcases b.lo_spec with ⟨h3, _⟩ | ⟨hj, hrj, hrk, e', hej, hkj⟩
      · have := hr.1; omega
      · have hne : rank w n ≠ rank w loIdx := by
          intro hh
          have := o.inj n loIdx hn (by omega) hr hrj hh
          omega
        have hlt : rank w n < rank w loIdx := by omega
        have hm := o.mono n loIdx e e' hn (by omega) hr hrj hlt he hej
        exact ⟨by omega, KeyOrd.trans _ _ _ hm hkj⟩
  refine ⟨⟨?_, ?_, ?_, ?_⟩, hcase⟩
  · rcases b.lo_spec with h1 | ⟨h1, h2⟩
    · exact .inl h1
    · exact .inr ⟨by omega, h2⟩
  · intro j e' hj hr' he' hk'
    rcases Nat.lt_succ_iff_lt_or_eq.1 hj with h1 | h1
    · exact b.lo_max j e' h1 hr' he' hk'
    · subst h1; rw [he] at he'; cases he'
      rcases hcase with ⟨h2, _⟩ | ⟨_, h2, _⟩
      · omega
      · exact absurd hk' h2
  · rcases b.hi_spec with h1 | ⟨j, e, h1, h2⟩
    · exact .inl h1
    · exact .inr ⟨j, e, by omega, h2⟩
  · intro j e' hj hr' he' hk'
    rcases Nat.lt_succ_iff_lt_or_eq.1 hj with h1 | h1
    · exact b.hi_min j e' h1 hr' he' hk'
    · subst h1; rw [he] at he'; cases he'
      rcases hcase with ⟨_, h2⟩ | ⟨h2, _, _⟩
      · exact absurd h2 hk'
      · omega

theorem Bracket.lo_lt_hi {w : Word} {entry : Nat → Option (K × V)} {key : K} {n lo hi loIdx : Nat}
    (o : Ordered w entry) (hn : n ≤ numEntries) (b : Bracket w entry key n lo hi loIdx) : lo < hi := by
  rcases b.lo_spec with ⟨h, _⟩ | ⟨h1, h2, h3, e, h4, h5⟩
  · rcases b.hi_spec with h' | ⟨j, e', h1', h2', h3', _⟩
    · rw [h, h']; decide
    · rw [h, ← h3']; exact h2'.1
  · rcases b.hi_spec with h' | ⟨j, e', h1', h2', h3', h4', h5'⟩
    · rw [← h3, h']; exact h2.2
    · rw [← h3, ← h3']
      rcases Nat.lt_trichotomy (rank w loIdx) (rank w j) with hh | hh | hh
      · exact hh
      · have := o.inj _ _ (by omega) (by omega) h2 h2' hh
        subst this; rw [h4] at h4'; cases h4'; exact absurd h5 h5'
      · exact absurd (KeyOrd.trans _ _ _ (o.mono _ _ e' e (by omega) (by omega) h2' h2 hh h4' h4) h5) h5'

end Scc.Leaf
