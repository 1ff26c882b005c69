import Verif.Leaf.Search

/-!
# The invariant of a leaf and its preservation

`P` marks the slots that are reserved by an insertion that has not finished; in the word they look like
removed ones.
-/

set_option linter.unusedSimpArgs false

namespace Scc.Leaf

variable {K V : Type} [KeyOrd K]

/-! ## Counting slots -/

/-- The number of slots with a property. -/
def cnt (p : Nat → Bool) : Nat := ((List.range numEntries).filter p).length

theorem cntTo_congr {p q : Nat → Bool} {n : Nat} (h : ∀ i, i < n → p i = q i) :
    ((List.range n).filter p).length = ((List.range n).filter q).length := by
  congr 1
  apply List.filter_congr
  intro i hi
  exact h i (List.mem_range.1 hi)

theorem cnt_congr {p q : Nat → Bool} (h : ∀ i, i < numEntries → p i = q i) : cnt p = cnt q :=
  cntTo_congr h

theorem cntTo_add {p q : Nat → Bool} {i n : Nat} (hi : i < n) (hp : p i = false) (hq : q i = true)
    (h : ∀ j, j < n → j ≠ i → p j = q j) :
    ((List.range n).filter q).length = ((List.range n).filter p).length + 1 := by
  induction n with
  | zero => omega
  | succ n ih =>
    rw [List.range_succ, List.filter_append, List.filter_append, List.length_append,
      List.length_append]
    by_cases hn : i = n
    · subst hn
      rw [cntTo_congr (p := p) (q := q) (fun j hj => h j (by omega) (by omega))]
      simp [hp, hq]
    · have h1 := ih (by omega) (fun j hj hne => h j (by omega) hne)
      have h2 := h n (by omega) (fun e => hn e.symm)
      rw [h1]
      cases hpn : p n
      · rw [hpn] at h2; simp [hpn, ← h2]
      · rw [hpn] at h2; simp [hpn, ← h2]

theorem cnt_add {p q : Nat → Bool} {i : Nat} (hi : i < numEntries) (hp : p i = false) (hq : q i = true)
    (h : ∀ j, j < numEntries → j ≠ i → p j = q j) : cnt q = cnt p + 1 := cntTo_add hi hp hq h

theorem cnt_le (p : Nat → Bool) : cnt p ≤ numEntries := by
  have := List.length_filter_le p (List.range numEntries)
  rwa [List.length_range] at this

theorem cnt_lt {p : Nat → Bool} {i : Nat} (hi : i < numEntries) (hp : p i = false) :
    cnt p < numEntries := by
  have h := cnt_add (p := p) (q := fun j => j == i || p j) hi hp (by simp)
    (fun j _ hne => by simp [hne])
  have := cnt_le (fun j => j == i || p j)
  omega

/-- Slots that are not "uninit". -/
def used (w : Word) : Nat := cnt (fun i => rank w i != 0)

/-- Slots that hold or held a reachable entry. -/
def settled (w : Word) (P : Nat → Bool) : Nat := cnt (fun i => rank w i != 0 && !P i)

/-! ## The invariant -/

structure Ok (l : Leaf K V) (P : Nat → Bool) : Prop where
  ord : Ordered l.w l.entry
  bound : ∀ i, i < numEntries → Ranked l.w i → rank l.w i ≤ settled l.w P
  pend : ∀ i, P i = true → i < numEntries ∧ rank l.w i = removed
  ret : retired l.w = true → ∀ i, i < numEntries → ¬ Ranked l.w i

/-- The entry is reachable. -/
def Holds (l : Leaf K V) (e : K × V) : Prop := ∃ i, i < numEntries ∧ Ranked l.w i ∧ l.entry i = some e

theorem ok_new : Ok (Leaf.new : Leaf K V) (fun _ => false) := by
  have h : ∀ i, ¬ Ranked (Leaf.new : Leaf K V).w i := by
    intro i; simp [Ranked, Leaf.new]
  exact ⟨⟨fun i _ hr => absurd hr (h i), fun i _ _ _ hr => absurd hr (h i),
    fun i _ _ _ _ _ hr => absurd hr (h i)⟩, fun i _ hr => absurd hr (h i), fun i h => by simp at h,
    fun _ i _ => h i⟩

/-- Only the ranks, the flags and the entries of slots with a rank matter. -/
theorem Ok.congr {l l' : Leaf K V} {P : Nat → Bool} (o : Ok l P)
    (hr : ∀ i, i < numEntries → rank l'.w i = rank l.w i) (ht : retired l'.w = retired l.w)
    (he : ∀ i, i < numEntries → Ranked l.w i → l'.entry i = l.entry i) : Ok l' P := by
  have hR : ∀ i, i < numEntries → (Ranked l'.w i ↔ Ranked l.w i) := by
    intro i hi; unfold Ranked; rw [hr i hi]
  refine ⟨⟨?_, ?_, ?_⟩, ?_, ?_, ?_⟩
  · intro i hi h; rw [he i hi ((hR i hi).1 h)]; exact o.ord.init i hi ((hR i hi).1 h)
  · intro i j hi hj h h' hh
    rw [hr i hi, hr j hj] at hh
    exact o.ord.inj i j hi hj ((hR i hi).1 h) ((hR j hj).1 h') hh
  · intro i j e e' hi hj h h' hh h1 h2
    rw [hr i hi, hr j hj] at hh
    rw [he i hi ((hR i hi).1 h)] at h1
    rw [he j hj ((hR j hj).1 h')] at h2
    exact o.ord.mono i j e e' hi hj ((hR i hi).1 h) ((hR j hj).1 h') hh h1 h2
  · intro i hi h
    rw [hr i hi]
    have hs : settled l'.w P = settled l.w P := by
      apply cnt_congr; intro j hj; simp only [hr j hj]
    rw [hs]
    exact o.bound i hi ((hR i hi).1 h)
  · intro i h
    obtain ⟨h1, h2⟩ := o.pend i h
    exact ⟨h1, by rw [hr i h1]; exact h2⟩
  · intro h i hi h'
    rw [ht] at h
    exact o.ret h i hi ((hR i hi).1 h')

theorem Ok.freeze {l : Leaf K V} {P : Nat → Bool} (o : Ok l P) : Ok { l with w := freeze l.w } P :=
  o.congr (fun _ hi => rank_freeze _ hi) (retired_freeze _) (fun _ _ _ => rfl)

theorem Ok.thaw {l : Leaf K V} {P : Nat → Bool} (o : Ok l P) : Ok { l with w := thaw l.w } P :=
  o.congr (fun _ hi => rank_thaw _ hi) (retired_thaw _) (fun _ _ _ => rfl)

theorem freeSlot_some {w : Word} {i : Nat} (h : freeSlot w = some i) : i < numEntries ∧ rank w i = 0 := by
  unfold freeSlot at h
  have h1 := List.mem_of_find?_eq_some h
  have h2 := List.find?_some h
  exact ⟨List.mem_range.1 h1, by simpa using h2⟩

theorem freeSlot_none {w : Word} (h : freeSlot w = none) : ∀ i, i < numEntries → rank w i ≠ 0 := by
  unfold freeSlot at h
  rw [List.find?_eq_none] at h
  intro i hi
  simpa using h i (List.mem_range.2 hi)

theorem freeSlot_used {w : Word} : (freeSlot w).isSome ↔ used w < numEntries := by
  cases h : freeSlot w with
  | some i =>
    obtain ⟨h1, h2⟩ := freeSlot_some h
    simp only [Option.isSome_some, true_iff]
    exact cnt_lt h1 (by simp [h2])
  | none =>
    have h' := freeSlot_none h
    simp only [Option.isSome_none, Bool.false_eq_true, false_iff]
    have : used w = cnt (fun _ => true) := cnt_congr (fun i hi => bne_iff_ne.2 (h' i hi))
    have h2 : cnt (fun _ => true) = numEntries := by unfold cnt; rw [List.filter_eq_self.2 (fun _ _ => rfl), List.length_range]
    omega

/-- Reserving a slot. -/
theorem Ok.reserve {l : Leaf K V} {P : Nat → Bool} (o : Ok l P) {i : Nat} (hi : i < numEntries)
    (h0 : rank l.w i = 0) :
    Ok { l with w := augment l.w i removed } (fun j => j == i || P j) ∧
      (∀ j, j < numEntries → (Ranked (augment l.w i removed) j ↔ Ranked l.w j)) := by
  have h16 : removed < 16 := by decide
  have hi16 : i < 16 := by unfold numEntries at hi; omega
  have hne : ∀ j, j ≠ i → rank (augment l.w i removed) j = rank l.w j :=
    fun j h => rank_augment_ne _ h16 h
  have hself := rank_augment_self l.w hi16 h16
  have hR : ∀ j, Ranked (augment l.w i removed) j ↔ Ranked l.w j := by
    intro j
    by_cases e : j = i
    · subst e; unfold Ranked; rw [hself, h0]; unfold removed; omega
    · unfold Ranked; rw [hne j e]
  have hrr : ∀ j, Ranked l.w j → rank (augment l.w i removed) j = rank l.w j := by
    intro j h
    by_cases e : j = i
    · subst e; have := h.1; omega
    · exact hne j e
  have hP : P i = false := by
    cases h : P i with
    | false => rfl
    | true => have := (o.pend i h).2; unfold removed at this; omega
  refine ⟨⟨⟨?_, ?_, ?_⟩, ?_, ?_, ?_⟩, fun j _ => hR j⟩
  · intro j hj h; exact o.ord.init j hj ((hR j).1 h)
  · intro j k hj hk h h' hh
    simp only [] at hh
    rw [hrr j ((hR j).1 h), hrr k ((hR k).1 h')] at hh
    exact o.ord.inj j k hj hk ((hR j).1 h) ((hR k).1 h') hh
  · intro j k e e' hj hk h h' hh
    simp only [] at hh
    rw [hrr j ((hR j).1 h), hrr k ((hR k).1 h')] at hh
    exact o.ord.mono j k e e' hj hk ((hR j).1 h) ((hR k).1 h') hh
  · intro j hj h
    have h' := (hR j).1 h
    simp only []
    rw [hrr j h']
    have hs : settled (augment l.w i removed) (fun j => j == i || P j) = settled l.w P := by
      apply cnt_congr
      intro k hk
      by_cases e : k = i
      · subst e; simp [h0]
      · have e' : (k == i) = false := by simp [e]
        simp only [hne k e, e', Bool.false_or]
    rw [hs]
    exact o.bound j hj h'
  · intro j h
    by_cases e : j = i
    · subst e; exact ⟨hi, hself⟩
    · simp [e] at h
      simp only []
      rw [hne j e]; exact o.pend j h
  · intro h j hj h'
    simp only [] at h
    rw [retired_augment _ hi h16] at h
    exact o.ret h j hj ((hR j).1 h')

/-- Writing to a reserved slot. -/
theorem Ok.write {l : Leaf K V} {P : Nat → Bool} (o : Ok l P) {i : Nat} (hP : P i = true) (k : K) (v : V) :
    Ok (l.write i k v) P := by
  refine o.congr (fun _ _ => rfl) rfl ?_
  intro j hj hr
  have := (o.pend i hP).2
  have : j ≠ i := by
    intro e; subst e; have := hr.2; omega
  simp [Leaf.write, this]

/-- Giving a reserved slot back. -/
theorem Ok.rollback {l : Leaf K V} {P : Nat → Bool} (o : Ok l P) {i : Nat} (hP : P i = true) :
    Ok { l with w := clearSlot l.w i } (fun j => j != i && P j) ∧
      (∀ j, j < numEntries → (Ranked (clearSlot l.w i) j ↔ Ranked l.w j)) := by
  obtain ⟨hi, h15⟩ := o.pend i hP
  have hi16 : i < 16 := by unfold numEntries at hi; omega
  rw [clearSlot_eq]
  have hne : ∀ j, j ≠ i → rank (augment l.w i 0) j = rank l.w j :=
    fun j h => rank_augment_ne _ (by omega) h
  have hself := rank_augment_self l.w hi16 (r := 0) (by omega)
  have hR : ∀ j, Ranked (augment l.w i 0) j ↔ Ranked l.w j := by
    intro j
    by_cases e : j = i
    · subst e; unfold Ranked; rw [hself, h15]; omega
    · unfold Ranked; rw [hne j e]
  have hrr : ∀ j, Ranked l.w j → rank (augment l.w i 0) j = rank l.w j := by
    intro j h
    by_cases e : j = i
    · subst e; have := h.2; omega
    · exact hne j e
  refine ⟨⟨⟨?_, ?_, ?_⟩, ?_, ?_, ?_⟩, fun j _ => hR j⟩
  · intro j hj h; exact o.ord.init j hj ((hR j).1 h)
  · intro j k hj hk h h' hh
    simp only [] at hh
    rw [hrr j ((hR j).1 h), hrr k ((hR k).1 h')] at hh
    exact o.ord.inj j k hj hk ((hR j).1 h) ((hR k).1 h') hh
  · intro j k e e' hj hk h h' hh
    simp only [] at hh
    rw [hrr j ((hR j).1 h), hrr k ((hR k).1 h')] at hh
    exact o.ord.mono j k e e' hj hk ((hR j).1 h) ((hR k).1 h') hh
  · intro j hj h
    have h' := (hR j).1 h
    simp only []
    rw [hrr j h']
    have hs : settled (augment l.w i 0) (fun j => j != i && P j) = settled l.w P := by
      apply cnt_congr
      intro k hk
      by_cases e : k = i
      · subst e; simp [hself, hP]
      · have : (k != i) = true := by simp [e]
        simp [hne k e, this]
    rw [hs]
    exact o.bound j hj h'
  · intro j h
    by_cases e : j = i
    · subst e; simp at h
    · simp [e] at h
      simp only []
      rw [hne j e]; exact o.pend j h
  · intro h j hj h'
    simp only [] at h
    rw [retired_augment _ hi (by omega)] at h
    exact o.ret h j hj ((hR j).1 h')

/-- What `post_insert` computes. -/
theorem postWord_none {l : Leaf K V} {w : Word} (o : Ordered w l.entry) {key : K} {slot : Nat}
    (hb : ∀ i, i < numEntries → Ranked w i → rank w i < numEntries)
    (h : l.postWord key slot w = none) : ∃ i v, i < numEntries ∧ Ranked w i ∧ l.entry i = some (key, v) := by
  have hp := post_inv o key hb
  unfold Leaf.postWord at h
  simp only [] at h
  split at h
  · rename_i hd
    simp only [PostInv, hd, if_true] at hp
    exact hp
  · cases h

theorem postWord_some {l : Leaf K V} {w w' : Word} (o : Ordered w l.entry) {key : K} {slot : Nat}
    (hb : ∀ i, i < numEntries → Ranked w i → rank w i < numEntries) (hslot : slot < numEntries)
    (h : l.postWord key slot w = some w') :
    (∀ j e, j < numEntries → Ranked w j → l.entry j = some e → e.1 ≠ key) ∧
    (∀ j, j < numEntries → j ≠ slot → rank w' j = bump w l.entry key j) ∧
    (0 < rank w' slot ∧ rank w' slot < removed) ∧
    (∀ j e, j < numEntries → Ranked w j → l.entry j = some e → KeyOrd.lt e.1 key →
      rank w j < rank w' slot) ∧
    (∀ j e, j < numEntries → Ranked w j → l.entry j = some e → KeyOrd.lt key e.1 →
      rank w' slot ≤ rank w j) ∧
    (rank w' slot = 1 ∨ ∃ j, j < numEntries ∧ Ranked w j ∧ rank w' slot = rank w j + 1) ∧
    frozen w' = frozen w ∧ retired w' = retired w := by
  have hp := post_inv o key hb
  unfold Leaf.postWord at h
  simp only [] at h
  split at h
  · cases h
  · rename_i hd
    simp only [Option.some.injEq] at h
    simp only [PostInv, hd, if_false] at hp
    obtain ⟨⟨loIdx, b⟩, hne, hlow, -, hf, ht⟩ := hp
    generalize loop (l.postBody key) w { lo := 0, hi := removed, new := w, dup := false } = s at *
    subst h
    have hlo : s.lo + 1 ≤ numEntries := by
      rcases b.lo_spec with ⟨h1, _⟩ | ⟨h1, h2, h3, _⟩
      · rw [h1]; decide
      · have := hb loIdx h1 h2; omega
    have h16 : s.lo + 1 < 16 := by unfold numEntries at hlo; omega
    have hs16 : slot < 16 := by unfold numEntries at hslot; omega
    have hself := rank_augment_self s.new hs16 h16
    refine ⟨hne, ?_, ?_, ?_, ?_, ?_, ?_, ?_⟩
    · intro j hj hjs
      rw [rank_augment_ne _ h16 hjs]; exact hlow j hj
    · rw [hself]; unfold numEntries at hlo; unfold removed; omega
    · intro j e hj hr he hk
      rw [hself]
      have := b.lo_max j e hj hr he hk; omega
    · intro j e hj hr he hk
      rw [hself]
      have h1 := b.lo_lt_hi o (Nat.le_refl _)
      have h2 := b.hi_min j e hj hr he (lt_asymm hk)
      omega
    · rw [hself]
      rcases b.lo_spec with ⟨h1, _⟩ | ⟨h1, h2, h3, _⟩
      · left; omega
      · right; exact ⟨loIdx, h1, h2, by omega⟩
    · rw [frozen_augment _ hslot h16, hf]
    · rw [retired_augment _ hslot h16, ht]

/-- With a reserved slot there is room for one more rank. -/
theorem Ok.rank_small {l : Leaf K V} {P : Nat → Bool} (o : Ok l P) {i : Nat} (hP : P i = true) :
    ∀ j, j < numEntries → Ranked l.w j → rank l.w j < numEntries := by
  intro j hj hr
  have h1 := o.bound j hj hr
  have h2 : settled l.w P < numEntries := cnt_lt (o.pend i hP).1 (by simp [hP])
  omega

/-- The insertion becomes reachable. -/
theorem Ok.finish {l : Leaf K V} {P : Nat → Bool} (o : Ok l P) {i : Nat} (hP : P i = true) {k : K} {v : V}
    (he : l.entry i = some (k, v)) (hret : retired l.w = false) {w' : Word}
    (h : l.postWord k i l.w = some w') :
    Ok { l with w := w' } (fun j => j != i && P j) ∧
      (∀ j, j < numEntries → (Ranked w' j ↔ Ranked l.w j ∨ j = i)) := by
  obtain ⟨hi, h15⟩ := o.pend i hP
  have hb := o.rank_small hP
  obtain ⟨hne, hbump, hslot, hlow, hhigh, hrk, hf, ht⟩ := postWord_some o.ord hb hi h
  have hR : ∀ j, j < numEntries → (Ranked w' j ↔ Ranked l.w j ∨ j = i) := by
    intro j hj
    by_cases e : j = i
    · subst e; simp only [or_true, iff_true]; exact hslot
    · simp only [e, or_false]
      have hbj := hbump j hj e
      unfold Ranked
      rw [hbj]
      unfold bump
      split
      · rename_i e' he'
        split
        · rename_i hc
          have := hb j hj hc.1
          have h1 := hc.1.1
          have h2 := hc.1.2
          unfold numEntries at this; unfold removed at *
          omega
        · exact Iff.rfl
      · exact Iff.rfl
  have hni : ¬ Ranked l.w i := by
    intro hh; have := hh.2; omega
  -- ranks of old slots
  have hup : ∀ j e, j < numEntries → Ranked l.w j → l.entry j = some e →
      (KeyOrd.lt k e.1 ∧ rank w' j = rank l.w j + 1) ∨ (KeyOrd.lt e.1 k ∧ rank w' j = rank l.w j) := by
    intro j e hj hr hej
    have hji : j ≠ i := by intro e'; subst e'; exact hni hr
    rw [hbump j hj hji]
    unfold bump
    rw [hej]
    simp only []
    by_cases hk : KeyOrd.lt k e.1
    · left; exact ⟨hk, by rw [if_pos ⟨hr, hk⟩]⟩
    · right
      refine ⟨?_, by rw [if_neg (fun hh => hk hh.2)]⟩
      rcases KeyOrd.tri e.1 k with h1 | h1 | h1
      · exact h1
      · exact absurd h1 (hne j e hj hr hej)
      · exact absurd h1 hk
  -- rank of an old slot against the new one
  have hnew : ∀ j e, j < numEntries → Ranked l.w j → l.entry j = some e →
      (KeyOrd.lt k e.1 ∧ rank w' i < rank w' j) ∨ (KeyOrd.lt e.1 k ∧ rank w' j < rank w' i) := by
    intro j e hj hr hej
    rcases hup j e hj hr hej with ⟨h1, h2⟩ | ⟨h1, h2⟩
    · left; have := hhigh j e hj hr hej h1; exact ⟨h1, by omega⟩
    · right; have := hlow j e hj hr hej h1; exact ⟨h1, by omega⟩
  have hold : ∀ j j' e e', j < numEntries → j' < numEntries → Ranked l.w j → Ranked l.w j' →
      l.entry j = some e → l.entry j' = some e' → rank l.w j < rank l.w j' → rank w' j < rank w' j' := by
    intro j j' e e' hj hj' hr hr' hej hej' hlt
    have hm := o.ord.mono j j' e e' hj hj' hr hr' hlt hej hej'
    rcases hup j e hj hr hej with ⟨h1, h2⟩ | ⟨h1, h2⟩ <;>
      rcases hup j' e' hj' hr' hej' with ⟨h3, h4⟩ | ⟨h3, h4⟩
    · omega
    · exact absurd (KeyOrd.trans _ _ _ h1 hm) (lt_asymm h3)
    · omega
    · omega
  refine ⟨⟨⟨?_, ?_, ?_⟩, ?_, ?_, ?_⟩, hR⟩
  · intro j hj hr
    rcases (hR j hj).1 hr with h1 | h1
    · exact o.ord.init j hj h1
    · subst h1; exact ⟨_, he⟩
  · intro j j' hj hj' hr hr' hh
    rcases (hR j hj).1 hr with h1 | h1 <;> rcases (hR j' hj').1 hr' with h2 | h2
    · obtain ⟨e, hej⟩ := o.ord.init j hj h1
      obtain ⟨e', hej'⟩ := o.ord.init j' hj' h2
      rcases Nat.lt_trichotomy (rank l.w j) (rank l.w j') with h3 | h3 | h3
      · have := hold j j' e e' hj hj' h1 h2 hej hej' h3; simp only [] at hh; omega
      · exact o.ord.inj j j' hj hj' h1 h2 h3
      · have := hold j' j e' e hj' hj h2 h1 hej' hej h3; simp only [] at hh; omega
    · subst h2
      obtain ⟨e, hej⟩ := o.ord.init j hj h1
      simp only [] at hh
      rcases hnew j e hj h1 hej with ⟨_, h3⟩ | ⟨_, h3⟩ <;> omega
    · subst h1
      obtain ⟨e, hej⟩ := o.ord.init j' hj' h2
      simp only [] at hh
      rcases hnew j' e hj' h2 hej with ⟨_, h3⟩ | ⟨_, h3⟩ <;> omega
    · rw [h1, h2]
  · intro j j' e e' hj hj' hr hr' hlt hej hej'
    simp only [] at hlt hej hej'
    rcases (hR j hj).1 hr with h1 | h1 <;> rcases (hR j' hj').1 hr' with h2 | h2
    · rcases Nat.lt_trichotomy (rank l.w j) (rank l.w j') with h3 | h3 | h3
      · exact o.ord.mono j j' e e' hj hj' h1 h2 h3 hej hej'
      · have := o.ord.inj j j' hj hj' h1 h2 h3; subst this; omega
      · have := hold j' j e' e hj' hj h2 h1 hej' hej h3; omega
    · subst h2
      rw [he] at hej'; cases hej'
      rcases hnew j e hj h1 hej with ⟨_, h3⟩ | ⟨h3, _⟩
      · omega
      · exact h3
    · subst h1
      rw [he] at hej; cases hej
      rcases hnew j' e' hj' h2 hej' with ⟨h3, _⟩ | ⟨_, h3⟩
      · exact h3
      · omega
    · subst h1; subst h2; omega
  · intro j hj hr
    have hcnt : settled w' (fun j => j != i && P j) = settled l.w P + 1 := by
      apply cnt_add hi
      · simp [hP]
      · have := hslot.1
        simp; omega
      · intro m hm hmi
        have hmi' : (m != i) = true := by simp [hmi]
        have hz : rank w' m = 0 ↔ rank l.w m = 0 := by
          rw [hbump m hm hmi]
          unfold bump
          split
          · split
            · rename_i hc; have := hc.1.1; omega
            · exact Iff.rfl
          · exact Iff.rfl
        have : (rank w' m != 0) = (rank l.w m != 0) := by
          rw [Bool.eq_iff_iff]; simp [hz]
        rw [this]; simp [hmi']
    simp only []
    rw [hcnt]
    rcases (hR j hj).1 hr with h1 | h1
    · obtain ⟨e, hej⟩ := o.ord.init j hj h1
      have := o.bound j hj h1
      rcases hup j e hj h1 hej with ⟨_, h3⟩ | ⟨_, h3⟩ <;> omega
    · subst h1
      rcases hrk with h1 | ⟨m, hm, hrm, h1⟩
      · omega
      · have := o.bound m hm hrm; omega
  · intro j hj
    by_cases e : j = i
    · subst e; simp at hj
    · have hj' : P j = true := by simp [e] at hj; exact hj
      obtain ⟨h1, h2⟩ := o.pend j hj'
      refine ⟨h1, ?_⟩
      simp only []
      rw [hbump j h1 e, bump_same]
      · exact h2
      · intro _ _ hr; have := hr.2; omega
  · intro hr
    simp only [] at hr
    rw [ht, hret] at hr
    cases hr

/-! ## Removal -/

theorem emptyBut_iff {w : Word} {i : Nat} :
    emptyBut w i = true ↔ ∀ j, j < numEntries → j ≠ i → ¬ Ranked w j := by
  have := loop_ind (f := fun (s : Bool) j r => s && !(i != j && (r != 0 && r != removed))) (w := w)
    (s := true) (by intro s j; simp)
    (fun n s => s = true ↔ ∀ j, j < n → j ≠ i → ¬ Ranked w j) (by simp) (by
      intro n s hn hI
      simp only [Bool.and_eq_true, hI]
      have hlt := rank_lt w n
      constructor
      · rintro ⟨h1, h2⟩ j hj hji hr
        rcases Nat.lt_succ_iff_lt_or_eq.1 hj with h3 | h3
        · exact h1 j h3 hji hr
        · subst h3
          have := hr.1; have h4 := hr.2
          have e1 : (i != j) = true := by simp; exact fun e => hji e.symm
          have e2 : (rank w j != 0) = true := by simp; omega
          have e3 : (rank w j != removed) = true := by simp; omega
          simp [e1, e2, e3] at h2
      · intro h
        refine ⟨fun j hj => h j (by omega), ?_⟩
        by_cases e : n = i
        · subst e; simp
        · have h' := not_ranked_cases (h n (by omega) e)
          rcases h' with h' | h' <;> simp [h'])
  exact this

theorem removeWord_rank {w : Word} {i j : Nat} (hi : i < numEntries) (hj : j < numEntries) :
    rank (removeWord w i) j = if j = i then removed else rank w j := by
  have h16 : removed < 16 := by decide
  have hi16 : i < 16 := by unfold numEntries at hi; omega
  have : rank (removeWord w i) j = rank (augment w i removed) j := by
    unfold removeWord
    split
    · rw [rank_retire _ hj, markRemoved_eq]
    · rw [markRemoved_eq]
  rw [this]
  split
  · rename_i e; subst e; exact rank_augment_self _ hi16 h16
  · rename_i e; exact rank_augment_ne _ h16 e

theorem removeWord_frozen {w : Word} {i : Nat} (hi : i < numEntries) :
    frozen (removeWord w i) = frozen w := by
  have h16 : removed < 16 := by decide
  unfold removeWord
  split
  · rw [frozen_retire, markRemoved_eq, frozen_augment _ hi h16]
  · rw [markRemoved_eq, frozen_augment _ hi h16]

theorem removeWord_retired {w : Word} {i : Nat} (hi : i < numEntries) :
    retired (removeWord w i) = (emptyBut w i || retired w) := by
  have h16 : removed < 16 := by decide
  unfold removeWord
  split
  · rename_i h; rw [retired_retire, h]; rfl
  · rename_i h
    rw [markRemoved_eq, retired_augment _ hi h16]
    simp only [Bool.not_eq_true] at h
    rw [h]; rfl

theorem Ok.remove {l : Leaf K V} {P : Nat → Bool} (o : Ok l P) {i : Nat} (hi : i < numEntries)
    (hr : Ranked l.w i) :
    Ok { l with w := removeWord l.w i } P ∧
      (∀ j, j < numEntries → (Ranked (removeWord l.w i) j ↔ Ranked l.w j ∧ j ≠ i)) := by
  have hR : ∀ j, j < numEntries → (Ranked (removeWord l.w i) j ↔ Ranked l.w j ∧ j ≠ i) := by
    intro j hj
    unfold Ranked
    rw [removeWord_rank hi hj]
    split
    · rename_i e; unfold removed; simp [e]
    · rename_i e; simp [e]
  have hrk : ∀ j, j < numEntries → j ≠ i → rank (removeWord l.w i) j = rank l.w j := by
    intro j hj e; rw [removeWord_rank hi hj, if_neg e]
  refine ⟨⟨⟨?_, ?_, ?_⟩, ?_, ?_, ?_⟩, hR⟩
  · intro j hj h; exact o.ord.init j hj ((hR j hj).1 h).1
  · intro j j' hj hj' h h' hh
    have h1 := (hR j hj).1 h
    have h2 := (hR j' hj').1 h'
    simp only [] at hh
    rw [hrk j hj h1.2, hrk j' hj' h2.2] at hh
    exact o.ord.inj j j' hj hj' h1.1 h2.1 hh
  · intro j j' e e' hj hj' h h' hh
    have h1 := (hR j hj).1 h
    have h2 := (hR j' hj').1 h'
    simp only [] at hh
    rw [hrk j hj h1.2, hrk j' hj' h2.2] at hh
    exact o.ord.mono j j' e e' hj hj' h1.1 h2.1 hh
  · intro j hj h
    have h1 := (hR j hj).1 h
    simp only []
    rw [hrk j hj h1.2]
    have hs : settled (removeWord l.w i) P = settled l.w P := by
      apply cnt_congr
      intro m hm
      by_cases e : m = i
      · subst e
        rw [removeWord_rank hi hi, if_pos rfl]
        have := hr.1
        have e2 : (rank l.w m != 0) = true := by simp; omega
        simp [e2, removed]
      · rw [hrk m hm e]
    rw [hs]
    exact o.bound j hj h1.1
  · intro j h
    obtain ⟨h1, h2⟩ := o.pend j h
    refine ⟨h1, ?_⟩
    simp only []
    rw [removeWord_rank hi h1]
    split
    · rfl
    · exact h2
  · intro h j hj h'
    have h1 := (hR j hj).1 h'
    simp only [] at h
    rw [removeWord_retired hi, Bool.or_eq_true] at h
    rcases h with h | h
    · exact emptyBut_iff.1 h j hj h1.2 h1.1
    · exact o.ret h j hj h1.1

end Scc.Leaf
