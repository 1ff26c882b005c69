import Verif.LeafConc.Model

/-!
# Invariant of a leaf shared by threads
-/

set_option linter.unusedSimpArgs false
set_option linter.unusedSectionVars false

namespace Scc.LeafConc

open Scc.Leaf

variable {K V : Type} [KeyOrd K]

/-- The slot a thread has reserved. -/
def Pc.slot : Pc K V → Option Nat
  | .resv _ _ i _ | .post _ _ i _ | .roll _ _ i => some i
  | _ => none

open Classical in
/-- The reserved slots. -/
noncomputable def pend (pc : Nat → Pc K V) (i : Nat) : Bool := decide (∃ t, (pc t).slot = some i)

theorem pend_iff {pc : Nat → Pc K V} {i : Nat} : pend pc i = true ↔ ∃ t, (pc t).slot = some i := by
  unfold pend; simp

theorem pend_false {pc : Nat → Pc K V} {i : Nat} : pend pc i = false ↔ ∀ t, (pc t).slot ≠ some i := by
  rw [← Bool.not_eq_true, pend_iff]; simp

def upd (pc : Nat → Pc K V) (t : Nat) (p : Pc K V) : Nat → Pc K V := fun u => if u = t then p else pc u

theorem upd_self (pc : Nat → Pc K V) (t : Nat) (p : Pc K V) : upd pc t p t = p := by simp [upd]
theorem upd_ne {pc : Nat → Pc K V} {t u : Nat} (h : u ≠ t) (p : Pc K V) : upd pc t p u = pc u := by
  simp [upd, h]

theorem pend_same {pc : Nat → Pc K V} {t : Nat} {p : Pc K V} (h : p.slot = (pc t).slot) :
    pend (upd pc t p) = pend pc := by
  funext i
  rw [Bool.eq_iff_iff, pend_iff, pend_iff]
  constructor
  · rintro ⟨u, hu⟩
    by_cases e : u = t
    · subst e; rw [upd_self, h] at hu; exact ⟨u, hu⟩
    · rw [upd_ne e] at hu; exact ⟨u, hu⟩
  · rintro ⟨u, hu⟩
    refine ⟨u, ?_⟩
    by_cases e : u = t
    · subst e; rw [upd_self, h]; exact hu
    · rw [upd_ne e]; exact hu

theorem pend_reserve {pc : Nat → Pc K V} {t i : Nat} {p : Pc K V} (h : (pc t).slot = none)
    (hp : p.slot = some i) : pend (upd pc t p) = fun j => j == i || pend pc j := by
  funext j
  rw [Bool.eq_iff_iff, pend_iff, Bool.or_eq_true, pend_iff, beq_iff_eq]
  constructor
  · rintro ⟨u, hu⟩
    by_cases e : u = t
    · subst e; rw [upd_self, hp] at hu; cases hu; exact .inl rfl
    · rw [upd_ne e] at hu; exact .inr ⟨u, hu⟩
  · rintro (e | ⟨u, hu⟩)
    · subst e; exact ⟨t, by rw [upd_self, hp]⟩
    · refine ⟨u, ?_⟩
      by_cases e : u = t
      · subst e; rw [h] at hu; cases hu
      · rw [upd_ne e]; exact hu

theorem pend_release {pc : Nat → Pc K V} {t i : Nat} {p : Pc K V} (h : (pc t).slot = some i)
    (hp : p.slot = none) (ex : ∀ u, (pc u).slot = some i → u = t) :
    pend (upd pc t p) = fun j => j != i && pend pc j := by
  funext j
  rw [Bool.eq_iff_iff, pend_iff, Bool.and_eq_true, pend_iff, bne_iff_ne]
  constructor
  · rintro ⟨u, hu⟩
    by_cases e : u = t
    · subst e; rw [upd_self, hp] at hu; cases hu
    · rw [upd_ne e] at hu
      refine ⟨?_, u, hu⟩
      intro e'; subst e'; exact e (ex u hu)
  · rintro ⟨e, u, hu⟩
    refine ⟨u, ?_⟩
    by_cases e' : u = t
    · subst e'; rw [h] at hu; cases hu; exact absurd rfl e
    · rw [upd_ne e']; exact hu

/-! ## What a step leaves alone -/

/-- The slots that have held an entry keep it. -/
structure Keep (l : Leaf K V) (P : Nat → Bool) (l' : Leaf K V) (P' : Nat → Bool) : Prop where
  used : ∀ j, j < numEntries → rank l.w j ≠ 0 → P j = false → rank l'.w j ≠ 0
  free : ∀ j, j < numEntries → rank l.w j ≠ 0 → P j = false → P' j = false
  entry : ∀ j, j < numEntries → rank l.w j ≠ 0 → P j = false → l'.entry j = l.entry j
  gone : ∀ j, j < numEntries → rank l.w j = removed → P j = false → rank l'.w j = removed

theorem Keep.refl (l : Leaf K V) (P : Nat → Bool) : Keep l P l P :=
  ⟨fun _ _ h _ => h, fun _ _ _ h => h, fun _ _ _ _ => rfl, fun _ _ h _ => h⟩

/-- `w` was the word of the leaf some time ago. -/
structure Snap (l : Leaf K V) (P : Nat → Bool) (w : Word) : Prop where
  ord : Ordered w l.entry
  used : ∀ j, j < numEntries → Ranked w j → rank l.w j ≠ 0
  free : ∀ j, j < numEntries → Ranked w j → P j = false

theorem ordered_congr {w : Word} {f g : Nat → Option (K × V)} (o : Ordered w f)
    (h : ∀ j, j < numEntries → Ranked w j → g j = f j) : Ordered w g := by
  refine ⟨?_, o.inj, ?_⟩
  · intro i hi hr; rw [h i hi hr]; exact o.init i hi hr
  · intro i j e e' hi hj hr hr' hlt h1 h2
    rw [h i hi hr] at h1; rw [h j hj hr'] at h2
    exact o.mono i j e e' hi hj hr hr' hlt h1 h2

theorem Snap.step {l l' : Leaf K V} {P P' : Nat → Bool} {w : Word} (s : Snap l P w)
    (k : Keep l P l' P') : Snap l' P' w := by
  refine ⟨ordered_congr s.ord ?_, ?_, ?_⟩
  · intro j hj hr; exact k.entry j hj (s.used j hj hr) (s.free j hj hr)
  · intro j hj hr; exact k.used j hj (s.used j hj hr) (s.free j hj hr)
  · intro j hj hr; exact k.free j hj (s.used j hj hr) (s.free j hj hr)

theorem Snap.now {l : Leaf K V} {P : Nat → Bool} (o : Ok l P) : Snap l P l.w := by
  refine ⟨o.ord, ?_, ?_⟩
  · intro j _ hr; have := hr.1; omega
  · intro j hj hr
    cases h : P j with
    | false => rfl
    | true => have := (o.pend j h).2; have := hr.2; omega

/-! ## The invariant -/

def PcOk (l : Leaf K V) (P : Nat → Bool) : Pc K V → Prop
  | .idle | .start _ | .done _ => True
  | .ins _ _ w => Snap l P w
  | .resv _ _ _ w => Snap l P w ∧ frozen w = false ∧ retired w = false ∧
      ∀ j, j < numEntries → Ranked w j → rank w j < numEntries
  | .post k v i w => Snap l P w ∧ frozen w = false ∧ retired w = false ∧
      (∀ j, j < numEntries → Ranked w j → rank w j < numEntries) ∧ l.entry i = some (k, v)
  | .roll k v i => l.entry i = some (k, v)
  | .rem _ _ w => Snap l P w
  | .remAt k _ i w => Snap l P w ∧ frozen w = false ∧ i < numEntries ∧ Ranked w i ∧
      ∃ v, l.entry i = some (k, v)
  | .ask _ w => Snap l P w

structure Inv (s : St K V) : Prop where
  ok : Ok s.l (pend s.pc)
  excl : ∀ t u i, (s.pc t).slot = some i → (s.pc u).slot = some i → t = u
  pcs : ∀ t, PcOk s.l (pend s.pc) (s.pc t)

theorem PcOk.step {l l' : Leaf K V} {P P' : Nat → Bool} {p : Pc K V} (h : PcOk l P p)
    (k : Keep l P l' P') (own : ∀ i, p.slot = some i → l'.entry i = l.entry i) : PcOk l' P' p := by
  cases p with
  | idle | start | done => trivial
  | ins _ _ w => exact Snap.step h k
  | resv _ _ i w => exact ⟨Snap.step h.1 k, h.2⟩
  | post k v i w =>
    refine ⟨Snap.step h.1 ‹_›, h.2.1, h.2.2.1, h.2.2.2.1, ?_⟩
    rw [own i rfl]; exact h.2.2.2.2
  | roll k v i =>
    show l'.entry i = _
    rw [own i rfl]; exact h
  | rem _ _ w => exact Snap.step h k
  | remAt key c i w =>
    obtain ⟨h1, h2, h3, h4, v, h5⟩ := h
    refine ⟨h1.step k, h2, h3, h4, v, ?_⟩
    rw [k.entry i h3 (h1.used i h3 h4) (h1.free i h3 h4)]; exact h5
  | ask _ w => exact Snap.step h k

/-- What has to be shown for a step of thread `t` to location `p`. -/
structure Good (s : St K V) (t : Nat) (l' : Leaf K V) (p : Pc K V) : Prop where
  ok : Ok l' (pend (upd s.pc t p))
  keep : Keep s.l (pend s.pc) l' (pend (upd s.pc t p))
  own : ∀ u i, u ≠ t → (s.pc u).slot = some i → l'.entry i = s.l.entry i
  excl : ∀ u i, u ≠ t → (s.pc u).slot = some i → p.slot ≠ some i
  pcok : PcOk l' (pend (upd s.pc t p)) p

theorem Good.inv {s : St K V} (h : Inv s) {t : Nat} {l' : Leaf K V} {p : Pc K V} (g : Good s t l' p) :
    Inv { l := l', pc := upd s.pc t p } := by
  refine ⟨g.ok, ?_, ?_⟩
  · intro u u' i h1 h2
    simp only [] at h1 h2
    by_cases e : u = t <;> by_cases e' : u' = t
    · rw [e, e']
    · subst e; rw [upd_self] at h1; rw [upd_ne e'] at h2
      exact absurd h1 (g.excl u' i e' h2)
    · subst e'; rw [upd_self] at h2; rw [upd_ne e] at h1
      exact absurd h2 (g.excl u i e h1)
    · rw [upd_ne e] at h1; rw [upd_ne e'] at h2
      exact h.excl u u' i h1 h2
  · intro u
    simp only []
    by_cases e : u = t
    · subst e; rw [upd_self]; exact g.pcok
    · rw [upd_ne e]
      exact (h.pcs u).step g.keep (fun i hi => g.own u i e hi)

/-- A step that changes neither the leaf nor the reserved slots. -/
theorem Good.local {s : St K V} (h : Inv s) {t : Nat} {p : Pc K V} (hs : p.slot = (s.pc t).slot)
    (hp : PcOk s.l (pend s.pc) p) : Good s t s.l p := by
  have e := pend_same hs
  refine ⟨e ▸ h.ok, e ▸ Keep.refl _ _, fun _ _ _ _ => rfl, ?_, e ▸ hp⟩
  intro u i hu h1 h2
  rw [hs] at h2
  exact hu (h.excl u t i h1 h2)

/-! ## The steps that change the leaf -/

theorem good_reserve {s : St K V} (h : Inv s) {t i : Nat} {k : K} {v : V} {w : Word}
    (hpc : s.pc t = .ins k v w) (hret : retired w = false) (hf : frozen w = false)
    (hfree : freeSlot w = some i) (hw : s.l.w = w) :
    Good s t { s.l with w := augment w i removed } (.resv k v i (augment w i removed)) := by
  subst hw
  obtain ⟨hi, h0⟩ := freeSlot_some hfree
  have hP := pend_reserve (p := Pc.resv k v i (augment s.l.w i removed)) (by rw [hpc]; rfl : (s.pc t).slot = none) rfl
  obtain ⟨o, hR⟩ := h.ok.reserve hi h0
  have hne : ∀ j, j ≠ i → rank (augment s.l.w i removed) j = rank s.l.w j :=
    fun j hj => rank_augment_ne _ (by decide) hj
  have keep : Keep s.l (pend s.pc) { s.l with w := augment s.l.w i removed }
      (fun j => j == i || pend s.pc j) := by
    have hji : ∀ j, rank s.l.w j ≠ 0 → j ≠ i := by intro j hj e; subst e; exact hj h0
    refine ⟨?_, ?_, fun _ _ _ _ => rfl, ?_⟩
    · intro j _ h1 _; simp only [hne j (hji j h1)]; exact h1
    · intro j _ h1 h2; simp [hji j h1, h2]
    · intro j _ h1 _
      have := hji j (by rw [h1]; decide)
      simp only [hne j this]; exact h1
  refine ⟨hP ▸ o, hP ▸ keep, fun _ _ _ _ => rfl, ?_, ?_⟩
  · intro u j hu h1 h2
    cases h2
    have := (h.ok.pend _ (pend_iff.2 ⟨u, h1⟩)).2
    rw [h0] at this; unfold removed at this; omega
  · rw [hP]
    refine ⟨Snap.now o, ?_, ?_, ?_⟩
    · rw [frozen_augment _ hi (by decide)]; exact hf
    · rw [retired_augment _ hi (by decide)]; exact hret
    · exact o.rank_small (i := i) (by simp)

theorem good_write {s : St K V} (h : Inv s) {t i : Nat} {k : K} {v : V} {w : Word}
    (hpc : s.pc t = .resv k v i w) : Good s t (s.l.write i k v) (.post k v i w) := by
  have hs : (s.pc t).slot = some i := by rw [hpc]; rfl
  have hP : pend (upd s.pc t (.post k v i w)) = pend s.pc := pend_same (by rw [hs]; rfl)
  have hpi : pend s.pc i = true := pend_iff.2 ⟨t, hs⟩
  have hent : ∀ j, j ≠ i → (s.l.write i k v).entry j = s.l.entry j := by
    intro j hj; simp [Leaf.write, hj]
  have keep : Keep s.l (pend s.pc) (s.l.write i k v) (pend s.pc) := by
    refine ⟨fun _ _ h _ => h, fun _ _ _ h => h, ?_, fun _ _ h _ => h⟩
    intro j _ _ h2
    apply hent
    intro e; subst e; rw [hpi] at h2; cases h2
  have hp := h.pcs t
  rw [hpc] at hp
  refine ⟨hP ▸ h.ok.write hpi k v, hP ▸ keep, ?_, ?_, ?_⟩
  · intro u j hu h1
    apply hent
    intro e; subst e; exact hu (h.excl u t _ h1 hs)
  · intro u j hu h1 h2
    cases h2
    exact hu (h.excl u t _ h1 hs)
  · rw [hP]
    refine ⟨Snap.step hp.1 keep, hp.2.1, hp.2.2.1, hp.2.2.2, ?_⟩
    simp [Leaf.write]

theorem at_eq {s : St K V} {w : Word} (h : s.l.w = w) : s.at w = s.l := by
  subst h; rfl

theorem good_finish {s : St K V} (h : Inv s) {t i : Nat} {k : K} {v : V} {w w' : Word}
    (hpc : s.pc t = .post k v i w) (hpw : (s.at w).postWord k i w = some w') (hw : s.l.w = w) :
    Good s t { s.l with w := w' } (.done (.ins .success)) := by
  rw [at_eq hw] at hpw
  subst hw
  have hs : (s.pc t).slot = some i := by rw [hpc]; rfl
  have hpi : pend s.pc i = true := pend_iff.2 ⟨t, hs⟩
  have hP := pend_release (p := Pc.done (.ins .success)) hs rfl (fun u hu => h.excl u t i hu hs)
  have hp := h.pcs t
  rw [hpc] at hp
  obtain ⟨hsn, hf, hret, hb, he⟩ := hp
  obtain ⟨o, hR⟩ := h.ok.finish hpi he hret hpw
  obtain ⟨hi, _⟩ := h.ok.pend i hpi
  obtain ⟨_, hbump, _⟩ := postWord_some h.ok.ord hb hi hpw
  have hji : ∀ j, pend s.pc j = false → j ≠ i := by
    intro j hj e; subst e; rw [hpi] at hj; cases hj
  have keep : Keep s.l (pend s.pc) { s.l with w := w' } (fun j => j != i && pend s.pc j) := by
    refine ⟨?_, ?_, fun _ _ _ _ => rfl, ?_⟩
    · intro j hj h1 h2
      simp only []
      rw [hbump j hj (hji j h2)]
      unfold bump
      split
      · split
        · omega
        · exact h1
      · exact h1
    · intro j _ _ h2; simp [h2]
    · intro j hj h1 h2
      simp only []
      rw [hbump j hj (hji j h2), bump_same]
      · exact h1
      · intro _ _ hr; have := hr.2; omega
  exact ⟨hP ▸ o, hP ▸ keep, fun _ _ _ _ => rfl, fun _ _ _ _ h2 => (by cases h2), trivial⟩

theorem good_roll {s : St K V} (h : Inv s) {t i : Nat} {k : K} {v : V} {r : Res K V}
    (hpc : s.pc t = .roll k v i) : Good s t { s.l with w := clearSlot s.l.w i } (.done r) := by
  have hs : (s.pc t).slot = some i := by rw [hpc]; rfl
  have hpi : pend s.pc i = true := pend_iff.2 ⟨t, hs⟩
  have hP := pend_release (p := Pc.done r) hs rfl (fun u hu => h.excl u t i hu hs)
  obtain ⟨o, hR⟩ := h.ok.rollback hpi
  have hji : ∀ j, pend s.pc j = false → j ≠ i := by
    intro j hj e; subst e; rw [hpi] at hj; cases hj
  have hne : ∀ j, j ≠ i → rank (clearSlot s.l.w i) j = rank s.l.w j := by
    intro j hj; rw [clearSlot_eq]; exact rank_augment_ne _ (by omega) hj
  have keep : Keep s.l (pend s.pc) { s.l with w := clearSlot s.l.w i }
      (fun j => j != i && pend s.pc j) := by
    refine ⟨?_, ?_, fun _ _ _ _ => rfl, ?_⟩
    · intro j _ h1 h2; simp only [hne j (hji j h2)]; exact h1
    · intro j _ _ h2; simp [h2]
    · intro j _ h1 h2; simp only [hne j (hji j h2)]; exact h1
  exact ⟨hP ▸ o, hP ▸ keep, fun _ _ _ _ => rfl, fun _ _ _ _ h2 => (by cases h2), trivial⟩

theorem good_remove {s : St K V} (h : Inv s) {t i : Nat} {k : K} {c : V → Bool} {w : Word} {r : Res K V}
    (hpc : s.pc t = .remAt k c i w) (hw : s.l.w = w) :
    Good s t { s.l with w := removeWord w i } (.done r) := by
  subst hw
  have hP : pend (upd s.pc t (.done r)) = pend s.pc := pend_same (by rw [hpc]; rfl)
  have hp := h.pcs t
  rw [hpc] at hp
  obtain ⟨hsn, hf, hi, hr, v, he⟩ := hp
  obtain ⟨o, hR⟩ := h.ok.remove hi hr
  have keep : Keep s.l (pend s.pc) { s.l with w := removeWord s.l.w i } (pend s.pc) := by
    refine ⟨?_, fun _ _ _ h2 => h2, fun _ _ _ _ => rfl, ?_⟩
    · intro j hj h1 _
      simp only [removeWord_rank hi hj]
      split
      · decide
      · exact h1
    · intro j hj h1 _
      simp only [removeWord_rank hi hj]
      split
      · rfl
      · exact h1
  exact ⟨hP ▸ o, hP ▸ keep, fun _ _ _ _ => rfl, fun _ _ _ _ h2 => (by cases h2), trivial⟩

theorem good_flag {s : St K V} (h : Inv s) {t : Nat} {r : Res K V} {w : Word}
    (hpc : (s.pc t).slot = none) (o : Ok { s.l with w := w } (pend s.pc))
    (hrk : ∀ j, j < numEntries → rank w j = rank s.l.w j) :
    Good s t { s.l with w := w } (.done r) := by
  have hP : pend (upd s.pc t (.done r)) = pend s.pc := pend_same (by rw [hpc]; rfl)
  have keep : Keep s.l (pend s.pc) { s.l with w := w } (pend s.pc) := by
    refine ⟨?_, fun _ _ _ h2 => h2, fun _ _ _ _ => rfl, ?_⟩
    · intro j hj h1 _; simp only [hrk j hj]; exact h1
    · intro j hj h1 _; simp only [hrk j hj]; exact h1
  exact ⟨hP ▸ o, hP ▸ keep, fun _ _ _ _ => rfl, fun _ _ _ _ h2 => (by cases h2), trivial⟩

/-- Every step is good. -/
theorem step_good {s s' : St K V} {e : Option (Event K V)} (h : Inv s) (st : Step s e s') :
    ∃ t p, s'.pc = upd s.pc t p ∧ Good s t s'.l p := by
  cases st with
  | inv hpc => exact ⟨_, _, rfl, Good.local h (by rw [hpc]; rfl) trivial⟩
  | ret hpc => exact ⟨_, _, rfl, Good.local h (by rw [hpc]; rfl) trivial⟩
  | insLoad hpc => exact ⟨_, _, rfl, Good.local h (by rw [hpc]; rfl) (Snap.now h.ok)⟩
  | insRetired hpc => exact ⟨_, _, rfl, Good.local h (by rw [hpc]; rfl) trivial⟩
  | insFrozen hpc => exact ⟨_, _, rfl, Good.local h (by rw [hpc]; rfl) trivial⟩
  | insFull hpc => exact ⟨_, _, rfl, Good.local h (by rw [hpc]; rfl) trivial⟩
  | insReserve hpc h1 h2 h3 h4 => exact ⟨_, _, rfl, good_reserve h hpc h1 h2 h3 h4⟩
  | insRetry hpc => exact ⟨_, _, rfl, Good.local h (by rw [hpc]; rfl) (Snap.now h.ok)⟩
  | write hpc => exact ⟨_, _, rfl, good_write h hpc⟩
  | @postDup t _ _ _ _ hpc =>
    refine ⟨_, _, rfl, Good.local h (by rw [hpc]; rfl) ?_⟩
    have := h.pcs t
    rw [hpc] at this
    exact this.2.2.2.2
  | postOk hpc h1 h2 => exact ⟨_, _, rfl, good_finish h hpc h1 h2⟩
  | @postAbort t _ _ _ _ _ hpc =>
    refine ⟨_, _, rfl, Good.local h (by rw [hpc]; rfl) ?_⟩
    have := h.pcs t
    rw [hpc] at this
    exact this.2.2.2.2
  | @postRetry t k v i w w' hpc h1 h2 h3 h4 =>
    refine ⟨_, _, rfl, Good.local h (by rw [hpc]; rfl) ?_⟩
    have := h.pcs t
    rw [hpc] at this
    have hpi : pend s.pc i = true := pend_iff.2 ⟨t, by rw [hpc]; rfl⟩
    exact ⟨Snap.now h.ok, h3, h4, h.ok.rank_small hpi, this.2.2.2.2⟩
  | roll hpc => exact ⟨_, _, rfl, good_roll h hpc⟩
  | remLoad hpc => exact ⟨_, _, rfl, Good.local h (by rw [hpc]; rfl) (Snap.now h.ok)⟩
  | remFrozen hpc => exact ⟨_, _, rfl, Good.local h (by rw [hpc]; rfl) trivial⟩
  | remMiss hpc => exact ⟨_, _, rfl, Good.local h (by rw [hpc]; rfl) trivial⟩
  | @remFound t k c w i hpc h1 h2 =>
    refine ⟨_, _, rfl, Good.local h (by rw [hpc]; rfl) ?_⟩
    have := h.pcs t
    rw [hpc] at this
    obtain ⟨a, b, v, d⟩ := searchSlot_some (l := s.at w) (w := w) this.ord h2
    exact ⟨this, h1, a, b, v, d⟩
  | remKeep hpc => exact ⟨_, _, rfl, Good.local h (by rw [hpc]; rfl) trivial⟩
  | remOk hpc h1 h2 h3 => exact ⟨_, _, rfl, good_remove h hpc h3⟩
  | remGone hpc => exact ⟨_, _, rfl, Good.local h (by rw [hpc]; rfl) trivial⟩
  | remFroze hpc => exact ⟨_, _, rfl, Good.local h (by rw [hpc]; rfl) trivial⟩
  | @remRetry t k c i w e hpc h1 h2 h3 h4 h5 =>
    refine ⟨_, _, rfl, Good.local h (by rw [hpc]; rfl) ?_⟩
    have hp := h.pcs t
    rw [hpc] at hp
    obtain ⟨a, b, hi, hr, d⟩ := hp
    refine ⟨Snap.now h.ok, h5, hi, ?_, d⟩
    have h6 := a.used i hi hr
    have := rank_lt s.l.w i
    unfold Ranked removed at *
    omega
  | askLoad hpc => exact ⟨_, _, rfl, Good.local h (by rw [hpc]; rfl) (Snap.now h.ok)⟩
  | askDone hpc => exact ⟨_, _, rfl, Good.local h (by rw [hpc]; rfl) trivial⟩
  | @freeze t hpc =>
    refine ⟨_, _, rfl, ?_⟩
    show Good s t s.l.freezeLeaf.1 _
    unfold Leaf.freezeLeaf
    split
    · exact Good.local h (by rw [hpc]; rfl) trivial
    · exact good_flag h (by rw [hpc]; rfl) h.ok.freeze (fun j hj => rank_freeze _ hj)
  | @thaw t hpc =>
    refine ⟨_, _, rfl, ?_⟩
    show Good s t s.l.thawLeaf.1 _
    unfold Leaf.thawLeaf
    split
    · exact good_flag h (by rw [hpc]; rfl) h.ok.thaw (fun j hj => rank_thaw _ hj)
    · exact Good.local h (by rw [hpc]; rfl) trivial

theorem inv_init : Inv (St.init : St K V) := by
  have : pend (fun _ => (Pc.idle : Pc K V)) = fun _ => false := by
    funext i; rw [pend_false]; intro t; simp [Pc.slot]
  refine ⟨?_, ?_, fun _ => trivial⟩
  · show Ok Leaf.new (pend fun _ => Pc.idle)
    rw [this]; exact ok_new
  · intro t u i h; cases h

theorem inv_step {s s' : St K V} {e : Option (Event K V)} (h : Inv s) (st : Step s e s') : Inv s' := by
  obtain ⟨t, p, h1, g⟩ := step_good h st
  have := g.inv h
  cases s'
  simp only [] at h1
  subst h1
  exact this

theorem inv_exec {Q : St K V → Prop} {s s' : St K V} {es : List (Event K V)} (h : Inv s)
    (ex : ExecIn Q s es s') : Inv s' := by
  induction ex with
  | nil => exact h
  | tau _ st _ ih => exact inv_step ih st
  | event _ st _ ih => exact inv_step ih st

end Scc.LeafConc
