import Verif.Slot.Model

/-! # Invariant of the slots of a leaf -/

namespace Scc.Slot

theorem upd_eq {β : Type} (f : Nat → β) (i : Nat) (v : β) : upd f i v i = v := by simp [upd]

theorem upd_ne {β : Type} (f : Nat → β) {i j : Nat} (v : β) (h : j ≠ i) : upd f i v j = f j := by simp [upd, h]

/-- The slot a thread owns. -/
def slot : Pc → Option Nat
  | .wrt _ i _ => some i
  | .post _ i _ => some i
  | .roll _ i => some i
  | .back _ _ i => some i
  | _ => none

/-- The number of the word a thread uses. -/
def held : Pc → Option Nat
  | .ins _ m => some m
  | .wrt _ _ m => some m
  | .post _ _ m => some m
  | .view m => some m
  | _ => none

/-- What is in the slot of a thread. -/
def CellPc (cell : Nat → Option Nat) : Pc → Prop
  | .wrt _ i _ => cell i = none
  | .post p i _ => cell i = some p
  | .roll p i => cell i = some p
  | .back q p i => q = some p ∧ cell i = none
  | _ => True

theorem CellPc.none_slot {cell : Nat → Option Nat} {c : Pc} (h : slot c = none) : CellPc cell c := by
  cases c <;> simp_all [slot, CellPc]

theorem CellPc.congr {cell cell' : Nat → Option Nat} {c : Pc} (h : CellPc cell c) (he : ∀ i, slot c = some i → cell' i = cell i) :
    CellPc cell' c := by
  cases c <;> simp_all [slot, CellPc]

def View.Le (a b : View) : Prop := (∀ i, a.w i ≤ b.w i) ∧ ∀ i u, a.r i u ≤ b.r i u

theorem View.Le.refl (a : View) : a.Le a := ⟨fun _ => Nat.le_refl _, fun _ _ => Nat.le_refl _⟩

theorem View.Le.trans {a b c : View} (h : a.Le b) (h' : b.Le c) : a.Le c :=
  ⟨fun i => Nat.le_trans (h.1 i) (h'.1 i), fun i u => Nat.le_trans (h.2 i u) (h'.2 i u)⟩

theorem View.le_left (a b : View) : a.Le (a.join b) := ⟨fun _ => Nat.le_max_left _ _, fun _ _ => Nat.le_max_left _ _⟩

theorem View.le_right (a b : View) : b.Le (a.join b) := ⟨fun _ => Nat.le_max_right _ _, fun _ _ => Nat.le_max_right _ _⟩

theorem View.join_le {a b c : View} (h : a.Le c) (h' : b.Le c) : (a.join b).Le c :=
  ⟨fun i => Nat.max_le.2 ⟨h.1 i, h'.1 i⟩, fun i u => Nat.max_le.2 ⟨h.2 i u, h'.2 i u⟩⟩

theorem View.zero_le (m : Nat) (a : View) : (⟨m, fun _ => 0, fun _ _ => 0⟩ : View).Le a :=
  ⟨fun _ => Nat.zero_le _, fun _ _ => Nat.zero_le _⟩

/-- All accesses there have been. -/
def State.all (s : State) : View := ⟨s.n, s.wr, s.rd⟩

/-- A view knows of all accesses to a slot. -/
def View.Knows (v : View) (s : State) (i : Nat) : Prop := s.wr i ≤ v.w i ∧ ∀ u, s.rd i u ≤ v.r i u

theorem View.Knows.mono {v v' : View} {s : State} {i : Nat} (h : v.Knows s i) (h' : v.Le v') : v'.Knows s i :=
  ⟨Nat.le_trans h.1 (h'.1 i), fun u => Nat.le_trans (h.2 u) (h'.2 i u)⟩

structure Inv (s : State) : Prop where
  tvb : ∀ t, (s.tv t).Le s.all
  mvb : ∀ m, (s.mv m).Le s.all
  mono : ∀ m, m ≤ s.n → (s.mv m).Le (s.mv s.n)
  has : ∀ t m, held (s.pc t) = some m → m ≤ s.n ∧ (s.mv m).Le (s.tv t)
  rel : ∀ i, (s.word s.n).rank i = .free → (s.mv s.n).Knows s i ∧ s.cell i = none
  own : ∀ t i, slot (s.pc t) = some i →
    (s.word s.n).rank i = .gone ∧ (∀ m, m ≤ s.n → (s.word m).rank i ≠ .here) ∧ (s.tv t).Knows s i
  uniq : ∀ t u i, slot (s.pc t) = some i → slot (s.pc u) = some i → t = u
  pub : ∀ m i, m ≤ s.n → (s.word m).rank i = .here → s.wr i ≤ (s.mv m).w i ∧ (s.word s.n).rank i ≠ .free
  full : ∀ i, (s.word s.n).rank i ≠ .free → (∀ t, slot (s.pc t) ≠ some i) → s.cell i ≠ none
  cellpc : ∀ t, CellPc s.cell (s.pc t)

theorem inv_init (k : Nat) : Inv (.init k) := by
  refine ⟨?_, ?_, ?_, ?_, ?_, ?_, ?_, ?_, ?_, ?_⟩
  · exact fun _ => ⟨fun _ => Nat.le_refl _, fun _ _ => Nat.le_refl _⟩
  · exact fun _ => ⟨fun _ => Nat.le_refl _, fun _ _ => Nat.le_refl _⟩
  · exact fun _ _ => ⟨fun _ => Nat.le_refl _, fun _ _ => Nat.le_refl _⟩
  · intro t m h; cases h
  · intro i h
    refine ⟨⟨Nat.le_refl _, fun _ => Nat.le_refl _⟩, ?_⟩
    have h : (if i < k then Rk.here else .free) = .free := h
    show (if i < k then some i else none) = none
    split at h
    · cases h
    · rename_i hk; rw [if_neg hk]
  · intro t i h; cases h
  · intro t u i h; cases h
  · intro m i _ h
    exact ⟨Nat.le_refl _, fun h' => by have h : (if i < k then Rk.here else .free) = .here := h; have h' : (if i < k then Rk.here else .free) = .free := h'; rw [h] at h'; cases h'⟩
  · intro i h _
    have h : (if i < k then Rk.here else .free) ≠ .free := h
    show (if i < k then some i else none) ≠ none
    split at h
    · rename_i hk; rw [if_pos hk]; exact fun h => by cases h
    · exact absurd rfl h
  · exact fun _ => trivial

/-- A published slot is not owned. -/
theorem Inv.not_own {s : State} (h : Inv s) {m i t : Nat} (hm : m ≤ s.n) (hr : (s.word m).rank i = .here) : slot (s.pc t) ≠ some i :=
  fun e => (h.own t i e).2.1 m hm hr

/-- Only the program counter of `t` changes, and what it has seen. -/
theorem inv_load {s : State} (h : Inv s) {t : Nat} {c : Pc} {v : View} (hv : (s.tv t).Le v) (hva : v.Le s.all)
    (hs : slot c = slot (s.pc t)) (hh : ∀ m, held c = some m → m ≤ s.n ∧ (s.mv m).Le v) (hc : CellPc s.cell c) :
    Inv { s with tv := upd s.tv t v, pc := upd s.pc t c } := by
  have hsl : ∀ u, slot (upd s.pc t c u) = slot (s.pc u) := fun u => by
    by_cases e : u = t
    · rw [e, upd_eq, hs]
    · rw [upd_ne _ _ e]
  have htv : ∀ u, (s.tv u).Le (upd s.tv t v u) := fun u => by
    by_cases e : u = t
    · rw [e, upd_eq]; exact hv
    · rw [upd_ne _ _ e]; exact .refl _
  refine ⟨?_, h.mvb, h.mono, ?_, h.rel, ?_, ?_, h.pub, ?_, ?_⟩
  · intro u
    show (upd s.tv t v u).Le s.all
    by_cases e : u = t
    · rw [e, upd_eq]; exact hva
    · rw [upd_ne _ _ e]; exact h.tvb u
  · intro u m hm
    have hm : held (upd s.pc t c u) = some m := hm
    show m ≤ s.n ∧ (s.mv m).Le (upd s.tv t v u)
    by_cases e : u = t
    · rw [e, upd_eq] at hm ⊢; exact hh m hm
    · rw [upd_ne _ _ e] at hm ⊢; exact h.has u m hm
  · intro u i hi
    have hi : slot (upd s.pc t c u) = some i := hi
    rw [hsl] at hi
    obtain ⟨a, b, d⟩ := h.own u i hi
    exact ⟨a, b, d.mono (htv u)⟩
  · intro u u' i hi hi'
    have hi : slot (upd s.pc t c u) = some i := hi
    have hi' : slot (upd s.pc t c u') = some i := hi'
    rw [hsl] at hi hi'
    exact h.uniq u u' i hi hi'
  · intro i hi hn
    refine h.full i hi (fun u => ?_)
    have := hn u
    have this : slot (upd s.pc t c u) ≠ some i := this
    rw [hsl] at this; exact this
  · intro u
    show CellPc s.cell (upd s.pc t c u)
    by_cases e : u = t
    · rw [e, upd_eq]; exact hc
    · rw [upd_ne _ _ e]; exact h.cellpc u

theorem upd_self {β : Type} (f : Nat → β) (i : Nat) : upd f i (f i) = f := by
  funext j; by_cases e : j = i
  · rw [e, upd_eq]
  · rw [upd_ne _ _ e]

/-- A load of the word. -/
theorem inv_load' {s : State} (h : Inv s) {t m : Nat} {c : Pc} (hm : m ≤ s.n) (hs : slot c = slot (s.pc t)) (hh : held c = some m)
    (hc : CellPc s.cell c) : Inv ((s.load t m).go t c) := by
  refine inv_load h (v := ((s.tv t).join (s.mv m)).join ⟨m, fun _ => 0, fun _ _ => 0⟩) ?_ ?_ hs ?_ hc
  · exact (View.le_left _ _).trans (View.le_left _ _)
  · exact View.join_le (View.join_le (h.tvb t) (h.mvb m)) (View.zero_le _ _)
  · intro m' e
    rw [hh] at e
    have e : m = m' := Option.some.inj e
    rw [← e]
    exact ⟨hm, (View.le_right _ _).trans (View.le_left _ _)⟩

/-- Only the program counter of `t` changes. -/
theorem inv_go {s : State} (h : Inv s) {t : Nat} {c : Pc} (hs : slot c = slot (s.pc t)) (hh : held c = none ∨ held c = held (s.pc t))
    (hc : CellPc s.cell c) : Inv (s.go t c) := by
  have := inv_load h (t := t) (c := c) (v := s.tv t) (.refl _) (h.tvb t) hs (fun m hm => ?_) hc
  · rw [upd_self] at this; exact this
  · rcases hh with e | e
    · rw [e] at hm; cases hm
    · rw [e] at hm; exact h.has t m hm

/-- A thread leaves its slot as it is. -/
theorem inv_unwind {s : State} (h : Inv s) {t p i m : Nat} (hpc : s.pc t = .post p i m) : Inv (s.go t .idle) := by
  have hsl : ∀ u j, slot (upd s.pc t .idle u) = some j → slot (s.pc u) = some j ∧ u ≠ t := fun u j hj => by
    by_cases e : u = t
    · rw [e, upd_eq] at hj; cases hj
    · rw [upd_ne _ _ e] at hj; exact ⟨hj, e⟩
  refine ⟨h.tvb, h.mvb, h.mono, ?_, h.rel, ?_, ?_, h.pub, ?_, ?_⟩
  · intro u m hm
    have hm : held (upd s.pc t .idle u) = some m := hm
    by_cases e : u = t
    · rw [e, upd_eq] at hm; cases hm
    · rw [upd_ne _ _ e] at hm; exact h.has u m hm
  · intro u j hj; exact h.own u j (hsl u j hj).1
  · intro u u' j hj hj'; exact h.uniq u u' j (hsl u j hj).1 (hsl u' j hj').1
  · intro j hj hn
    by_cases e : j = i
    · rw [e]
      have := h.cellpc t
      rw [hpc] at this
      have this : s.cell i = some p := this
      show s.cell i ≠ none
      rw [this]; exact fun h => by cases h
    · refine h.full j hj (fun u hu => ?_)
      by_cases e' : u = t
      · rw [e', hpc] at hu
        exact e (Option.some.inj hu).symm
      · have := hn u
        have this : slot (upd s.pc t .idle u) ≠ some j := this
        rw [upd_ne _ _ e'] at this
        exact this hu
  · intro u
    show CellPc s.cell (upd s.pc t .idle u)
    by_cases e : u = t
    · rw [e, upd_eq]; exact trivial
    · rw [upd_ne _ _ e]; exact h.cellpc u

/-- A thread may read a slot: it owns it, or uses a word in which the entry is reachable. -/
def CanRead (s : State) (t i : Nat) : Prop :=
  slot (s.pc t) = some i ∨ ∃ m, m ≤ s.n ∧ (s.mv m).Le (s.tv t) ∧ (s.word m).rank i = .here

theorem le_upd2 {f : Nat → Nat → Nat} {i t : Nat} (j u : Nat) : f j u ≤ upd f i (upd (f i) t (f i t + 1)) j u := by
  by_cases e : j = i
  · rw [e, upd_eq]
    by_cases e' : u = t
    · rw [e', upd_eq]; omega
    · rw [upd_ne _ _ e']; omega
  · rw [upd_ne _ _ e]; omega

/-- A slot is read; what is in it may be taken out, by the owner. -/
theorem inv_read {s : State} (h : Inv s) {t i : Nat} (hr : CanRead s t i) : Inv (s.read t i) := by
  have hnf : (s.word s.n).rank i ≠ .free := by
    rcases hr with e | ⟨m, hm, _, e⟩
    · rw [(h.own t i e).1]; exact fun h => by cases h
    · exact (h.pub m i hm e).2
  have htr : ∀ u, (s.tv u).Le ((s.read t i).tv u) := fun u => by
    show (s.tv u).Le (upd s.tv t _ u)
    by_cases e : u = t
    · rw [e, upd_eq]
      refine ⟨fun _ => Nat.le_refl _, fun j u' => ?_⟩
      show (s.tv t).r j u' ≤ upd (s.tv t).r i (upd ((s.tv t).r i) t (s.rd i t + 1)) j u'
      by_cases e1 : j = i
      · rw [e1, upd_eq]
        by_cases e2 : u' = t
        · rw [e2, upd_eq]; have := (h.tvb t).2 i t; have this : (s.tv t).r i t ≤ s.rd i t := this; omega
        · rw [upd_ne _ _ e2]; omega
      · rw [upd_ne _ _ e1]; omega
    · rw [upd_ne _ _ e]; exact .refl _
  have hal : s.all.Le (s.read t i).all := ⟨fun _ => Nat.le_refl _, fun j u => le_upd2 j u⟩
  have hk : ∀ v : View, ∀ j, j ≠ i → v.Knows s j → v.Knows (s.read t i) j := fun v j hj hv =>
    ⟨hv.1, fun u => by
      show upd s.rd i _ j u ≤ _
      rw [upd_ne _ _ hj]; exact hv.2 u⟩
  refine ⟨?_, fun m => (h.mvb m).trans hal, h.mono, ?_, ?_, ?_, h.uniq, h.pub, h.full, h.cellpc⟩
  · intro u
    show (upd s.tv t _ u).Le _
    by_cases e : u = t
    · rw [e, upd_eq]
      refine ⟨fun j => (h.tvb t).1 j, fun j u' => ?_⟩
      show upd (s.tv t).r i (upd ((s.tv t).r i) t (s.rd i t + 1)) j u' ≤ upd s.rd i (upd (s.rd i) t (s.rd i t + 1)) j u'
      by_cases e1 : j = i
      · rw [e1, upd_eq, upd_eq]
        by_cases e2 : u' = t
        · rw [e2, upd_eq, upd_eq]; omega
        · rw [upd_ne _ _ e2, upd_ne _ _ e2]; exact (h.tvb t).2 i u'
      · rw [upd_ne _ _ e1, upd_ne _ _ e1]; exact (h.tvb t).2 j u'
    · rw [upd_ne _ _ e]; exact (h.tvb u).trans hal
  · intro u m hm
    obtain ⟨a, b⟩ := h.has u m hm
    exact ⟨a, b.trans (htr u)⟩
  · intro j hj
    have hji : j ≠ i := fun e => by rw [e] at hj; exact hnf hj
    obtain ⟨a, b⟩ := h.rel j hj
    exact ⟨hk _ j hji a, b⟩
  · intro u j hj
    obtain ⟨a, b, d⟩ := h.own u j hj
    refine ⟨a, b, ?_⟩
    by_cases e : j = i
    · have hut : u = t := by
        rcases hr with e' | ⟨m, hm, _, e'⟩
        · exact h.uniq u t j hj (e ▸ e')
        · exact absurd (e ▸ hj) (h.not_own hm e')
      rw [hut, e] at d ⊢
      refine ⟨?_, fun u' => ?_⟩
      · show s.wr i ≤ (upd s.tv t _ t).w i
        rw [upd_eq]; exact d.1
      · show upd s.rd i (upd (s.rd i) t (s.rd i t + 1)) i u' ≤ (upd s.tv t _ t).r i u'
        rw [upd_eq, upd_eq]
        show _ ≤ upd (s.tv t).r i (upd ((s.tv t).r i) t (s.rd i t + 1)) i u'
        rw [upd_eq]
        by_cases e2 : u' = t
        · rw [e2, upd_eq, upd_eq]; omega
        · rw [upd_ne _ _ e2, upd_ne _ _ e2]; exact d.2 u'
    · exact (hk _ j e d).mono (htr u)

/-- The owner changes what is in its slot. -/
theorem inv_cell {s : State} (h : Inv s) {t i : Nat} {c : Pc} {v : Option Nat} (ho : slot (s.pc t) = some i) (hs : slot c = some i)
    (hh : held c = none ∨ held c = held (s.pc t)) (hc : CellPc (upd s.cell i v) c) :
    Inv { s with cell := upd s.cell i v, pc := upd s.pc t c } := by
  have hsl : ∀ u, slot (upd s.pc t c u) = slot (s.pc u) := fun u => by
    by_cases e : u = t
    · rw [e, upd_eq, hs, ho]
    · rw [upd_ne _ _ e]
  have hg := (h.own t i ho).1
  refine ⟨h.tvb, h.mvb, h.mono, ?_, ?_, ?_, ?_, h.pub, ?_, ?_⟩
  · intro u m hm
    have hm : held (upd s.pc t c u) = some m := hm
    by_cases e : u = t
    · rw [e, upd_eq] at hm
      rcases hh with e' | e'
      · rw [e'] at hm; cases hm
      · rw [e'] at hm; exact e ▸ h.has t m hm
    · rw [upd_ne _ _ e] at hm; exact h.has u m hm
  · intro j hj
    have hj : (s.word s.n).rank j = .free := hj
    have hji : j ≠ i := fun e => by rw [e, hg] at hj; cases hj
    refine ⟨(h.rel j hj).1, ?_⟩
    show upd s.cell i v j = none
    rw [upd_ne _ _ hji]; exact (h.rel j hj).2
  · intro u j hj
    have hj : slot (upd s.pc t c u) = some j := hj
    rw [hsl] at hj; exact h.own u j hj
  · intro u u' j hj hj'
    have hj : slot (upd s.pc t c u) = some j := hj
    have hj' : slot (upd s.pc t c u') = some j := hj'
    rw [hsl] at hj hj'; exact h.uniq u u' j hj hj'
  · intro j hj hn
    have hn : ∀ u, slot (s.pc u) ≠ some j := fun u => by
      have := hn u
      have this : slot (upd s.pc t c u) ≠ some j := this
      rw [hsl] at this; exact this
    have hji : j ≠ i := fun e => by rw [e] at hn; exact hn t ho
    show upd s.cell i v j ≠ none
    rw [upd_ne _ _ hji]; exact h.full j hj hn
  · intro u
    show CellPc (upd s.cell i v) (upd s.pc t c u)
    by_cases e : u = t
    · rw [e, upd_eq]; exact hc
    · rw [upd_ne _ _ e]
      refine (h.cellpc u).congr (fun j hj => upd_ne _ _ (fun e' : j = i => e (h.uniq u t i (e' ▸ hj) ho)))

/-- The owner writes its slot. -/
theorem inv_wr {s : State} (h : Inv s) {t i : Nat} (ho : slot (s.pc t) = some i) :
    Inv { s with wr := upd s.wr i (s.wr i + 1), tv := upd s.tv t { s.tv t with w := upd (s.tv t).w i (s.wr i + 1) } } := by
  obtain ⟨hg, hnp, hk⟩ := h.own t i ho
  have hwr : ∀ j, s.wr j ≤ upd s.wr i (s.wr i + 1) j := fun j => by
    by_cases e : j = i
    · rw [e, upd_eq]; omega
    · rw [upd_ne _ _ e]; omega
  have htr : ∀ u, (s.tv u).Le (upd s.tv t { s.tv t with w := upd (s.tv t).w i (s.wr i + 1) } u) := fun u => by
    by_cases e : u = t
    · rw [e, upd_eq]
      refine ⟨fun j => ?_, fun _ _ => Nat.le_refl _⟩
      show (s.tv t).w j ≤ upd (s.tv t).w i (s.wr i + 1) j
      by_cases e1 : j = i
      · rw [e1, upd_eq]; have := (h.tvb t).1 i; have this : (s.tv t).w i ≤ s.wr i := this; omega
      · rw [upd_ne _ _ e1]; omega
    · rw [upd_ne _ _ e]; exact .refl _
  refine ⟨?_, ?_, h.mono, ?_, ?_, ?_, h.uniq, ?_, h.full, h.cellpc⟩
  · intro u
    show (upd s.tv t _ u).Le _
    by_cases e : u = t
    · rw [e, upd_eq]
      refine ⟨fun j => ?_, (h.tvb t).2⟩
      show upd (s.tv t).w i (s.wr i + 1) j ≤ upd s.wr i (s.wr i + 1) j
      by_cases e1 : j = i
      · rw [e1, upd_eq, upd_eq]; omega
      · rw [upd_ne _ _ e1, upd_ne _ _ e1]; exact (h.tvb t).1 j
    · rw [upd_ne _ _ e]
      exact ⟨fun j => Nat.le_trans ((h.tvb u).1 j) (hwr j), (h.tvb u).2⟩
  · exact fun m => ⟨fun j => Nat.le_trans ((h.mvb m).1 j) (hwr j), (h.mvb m).2⟩
  · intro u m hm
    obtain ⟨a, b⟩ := h.has u m hm
    exact ⟨a, b.trans (htr u)⟩
  · intro j hj
    have hj : (s.word s.n).rank j = .free := hj
    have hji : j ≠ i := fun e => by rw [e, hg] at hj; cases hj
    obtain ⟨a, b⟩ := h.rel j hj
    refine ⟨⟨?_, a.2⟩, b⟩
    show upd s.wr i _ j ≤ _
    rw [upd_ne _ _ hji]; exact a.1
  · intro u j hj
    obtain ⟨a, b, d⟩ := h.own u j hj
    refine ⟨a, b, ?_, fun u' => Nat.le_trans (d.2 u') ((htr u).2 j u')⟩
    by_cases e : j = i
    · have hut : u = t := h.uniq u t i (e ▸ hj) ho
      rw [hut, e]
      show upd s.wr i (s.wr i + 1) i ≤ (upd s.tv t _ t).w i
      rw [upd_eq, upd_eq]
      show _ ≤ upd (s.tv t).w i (s.wr i + 1) i
      rw [upd_eq]; exact Nat.le_refl _
    · show upd s.wr i (s.wr i + 1) j ≤ _
      rw [upd_ne _ _ e]; exact Nat.le_trans d.1 ((htr u).1 j)
  · intro m j hm hj
    have hji : j ≠ i := fun e => hnp m hm (e ▸ hj)
    obtain ⟨a, b⟩ := h.pub m j hm hj
    refine ⟨?_, b⟩
    show upd s.wr i _ j ≤ _
    rw [upd_ne _ _ hji]; exact a

/-- How a read-modify-write operation changes the rank of slot `i`. -/
inductive Kind (s : State) (t i : Nat) (w : Word) (acq rel : Bool) (c : Pc) : Prop
  | reserve : (s.word s.n).rank i = .free → w.rank i = .gone → acq = true → slot c = some i → slot (s.pc t) = none → Kind s t i w acq rel c
  | publish : slot (s.pc t) = some i → w.rank i = .here → rel = true → slot c = none → s.cell i ≠ none → Kind s t i w acq rel c
  | free : slot (s.pc t) = some i → w.rank i = .free → rel = true → slot c = none → s.cell i = none → Kind s t i w acq rel c
  | remove : (s.word s.n).rank i = .here → w.rank i = .gone → slot c = none → slot (s.pc t) = none → Kind s t i w acq rel c
  | same : w.rank i = (s.word s.n).rank i → slot c = none → slot (s.pc t) = none → Kind s t i w acq rel c

theorem inv_rmw {s : State} (h : Inv s) {t i : Nat} {w : Word} {acq rel : Bool} {c : Pc} (hk : Kind s t i w acq rel c)
    (hw : ∀ j, j ≠ i → w.rank j = (s.word s.n).rank j) (hh : held c = none ∨ (held c = some (s.n + 1) ∧ acq = true))
    (hc : CellPc s.cell c) : Inv ((s.rmw t w acq rel).go t c) := by
  have hal : s.all.Le ((s.rmw t w acq rel).go t c).all := ⟨fun _ => Nat.le_refl _, fun _ _ => Nat.le_refl _⟩
  have htv : (s.tv t).Le (s.acqv t acq) := by
    unfold State.acqv
    refine View.Le.trans ?_ (View.le_left _ _)
    split
    · exact View.le_left _ _
    · exact .refl _
  have htb : (s.acqv t acq).Le s.all := by
    unfold State.acqv
    refine View.join_le ?_ (View.zero_le _ _)
    split
    · exact View.join_le (h.tvb t) (h.mvb _)
    · exact h.tvb t
  have hacq : acq = true → (s.mv s.n).Le (s.acqv t acq) := fun e => by
    unfold State.acqv
    rw [if_pos e]
    exact (View.le_right _ _).trans (View.le_left _ _)
  have hmn : (s.mv s.n).Le (s.relv rel (s.acqv t acq)) := (View.le_left _ _).trans (View.le_left _ _)
  have hmb : (s.relv rel (s.acqv t acq)).Le s.all := by
    unfold State.relv
    refine View.join_le (View.join_le (h.mvb _) ?_) (View.zero_le _ _)
    split
    · exact htb
    · exact h.mvb _
  have hrel : rel = true → (s.acqv t acq).Le (s.relv rel (s.acqv t acq)) := fun e => by
    unfold State.relv
    rw [if_pos e]
    exact (View.le_right _ _).trans (View.le_left _ _)
  have hra : acq = true → (s.relv rel (s.acqv t acq)).Le (s.acqv t acq) := fun e => by
    unfold State.relv
    refine View.join_le (View.join_le (hacq e) ?_) (View.zero_le _ _)
    split
    · exact .refl _
    · exact hacq e
  -- the pieces of the new state
  have hN : upd s.word (s.n + 1) w (s.n + 1) = w := upd_eq _ _ _
  have hO : ∀ m, m ≤ s.n → upd s.word (s.n + 1) w m = s.word m := fun m hm => upd_ne _ _ (by omega)
  have hMO : ∀ m, m ≤ s.n → upd s.mv (s.n + 1) (s.relv rel (s.acqv t acq)) m = s.mv m := fun m hm => upd_ne _ _ (by omega)
  have hT : ∀ u, (s.tv u).Le (upd s.tv t (s.acqv t acq) u) := fun u => by
    by_cases e : u = t
    · rw [e, upd_eq]; exact htv
    · rw [upd_ne _ _ e]; exact .refl _
  -- the slots of other threads
  have hgone : ∀ u j, u ≠ t → slot (s.pc u) = some j → w.rank j = .gone := fun u j hu hj => by
    by_cases e : j = i
    · rw [e] at hj ⊢
      cases hk with
      | reserve a b => exact b
      | publish a => exact absurd (h.uniq u t i hj a) hu
      | free a => exact absurd (h.uniq u t i hj a) hu
      | remove a b => exact b
      | same a => rw [a]; exact (h.own u i hj).1
    · rw [hw j e]; exact (h.own u j hj).1
  -- a published slot does not become free
  have hpub : ∀ m j, m ≤ s.n → (s.word m).rank j = .here → w.rank j ≠ .free := fun m j hm hj => by
    have hp := (h.pub m j hm hj).2
    by_cases e : j = i
    · rw [e] at hj hp ⊢
      cases hk with
      | reserve a => exact absurd a hp
      | publish a b => rw [b]; exact fun h => by cases h
      | free a => exact absurd a (h.not_own hm hj)
      | remove a b => rw [b]; exact fun h => by cases h
      | same a => rw [a]; exact hp
    · rw [hw j e]; exact hp
  have hct : slot c = none ∨ (slot c = some i ∧ w.rank i = .gone ∧ acq = true ∧ (s.word s.n).rank i = .free) := by
    cases hk with
    | reserve a b d e => exact .inr ⟨e, b, d, a⟩
    | publish a b d e => exact .inl e
    | free a b d e => exact .inl e
    | remove a b d => exact .inl d
    | same a b => exact .inl b
  -- a slot that is owned now
  have hsl : ∀ u j, slot (upd s.pc t c u) = some j →
      (u ≠ t ∧ slot (s.pc u) = some j) ∨ (u = t ∧ j = i ∧ w.rank i = .gone ∧ acq = true ∧ (s.word s.n).rank i = .free) := fun u j hj => by
    by_cases e : u = t
    · rw [e, upd_eq] at hj
      rcases hct with e' | ⟨e', a⟩
      · rw [e'] at hj; cases hj
      · rw [e'] at hj; exact .inr ⟨e, (Option.some.inj hj).symm, a⟩
    · rw [upd_ne _ _ e] at hj; exact .inl ⟨e, hj⟩
  refine ⟨?_, ?_, ?_, ?_, ?_, ?_, ?_, ?_, ?_, ?_⟩
  · intro u
    show (upd s.tv t (s.acqv t acq) u).Le s.all
    by_cases e : u = t
    · rw [e, upd_eq]; exact htb
    · rw [upd_ne _ _ e]; exact h.tvb u
  · intro m
    show (upd s.mv (s.n + 1) _ m).Le s.all
    by_cases e : m = s.n + 1
    · rw [e, upd_eq]; exact hmb
    · rw [upd_ne _ _ e]; exact h.mvb m
  · intro m hm
    have hm : m ≤ s.n + 1 := hm
    show (upd s.mv (s.n + 1) (s.relv rel (s.acqv t acq)) m).Le (upd s.mv (s.n + 1) (s.relv rel (s.acqv t acq)) (s.n + 1))
    rw [upd_eq]
    by_cases e : m = s.n + 1
    · rw [e, upd_eq]; exact .refl _
    · rw [upd_ne _ _ e]; exact (h.mono m (by omega)).trans hmn
  · intro u m hm
    have hm : held (upd s.pc t c u) = some m := hm
    show m ≤ s.n + 1 ∧ (upd s.mv (s.n + 1) (s.relv rel (s.acqv t acq)) m).Le (upd s.tv t (s.acqv t acq) u)
    by_cases e : u = t
    · rw [e, upd_eq] at hm
      rcases hh with e' | ⟨e', ha⟩
      · rw [e'] at hm; cases hm
      · rw [e'] at hm
        have hm : s.n + 1 = m := Option.some.inj hm
        rw [← hm, e, upd_eq, upd_eq]
        exact ⟨Nat.le_refl _, hra ha⟩
    · rw [upd_ne _ _ e] at hm ⊢
      obtain ⟨a, b⟩ := h.has u m hm
      rw [hMO m a]
      exact ⟨by omega, b⟩
  · intro j hj
    have hj : (upd s.word (s.n + 1) w (s.n + 1)).rank j = .free := hj
    rw [hN] at hj
    show (upd s.mv (s.n + 1) (s.relv rel (s.acqv t acq)) (s.n + 1)).Knows s j ∧ s.cell j = none
    rw [upd_eq]
    have old : (s.word s.n).rank j = .free → (s.relv rel (s.acqv t acq)).Knows s j ∧ s.cell j = none := fun e =>
      ⟨(h.rel j e).1.mono hmn, (h.rel j e).2⟩
    by_cases e : j = i
    · rw [e] at hj old ⊢
      cases hk with
      | reserve a b => rw [b] at hj; cases hj
      | publish a b => rw [b] at hj; cases hj
      | free a b d _ f => exact ⟨(h.own t i a).2.2.mono (htv.trans (hrel d)), f⟩
      | remove a b => rw [b] at hj; cases hj
      | same a => exact old (a ▸ hj)
    · exact old ((hw j e) ▸ hj)
  · intro u j hj
    show (upd s.word (s.n + 1) w (s.n + 1)).rank j = .gone ∧ (∀ m, m ≤ s.n + 1 → (upd s.word (s.n + 1) w m).rank j ≠ .here) ∧
      (upd s.tv t (s.acqv t acq) u).Knows s j
    rw [hN]
    have hg : w.rank j = .gone := by
      rcases hsl u j hj with ⟨a, b⟩ | ⟨_, b, d, _⟩
      · exact hgone u j a b
      · rw [b]; exact d
    refine ⟨hg, fun m hm => ?_, ?_⟩
    · by_cases e : m = s.n + 1
      · rw [e, hN, hg]; exact fun h => by cases h
      · have hm : m ≤ s.n := by omega
        rw [hO m hm]
        rcases hsl u j hj with ⟨a, b⟩ | ⟨_, b, _, _, d⟩
        · exact (h.own u j b).2.1 m hm
        · rw [b]; exact fun e => (h.pub m i hm e).2 d
    · rcases hsl u j hj with ⟨a, b⟩ | ⟨a, b, _, d, e⟩
      · exact (h.own u j b).2.2.mono (hT u)
      · rw [a, b, upd_eq]
        exact (h.rel i e).1.mono (hacq d)
  · intro u u' j hj hj'
    rcases hsl u j hj with ⟨a, b⟩ | ⟨a, b, _, _, d⟩
    · rcases hsl u' j hj' with ⟨a', b'⟩ | ⟨a', b', _, _, d'⟩
      · exact h.uniq u u' j b b'
      · rw [b', ] at b; rw [(h.own u i b).1] at d'; cases d'
    · rcases hsl u' j hj' with ⟨a', b'⟩ | ⟨a', b', _, _, d'⟩
      · rw [b] at b'; rw [(h.own u' i b').1] at d; cases d
      · rw [a, a']
  · intro m j hm hj
    have hm : m ≤ s.n + 1 := hm
    have hj : (upd s.word (s.n + 1) w m).rank j = .here := hj
    show s.wr j ≤ (upd s.mv (s.n + 1) (s.relv rel (s.acqv t acq)) m).w j ∧ (upd s.word (s.n + 1) w (s.n + 1)).rank j ≠ .free
    rw [hN]
    by_cases e : m = s.n + 1
    · rw [e, hN] at hj
      rw [e, upd_eq]
      refine ⟨?_, by rw [hj]; exact fun h => by cases h⟩
      have old : (s.word s.n).rank j = .here → s.wr j ≤ (s.relv rel (s.acqv t acq)).w j := fun e =>
        Nat.le_trans (h.pub s.n j (Nat.le_refl _) e).1 (hmn.1 j)
      by_cases e : j = i
      · rw [e] at hj old ⊢
        cases hk with
        | reserve a b => rw [b] at hj; cases hj
        | publish a b d => exact ((h.own t i a).2.2.mono (htv.trans (hrel d))).1
        | free a b => rw [b] at hj; cases hj
        | remove a b => rw [b] at hj; cases hj
        | same a => exact old (a ▸ hj)
      · exact old ((hw j e) ▸ hj)
    · have hm : m ≤ s.n := by omega
      rw [hO m hm] at hj
      rw [hMO m hm]
      exact ⟨(h.pub m j hm hj).1, hpub m j hm hj⟩
  · intro j hj hn
    have hj : (upd s.word (s.n + 1) w (s.n + 1)).rank j ≠ .free := hj
    rw [hN] at hj
    have hn : ∀ u, slot (upd s.pc t c u) ≠ some j := hn
    show s.cell j ≠ none
    have hnu : ∀ u, u ≠ t → slot (s.pc u) ≠ some j := fun u hu => by
      have := hn u
      rw [upd_ne _ _ hu] at this; exact this
    have hnt := hn t
    rw [upd_eq] at hnt
    have old : (s.word s.n).rank j ≠ .free → slot (s.pc t) ≠ some j → s.cell j ≠ none := fun e e' =>
      h.full j e (fun u => by
        by_cases e2 : u = t
        · rw [e2]; exact e'
        · exact hnu u e2)
    by_cases e : j = i
    · rw [e] at hj old hnt ⊢
      cases hk with
      | reserve a b d e => exact absurd e hnt
      | publish a b _ _ d => exact d
      | free a b => exact absurd b hj
      | remove a b _ d => exact old (by rw [a]; exact fun h => by cases h) (by rw [d]; exact fun h => by cases h)
      | same a _ d => exact old (a ▸ hj) (by rw [d]; exact fun h => by cases h)
    · refine old ((hw j e) ▸ hj) ?_
      intro e'
      cases hk with
      | reserve _ _ _ _ a => rw [a] at e'; cases e'
      | publish a => rw [a] at e'; exact e (Option.some.inj e').symm
      | free a => rw [a] at e'; exact e (Option.some.inj e').symm
      | remove _ _ _ a => rw [a] at e'; cases e'
      | same _ _ a => rw [a] at e'; cases e'
  · intro u
    show CellPc s.cell (upd s.pc t c u)
    by_cases e : u = t
    · rw [e, upd_eq]; exact hc
    · rw [upd_ne _ _ e]; exact h.cellpc u

/-- `next` and `out` do not matter. -/
theorem inv_out {s : State} (h : Inv s) (n : Nat) (o : List (Option Nat)) : Inv { s with next := n, out := o } :=
  ⟨h.tvb, h.mvb, h.mono, h.has, h.rel, h.own, h.uniq, h.pub, h.full, h.cellpc⟩

theorem set_rank (w : Word) (i : Nat) (k : Rk) : (w.set i k).rank i = k := upd_eq _ _ _

theorem set_rank_ne (w : Word) {i j : Nat} (k : Rk) (h : j ≠ i) : (w.set i k).rank j = w.rank j := upd_ne _ _ h

theorem inv_step {s s' : State} {t : Nat} (h : Inv s) (hs : Step s t s') : Inv s' := by
  cases hs with
  | @call m hpc _ hm => exact inv_out (inv_load' h (c := .ins s.next m) hm (by rw [hpc]; rfl) rfl trivial) (s.next + 1) s.out
  | @giveUp p m hpc => exact inv_out (inv_go h (c := .idle) (by rw [hpc]; rfl) (.inl rfl) trivial) s.next (some p :: s.out)
  | @insLook p m i hpc hr =>
    obtain ⟨a, b⟩ := h.has t m (by rw [hpc]; rfl)
    exact inv_read h (.inr ⟨m, a, b, hr⟩)
  | @reserve p m i hpc he hr =>
    refine inv_rmw h (i := i) (.reserve (he ▸ hr) (set_rank _ _ _) rfl rfl (by rw [hpc]; rfl)) (fun j hj => ?_) (.inr ⟨rfl, rfl⟩) ?_
    · rw [set_rank_ne _ _ hj, he]
    · exact (h.rel i (he ▸ hr)).2
  | @reserveFail p m m' hpc _ hm => exact inv_load' h hm (by rw [hpc]; rfl) rfl trivial
  | @write p i m hpc =>
    have ho : slot (s.pc t) = some i := by rw [hpc]; rfl
    exact inv_cell (inv_wr h ho) (t := t) (i := i) (c := .post p i m) (v := some p) ho rfl (.inr (by show _ = held (s.pc t); rw [hpc]; rfl)) (upd_eq _ _ _)
  | @postLook p i m j hpc hr =>
    obtain ⟨a, b⟩ := h.has t m (by rw [hpc]; rfl)
    exact inv_read h (.inr ⟨m, a, b, hr⟩)
  | @postOwn p i m hpc => exact inv_read h (.inl (by rw [hpc]; rfl))
  | @publish p i m hpc he =>
    have hce : s.cell i = some p := by have := h.cellpc t; rw [hpc] at this; exact this
    refine inv_rmw h (i := i) (.publish (by rw [hpc]; rfl) (set_rank _ _ _) rfl rfl (by rw [hce]; exact fun h => by cases h)) (fun j hj => ?_) (.inl rfl) trivial
    rw [set_rank_ne _ _ hj, he]
  | @publishFail p i m m' hpc _ hm =>
    have hce := h.cellpc t
    rw [hpc] at hce
    exact inv_load' h hm (by rw [hpc]; rfl) rfl hce
  | @giveBack p i m hpc =>
    have hce := h.cellpc t
    rw [hpc] at hce
    exact inv_go h (by rw [hpc]; rfl) (.inl rfl) hce
  | @unwind p i m hpc => exact inv_unwind h hpc
  | @take p i hpc =>
    have ho : slot (s.pc t) = some i := by rw [hpc]; rfl
    have hce : s.cell i = some p := by have := h.cellpc t; rw [hpc] at this; exact this
    exact inv_cell (inv_read h (.inl ho)) (t := t) (i := i) (c := .back (s.cell i) p i) (v := none) ho rfl (.inl rfl) ⟨hce, upd_eq _ _ _⟩
  | @free q p i hpc =>
    have hce : q = some p ∧ s.cell i = none := by have := h.cellpc t; rw [hpc] at this; exact this
    refine inv_out (inv_rmw h (i := i) (t := t) (c := .idle) (acq := false) (rel := true) (w := (s.word s.n).set i .free)
      (.free (by rw [hpc]; rfl) (set_rank _ _ _) rfl rfl hce.2) (fun j hj => set_rank_ne _ _ hj) (.inl rfl) trivial) s.next (q :: s.out)
  | @look m hpc _ hm => exact inv_load' h hm (by rw [hpc]; rfl) rfl trivial
  | @see m i hpc hr =>
    obtain ⟨a, b⟩ := h.has t m (by rw [hpc]; rfl)
    exact inv_read h (.inr ⟨m, a, b, hr⟩)
  | @remove m i r hpc he hr =>
    refine inv_rmw h (i := i) (.remove (he ▸ hr) (set_rank _ _ _) rfl (by rw [hpc]; rfl)) (fun j hj => ?_) (.inl rfl) trivial
    show ((s.word m).set i .gone).rank j = _
    rw [set_rank_ne _ _ hj, he]
  | @removeFail m m' hpc _ hm => exact inv_load' h hm (by rw [hpc]; rfl) rfl trivial
  | @leave m hpc => exact inv_go h (by rw [hpc]; rfl) (.inl rfl) trivial
  | freeze hpc =>
    exact inv_rmw h (i := 0) (.same rfl rfl (by rw [hpc]; rfl)) (fun _ _ => rfl) (.inr ⟨rfl, rfl⟩) trivial
  | thaw hpc =>
    have := inv_rmw h (t := t) (i := 0) (c := s.pc t) (acq := false) (rel := true) (w := { s.word s.n with frozen := false })
      (.same rfl (by rw [hpc]; rfl) (by rw [hpc]; rfl)) (fun _ _ => rfl) (.inl (by rw [hpc]; rfl)) (h.cellpc t)
    unfold State.go at this
    have e : (s.rmw t { s.word s.n with frozen := false } false true).pc = s.pc := rfl
    rw [e, upd_self] at this
    exact this

theorem inv_reach {k : Nat} {s : State} (h : Reach k s) : Inv s := by
  induction h with
  | init => exact inv_init k
  | step _ hs ih => exact inv_step ih hs

end Scc.Slot
