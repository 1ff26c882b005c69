import Verif.Haze.Model

/-! # The arrays and locks: what every reachable state satisfies -/

namespace Scc.Haze

theorem upd_eq {β : Type} (f : Nat → β) (i : Nat) (v : β) : upd f i v i = v := by simp [upd]
theorem upd_ne {β : Type} (f : Nat → β) {i j : Nat} (v : β) (h : j ≠ i) : upd f i v j = f j := by simp [upd, h]
theorem upd2_eq {β : Type} (f : Nat → Nat → β) (i j : Nat) (v : β) : upd2 f i j v i j = v := by simp [upd2]
theorem upd2_ne {β : Type} (f : Nat → Nat → β) {i j a b : Nat} (v : β) (h : ¬(a = i ∧ b = j)) : upd2 f i j v a b = f a b := by simp [upd2, h]

/-- The bucket of the key in the array before is dead, or there is no such array. -/
def Gate (ix : Nat → Nat → Nat) (s : State) (v k : Nat) : Prop := s.prev v = none ∨ ∃ p, s.prev v = some p ∧ s.dead p (ix p k) = true
/-- No old array is linked. -/
def Link (s : State) (v : Nat) : Prop := s.prev v = none ∨ s.unl v = true
/-- The call has the lock. -/
def Held (ix : Nat → Nat → Nat) (s : State) (t : Nat) (o : Op) (v : Nat) : Prop :=
  (o.ro = true ∧ s.sl v (ix v o.key) t = true) ∨ (o.ro = false ∧ s.wl v (ix v o.key) = some (t, false))
/-- The bucket of the key is dead or will not be unlocked before it is. -/
def Doom (ix : Nat → Nat → Nat) (s : State) (v k : Nat) : Prop := s.dead v (ix v k) = true ∨ ∃ t, s.mp t = .drd v

def PcOk (ix : Nat → Nat → Nat) (s : State) (t : Nat) : Pc → Prop
  | .idle | .go _ _ | .alloc _ _ => True
  | .at _ _ v => s.isA v = true
  | .rdy _ o v => s.isA v = true ∧ Gate ix s v o.key
  | .crit _ o v => s.isA v = true ∧ Gate ix s v o.key ∧ Held ix s t o v
  | .rel _ o v _ => s.isA v = true ∧ Gate ix s v o.key ∧ Held ix s t o v

def MpOk (ix : Nat → Nat → Nat) (s : State) (t : Nat) : Mp → Prop
  | .idle => True
  | .have v => s.isA v = true
  | .mv v p i => s.prev v = some p ∧ s.wl p i = some (t, true)
  | .kl v p i => s.prev v = some p ∧ s.wl p i = some (t, true) ∧ ∀ k, ix p k = i → s.val p k = none
  | .chk v => s.isA v = true ∧ Link s v
  | .lk v => s.isA v = true ∧ Link s v ∧ s.rs = some t
  | .swp v => s.isA v = true ∧ Link s v ∧ s.rs = some t ∧ v = s.n ∧ (s.tv t).ver v
  | .drp v => s.isA v = true ∧ Link s v ∧ s.rs = some t ∧ v = s.n ∧ (∀ b, s.wl v b = some (t, true)) ∧ ∀ k, s.val v k = none
  | .drd v => s.isA v = true ∧ s.rs = some t ∧ v < s.n ∧ (∀ b, s.wl v b = some (t, true)) ∧ ∀ k, s.val v k = none
  | .fin => s.rs = some t

structure Inv (ix : Nat → Nat → Nat) (s : State) : Prop where
  blank : ∀ v, s.n < v → s.isA v = false ∧ s.prev v = none ∧ s.unl v = false ∧ (∀ k, s.val v k = none) ∧ ∀ b, s.dead v b = false ∧ s.wl v b = none ∧ ∀ u, s.sl v b u = false
  zero : s.isA 0 = false
  link : ∀ v p, s.prev v = some p → v = p + 1 ∧ s.isA p = true ∧ s.isA v = true
  nolink : ∀ w, s.isA (w + 1) = true → s.prev (w + 1) = none → s.isA w = false
  unl : ∀ v, s.unl v = true → ∀ p, s.prev v = some p → ∀ k, s.dead p (ix p k) = true
  old : ∀ v, v < s.n → s.isA v = true → s.prev s.n ≠ some v → ∀ k, Doom ix s v k
  dead : ∀ v b, s.dead v b = true → (∀ k, ix v k = b → s.val v k = none) ∧ s.wl v b = none ∧ (∀ u, s.sl v b u = false) ∧ v < s.n
  excl : ∀ v b, s.wl v b ≠ none → ∀ u, s.sl v b u = false
  nul : ∀ v, s.isA v = false → ∀ k, s.val v k = none
  fresh : ∀ p, s.prev s.n = some p → ∀ k, s.dead p (ix p k) = false → (∀ t, s.mp t ≠ .kl s.n p (ix p k)) → s.val s.n k = none
  made0 : s.rs = none → ∀ w, w ≤ s.n → (s.isA w = false ∨ s.prev w ≠ none) → s.rmsg.ver w
  made1 : ∀ t, s.rs = some t → ∀ w, w ≤ s.n → (s.isA w = false ∨ s.prev w ≠ none) → (s.tv t).ver w
  pcs : ∀ t, PcOk ix s t (s.pc t)
  mps : ∀ t, MpOk ix s t (s.mp t)

theorem inv_init (ix : Nat → Nat → Nat) : Inv ix State.init := by
  constructor <;> intros <;> simp_all [State.init, PcOk, MpOk, View.start]

theorem isA_le {ix : Nat → Nat → Nat} {s : State} (I : Inv ix s) {v : Nat} (h : s.isA v = true) : v ≤ s.n := by
  rcases Nat.lt_or_ge s.n v with hl | hl
  · have := (I.blank v hl).1; rw [h] at this; cases this
  · exact hl

theorem PcOk.mono {ix : Nat → Nat → Nat} {s s' : State} {u : Nat} {q : Pc} (h : PcOk ix s u q)
    (hA : ∀ v, s.isA v = true → s'.isA v = true) (hp : ∀ v, s.isA v = true → s'.prev v = s.prev v)
    (hd : ∀ v b, s.dead v b = true → s'.dead v b = true)
    (hw : ∀ v b, s.wl v b = some (u, false) → s'.wl v b = some (u, false))
    (hs : ∀ v b, s.sl v b u = true → s'.sl v b u = true) : PcOk ix s' u q := by
  have gate : ∀ v k, s.isA v = true → Gate ix s v k → Gate ix s' v k := by
    intro v k ha g
    rcases g with g | ⟨p, g, d⟩
    · exact .inl ((hp v ha).trans g)
    · exact .inr ⟨p, (hp v ha).trans g, hd _ _ d⟩
  have held : ∀ o v, Held ix s u o v → Held ix s' u o v := by
    intro o v g
    rcases g with ⟨r, g⟩ | ⟨r, g⟩
    · exact .inl ⟨r, hs _ _ g⟩
    · exact .inr ⟨r, hw _ _ g⟩
  cases q with
  | idle => trivial
  | go => trivial
  | alloc => trivial
  | «at» x o v => exact hA v h
  | rdy x o v => exact ⟨hA v h.1, gate v _ h.1 h.2⟩
  | crit x o v => exact ⟨hA v h.1, gate v _ h.1 h.2.1, held _ _ h.2.2⟩
  | rel x o v r => exact ⟨hA v h.1, gate v _ h.1 h.2.1, held _ _ h.2.2⟩

theorem MpOk.mono {ix : Nat → Nat → Nat} {s s' : State} (I : Inv ix s) {u : Nat} {q : Mp} (h : MpOk ix s u q)
    (hA : ∀ v, s.isA v = true → s'.isA v = true) (hp : ∀ v, s.isA v = true → s'.prev v = s.prev v)
    (hu : ∀ v, s.unl v = true → s'.unl v = true) (hr : s.rs = some u → s'.rs = some u)
    (hw : ∀ v b, s.wl v b = some (u, true) → s'.wl v b = some (u, true))
    (hn : s.n ≤ s'.n) (hn2 : s.rs = some u → s.isA s.n = true → s'.n = s.n)
    (hv : ∀ v k, s.wl v (ix v k) = some (u, true) → s.val v k = none → s'.val v k = none)
    (ht : ∀ w, (s.tv u).ver w → (s'.tv u).ver w) : MpOk ix s' u q := by
  have lnk : ∀ v, s.isA v = true → Link s v → Link s' v := by
    intro v ha g
    rcases g with g | g
    · exact .inl ((hp v ha).trans g)
    · exact .inr (hu v g)
  have prv : ∀ v p, s.prev v = some p → s'.prev v = some p := fun v p g => (hp v (I.link v p g).2.2).trans g
  cases q with
  | idle => trivial
  | «have» v => exact hA v h
  | mv v p i => exact ⟨prv v p h.1, hw _ _ h.2⟩
  | kl v p i => exact ⟨prv v p h.1, hw _ _ h.2.1, fun k e => hv p k (e ▸ h.2.1) (h.2.2 k e)⟩
  | chk v => exact ⟨hA v h.1, lnk v h.1 h.2⟩
  | lk v => exact ⟨hA v h.1, lnk v h.1 h.2.1, hr h.2.2⟩
  | swp v =>
    obtain ⟨h1, h2, h3, h4, h5⟩ := h
    exact ⟨hA v h1, lnk v h1 h2, hr h3, h4.trans (hn2 h3 (h4 ▸ h1)).symm, ht _ h5⟩
  | drp v =>
    obtain ⟨h1, h2, h3, h4, h5, h6⟩ := h
    exact ⟨hA v h1, lnk v h1 h2, hr h3, h4.trans (hn2 h3 (h4 ▸ h1)).symm, fun b => hw _ _ (h5 b), fun k => hv v k (h5 _) (h6 k)⟩
  | drd v =>
    obtain ⟨h1, h2, h3, h4, h5⟩ := h
    exact ⟨hA v h1, hr h2, Nat.lt_of_lt_of_le h3 hn, fun b => hw _ _ (h4 b), fun k => hv v k (h4 _) (h5 k)⟩
  | fin => exact hr h

/-- Steps of a call that change neither arrays nor locks. -/
theorem Inv.pcstep {ix : Nat → Nat → Nat} {s : State} (I : Inv ix s) (t : Nat) (p : Pc) (tv' : Nat → View)
    (ht : ∀ u w, (s.tv u).ver w → (tv' u).ver w) (hpc : PcOk ix s t p)
    {cm um : Nat → View} {bm : Nat → Nat → View} {po : View → Prop} {lg : Nat → List Ev} {ni : Nat} {be : Nat → View}
    {an : Nat → Option (Op × Option Nat)} {w r : Nat → Nat → Nat → Prop} :
    Inv ix { s with pc := upd s.pc t p, tv := tv', cmsg := cm, umsg := um, bmsg := bm, post := po, log := lg, nid := ni, bef := be, ans := an, wr := w, rd := r } where
  blank := I.blank
  zero := I.zero
  link := I.link
  nolink := I.nolink
  unl := I.unl
  old := I.old
  dead := I.dead
  excl := I.excl
  nul := I.nul
  fresh := I.fresh
  made0 := I.made0
  made1 := fun u h w hw hm => ht u w (I.made1 u h w hw hm)
  pcs := by
    intro u
    show PcOk ix s u (upd s.pc t p u)
    by_cases e : u = t
    · rw [e, upd_eq]; exact hpc
    · rw [upd_ne _ _ e]; exact I.pcs u
  mps := fun u => (I.mps u).mono I (fun _ h => h) (fun _ _ => rfl) (fun _ h => h) (fun h => h) (fun _ _ h => h) (Nat.le_refl _) (fun _ _ => rfl) (fun _ _ _ h => h) (ht u)

/-- Steps next to a call that change neither arrays nor locks. -/
theorem Inv.mpstep {ix : Nat → Nat → Nat} {s : State} (I : Inv ix s) (t : Nat) (p : Mp) (tv' : Nat → View)
    (ht : ∀ u w, (s.tv u).ver w → (tv' u).ver w)
    (hpc : MpOk ix { s with tv := tv' } t p) (hk : ∀ v q i, s.mp t ≠ .kl v q i) (hd : ∀ v, s.mp t ≠ .drd v)
    {cm um : Nat → View} {bm : Nat → Nat → View} {po : View → Prop} {lg : Nat → List Ev} {ni : Nat} {be : Nat → View}
    {an : Nat → Option (Op × Option Nat)} {w r : Nat → Nat → Nat → Prop} :
    Inv ix { s with mp := upd s.mp t p, tv := tv', cmsg := cm, umsg := um, bmsg := bm, post := po, log := lg, nid := ni, bef := be, ans := an, wr := w, rd := r } where
  blank := I.blank
  zero := I.zero
  link := I.link
  nolink := I.nolink
  unl := I.unl
  old := by
    intro v hv ha hp k
    rcases I.old v hv ha hp k with h | ⟨u, h⟩
    · exact .inl h
    · have e : u ≠ t := fun e => hd v (e ▸ h)
      exact .inr ⟨u, by show upd s.mp t p u = _; rw [upd_ne _ _ e]; exact h⟩
  dead := I.dead
  excl := I.excl
  nul := I.nul
  fresh := by
    intro q hq k hdd hm
    refine I.fresh q hq k hdd (fun u hu => ?_)
    have e : u ≠ t := fun e => hk _ _ _ (e ▸ hu)
    exact hm u (by show upd s.mp t p u = _; rw [upd_ne _ _ e]; exact hu)
  made0 := I.made0
  made1 := fun u h w hw hm => ht u w (I.made1 u h w hw hm)
  pcs := I.pcs
  mps := by
    intro u
    show MpOk ix { s with tv := tv' } u (upd s.mp t p u)
    by_cases e : u = t
    · rw [e, upd_eq]; exact hpc
    · rw [upd_ne _ _ e]
      exact (I.mps u).mono I (fun _ h => h) (fun _ _ => rfl) (fun _ h => h) (fun h => h) (fun _ _ h => h) (Nat.le_refl _) (fun _ _ => rfl) (fun _ _ _ h => h) (ht u)

/-! Views only grow. -/

theorem upd_mono {s : State} {t : Nat} {v : View} (h : ∀ w, (s.tv t).ver w → v.ver w) : ∀ u w, (s.tv u).ver w → (upd s.tv t v u).ver w := by
  intro u w hu
  by_cases e : u = t
  · rw [e, upd_eq]; exact h w (e ▸ hu)
  · rw [upd_ne _ _ e]; exact hu

theorem join_mono {a b : View} : ∀ w, a.ver w → (a.join b).ver w := fun _ h => .inl h
theorem acq_mono {s : State} {t m : Nat} : ∀ w, (s.tv t).ver w → (acq s t m).ver w := fun _ h => .inl (.inl h)

end Scc.Haze
