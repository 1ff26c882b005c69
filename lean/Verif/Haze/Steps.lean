import Verif.Haze.Inv

/-! # Locks, effects, relocation -/

namespace Scc.Haze

/-- Who has the lock of a bucket of an array keeps it from being dead. -/
theorem held_alive {ix : Nat → Nat → Nat} {s : State} (I : Inv ix s) {t v : Nat} {o : Op} (h : Held ix s t o v) : s.dead v (ix v o.key) = false := by
  cases hd : s.dead v (ix v o.key) with
  | false => rfl
  | true =>
    obtain ⟨_, h1, h2, _⟩ := I.dead _ _ hd
    rcases h with ⟨_, h⟩ | ⟨_, h⟩
    · rw [h2 t] at h; cases h
    · rw [h1] at h; cases h

theorem wl_alive {ix : Nat → Nat → Nat} {s : State} (I : Inv ix s) {v b : Nat} {x : Nat × Bool} (h : s.wl v b = some x) : s.dead v b = false := by
  cases hd : s.dead v b with
  | false => rfl
  | true => obtain ⟨_, h1, _⟩ := I.dead _ _ hd; rw [h1] at h; cases h

theorem wl_le {ix : Nat → Nat → Nat} {s : State} (I : Inv ix s) {v b : Nat} {x : Nat × Bool} (h : s.wl v b = some x) : v ≤ s.n := by
  rcases Nat.lt_or_ge s.n v with hl | hl
  · have := ((I.blank v hl).2.2.2.2 b).2.1; rw [h] at this; cases this
  · exact hl

/-- A step that changes the lock of one bucket that is not dead. -/
theorem Inv.bucket {ix : Nat → Nat → Nat} {s : State} (I : Inv ix s) (v b : Nat) (x : Option (Nat × Bool)) (y : Nat → Bool)
    (pc' : Nat → Pc) (mp' : Nat → Mp) (tv' : Nat → View)
    (hv : v ≤ s.n) (hd : s.dead v b = false) (hx : x ≠ none → ∀ u, y u = false)
    (ht : ∀ u w, (s.tv u).ver w → (tv' u).ver w)
    (hkl : ∀ u a q i, s.mp u = .kl a q i → mp' u = .kl a q i) (hdd : ∀ u a, s.mp u = .drd a → mp' u = .drd a)
    (hpc : ∀ u, PcOk ix { s with wl := upd2 s.wl v b x, sl := upd2 s.sl v b y } u (pc' u))
    (hmp : ∀ u, MpOk ix { s with wl := upd2 s.wl v b x, tv := tv' } u (mp' u))
    {bm : Nat → Nat → View} {an : Nat → Option (Op × Option Nat)} :
    Inv ix { s with wl := upd2 s.wl v b x, sl := upd2 s.sl v b y, pc := pc', mp := mp', tv := tv', bmsg := bm, ans := an } where
  blank := by
    intro a ha
    obtain ⟨h1, h2, h3, h4, h5⟩ := I.blank a ha
    refine ⟨h1, h2, h3, h4, fun c => ?_⟩
    have ne : ¬(a = v ∧ c = b) := fun e => by have ha : s.n < a := ha; omega
    refine ⟨(h5 c).1, ?_, ?_⟩
    · show upd2 s.wl v b x a c = none; rw [upd2_ne _ _ ne]; exact (h5 c).2.1
    · intro u; show upd2 s.sl v b y a c u = false; rw [upd2_ne _ _ ne]; exact (h5 c).2.2 u
  zero := I.zero
  link := I.link
  nolink := I.nolink
  unl := I.unl
  old := by
    intro a ha hA hp k
    rcases I.old a ha hA hp k with h | ⟨u, h⟩
    · exact .inl h
    · exact .inr ⟨u, hdd u a h⟩
  dead := by
    intro a c h
    have ne : ¬(a = v ∧ c = b) := by
      intro e; have h : s.dead a c = true := h; rw [e.1, e.2, hd] at h; cases h
    obtain ⟨h1, h2, h3, h4⟩ := I.dead a c h
    refine ⟨h1, ?_, ?_, h4⟩
    · show upd2 s.wl v b x a c = none; rw [upd2_ne _ _ ne]; exact h2
    · intro u; show upd2 s.sl v b y a c u = false; rw [upd2_ne _ _ ne]; exact h3 u
  excl := by
    intro a c h u
    have h : upd2 s.wl v b x a c ≠ none := h
    show upd2 s.sl v b y a c u = false
    by_cases e : a = v ∧ c = b
    · rw [e.1, e.2, upd2_eq] at h ⊢; exact hx h u
    · rw [upd2_ne _ _ e] at h ⊢; exact I.excl a c h u
  nul := I.nul
  fresh := fun q hq k hd' hm => I.fresh q hq k hd' (fun u hu => hm u (hkl u _ _ _ hu))
  made0 := I.made0
  made1 := fun u h w hw hm => ht u w (I.made1 u h w hw hm)
  pcs := hpc
  mps := hmp

theorem upd2_keep {β : Type} {f : Nat → Nat → Option β} {v b : Nat} {x : Option β} {z : β} (h : f v b ≠ some z ∨ x = some z) :
    ∀ a c, f a c = some z → upd2 f v b x a c = some z := by
  intro a c hz
  by_cases e : a = v ∧ c = b
  · rw [e.1, e.2, upd2_eq]; rw [e.1, e.2] at hz
    rcases h with h | h
    · exact absurd hz h
    · exact h
  · rw [upd2_ne _ _ e]; exact hz

theorem upd2_keepS {f : Nat → Nat → Nat → Bool} {v b u : Nat} {y : Nat → Bool} (h : f v b u = true → y u = true) :
    ∀ a c, f a c u = true → upd2 f v b y a c u = true := by
  intro a c hz
  by_cases e : a = v ∧ c = b
  · rw [e.1, e.2, upd2_eq]; rw [e.1, e.2] at hz; exact h hz
  · rw [upd2_ne _ _ e]; exact hz

theorem upd2_same {β : Type} (f : Nat → Nat → β) (v b : Nat) : upd2 f v b (f v b) = f := by
  funext a c; by_cases e : a = v ∧ c = b
  · rw [e.1, e.2, upd2_eq]
  · rw [upd2_ne _ _ e]

theorem MpOk.bucket {ix : Nat → Nat → Nat} {s : State} (I : Inv ix s) {v b : Nat} {x : Option (Nat × Bool)} {tv' : Nat → View} {u : Nat} {q : Mp}
    (h : MpOk ix s u q) (hw : s.wl v b ≠ some (u, true) ∨ x = some (u, true)) (ht : ∀ w, (s.tv u).ver w → (tv' u).ver w) :
    MpOk ix { s with wl := upd2 s.wl v b x, tv := tv' } u q :=
  h.mono I (fun _ h => h) (fun _ _ => rfl) (fun _ h => h) (fun h => h) (upd2_keep hw) (Nat.le_refl _) (fun _ _ => rfl) (fun _ _ _ h => h) ht

theorem PcOk.bucket {ix : Nat → Nat → Nat} {s : State} {v b : Nat} {x : Option (Nat × Bool)} {y : Nat → Bool} {u : Nat} {q : Pc}
    (h : PcOk ix s u q) (hw : s.wl v b ≠ some (u, false) ∨ x = some (u, false)) (hs : s.sl v b u = true → y u = true) :
    PcOk ix { s with wl := upd2 s.wl v b x, sl := upd2 s.sl v b y } u q :=
  h.mono (fun _ h => h) (fun _ _ => rfl) (fun _ _ h => h) (upd2_keep hw) (upd2_keepS hs)

theorem inv_lock {ix : Nat → Nat → Nat} {s : State} (I : Inv ix s) {t x : Nat} {o : Op} {v : Nat} (h : s.pc t = .rdy x o v) (hr : o.ro = false)
    (hd : s.dead v (ix v o.key) = false) (hw : s.wl v (ix v o.key) = none) (hs : ∀ u, s.sl v (ix v o.key) u = false) :
    Inv ix { (s.goto t (.crit x o v) ((s.tv t).join (s.bmsg v (ix v o.key)))) with wl := upd2 s.wl v (ix v o.key) (some (t, false)) } := by
  have hp := I.pcs t; rw [h] at hp
  have ht : ∀ u w, (s.tv u).ver w → (upd s.tv t ((s.tv t).join (s.bmsg v (ix v o.key))) u).ver w := upd_mono join_mono
  have := I.bucket v (ix v o.key) (some (t, false)) (s.sl v (ix v o.key)) (upd s.pc t (.crit x o v)) s.mp _ (isA_le I hp.1) hd (fun _ => hs) ht
    (fun _ _ _ _ h => h) (fun _ _ h => h) ?_ ?_ (bm := s.bmsg) (an := s.ans)
  · rw [upd2_same] at this; exact this
  · intro u
    by_cases e : u = t
    · rw [e, upd_eq]
      exact ⟨hp.1, hp.2, .inr ⟨hr, upd2_eq _ _ _ _⟩⟩
    · rw [upd_ne _ _ e]
      exact (I.pcs u).bucket (.inl (by rw [hw]; simp)) (fun h => h)
  · intro u
    exact (I.mps u).bucket I (.inl (by rw [hw]; simp)) (ht u)

theorem inv_share {ix : Nat → Nat → Nat} {s : State} (I : Inv ix s) {t x : Nat} {o : Op} {v : Nat} (h : s.pc t = .rdy x o v) (hr : o.ro = true)
    (hd : s.dead v (ix v o.key) = false) (hw : s.wl v (ix v o.key) = none) :
    Inv ix { (s.goto t (.crit x o v) ((s.tv t).join (s.bmsg v (ix v o.key)))) with sl := upd2 s.sl v (ix v o.key) (upd (s.sl v (ix v o.key)) t true) } := by
  have hp := I.pcs t; rw [h] at hp
  have ht : ∀ u w, (s.tv u).ver w → (upd s.tv t ((s.tv t).join (s.bmsg v (ix v o.key))) u).ver w := upd_mono join_mono
  have := I.bucket v (ix v o.key) (s.wl v (ix v o.key)) (upd (s.sl v (ix v o.key)) t true) (upd s.pc t (.crit x o v)) s.mp _ (isA_le I hp.1) hd
    (fun h => absurd hw h) ht (fun _ _ _ _ h => h) (fun _ _ h => h) ?_ ?_ (bm := s.bmsg) (an := s.ans)
  · rw [upd2_same] at this; exact this
  · intro u
    by_cases e : u = t
    · rw [e, upd_eq]
      refine ⟨hp.1, hp.2, .inl ⟨hr, ?_⟩⟩
      show upd2 s.sl v (ix v o.key) _ v (ix v o.key) t = true
      rw [upd2_eq, upd_eq]
    · rw [upd_ne _ _ e]
      exact (I.pcs u).bucket (.inl (by rw [hw]; simp)) (fun h => by rw [upd_ne _ _ e]; exact h)
  · intro u
    exact (I.mps u).bucket I (.inl (by rw [hw]; simp)) (ht u)

theorem inv_unlock {ix : Nat → Nat → Nat} {s : State} (I : Inv ix s) {t x : Nat} {o : Op} {v : Nat} {r : Option Nat} (h : s.pc t = .rel x o v r) (hr : o.ro = false) :
    Inv ix { (s.goto t .idle (s.tv t)) with wl := upd2 s.wl v (ix v o.key) none, bmsg := upd2 s.bmsg v (ix v o.key) ((s.bmsg v (ix v o.key)).join (s.tv t)), ans := upd s.ans x (some (o, r)) } := by
  have hp := I.pcs t; rw [h] at hp
  have hw : s.wl v (ix v o.key) = some (t, false) := by
    rcases hp.2.2 with g | g
    · rw [g.1] at hr; cases hr
    · exact g.2
  have ht : ∀ u w, (s.tv u).ver w → (upd s.tv t (s.tv t) u).ver w := upd_mono (fun _ h => h)
  have := I.bucket v (ix v o.key) none (s.sl v (ix v o.key)) (upd s.pc t .idle) s.mp _ (isA_le I hp.1) (wl_alive I hw)
    (fun h => absurd rfl h) ht (fun _ _ _ _ h => h) (fun _ _ h => h) ?_ ?_ (bm := upd2 s.bmsg v (ix v o.key) ((s.bmsg v (ix v o.key)).join (s.tv t))) (an := upd s.ans x (some (o, r)))
  · rw [upd2_same] at this; exact this
  · intro u
    by_cases e : u = t
    · rw [e, upd_eq]; trivial
    · rw [upd_ne _ _ e]
      exact (I.pcs u).bucket (.inl (by rw [hw]; intro h; cases h; exact e rfl)) (fun h => h)
  · intro u
    exact (I.mps u).bucket I (.inl (by rw [hw]; simp)) (ht u)

theorem inv_unshare {ix : Nat → Nat → Nat} {s : State} (I : Inv ix s) {t x : Nat} {o : Op} {v : Nat} {r : Option Nat} (h : s.pc t = .rel x o v r) (hr : o.ro = true) :
    Inv ix { (s.goto t .idle (s.tv t)) with sl := upd2 s.sl v (ix v o.key) (upd (s.sl v (ix v o.key)) t false), bmsg := upd2 s.bmsg v (ix v o.key) ((s.bmsg v (ix v o.key)).join (s.tv t)), ans := upd s.ans x (some (o, r)) } := by
  have hp := I.pcs t; rw [h] at hp
  have hs : s.sl v (ix v o.key) t = true := by
    rcases hp.2.2 with g | g
    · exact g.2
    · rw [g.1] at hr; cases hr
  have hw : s.wl v (ix v o.key) = none := by
    cases e : s.wl v (ix v o.key) with
    | none => rfl
    | some z => have := I.excl v (ix v o.key) (by rw [e]; simp) t; rw [hs] at this; cases this
  have ht : ∀ u w, (s.tv u).ver w → (upd s.tv t (s.tv t) u).ver w := upd_mono (fun _ h => h)
  have := I.bucket v (ix v o.key) (s.wl v (ix v o.key)) (upd (s.sl v (ix v o.key)) t false) (upd s.pc t .idle) s.mp _ (isA_le I hp.1) (held_alive I hp.2.2)
    (fun h => absurd hw h) ht (fun _ _ _ _ h => h) (fun _ _ h => h) ?_ ?_ (bm := upd2 s.bmsg v (ix v o.key) ((s.bmsg v (ix v o.key)).join (s.tv t))) (an := upd s.ans x (some (o, r)))
  · rw [upd2_same] at this; exact this
  · intro u
    by_cases e : u = t
    · rw [e, upd_eq]; trivial
    · rw [upd_ne _ _ e]
      exact (I.pcs u).bucket (.inl (by rw [hw]; simp)) (fun h => by rw [upd_ne _ _ e]; exact h)
  · intro u
    exact (I.mps u).bucket I (.inl (by rw [hw]; simp)) (ht u)

theorem inv_pick {ix : Nat → Nat → Nat} {s : State} (I : Inv ix s) {t v p i : Nat} (h : s.mp t = .have v) (hp : s.prev v = some p) (hd : s.dead p i = false)
    (hw : s.wl p i = none) (hs : ∀ u, s.sl p i u = false) :
    Inv ix { (s.goto' t (.mv v p i) ((s.tv t).join (s.bmsg p i))) with wl := upd2 s.wl p i (some (t, true)) } := by
  have ht : ∀ u w, (s.tv u).ver w → (upd s.tv t ((s.tv t).join (s.bmsg p i)) u).ver w := upd_mono join_mono
  have := I.bucket p i (some (t, true)) (s.sl p i) s.pc (upd s.mp t (.mv v p i)) _ (isA_le I (I.link v p hp).2.1) hd (fun _ => hs) ht
    ?_ ?_ ?_ ?_ (bm := s.bmsg) (an := s.ans)
  · rw [upd2_same] at this; exact this
  · intro u a q j hu
    rw [upd_ne _ _ (fun e : u = t => by rw [e, h] at hu; cases hu)]; exact hu
  · intro u a hu
    rw [upd_ne _ _ (fun e : u = t => by rw [e, h] at hu; cases hu)]; exact hu
  · intro u
    exact (I.pcs u).bucket (.inl (by rw [hw]; simp)) (fun h => h)
  · intro u
    by_cases e : u = t
    · rw [e, upd_eq]
      exact ⟨hp, upd2_eq _ _ _ _⟩
    · rw [upd_ne _ _ e]
      exact (I.mps u).bucket I (.inl (by rw [hw]; simp)) (ht u)

theorem inv_giveUp {ix : Nat → Nat → Nat} {s : State} (I : Inv ix s) {t v p i : Nat} (h : s.mp t = .mv v p i) :
    Inv ix { (s.goto' t (.have v) (s.tv t)) with wl := upd2 s.wl p i none, bmsg := upd2 s.bmsg p i ((s.bmsg p i).join (s.tv t)) } := by
  have hm := I.mps t; rw [h] at hm
  have ht : ∀ u w, (s.tv u).ver w → (upd s.tv t (s.tv t) u).ver w := upd_mono (fun _ h => h)
  have := I.bucket p i none (s.sl p i) s.pc (upd s.mp t (.have v)) _ (wl_le I hm.2) (wl_alive I hm.2) (fun h => absurd rfl h) ht
    ?_ ?_ ?_ ?_ (bm := upd2 s.bmsg p i ((s.bmsg p i).join (s.tv t))) (an := s.ans)
  · rw [upd2_same] at this; exact this
  · intro u a q j hu
    rw [upd_ne _ _ (fun e : u = t => by rw [e, h] at hu; cases hu)]; exact hu
  · intro u a hu
    rw [upd_ne _ _ (fun e : u = t => by rw [e, h] at hu; cases hu)]; exact hu
  · intro u
    exact (I.pcs u).bucket (.inl (by rw [hm.2]; simp)) (fun h => h)
  · intro u
    by_cases e : u = t
    · rw [e, upd_eq]
      exact (I.link v p hm.1).2.2
    · rw [upd_ne _ _ e]
      exact (I.mps u).bucket I (.inl (by rw [hm.2]; intro h; cases h; exact e rfl)) (ht u)

/-- The array of a call that has the lock is the current one, or linked to it. -/
theorem crit_where {ix : Nat → Nat → Nat} {s : State} (I : Inv ix s) {t v : Nat} {o : Op} (ha : s.isA v = true) (h : Held ix s t o v) :
    v = s.n ∨ s.prev s.n = some v := by
  rcases Nat.lt_or_ge v s.n with hl | hl
  · refine .inr (Classical.byContradiction fun hn => ?_)
    rcases I.old v hl ha hn o.key with hd | ⟨u, hu⟩
    · rw [held_alive I h] at hd; cases hd
    · have hm := I.mps u; rw [hu] at hm
      have hw := hm.2.2.2.1 (ix v o.key)
      rcases h with ⟨_, h⟩ | ⟨_, h⟩
      · rw [I.excl v _ (by rw [hw]; simp) t] at h; cases h
      · rw [hw] at h; cases h
  · exact .inl (Nat.le_antisymm (isA_le I ha) hl)

theorem inv_act {ix : Nat → Nat → Nat} {s : State} (I : Inv ix s) {t x : Nat} {o : Op} {v : Nat} (h : s.pc t = .crit x o v) : Inv ix (s.act ix t x o v) := by
  have hp := I.pcs t; rw [h] at hp
  obtain ⟨hA, hg, hh⟩ := hp
  have hal := held_alive I hh
  have hvn := isA_le I hA
  have ht : ∀ u w, (s.tv u).ver w → (upd s.tv t ((s.tv t).addO x) u).ver w := upd_mono (fun _ h => h)
  have hval : ∀ a k, (a = v → ix a k = ix v o.key → False) → upd2 s.val v o.key (o.f (s.val v o.key)).1 a k = s.val a k := by
    intro a k hk
    exact upd2_ne _ _ (fun e => hk e.1 (by rw [e.1, e.2]))
  refine { zero := I.zero, link := I.link, nolink := I.nolink, unl := I.unl, old := I.old, excl := I.excl, made0 := I.made0, made1 := fun u h w hw hm => ht u w (I.made1 u h w hw hm), blank := ?_, dead := ?_, nul := ?_, fresh := ?_, pcs := ?_, mps := ?_ }
  · intro a ha
    obtain ⟨h1, h2, h3, h4, h5⟩ := I.blank a ha
    refine ⟨h1, h2, h3, fun k => ?_, h5⟩
    show upd2 s.val _ _ _ a k = none
    rw [hval a k (fun e => by have ha : s.n < a := ha; omega)]; exact h4 k
  · intro a b hd
    obtain ⟨h1, h2, h3, h4⟩ := I.dead a b hd
    refine ⟨fun k e => ?_, h2, h3, h4⟩
    show upd2 s.val _ _ _ a k = none
    rw [hval a k]
    · exact h1 k e
    · intro e1 e2
      have hd : s.dead a b = true := hd
      rw [← e, e2, e1, hal] at hd; cases hd
  · intro a ha k
    show upd2 s.val _ _ _ a k = none
    rw [hval a k (fun e => by have ha : s.isA a = false := ha; rw [e, hA] at ha; cases ha)]; exact I.nul a ha k
  · intro p hq k hd hm
    show upd2 s.val _ _ _ s.n k = none
    by_cases e : s.n = v ∧ k = o.key
    · exfalso
      have hq : s.prev s.n = some p := hq
      have hd : s.dead p (ix p k) = false := hd
      rcases hg with hg | ⟨p', hg, hdd⟩
      · rw [← e.1, hq] at hg; cases hg
      · rw [← e.1, hq] at hg; cases hg
        rw [← e.2, hd] at hdd; cases hdd
    · rw [upd2_ne _ _ e]; exact I.fresh p hq k hd hm
  · intro u
    show PcOk ix s u (upd s.pc t _ u)
    by_cases e : u = t
    · rw [e, upd_eq]; exact ⟨hA, hg, hh⟩
    · rw [upd_ne _ _ e]; exact I.pcs u
  · intro u
    refine (I.mps u).mono I (fun _ h => h) (fun _ _ => rfl) (fun _ h => h) (fun h => h) (fun _ _ h => h) (Nat.le_refl _) (fun _ _ => rfl) ?_ (ht u)
    intro a k hw hn
    show upd2 s.val _ _ _ a k = none
    rw [hval a k]
    · exact hn
    · intro e1 e2
      rw [e2, e1] at hw
      rcases hh with ⟨_, hh⟩ | ⟨_, hh⟩
      · rw [I.excl v _ (by rw [hw]; simp) t] at hh; cases hh
      · rw [hw] at hh; cases hh

/-- A thread that relocates has the current array and the one linked to it. -/
theorem mv_where {ix : Nat → Nat → Nat} {s : State} (I : Inv ix s) {t v p k : Nat} (hp : s.prev v = some p) (hw : s.wl p (ix p k) = some (t, true))
    (hn : s.mp t ≠ .drd p) : v = s.n := by
  obtain ⟨h1, h2, h3⟩ := I.link v p hp
  have hv := isA_le I h3
  refine Classical.byContradiction fun hne => ?_
  have hq : s.prev s.n ≠ some p := fun e => by have := (I.link _ _ e).1; omega
  rcases I.old p (by omega) h2 hq k with hd | ⟨u, hu⟩
  · rw [wl_alive I hw] at hd; cases hd
  · have hm := I.mps u; rw [hu] at hm
    have := hm.2.2.2.1 (ix p k); rw [hw] at this; cases this; exact hn hu

theorem inv_move {ix : Nat → Nat → Nat} {s : State} (I : Inv ix s) {t v p i : Nat} (h : s.mp t = .mv v p i)
    (hw : ∀ b, Target ix v p i b → s.wl v b = none ∧ ∀ u, s.sl v b u = false) : Inv ix (s.move ix t v p i) := by
  have hm := I.mps t; rw [h] at hm
  obtain ⟨hp, hwl⟩ := hm
  obtain ⟨e1, hAp, hAv⟩ := I.link v p hp
  have hpv : p ≠ v := by omega
  have hvn : ∀ k, ix p k = i → v = s.n := fun k e => mv_where (k := k) I hp (e ▸ hwl) (fun hc => by rw [h] at hc; cases hc)
  have hal := wl_alive I hwl
  have ht : ∀ u w, (s.tv u).ver w → ((s.move ix t v p i).tv u).ver w := upd_mono (fun _ h => .inl h)
  have hval : ∀ a k, (s.move ix t v p i).val a k = if ix p k = i then (if a = v then (s.val p k).or (s.val v k) else if a = p then none else s.val a k) else s.val a k := fun _ _ => rfl
  -- nothing appears except in the targets
  have hnone : ∀ a k, s.val a k = none → ¬(ix p k = i ∧ a = v) → (s.move ix t v p i).val a k = none := by
    intro a k hz hne
    rw [hval]
    by_cases e : ix p k = i
    · rw [if_pos e, if_neg (fun e' => hne ⟨e, e'⟩)]
      by_cases e' : a = p
      · rw [if_pos e']
      · rw [if_neg e']; exact hz
    · rw [if_neg e]; exact hz
  refine { zero := I.zero, link := I.link, nolink := I.nolink, unl := I.unl, excl := I.excl, made0 := I.made0, made1 := fun u h w hw hm => ht u w (I.made1 u h w hw hm), pcs := I.pcs, blank := ?_, old := ?_, dead := ?_, nul := ?_, fresh := ?_, mps := ?_ }
  · intro a ha
    obtain ⟨h1, h2, h3, h4, h5⟩ := I.blank a ha
    exact ⟨h1, h2, h3, fun k => hnone a k (h4 k) (fun e => by have ha : s.n < a := ha; have := isA_le I hAv; omega), h5⟩
  · intro a ha hA hq k
    rcases I.old a ha hA hq k with hd | ⟨u, hu⟩
    · exact .inl hd
    · refine .inr ⟨u, ?_⟩
      show upd s.mp t _ u = _
      rw [upd_ne _ _ (fun e : u = t => by rw [e, h] at hu; cases hu)]; exact hu
  · intro a b hd
    obtain ⟨h1, h2, h3, h4⟩ := I.dead a b hd
    refine ⟨fun k e => hnone a k (h1 k e) (fun e' => ?_), h2, h3, h4⟩
    have := hvn k e'.1
    have h4 : a < s.n := h4
    omega
  · intro a ha k
    exact hnone a k (I.nul a ha k) (fun e => by have ha : s.isA a = false := ha; rw [e.2, hAv] at ha; cases ha)
  · intro q hq k hd hk
    have hq : s.prev s.n = some q := hq
    have hd : s.dead q (ix q k) = false := hd
    have hk : ∀ u, upd s.mp t (.kl v p i) u ≠ .kl s.n q (ix q k) := hk
    have ne : ¬(ix p k = i ∧ s.n = v) := by
      intro e
      have : q = p := by have := (I.link _ _ hq).1; omega
      have := hk t; rw [upd_eq] at this
      exact this (by rw [e.2, ‹q = p›, e.1])
    refine hnone s.n k (I.fresh q hq k hd (fun u hu => ?_)) ne
    by_cases e : u = t
    · rw [e, h] at hu; cases hu
    · exact hk u (by rw [upd_ne _ _ e]; exact hu)
  · intro u
    show MpOk ix (s.move ix t v p i) u (upd s.mp t (.kl v p i) u)
    by_cases e : u = t
    · rw [e, upd_eq]
      refine ⟨hp, hwl, fun k e' => ?_⟩
      rw [hval, if_pos e', if_neg hpv, if_pos rfl]
    · rw [upd_ne _ _ e]
      refine (I.mps u).mono I (fun _ h => h) (fun _ _ => rfl) (fun _ h => h) (fun h => h) (fun _ _ h => h) (Nat.le_refl _) (fun _ _ => rfl) ?_ (ht u)
      intro a k hwa hn
      refine hnone a k hn (fun e' => ?_)
      have := (hw (ix v k) ⟨k, e'.1, rfl⟩).1
      rw [e'.2, this] at hwa; cases hwa

theorem inv_kill {ix : Nat → Nat → Nat} {s : State} (I : Inv ix s) {t v p i : Nat}
    (h : s.mp t = .kl v p i ∨ (s.mp t = .mv v p i ∧ ∀ k, ix p k = i → s.val p k = none)) :
    Inv ix { (s.goto' t (.have v) (s.tv t)) with wl := upd2 s.wl p i none, dead := upd2 s.dead p i true, bmsg := upd2 s.bmsg p i ((s.bmsg p i).join (s.tv t)) } := by
  have hm : s.prev v = some p ∧ s.wl p i = some (t, true) ∧ ∀ k, ix p k = i → s.val p k = none := by
    have hm := I.mps t
    rcases h with h | ⟨h, he⟩
    · rw [h] at hm; exact hm
    · rw [h] at hm; exact ⟨hm.1, hm.2, he⟩
  obtain ⟨hp, hwl, he⟩ := hm
  obtain ⟨e1, hAp, hAv⟩ := I.link v p hp
  have hvn := isA_le I hAv
  have hnd : ∀ a, s.mp t ≠ .drd a := by
    intro a ha; rcases h with h | h
    · rw [h] at ha; cases ha
    · rw [h.1] at ha; cases ha
  have ht : ∀ u w, (s.tv u).ver w → (upd s.tv t (s.tv t) u).ver w := upd_mono (fun _ h => h)
  have hdd : ∀ a b, s.dead a b = true → upd2 s.dead p i true a b = true := by
    intro a b hd
    by_cases e : a = p ∧ b = i
    · rw [e.1, e.2, upd2_eq]
    · rw [upd2_ne _ _ e]; exact hd
  refine { zero := I.zero, link := I.link, nolink := I.nolink, nul := I.nul, made0 := I.made0, made1 := fun u h w hw hm => ht u w (I.made1 u h w hw hm), blank := ?_, unl := ?_, old := ?_, dead := ?_, excl := ?_, fresh := ?_, pcs := ?_, mps := ?_ }
  · intro a ha
    obtain ⟨h1, h2, h3, h4, h5⟩ := I.blank a ha
    have ha : s.n < a := ha
    refine ⟨h1, h2, h3, h4, fun b => ?_⟩
    have ne : ¬(a = p ∧ b = i) := fun e => by omega
    refine ⟨?_, ?_, (h5 b).2.2⟩
    · show upd2 s.dead p i true a b = false; rw [upd2_ne _ _ ne]; exact (h5 b).1
    · show upd2 s.wl p i none a b = none; rw [upd2_ne _ _ ne]; exact (h5 b).2.1
  · intro a ha q hq k
    exact hdd _ _ (I.unl a ha q hq k)
  · intro a ha hA hq k
    rcases I.old a ha hA hq k with hd | ⟨u, hu⟩
    · exact .inl (hdd _ _ hd)
    · refine .inr ⟨u, ?_⟩
      show upd s.mp t _ u = _
      rw [upd_ne _ _ (fun e : u = t => hnd _ (e ▸ hu))]; exact hu
  · intro a b hd
    have hd : upd2 s.dead p i true a b = true := hd
    by_cases e : a = p ∧ b = i
    · refine ⟨fun k ek => ?_, ?_, ?_, ?_⟩
      · show s.val a k = none; rw [e.1]; exact he k (by rw [← e.1, ek, e.2])
      · show upd2 s.wl p i none a b = none; rw [e.1, e.2, upd2_eq]
      · show ∀ u, s.sl a b u = false; rw [e.1, e.2]; exact I.excl p i (by rw [hwl]; simp)
      · show a < s.n; omega
    · rw [upd2_ne _ _ e] at hd
      obtain ⟨h1, h2, h3, h4⟩ := I.dead a b hd
      refine ⟨h1, ?_, h3, h4⟩
      show upd2 s.wl p i none a b = none; rw [upd2_ne _ _ e]; exact h2
  · intro a b hz
    have hz : upd2 s.wl p i none a b ≠ none := hz
    by_cases e : a = p ∧ b = i
    · rw [e.1, e.2, upd2_eq] at hz; exact absurd rfl hz
    · rw [upd2_ne _ _ e] at hz; exact I.excl a b hz
  · intro q hq k hd hk
    have hq : s.prev s.n = some q := hq
    have hd : upd2 s.dead p i true q (ix q k) = false := hd
    have hk : ∀ u, upd s.mp t (.have v) u ≠ .kl s.n q (ix q k) := hk
    have ne : ¬(q = p ∧ ix q k = i) := by
      intro e; rw [e.2, e.1, upd2_eq] at hd; cases hd
    rw [upd2_ne _ _ ne] at hd
    refine I.fresh q hq k hd (fun u hu => ?_)
    by_cases e : u = t
    · rw [e] at hu
      rcases h with h | h
      · rw [h] at hu; cases hu; exact ne ⟨rfl, rfl⟩
      · rw [h.1] at hu; cases hu
    · exact hk u (by rw [upd_ne _ _ e]; exact hu)
  · intro u
    exact (I.pcs u).mono (fun _ h => h) (fun _ _ => rfl) hdd (upd2_keep (.inl (by rw [hwl]; simp))) (fun _ _ h => h)
  · intro u
    show MpOk ix _ u (upd s.mp t (.have v) u)
    by_cases e : u = t
    · rw [e, upd_eq]; exact hAv
    · rw [upd_ne _ _ e]
      refine (I.mps u).mono I (fun _ h => h) (fun _ _ => rfl) (fun _ h => h) (fun h => h) (upd2_keep (.inl ?_)) (Nat.le_refl _) (fun _ _ => rfl) (fun _ _ _ h => h) (ht u)
      rw [hwl]; intro hc; cases hc; exact e rfl

end Scc.Haze
