import Verif.Haze.Steps

/-! # Unlinking and resizing -/

namespace Scc.Haze

theorem inv_unlink {ix : Nat → Nat → Nat} {s : State} (I : Inv ix s) {v p : Nat} (hp : s.prev v = some p) (hd : ∀ k, s.dead p (ix p k) = true) (um : Nat → View) :
    Inv ix { s with unl := upd s.unl v true, umsg := um } := by
  have hvn := isA_le I (I.link v p hp).2.2
  have hu : ∀ a, s.unl a = true → upd s.unl v true a = true := by
    intro a ha
    by_cases e : a = v
    · rw [e, upd_eq]
    · rw [upd_ne _ _ e]; exact ha
  refine { zero := I.zero, link := I.link, nolink := I.nolink, old := I.old, dead := I.dead, excl := I.excl, nul := I.nul, fresh := I.fresh, made0 := I.made0, made1 := I.made1, pcs := I.pcs, blank := ?_, unl := ?_, mps := ?_ }
  · intro a ha
    obtain ⟨h1, h2, h3, h4⟩ := I.blank a ha
    have ha : s.n < a := ha
    refine ⟨h1, h2, ?_, h4⟩
    show upd s.unl v true a = false; rw [upd_ne _ _ (by omega)]; exact h3
  · intro a ha q hq k
    by_cases e : a = v
    · rw [e] at hq
      have hq : s.prev v = some q := hq
      rw [hp] at hq; cases hq; exact hd k
    · have ha : upd s.unl v true a = true := ha
      rw [upd_ne _ _ e] at ha; exact I.unl a ha q hq k
  · intro u
    exact (I.mps u).mono I (fun _ h => h) (fun _ _ => rfl) hu (fun h => h) (fun _ _ h => h) (Nat.le_refl _) (fun _ _ => rfl) (fun _ _ _ h => h) (fun _ h => h)

theorem inv_resize {ix : Nat → Nat → Nat} {s : State} (I : Inv ix s) {t v : Nat} (h : s.mp t = .chk v) (hr : s.rs = none) :
    Inv ix { (s.goto' t (.lk v) ((s.tv t).join s.rmsg)) with rs := some t } := by
  have hm := I.mps t; rw [h] at hm
  have ht : ∀ u w, (s.tv u).ver w → (upd s.tv t ((s.tv t).join s.rmsg) u).ver w := upd_mono join_mono
  refine { zero := I.zero, link := I.link, nolink := I.nolink, unl := I.unl, dead := I.dead, excl := I.excl, nul := I.nul, made0 := ?_, made1 := ?_, pcs := I.pcs, blank := I.blank, old := ?_, fresh := ?_, mps := ?_ }
  · intro a ha hA hq k
    rcases I.old a ha hA hq k with hd | ⟨u, hu⟩
    · exact .inl hd
    · refine .inr ⟨u, ?_⟩
      show upd s.mp t _ u = _
      rw [upd_ne _ _ (fun e : u = t => by rw [e, h] at hu; cases hu)]; exact hu
  · intro q hq k hd hk
    refine I.fresh q hq k hd (fun u hu => hk u ?_)
    show upd s.mp t _ u = _
    rw [upd_ne _ _ (fun e : u = t => by rw [e, h] at hu; cases hu)]; exact hu
  · intro hc; cases hc
  · intro u hu w hw hm'
    cases hu
    show (upd s.tv t ((s.tv t).join s.rmsg) t).ver w
    rw [upd_eq]; exact .inr (I.made0 hr w hw hm')
  · intro u
    show MpOk ix _ u (upd s.mp t (.lk v) u)
    by_cases e : u = t
    · rw [e, upd_eq]; exact ⟨hm.1, hm.2, rfl⟩
    · rw [upd_ne _ _ e]
      refine (I.mps u).mono I (fun _ h => h) (fun _ _ => rfl) (fun _ h => h) (fun h => ?_) (fun _ _ h => h) (Nat.le_refl _) (fun _ _ => rfl) (fun _ _ _ h => h) (ht u)
      rw [hr] at h; cases h

theorem inv_done {ix : Nat → Nat → Nat} {s : State} (I : Inv ix s) {t : Nat} (h : s.mp t = .fin) :
    Inv ix { (s.goto' t .idle (s.tv t)) with rs := none, rmsg := s.rmsg.join (s.tv t) } := by
  have hm := I.mps t; rw [h] at hm
  have hm : s.rs = some t := hm
  have ht : ∀ u w, (s.tv u).ver w → (upd s.tv t (s.tv t) u).ver w := upd_mono (fun _ h => h)
  refine { zero := I.zero, link := I.link, nolink := I.nolink, unl := I.unl, dead := I.dead, excl := I.excl, nul := I.nul, made0 := ?_, made1 := ?_, pcs := I.pcs, blank := I.blank, old := ?_, fresh := ?_, mps := ?_ }
  · intro a ha hA hq k
    rcases I.old a ha hA hq k with hd | ⟨u, hu⟩
    · exact .inl hd
    · refine .inr ⟨u, ?_⟩
      show upd s.mp t _ u = _
      rw [upd_ne _ _ (fun e : u = t => by rw [e, h] at hu; cases hu)]; exact hu
  · intro q hq k hd hk
    refine I.fresh q hq k hd (fun u hu => hk u ?_)
    show upd s.mp t _ u = _
    rw [upd_ne _ _ (fun e : u = t => by rw [e, h] at hu; cases hu)]; exact hu
  · intro _ w hw hm'
    exact .inr (I.made1 t hm w hw hm')
  · intro u hu; cases hu
  · intro u
    show MpOk ix _ u (upd s.mp t .idle u)
    by_cases e : u = t
    · rw [e, upd_eq]; trivial
    · rw [upd_ne _ _ e]
      refine (I.mps u).mono I (fun _ h => h) (fun _ _ => rfl) (fun _ h => h) (fun h => ?_) (fun _ _ h => h) (Nat.le_refl _) (fun _ _ => rfl) (fun _ _ _ h => h) (ht u)
      rw [hm] at h; cases h; exact absurd rfl e

/-- A new value of the pointer. -/
theorem Inv.push {ix : Nat → Nat → Nat} {s : State} (I : Inv ix s) {a : Bool} {l : Option Nat} {rel : View} {pc' : Nat → Pc} {mp' : Nat → Mp} {tv' : Nat → View}
    (hl : ∀ p, l = some p → p = s.n ∧ a = true ∧ s.isA s.n = true) (hnl : a = true → l = none → s.isA s.n = false)
    (hold : ∀ v, v ≤ s.n → s.isA v = true → l ≠ some v → ∀ k, s.dead v (ix v k) = true ∨ ∃ u, mp' u = .drd v)
    (ht : ∀ u w, (s.tv u).ver w → (tv' u).ver w)
    (hm : (a = false ∨ l ≠ none) → ∃ t, s.rs = some t ∧ (tv' t).ver (s.n + 1))
    (hpc : ∀ u, PcOk ix (s.push a l rel) u (pc' u)) (hmp : ∀ u, MpOk ix { (s.push a l rel) with tv := tv' } u (mp' u)) :
    Inv ix { (s.push a l rel) with pc := pc', mp := mp', tv := tv' } := by
  have bl := I.blank (s.n + 1) (Nat.lt_succ_self _)
  have hA : ∀ v, v ≠ s.n + 1 → upd s.isA (s.n + 1) a v = s.isA v := fun v h => upd_ne _ _ h
  have hP : ∀ v, v ≠ s.n + 1 → upd s.prev (s.n + 1) l v = s.prev v := fun v h => upd_ne _ _ h
  refine { excl := I.excl, pcs := hpc, mps := hmp, blank := ?_, zero := ?_, link := ?_, nolink := ?_, unl := ?_, old := ?_, dead := ?_, nul := ?_, fresh := ?_, made0 := ?_, made1 := ?_ }
  · intro v hv
    have hv : s.n + 1 < v := hv
    obtain ⟨h1, h2, h3⟩ := I.blank v (by omega)
    refine ⟨?_, ?_, h3⟩
    · show upd s.isA (s.n + 1) a v = false; rw [hA v (by omega)]; exact h1
    · show upd s.prev (s.n + 1) l v = none; rw [hP v (by omega)]; exact h2
  · show upd s.isA (s.n + 1) a 0 = false; rw [hA 0 (by omega)]; exact I.zero
  · intro v p hp
    have hp : upd s.prev (s.n + 1) l v = some p := hp
    show v = p + 1 ∧ upd s.isA (s.n + 1) a p = true ∧ upd s.isA (s.n + 1) a v = true
    by_cases e : v = s.n + 1
    · rw [e, upd_eq] at hp
      obtain ⟨h1, h2, h3⟩ := hl p hp
      refine ⟨by omega, ?_, ?_⟩
      · rw [hA p (by omega), h1]; exact h3
      · rw [e, upd_eq]; exact h2
    · rw [hP v e] at hp
      obtain ⟨h1, h2, h3⟩ := I.link v p hp
      have := isA_le I h2
      rw [hA p (by omega), hA v e]; exact ⟨h1, h2, h3⟩
  · intro w hw hp
    have hw : upd s.isA (s.n + 1) a (w + 1) = true := hw
    have hp : upd s.prev (s.n + 1) l (w + 1) = none := hp
    show upd s.isA (s.n + 1) a w = false
    by_cases e : w = s.n
    · rw [e, upd_eq] at hw hp
      rw [hA w (by omega), e]; exact hnl hw hp
    · rw [hA _ (by omega)] at hw; rw [hP _ (by omega)] at hp
      have := isA_le I hw
      rw [hA w (by omega)]; exact I.nolink w hw hp
  · intro v hu p hp k
    have hp : upd s.prev (s.n + 1) l v = some p := hp
    have hu : s.unl v = true := hu
    by_cases e : v = s.n + 1
    · rw [e, bl.2.2.1] at hu; cases hu
    · rw [hP v e] at hp; exact I.unl v hu p hp k
  · intro v hv hAv hq k
    have hv : v < s.n + 1 := hv
    have hAv : upd s.isA (s.n + 1) a v = true := hAv
    have hq : upd s.prev (s.n + 1) l (s.n + 1) ≠ some v := hq
    rw [hA v (by omega)] at hAv; rw [upd_eq] at hq
    exact hold v (by omega) hAv hq k
  · intro v b hd
    obtain ⟨h1, h2, h3, h4⟩ := I.dead v b hd
    exact ⟨h1, h2, h3, Nat.lt_succ_of_lt h4⟩
  · intro v hv k
    have hv : upd s.isA (s.n + 1) a v = false := hv
    by_cases e : v = s.n + 1
    · rw [e]; exact bl.2.2.2.1 k
    · rw [hA v e] at hv; exact I.nul v hv k
  · intro p _ k _ _
    exact bl.2.2.2.1 k
  · intro hr w hw hm'
    have hr : s.rs = none := hr
    have hw : w ≤ s.n + 1 := hw
    have hm' : upd s.isA (s.n + 1) a w = false ∨ upd s.prev (s.n + 1) l w ≠ none := hm'
    show s.rmsg.ver w
    by_cases e : w = s.n + 1
    · rw [e, upd_eq, upd_eq] at hm'
      obtain ⟨t, h1, _⟩ := hm hm'
      rw [hr] at h1; cases h1
    · rw [hA w e, hP w e] at hm'; exact I.made0 hr w (by omega) hm'
  · intro u hr w hw hm'
    have hr : s.rs = some u := hr
    have hw : w ≤ s.n + 1 := hw
    have hm' : upd s.isA (s.n + 1) a w = false ∨ upd s.prev (s.n + 1) l w ≠ none := hm'
    show (tv' u).ver w
    by_cases e : w = s.n + 1
    · rw [e, upd_eq, upd_eq] at hm'
      obtain ⟨t, h1, h2⟩ := hm hm'
      rw [hr] at h1; cases h1; rw [e]; exact h2
    · rw [hA w e, hP w e] at hm'; exact ht u w (I.made1 u hr w (by omega) hm')

theorem push_isA {ix : Nat → Nat → Nat} {s : State} (I : Inv ix s) (a : Bool) {v : Nat} (h : s.isA v = true) : upd s.isA (s.n + 1) a v = true := by
  have := isA_le I h; rw [upd_ne _ _ (by omega)]; exact h

theorem push_prev {ix : Nat → Nat → Nat} {s : State} (I : Inv ix s) (l : Option Nat) {v : Nat} (h : s.isA v = true) : upd s.prev (s.n + 1) l v = s.prev v := by
  have := isA_le I h; rw [upd_ne _ _ (by omega)]

theorem PcOk.push {ix : Nat → Nat → Nat} {s : State} (I : Inv ix s) {a : Bool} {l : Option Nat} {rel : View} {u : Nat} {q : Pc} (h : PcOk ix s u q) :
    PcOk ix (s.push a l rel) u q :=
  h.mono (fun _ h => push_isA I a h) (fun _ h => push_prev I l h) (fun _ _ h => h) (fun _ _ h => h) (fun _ _ h => h)

theorem MpOk.push {ix : Nat → Nat → Nat} {s : State} (I : Inv ix s) {a : Bool} {l : Option Nat} {rel : View} {tv' : Nat → View} {u : Nat} {q : Mp} (h : MpOk ix s u q)
    (hn : s.rs = some u → s.isA s.n = true → False) (ht : ∀ w, (s.tv u).ver w → (tv' u).ver w) :
    MpOk ix { (s.push a l rel) with tv := tv' } u q :=
  h.mono I (fun _ h => push_isA I a h) (fun _ h => push_prev I l h) (fun _ h => h) (fun h => h) (fun _ _ h => h) (Nat.le_succ _)
    (fun h h' => absurd h' (fun h' => hn h h')) (fun _ _ _ h => h) ht

theorem inv_make {ix : Nat → Nat → Nat} {s : State} (I : Inv ix s) {t x : Nat} {o : Op} (ha : s.isA s.n = false) (rel : View) :
    Inv ix ((s.push true none rel).goto t (.at x o (s.n + 1)) ((acq s t s.n).addV (s.n + 1))) := by
  have ht : ∀ u w, (s.tv u).ver w → (upd s.tv t ((acq s t s.n).addV (s.n + 1)) u).ver w := upd_mono (fun w h => .inl (acq_mono w h))
  refine I.push (fun p h => by cases h) (fun _ _ => ha) ?_ ht (fun h => by rcases h with h | h; cases h; exact absurd rfl h) ?_ ?_
  · intro v hv hA _ k
    have hv : v < s.n := Nat.lt_of_le_of_ne hv (fun e => by rw [e, ha] at hA; cases hA)
    exact I.old v hv hA (fun e => by have := (I.link _ _ e).2.2; rw [ha] at this; cases this) k
  · intro u
    show PcOk ix _ u (upd s.pc t _ u)
    by_cases e : u = t
    · rw [e, upd_eq]; show upd s.isA (s.n + 1) true (s.n + 1) = true; rw [upd_eq]
    · rw [upd_ne _ _ e]; exact (I.pcs u).push I
  · intro u
    exact (I.mps u).push I (fun _ h => by rw [ha] at h; cases h) (ht u)

theorem inv_grow {ix : Nat → Nat → Nat} {s : State} (I : Inv ix s) {t v m : Nat} (h : s.mp t = .swp v) (ok : Ok s t m) (rel : View) :
    Inv ix ((s.push true (if s.isA m then some m else none) rel).goto' t .fin ((s.tv t).addV (s.n + 1))) := by
  have hm := I.mps t; rw [h] at hm
  obtain ⟨hA, hl, hr, hv, hk⟩ := hm
  have e : m = s.n := by have := ok.1; have := ok.2 v hk; omega
  have hA' : s.isA s.n = true := hv ▸ hA
  have ht : ∀ u w, (s.tv u).ver w → (upd s.tv t ((s.tv t).addV (s.n + 1)) u).ver w := upd_mono (fun w h => .inl h)
  rw [e, hA']
  refine I.push (fun p h => by cases h; exact ⟨rfl, rfl, hA'⟩) (fun _ h => by cases h) ?_ ht (fun _ => ⟨t, hr, ?_⟩) ?_ ?_
  · intro w hw hAw hne k
    have hw : w < s.n := Nat.lt_of_le_of_ne hw (fun e => hne (by rw [e]; rfl))
    by_cases hq : s.prev s.n = some w
    · rw [hv] at hl
      rcases hl with hl | hl
      · rw [hl] at hq; cases hq
      · exact .inl (I.unl _ hl w hq k)
    · rcases I.old w hw hAw hq k with hd | ⟨u, hu⟩
      · exact .inl hd
      · refine .inr ⟨u, ?_⟩
        rw [upd_ne _ _ (fun e : u = t => by rw [e, h] at hu; cases hu)]; exact hu
  · show (upd s.tv t _ t).ver _
    rw [upd_eq]; exact .inr rfl
  · intro u
    exact (I.pcs u).push I
  · intro u
    show MpOk ix _ u (upd s.mp t .fin u)
    by_cases e : u = t
    · rw [e, upd_eq]; exact hr
    · rw [upd_ne _ _ e]
      exact (I.mps u).push I (fun h _ => by rw [hr] at h; cases h; exact e rfl) (ht u)

theorem inv_lockAll {ix : Nat → Nat → Nat} {s : State} (I : Inv ix s) {t v : Nat} (h : s.mp t = .swp v) (hd : ∀ b, s.dead v b = false) (hw : ∀ b, s.wl v b = none)
    (hs : ∀ b u, s.sl v b u = false) (he : ∀ k, s.val v k = none) :
    Inv ix { (s.goto' t (.drp v) ((s.tv t).join (View.sup (s.bmsg v) (fun _ => True)))) with wl := fun a b => if a = v then some (t, true) else s.wl a b } := by
  have hm := I.mps t; rw [h] at hm
  obtain ⟨hA, hl, hr, hv, hk⟩ := hm
  have ht : ∀ u w, (s.tv u).ver w → (upd s.tv t ((s.tv t).join (View.sup (s.bmsg v) (fun _ => True))) u).ver w := upd_mono join_mono
  have hkeep : ∀ (z : Nat × Bool) a b, s.wl a b = some z → (if a = v then some (t, true) else s.wl a b) = some z := by
    intro z a b hz
    by_cases e : a = v
    · rw [e, hw] at hz; cases hz
    · rw [if_neg e]; exact hz
  refine { zero := I.zero, link := I.link, nolink := I.nolink, unl := I.unl, nul := I.nul, made0 := I.made0, made1 := fun u h w hw hm => ht u w (I.made1 u h w hw hm), blank := ?_, old := ?_, dead := ?_, excl := ?_, fresh := ?_, pcs := ?_, mps := ?_ }
  · intro a ha
    obtain ⟨h1, h2, h3, h4, h5⟩ := I.blank a ha
    have ha : s.n < a := ha
    refine ⟨h1, h2, h3, h4, fun b => ⟨(h5 b).1, ?_, (h5 b).2.2⟩⟩
    show (if a = v then some (t, true) else s.wl a b) = none
    rw [if_neg (by omega)]; exact (h5 b).2.1
  · intro a ha hA hq k
    rcases I.old a ha hA hq k with hd | ⟨u, hu⟩
    · exact .inl hd
    · refine .inr ⟨u, ?_⟩
      show upd s.mp t _ u = _
      rw [upd_ne _ _ (fun e : u = t => by rw [e, h] at hu; cases hu)]; exact hu
  · intro a b hdd
    have hdd : s.dead a b = true := hdd
    obtain ⟨h1, h2, h3, h4⟩ := I.dead a b hdd
    refine ⟨h1, ?_, h3, h4⟩
    show (if a = v then some (t, true) else s.wl a b) = none
    rw [if_neg (fun e => by rw [e, hd] at hdd; cases hdd)]; exact h2
  · intro a b hz u
    have hz : (if a = v then some (t, true) else s.wl a b) ≠ none := hz
    show s.sl a b u = false
    by_cases e : a = v
    · rw [e]; exact hs b u
    · rw [if_neg e] at hz; exact I.excl a b hz u
  · intro q hq k hdd hk
    refine I.fresh q hq k hdd (fun u hu => hk u ?_)
    show upd s.mp t _ u = _
    rw [upd_ne _ _ (fun e : u = t => by rw [e, h] at hu; cases hu)]; exact hu
  · intro u
    exact (I.pcs u).mono (fun _ h => h) (fun _ _ => rfl) (fun _ _ h => h) (hkeep _) (fun _ _ h => h)
  · intro u
    show MpOk ix _ u (upd s.mp t (.drp v) u)
    by_cases e : u = t
    · rw [e, upd_eq]; exact ⟨hA, hl, hr, hv, fun b => if_pos rfl, he⟩
    · rw [upd_ne _ _ e]
      exact (I.mps u).mono I (fun _ h => h) (fun _ _ => rfl) (fun _ h => h) (fun h => h) (hkeep _) (Nat.le_refl _) (fun _ _ => rfl) (fun _ _ _ h => h) (ht u)

theorem inv_clear {ix : Nat → Nat → Nat} {s : State} (I : Inv ix s) {t v : Nat} (h : s.mp t = .drp v) (rel : View) :
    Inv ix ((s.push false none rel).goto' t (.drd v) ((s.tv t).addV (s.n + 1))) := by
  have hm := I.mps t; rw [h] at hm
  obtain ⟨hA, hl, hr, hv, hw, he⟩ := hm
  have ht : ∀ u w, (s.tv u).ver w → (upd s.tv t ((s.tv t).addV (s.n + 1)) u).ver w := upd_mono (fun w h => .inl h)
  refine I.push (fun p h => by cases h) (fun h => by cases h) ?_ ht (fun _ => ⟨t, hr, ?_⟩) ?_ ?_
  · intro w hw' hAw hne k
    by_cases e : w = s.n
    · exact .inr ⟨t, by rw [upd_eq, e, hv]⟩
    have hw' : w < s.n := Nat.lt_of_le_of_ne hw' e
    by_cases hq : s.prev s.n = some w
    · rw [hv] at hl
      rcases hl with hl | hl
      · rw [hl] at hq; cases hq
      · exact .inl (I.unl _ hl w hq k)
    · rcases I.old w hw' hAw hq k with hd | ⟨u, hu⟩
      · exact .inl hd
      · refine .inr ⟨u, ?_⟩
        rw [upd_ne _ _ (fun e : u = t => by rw [e, h] at hu; cases hu)]; exact hu
  · show (upd s.tv t _ t).ver _
    rw [upd_eq]; exact .inr rfl
  · intro u
    exact (I.pcs u).push I
  · intro u
    show MpOk ix _ u (upd s.mp t (.drd v) u)
    by_cases e : u = t
    · rw [e, upd_eq]
      exact ⟨push_isA I false hA, hr, by show v < s.n + 1; omega, hw, he⟩
    · rw [upd_ne _ _ e]
      exact (I.mps u).push I (fun h _ => by rw [hr] at h; cases h; exact e rfl) (ht u)

theorem inv_killAll {ix : Nat → Nat → Nat} {s : State} (I : Inv ix s) {t v : Nat} (h : s.mp t = .drd v) (bm : Nat → Nat → View) :
    Inv ix { (s.goto' t .fin (s.tv t)) with wl := fun a b => if a = v then none else s.wl a b, dead := fun a b => if a = v then true else s.dead a b, bmsg := bm } := by
  have hm := I.mps t; rw [h] at hm
  obtain ⟨hA, hr, hv, hw, he⟩ := hm
  have ht : ∀ u w, (s.tv u).ver w → (upd s.tv t (s.tv t) u).ver w := upd_mono (fun w h => h)
  have hdd : ∀ a b, s.dead a b = true → (if a = v then true else s.dead a b) = true := by
    intro a b hd
    by_cases e : a = v
    · rw [if_pos e]
    · rw [if_neg e]; exact hd
  refine { zero := I.zero, link := I.link, nolink := I.nolink, nul := I.nul, made0 := I.made0, made1 := fun u h w hw hm => ht u w (I.made1 u h w hw hm), blank := ?_, unl := ?_, old := ?_, dead := ?_, excl := ?_, fresh := ?_, pcs := ?_, mps := ?_ }
  · intro a ha
    obtain ⟨h1, h2, h3, h4, h5⟩ := I.blank a ha
    have ha : s.n < a := ha
    refine ⟨h1, h2, h3, h4, fun b => ⟨?_, ?_, (h5 b).2.2⟩⟩
    · show (if a = v then true else s.dead a b) = false
      rw [if_neg (by omega)]; exact (h5 b).1
    · show (if a = v then none else s.wl a b) = none
      rw [if_neg (by omega)]; exact (h5 b).2.1
  · intro a hu q hq k
    exact hdd _ _ (I.unl a hu q hq k)
  · intro a ha hA' hq k
    by_cases e : a = v
    · exact .inl (by show (if a = v then true else s.dead a _) = true; rw [if_pos e])
    rcases I.old a ha hA' hq k with hd | ⟨u, hu⟩
    · exact .inl (hdd _ _ hd)
    · refine .inr ⟨u, ?_⟩
      show upd s.mp t _ u = _
      rw [upd_ne _ _ (fun e' : u = t => by rw [e', h] at hu; cases hu; exact e rfl)]; exact hu
  · intro a b hd
    have hd : (if a = v then true else s.dead a b) = true := hd
    by_cases e : a = v
    · refine ⟨fun k _ => ?_, ?_, ?_, ?_⟩
      · show s.val a k = none; rw [e]; exact he k
      · show (if a = v then none else s.wl a b) = none; rw [if_pos e]
      · show ∀ u, s.sl a b u = false; rw [e]; exact I.excl v b (by rw [hw]; simp)
      · show a < s.n; omega
    · rw [if_neg e] at hd
      obtain ⟨h1, h2, h3, h4⟩ := I.dead a b hd
      refine ⟨h1, ?_, h3, h4⟩
      show (if a = v then none else s.wl a b) = none; rw [if_neg e]; exact h2
  · intro a b hz u
    have hz : (if a = v then none else s.wl a b) ≠ none := hz
    by_cases e : a = v
    · rw [if_pos e] at hz; exact absurd rfl hz
    · rw [if_neg e] at hz; exact I.excl a b hz u
  · intro q hq k hd hk
    have hd : (if q = v then true else s.dead q (ix q k)) = false := hd
    have ne : q ≠ v := fun e => by rw [if_pos e] at hd; cases hd
    rw [if_neg ne] at hd
    refine I.fresh q hq k hd (fun u hu => hk u ?_)
    show upd s.mp t _ u = _
    rw [upd_ne _ _ (fun e : u = t => by rw [e, h] at hu; cases hu)]; exact hu
  · intro u
    refine (I.pcs u).mono (fun _ h => h) (fun _ _ => rfl) hdd ?_ (fun _ _ h => h)
    intro a b hz
    show (if a = v then none else s.wl a b) = _
    rw [if_neg (fun e => by rw [e, hw] at hz; cases hz)]; exact hz
  · intro u
    show MpOk ix _ u (upd s.mp t .fin u)
    by_cases e : u = t
    · rw [e, upd_eq]; exact hr
    · rw [upd_ne _ _ e]
      refine (I.mps u).mono I (fun _ h => h) (fun _ _ => rfl) (fun _ h => h) (fun h => h) ?_ (Nat.le_refl _) (fun _ _ => rfl) (fun _ _ _ h => h) (ht u)
      intro a b hz
      show (if a = v then none else s.wl a b) = _
      rw [if_neg (fun e' => by rw [e', hw] at hz; cases hz; exact e rfl)]; exact hz

/-- The array found to be current with the resize lock held is the last one. -/
theorem same_last {ix : Nat → Nat → Nat} {s : State} (I : Inv ix s) {t v : Nat} (hA : s.isA v = true) (hr : s.rs = some t) (ok : Ok s t v) : v = s.n := by
  refine Classical.byContradiction fun hne => ?_
  have hlt : v + 1 ≤ s.n := by have := ok.1; omega
  by_cases hm : s.isA (v + 1) = false ∨ s.prev (v + 1) ≠ none
  · have := ok.2 _ (I.made1 t hr (v + 1) hlt hm); omega
  · have h1 : s.isA (v + 1) = true := by
      cases e : s.isA (v + 1) with
      | true => rfl
      | false => exact absurd (.inl e) hm
    have h2 : s.prev (v + 1) = none := Classical.byContradiction fun e => hm (.inr e)
    rw [I.nolink v h1 h2] at hA; cases hA

theorem inv_step {ix : Nat → Nat → Nat} {s s' : State} (I : Inv ix s) (st : Step ix s s') : Inv ix s' := by
  cases st with
  | @call t o h => exact I.pcstep t (.go s.nid o) s.tv (fun _ _ h => h) trivial
  | @send t =>
    exact { blank := I.blank, zero := I.zero, link := I.link, nolink := I.nolink, unl := I.unl, old := I.old, dead := I.dead, excl := I.excl, nul := I.nul, fresh := I.fresh, made0 := I.made0, made1 := I.made1, pcs := I.pcs, mps := I.mps }
  | @recv t v h =>
    have := I.pcstep t (s.pc t) (upd s.tv t ((s.tv t).join v)) (upd_mono join_mono) (I.pcs t) (cm := s.cmsg) (um := s.umsg) (bm := s.bmsg) (po := s.post) (lg := s.log)
      (ni := s.nid) (be := s.bef) (an := s.ans) (w := s.wr) (r := s.rd)
    have e : upd s.pc t (s.pc t) = s.pc := by funext u; by_cases e : u = t; rw [e, upd_eq]; rw [upd_ne _ _ e]
    rw [e] at this; exact this
  | @load t x o m h ok ha => exact I.pcstep t (.at x o m) _ (upd_mono acq_mono) ha
  | @null t x o m h ok ha hm => exact I.pcstep t .idle (upd s.tv t ((acq s t m).addO x)) (upd_mono (fun w h => acq_mono w h)) trivial
  | @loadNull t x o m h ok ha hm => exact I.pcstep t (.alloc x o) _ (upd_mono acq_mono) trivial
  | make h ha => exact inv_make I ha _
  | @found t x o m h ok ha => exact I.pcstep t (.at x o m) _ (upd_mono acq_mono) ha
  | @direct t x o v h hp =>
    have hq := I.pcs t; rw [h] at hq
    exact I.pcstep t (.rdy x o v) _ (upd_mono (fun _ h => h)) ⟨hq, .inl hp⟩
  | @past t x o v h hu =>
    have hq := I.pcs t; rw [h] at hq
    refine I.pcstep t (.rdy x o v) _ (upd_mono join_mono) ⟨hq, ?_⟩
    cases e : s.prev v with
    | none => exact .inl e
    | some p => exact .inr ⟨p, e, I.unl v hu p e _⟩
  | @moved t x o v p l h hp hd =>
    have hq := I.pcs t; rw [h] at hq
    refine I.pcstep t (.rdy x o v) _ (upd_mono ?_) ⟨hq, .inr ⟨p, hp, hd⟩⟩
    intro w hw; cases l
    · exact hw
    · exact .inl hw
  | lock h hr hd hw hs => exact inv_lock I h hr hd hw hs
  | share h hr hd hw => exact inv_share I h hr hd hw
  | @retry t x o v l h hd =>
    refine I.pcstep t (.go x o) _ (upd_mono ?_) trivial
    intro w hw; cases l
    · exact hw
    · exact .inl hw
  | act h => exact inv_act I h
  | unlock h hr => exact inv_unlock I h hr
  | unshare h hr => exact inv_unshare I h hr
  | @take t m h ok ha => exact I.mpstep t (.have m) _ (upd_mono acq_mono) ha (fun _ _ _ => by rw [h]; simp) (fun _ => by rw [h]; simp)
  | @leave t v h => exact I.mpstep t .idle _ (upd_mono (fun _ h => h)) trivial (fun _ _ _ => by rw [h]; simp) (fun _ => by rw [h]; simp)
  | pick i h hp hd hw hs => exact inv_pick I h hp hd hw hs
  | move h hw => exact inv_move I h hw
  | giveUp h => exact inv_giveUp I h
  | kill h => exact inv_kill I h
  | unlink h hp hd => exact inv_unlink I hp hd _
  | @check t v h ok hl =>
    have hq := I.mps t; rw [h] at hq
    refine I.mpstep t (.chk v) _ (upd_mono ?_) ⟨hq, hl⟩ (fun _ _ _ => by rw [h]; simp) (fun _ => by rw [h]; simp)
    intro w hw; cases s.unl v
    · exact acq_mono w hw
    · exact .inl (acq_mono w hw)
  | resize h hr => exact inv_resize I h hr
  | @busy t v h =>
    have hq := I.mps t; rw [h] at hq
    exact I.mpstep t (.have v) _ (upd_mono (fun _ h => h)) hq.1 (fun _ _ _ => by rw [h]; simp) (fun _ => by rw [h]; simp)
  | @same t v h ok =>
    have hq := I.mps t; rw [h] at hq
    refine I.mpstep t (.swp v) _ (upd_mono acq_mono) ⟨hq.1, hq.2.1, hq.2.2, same_last I hq.1 hq.2.2 ok, ?_⟩ (fun _ _ _ => by rw [h]; simp) (fun _ => by rw [h]; simp)
    show (upd s.tv t _ t).ver v
    rw [upd_eq]; exact .inr rfl
  | @other t v m h ok hm =>
    have hq := I.mps t; rw [h] at hq
    exact I.mpstep t .fin _ (upd_mono acq_mono) hq.2.2 (fun _ _ _ => by rw [h]; simp) (fun _ => by rw [h]; simp)
  | @skip t v h =>
    have hq := I.mps t; rw [h] at hq
    exact I.mpstep t .fin _ (upd_mono (fun _ h => h)) hq.2.2.1 (fun _ _ _ => by rw [h]; simp) (fun _ => by rw [h]; simp)
  | grow h ok => exact inv_grow I h ok _
  | lockAll h hd hw hs he => exact inv_lockAll I h hd hw hs he
  | clear h => exact inv_clear I h _
  | killAll h => exact inv_killAll I h _
  | done h => exact inv_done I h

theorem inv_reach {ix : Nat → Nat → Nat} {s : State} (h : Reach ix s) : Inv ix s := by
  induction h with
  | init => exact inv_init ix
  | step _ st ih => exact inv_step ih st

end Scc.Haze
