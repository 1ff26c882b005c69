import Verif.Twig.Readers

/-! # Steps of the thread that has the lock -/

namespace Scc.Twig

theorem Inv.alive {s : State} (h : Inv s) {t i x : Nat} (hl : (s.pc t).locked = true) (hk : s.Kid i)
    (hx : s.cp i (s.cn i) = some x) (h1 : ∀ j y lo hi, s.pc t ≠ .publ j y lo hi) (h2 : ∀ j y hi, s.pc t ≠ .thawn j y hi) :
    s.dead x = false := by
  cases hd : s.dead x with
  | false => rfl
  | true =>
    cases h.nodead' hl hk hx hd with
    | inl h3 => obtain ⟨_, _, h3⟩ := h3; exact absurd h3 (h1 _ _ _ _)
    | inr h3 => obtain ⟨_, h3⟩ := h3; exact absurd h3 (h2 _ _ _)

theorem inv_freeze {s : State} {t i c x : Nat} (h : Inv s) (hp : s.pc t = .lock) (h1 : (s.tv t).c i ≤ c) (h2 : c ≤ s.cn i)
    (h3 : s.cp i c = some x) :
    Inv ((s.addPage x { s.page x with frozen := true } (s.tl t x) (s.ver x (s.ln x))).go t (.froze i x) (s.tl t x)) := by
  have hl : (s.pc t).locked = true := by rw [hp]; rfl
  have hf := h.full' hl
  have hc : c = s.cn i := by have := hf.2 i; omega
  subst hc
  have htop := h.top' hl (by intro q; rw [hp]; intro e; cases e)
  have hal : ∀ {j y}, s.Kid j → s.cp j (s.cn j) = some y → s.dead y = false := fun hk hy =>
    h.alive hl hk hy (by intro _ _ _ _; rw [hp]; intro e; cases e) (by intro _ _ _; rw [hp]; intro e; cases e)
  have hd := hal (htop i x h3) h3
  have hv : VOk (s.addPage x { s.page x with frozen := true } (s.tl t x) (s.ver x (s.ln x))) (s.tl t x) :=
    tl_ok h (fun _ => Nat.le_refl _)
  refine inv_hpage h hl (h.core.leaf _ _ _ h2 h3) rfl rfl hd hv hv rfl ?_ (tl_full h hl x).1 (tl_full h hl x).2 htop ?_
  · show Froze _ i x
    exact ⟨htop i x h3, h3, hd, by rw [addPage_page, if_pos rfl]⟩
  · intro j y hk hy hdy; rw [hal hk hy] at hdy; cases hdy

theorem inv_abort {s : State} {t i x : Nat} (h : Inv s) (hp : s.pc t = .froze i x) :
    Inv ((s.addPage x { s.page x with frozen := false } (s.tl t x) (s.ver x (s.ln x))).go t .lock
      ((s.tv t).seeL x (s.ln x + 1))) := by
  have hl : (s.pc t).locked = true := by rw [hp]; rfl
  have hf := h.full' hl
  have ho : Froze s i x := h.pcAt hp
  have htop := h.top' hl (by intro q; rw [hp]; intro e; cases e)
  refine inv_hpage h hl (h.core.leaf _ _ _ (Nat.le_refl _) ho.top) rfl rfl ho.alive (tl_ok h (fun _ => Nat.le_refl _))
    (seeL_ok h (fun _ => Nat.le_refl _)) rfl trivial hf.1 hf.2 htop ?_
  intro j y hk hy hdy
  rw [h.alive hl hk hy (by intro _ _ _ _; rw [hp]; intro e; cases e) (by intro _ _ _; rw [hp]; intro e; cases e)] at hdy
  cases hdy

theorem inv_thaw {s : State} {t i x lo hi : Nat} (h : Inv s) (hp : s.pc t = .publ i x lo hi) :
    Inv ((s.addPage lo { s.page lo with frozen := false } (s.tl t lo) (s.ver lo (s.ln lo))).go t (.thawn i x hi)
      ((s.tv t).seeL lo (s.ln lo + 1))) := by
  have hl : (s.pc t).locked = true := by rw [hp]; rfl
  have hf := h.full' hl
  have ho : Half s i x hi ∧ lo < s.nl ∧ s.dead lo = false ∧ lo ≠ hi := h.pcAt hp
  obtain ⟨ho, h1, h2, h3⟩ := ho
  have htop := h.top' hl (by intro q; rw [hp]; intro e; cases e)
  have hxl : x ≠ lo := by intro e; subst e; rw [ho.dead] at h2; cases h2
  refine inv_hpage h hl h1 rfl rfl h2 (tl_ok h (fun _ => Nat.le_refl _)) (seeL_ok h (fun _ => Nat.le_refl _)) rfl ?_ hf.1 hf.2
    htop ?_
  · show Half _ i x hi
    have e1 : (s.addPage lo { s.page lo with frozen := false } (s.tl t lo) (s.ver lo (s.ln lo))).lw hi = s.lw hi :=
      upd_ne _ _ h3.symm
    have e2 : (s.addPage lo { s.page lo with frozen := false } (s.tl t lo) (s.ver lo (s.ln lo))).ver hi = s.ver hi :=
      upd_ne _ _ h3.symm
    have e3 : (s.addPage lo { s.page lo with frozen := false } (s.tl t lo) (s.ver lo (s.ln lo))).page x = s.page x := by
      rw [addPage_page, if_neg hxl]
    have e4 : (s.addPage lo { s.page lo with frozen := false } (s.tl t lo) (s.ver lo (s.ln lo))).ver x = s.ver x :=
      upd_ne _ _ hxl
    have e5 : (s.addPage lo { s.page lo with frozen := false } (s.tl t lo) (s.ver lo (s.ln lo))).ln x = s.ln x := by
      rw [addPage_ln, if_neg hxl]
    refine ⟨ho.kid, ho.top, ho.dead, ⟨ho.ohi.lt, ho.ohi.alive, ho.ohi.off, ?_⟩, ?_, ?_, ?_⟩
    · rw [addPage_ln, if_neg h3.symm]; exact ho.ohi.new
    · rw [e1, e3]; exact ho.highs
    · rw [e2, e4, e5]; exact ho.hiv
    · rw [e1]; exact ho.ran
  · intro j y hk hy hdy
    have h4 := h.nodead' hl hk hy hdy
    rw [hp] at h4
    cases h4 with
    | inl h4 => obtain ⟨_, _, h4⟩ := h4; cases h4; exact .inr ⟨hi, rfl⟩
    | inr h4 => obtain ⟨_, h4⟩ := h4; cases h4

/-! ## New leaves -/

theorem views_new {s : State} {y : Nat} {p : Page} {v : View} {r : Nat → Nat} (h : Views s) (hc : Core s) (hy : s.nl = y)
    (hv : VOk s v) : Views (s.newLeaf y p v r) := by
  have he : Ext s (s.newLeaf y p v r) := ext_new (by omega)
  refine h.ext hc he (fun n hn => .inl ⟨hn, rfl⟩) (fun i c hn => .inl ⟨hn, rfl⟩) ?_ (.inl rfl) (fun t => .inl rfl)
  intro x u hu
  by_cases e : x = y
  · subst e
    have h0 : s.ln x = 0 := (hc.new x (by omega)).1
    have hu' : u ≤ s.ln x := hu
    have : u = 0 := by omega
    subst this
    right
    show VOk _ (upd s.lv x _ x 0)
    rw [upd_self, upd_self]; exact hv.ext hc he
  · left; exact ⟨hu, by simp [State.newLeaf, upd_ne _ _ e]⟩

theorem newLeaf_lw {s : State} {y x : Nat} {p : Page} {v : View} {r : Nat → Nat} (h : x ≠ y) :
    (s.newLeaf y p v r).lw x = s.lw x ∧ (s.newLeaf y p v r).ver x = s.ver x ∧ (s.newLeaf y p v r).page x = s.page x := by
  have h1 : (s.newLeaf y p v r).lw x = s.lw x := upd_ne _ _ h
  refine ⟨h1, upd_ne _ _ h, ?_⟩
  show (s.newLeaf y p v r).lw x (s.ln x) = s.lw x (s.ln x)
  rw [h1]

theorem newLeaf_at {s : State} {y : Nat} {p : Page} {v : View} {r : Nat → Nat} :
    (s.newLeaf y p v r).lw y 0 = p ∧ (s.newLeaf y p v r).ver y 0 = r := by simp [State.newLeaf]

theorem inv_make1 {s : State} {t i x : Nat} (h : Inv s) (hp : s.pc t = .froze i x) :
    Inv ((s.newLeaf s.nl ⟨(s.page x).has, false, false⟩ .zero (s.ver x (s.ln x))).go t (.one i x s.nl) (s.tv t)) := by
  have hl : (s.pc t).locked = true := by rw [hp]; rfl
  have hf := h.full' hl
  have ho : Froze s i x := h.pcAt hp
  have hx : x < s.nl := h.core.leaf _ _ _ (Nat.le_refl _) ho.top
  have htop := h.top' hl (by intro q; rw [hp]; intro e; cases e)
  have he : Ext s (s.newLeaf s.nl ⟨(s.page x).has, false, false⟩ .zero (s.ver x (s.ln x))) := ext_new (Nat.le_refl _)
  have hc : Core (s.newLeaf s.nl ⟨(s.page x).has, false, false⟩ .zero (s.ver x (s.ln x))) :=
    core_new h.core (fun k => h.core.verb x _ k (Nat.le_refl _)) rfl
  refine inv_hold h hl rfl rfl rfl hc he (views_new h.views h.core rfl (VOk.zero _)) ((h.views.tv t).ext h.core he) rfl ?_
    hf.1 hf.2 (fun j y hy => .inl (htop j y hy)) ?_
  · show Single _ i x s.nl
    have e := newLeaf_lw (s := s) (p := ⟨(s.page x).has, false, false⟩) (v := .zero) (r := s.ver x (s.ln x))
      (show x ≠ s.nl by omega)
    have e2 := h.core.new s.nl (Nat.le_refl _)
    refine ⟨⟨ho.kid, ho.top, ho.alive, by rw [e.2.2]; exact ho.frozen⟩, ⟨Nat.lt_succ_self _, e2.2, ?_, e2.1⟩, ?_, ?_⟩
    · intro j c h1 h2; have h3 := h.core.leaf j c _ h1 h2; omega
    · rw [newLeaf_at.1, e.2.2]
    · rw [newLeaf_at.2, e.2.1]; rfl
  · intro j y hk hy hdy
    have h4 := h.nodead' hl hk hy hdy
    rw [hp] at h4
    cases h4 with
    | inl h4 => obtain ⟨_, _, h4⟩ := h4; cases h4
    | inr h4 => obtain ⟨_, h4⟩ := h4; cases h4

theorem inv_make {s : State} {t i x b d : Nat} (h : Inv s) (hp : s.pc t = .froze i x) (hb : (s.page x).has b ≠ none)
    (hbd : b < d) (hd : (s.page x).has d ≠ none) :
    Inv (((s.newLeaf s.nl ⟨fun k => if k ≤ b then (s.page x).has k else none, true, false⟩ .zero
      (s.ver x (s.ln x))).newLeaf (s.nl + 1) ⟨fun k => if k ≤ b then none else (s.page x).has k, false, false⟩ .zero
      (s.ver x (s.ln x))).go t (.made i x b s.nl (s.nl + 1)) (s.tv t)) := by
  have hl : (s.pc t).locked = true := by rw [hp]; rfl
  have hf := h.full' hl
  have ho : Froze s i x := h.pcAt hp
  have hx : x < s.nl := h.core.leaf _ _ _ (Nat.le_refl _) ho.top
  have htop := h.top' hl (by intro q; rw [hp]; intro e; cases e)
  have he1 : Ext s (s.newLeaf s.nl ⟨fun k => if k ≤ b then (s.page x).has k else none, true, false⟩ .zero
      (s.ver x (s.ln x))) := ext_new (Nat.le_refl _)
  have hc1 : Core (s.newLeaf s.nl ⟨fun k => if k ≤ b then (s.page x).has k else none, true, false⟩ .zero
      (s.ver x (s.ln x))) := core_new h.core (fun k => h.core.verb x _ k (Nat.le_refl _)) rfl
  have hv1 := views_new (p := ⟨fun k => if k ≤ b then (s.page x).has k else none, true, false⟩) (r := s.ver x (s.ln x))
    h.views h.core rfl (VOk.zero _)
  have e1 := newLeaf_lw (s := s) (p := ⟨fun k => if k ≤ b then (s.page x).has k else none, true, false⟩) (v := .zero)
    (r := s.ver x (s.ln x)) (show x ≠ s.nl by omega)
  have a1 := newLeaf_at (s := s) (y := s.nl) (p := ⟨fun k => if k ≤ b then (s.page x).has k else none, true, false⟩)
    (v := .zero) (r := s.ver x (s.ln x))
  have e2 := h.core.new s.nl (Nat.le_refl _)
  have e3 := h.core.new (s.nl + 1) (Nat.le_succ _)
  have g1 : (s.newLeaf s.nl ⟨fun k => if k ≤ b then (s.page x).has k else none, true, false⟩ .zero
      (s.ver x (s.ln x))).cn = s.cn := rfl
  have g2 : (s.newLeaf s.nl ⟨fun k => if k ≤ b then (s.page x).has k else none, true, false⟩ .zero
      (s.ver x (s.ln x))).cp = s.cp := rfl
  have g3 : (s.newLeaf s.nl ⟨fun k => if k ≤ b then (s.page x).has k else none, true, false⟩ .zero
      (s.ver x (s.ln x))).nl = s.nl + 1 := rfl
  have g4 : (s.newLeaf s.nl ⟨fun k => if k ≤ b then (s.page x).has k else none, true, false⟩ .zero
      (s.ver x (s.ln x))).dead = s.dead := rfl
  have g5 : (s.newLeaf s.nl ⟨fun k => if k ≤ b then (s.page x).has k else none, true, false⟩ .zero
      (s.ver x (s.ln x))).ln = s.ln := rfl
  have g6 : (s.newLeaf s.nl ⟨fun k => if k ≤ b then (s.page x).has k else none, true, false⟩ .zero
      (s.ver x (s.ln x))).mn = s.mn := rfl
  have g7 : (s.newLeaf s.nl ⟨fun k => if k ≤ b then (s.page x).has k else none, true, false⟩ .zero
      (s.ver x (s.ln x))).hn = s.hn := rfl
  have g8 : (s.newLeaf s.nl ⟨fun k => if k ≤ b then (s.page x).has k else none, true, false⟩ .zero
      (s.ver x (s.ln x))).word = s.word := rfl
  have g9 : (s.newLeaf s.nl ⟨fun k => if k ≤ b then (s.page x).has k else none, true, false⟩ .zero
      (s.ver x (s.ln x))).pc = s.pc := rfl
  have g10 : (s.newLeaf s.nl ⟨fun k => if k ≤ b then (s.page x).has k else none, true, false⟩ .zero
      (s.ver x (s.ln x))).tv = s.tv := rfl
  have g11 : (s.newLeaf s.nl ⟨fun k => if k ≤ b then (s.page x).has k else none, true, false⟩ .zero
      (s.ver x (s.ln x))).holder = s.holder := rfl
  generalize s.newLeaf s.nl ⟨fun k => if k ≤ b then (s.page x).has k else none, true, false⟩ .zero (s.ver x (s.ln x)) = s1
    at *
  have he2 : Ext s1 (s1.newLeaf (s.nl + 1) ⟨fun k => if k ≤ b then none else (s.page x).has k, false, false⟩ .zero
      (s.ver x (s.ln x))) := ext_new (by omega)
  have he : Ext s (s1.newLeaf (s.nl + 1) ⟨fun k => if k ≤ b then none else (s.page x).has k, false, false⟩ .zero
      (s.ver x (s.ln x))) := he1.trans he2 (by omega)
  have hvt : VOk s1 (s.tv t) := (h.views.tv t).ext h.core he1
  have hc2 : Core (s1.newLeaf (s.nl + 1) ⟨fun k => if k ≤ b then none else (s.page x).has k, false, false⟩ .zero
      (s.ver x (s.ln x))) := by
    rw [← g3]
    exact core_new hc1 (fun k => by rw [g7]; exact h.core.verb x _ k (Nat.le_refl _)) rfl
  have f1 := newLeaf_lw (s := s1) (p := ⟨fun k => if k ≤ b then none else (s.page x).has k, false, false⟩) (v := .zero)
    (r := s.ver x (s.ln x)) (show x ≠ s.nl + 1 by omega)
  have f2 := newLeaf_lw (s := s1) (p := ⟨fun k => if k ≤ b then none else (s.page x).has k, false, false⟩) (v := .zero)
    (r := s.ver x (s.ln x)) (show s.nl ≠ s.nl + 1 by omega)
  have f3 := newLeaf_at (s := s1) (y := s.nl + 1) (p := ⟨fun k => if k ≤ b then none else (s.page x).has k, false, false⟩)
    (v := .zero) (r := s.ver x (s.ln x))
  have hv2 := views_new (p := ⟨fun k => if k ≤ b then none else (s.page x).has k, false, false⟩) (r := s.ver x (s.ln x))
    hv1 hc1 g3 (VOk.zero _)
  have i1 : (s1.newLeaf (s.nl + 1) ⟨fun k => if k ≤ b then none else (s.page x).has k, false, false⟩ .zero
      (s.ver x (s.ln x))).cn = s.cn := g1
  have i2 : (s1.newLeaf (s.nl + 1) ⟨fun k => if k ≤ b then none else (s.page x).has k, false, false⟩ .zero
      (s.ver x (s.ln x))).cp = s.cp := g2
  have i3 : (s1.newLeaf (s.nl + 1) ⟨fun k => if k ≤ b then none else (s.page x).has k, false, false⟩ .zero
      (s.ver x (s.ln x))).nl = s.nl + 1 + 1 := rfl
  have i4 : (s1.newLeaf (s.nl + 1) ⟨fun k => if k ≤ b then none else (s.page x).has k, false, false⟩ .zero
      (s.ver x (s.ln x))).dead = s.dead := g4
  have i5 : (s1.newLeaf (s.nl + 1) ⟨fun k => if k ≤ b then none else (s.page x).has k, false, false⟩ .zero
      (s.ver x (s.ln x))).ln = s.ln := g5
  have i6 : (s1.newLeaf (s.nl + 1) ⟨fun k => if k ≤ b then none else (s.page x).has k, false, false⟩ .zero
      (s.ver x (s.ln x))).mn = s.mn := g6
  have i8 : (s1.newLeaf (s.nl + 1) ⟨fun k => if k ≤ b then none else (s.page x).has k, false, false⟩ .zero
      (s.ver x (s.ln x))).word = s.word := g8
  have i9 : (s1.newLeaf (s.nl + 1) ⟨fun k => if k ≤ b then none else (s.page x).has k, false, false⟩ .zero
      (s.ver x (s.ln x))).pc = s.pc := g9
  have i10 : (s1.newLeaf (s.nl + 1) ⟨fun k => if k ≤ b then none else (s.page x).has k, false, false⟩ .zero
      (s.ver x (s.ln x))).tv = s.tv := g10
  have i11 : (s1.newLeaf (s.nl + 1) ⟨fun k => if k ≤ b then none else (s.page x).has k, false, false⟩ .zero
      (s.ver x (s.ln x))).holder = s.holder := g11
  generalize s1.newLeaf (s.nl + 1) ⟨fun k => if k ≤ b then none else (s.page x).has k, false, false⟩ .zero
    (s.ver x (s.ln x)) = s2 at *
  have hkid : ∀ {j}, s2.Kid j ↔ s.Kid j := by intro j; simp only [State.Kid, i8]
  have hpx : s2.page x = s.page x := f1.2.2.trans e1.2.2
  have hvx : s2.ver x (s2.ln x) = s.ver x (s.ln x) := by rw [f1.2.1, e1.2.1, i5]
  refine inv_hold h hl i9 i10 i11 hc2 he hv2 (hvt.ext hc1 he2) rfl ?_ (by rw [i6]; exact hf.1) (by rw [i1]; exact hf.2)
    (fun j y hy => .inl (hkid.mpr (htop j y (by rw [i2, i1] at hy; exact hy)))) ?_
  · show Made s2 i x b s.nl (s.nl + 1)
    refine ⟨⟨hkid.mpr ho.kid, by rw [i2, i1]; exact ho.top, by rw [i4]; exact ho.alive, by rw [hpx]; exact ho.frozen⟩, by
      rw [hpx]; exact hb, ⟨d, hbd, by rw [hpx]; exact hd⟩, ⟨by rw [i3]; omega, by rw [i4]; exact e2.2, ?_, by
      rw [i5]; exact e2.1⟩, ⟨by rw [i3]; omega, by rw [i4]; exact e3.2, ?_, by rw [i5]; exact e3.1⟩, by omega, ?_, ?_, ?_, ?_⟩
    · intro j c h1 h2; rw [i1] at h1; rw [i2] at h2; have h3 := h.core.leaf j c _ h1 h2; omega
    · intro j c h1 h2; rw [i1] at h1; rw [i2] at h2; have h3 := h.core.leaf j c _ h1 h2; omega
    · intro k; rw [f2.1, a1.1, hpx]
    · intro k; rw [f3.1, hpx]
    · rw [f2.2.1, a1.2, hvx]
    · rw [f3.2, hvx]
  · intro j y hk hy hdy
    have h4 := h.nodead' hl (hkid.mp hk) (by rw [i2, i1] at hy; exact hy) (by rw [i4] at hdy; exact hdy)
    rw [hp] at h4
    cases h4 with
    | inl h4 => obtain ⟨_, _, h4⟩ := h4; cases h4
    | inr h4 => obtain ⟨_, h4⟩ := h4; cases h4

end Scc.Twig
