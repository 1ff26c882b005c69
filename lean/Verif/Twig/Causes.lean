import Verif.Twig.Cause

/-! # Every step keeps what views bring -/

namespace Scc.Twig

/-- What the thread that replaces a leaf knows of it. -/
theorem Cause.site {s : State} (h : Cause s) {t i x : Nat} {p : Pc} (hp : s.pc t = p) (hs : p.site = some (i, x)) :
    ∀ k d, s.R s.mn k = i → s.hw k (s.ver x (s.ln x) k) d ≤ (s.tv t).g d := h.own t i x (by rw [hp]; exact hs)

theorem cause_lock {s : State} {t : Nat} (hi : Inv s) (h : Cause s) (hh : s.holder = none) :
    Cause ({ s with holder := some t }.go t .lock ((s.tv t).join s.lockv)) := by
  refine ⟨h.flow.ctl, ?_, (fun e => by cases e), ?_⟩
  · intro t' ht'
    have e : t = t' := Option.some.inj ht'
    subst e
    rw [show (({ s with holder := some t } : State).go t .lock ((s.tv t).join s.lockv)).tv t = (s.tv t).join s.lockv from
      upd_self _ _ _]
    exact ((h.free hh).more (fun d => join_right _ _ d)).of rfl rfl rfl rfl
  · intro t' i x hs
    by_cases e : t' = t
    · subst e
      rw [show (({ s with holder := some t' } : State).go t' .lock ((s.tv t').join s.lockv)).pc t' = .lock from upd_self _ _ _] at hs
      cases hs
    · rw [show (({ s with holder := some t } : State).go t .lock ((s.tv t).join s.lockv)).pc t' = s.pc t' from upd_ne _ _ e] at hs
      have := (hi.lk t').mp (site_locked hs)
      rw [hh] at this; cases this

theorem cause_unlock {s : State} {t : Nat} (hi : Inv s) (h : Cause s) (hp : s.pc t = .lock) :
    Cause ({ s with holder := none, lockv := s.tv t }.go t .idle (s.tv t)) := by
  have hl : (s.pc t).locked = true := by rw [hp]; rfl
  refine ⟨h.flow.ctl, (fun t' e => by cases e), fun _ => (h.whole hi hl).of rfl rfl rfl rfl, ?_⟩
  intro t' i x hs
  by_cases e : t' = t
  · subst e
    rw [show (({ s with holder := none, lockv := s.tv t' } : State).go t' .idle (s.tv t')).pc t' = .idle from upd_self _ _ _] at hs
    cases hs
  · rw [show (({ s with holder := none, lockv := s.tv t } : State).go t .idle (s.tv t)).pc t' = s.pc t' from upd_ne _ _ e] at hs
    exact absurd (hi.holds hl (site_locked hs)) e

theorem cause_freeze {s : State} {t i c x : Nat} {p : Page} (hi : Inv s) (h : Cause s) (hp : s.pc t = .lock)
    (h1 : (s.tv t).c i ≤ c) (h2 : c ≤ s.cn i) (h3 : s.cp i c = some x) :
    Cause ((s.addPage x p (s.tl t x) (s.ver x (s.ln x))).go t (.froze i x) (s.tl t x)) := by
  have hl : (s.pc t).locked = true := by rw [hp]; rfl
  have hc : c = s.cn i := by have := (hi.full' hl).2 i; omega
  subst hc
  refine cause_hpage hi h hl (fun d => join_right _ _ d) (fun d => join_left _ _ d) ?_
  intro j y hs k d hk
  cases hs
  subst hk
  rw [addPage_ver]
  have h4 := h.flow.pub k s.mn _ x _ d (hi.core.top h3) (Nat.le_refl _)
  have h5 := (h.whole hi hl).m d
  have h6 := (h.whole hi hl).c (s.R s.mn k) _ d (Nat.le_refl _)
  have h7 : (s.tv t).g d ≤ (s.tl t x).g d := join_left _ _ d
  have h8 : (s.lv x (s.ln x)).g d ≤ (s.tl t x).g d := join_right _ _ d
  omega

theorem cause_abort {s : State} {t i x : Nat} {p : Page} (hi : Inv s) (h : Cause s) (hp : s.pc t = .froze i x) :
    Cause ((s.addPage x p (s.tl t x) (s.ver x (s.ln x))).go t .lock ((s.tv t).seeL x (s.ln x + 1))) :=
  cause_hpage hi h (by rw [hp]; rfl) (fun d => join_right _ _ d) (fun _ => Nat.le_refl _) (fun _ _ e => by cases e)

theorem cause_thaw {s : State} {t i x lo hi : Nat} {p : Page} (hi' : Inv s) (h : Cause s) (hp : s.pc t = .publ i x lo hi) :
    Cause ((s.addPage lo p (s.tl t lo) (s.ver lo (s.ln lo))).go t (.thawn i x hi) ((s.tv t).seeL lo (s.ln lo + 1))) := by
  refine cause_hpage hi' h (by rw [hp]; rfl) (fun d => join_right _ _ d) (fun _ => Nat.le_refl _) ?_
  intro j y hs k d hk
  cases hs
  rw [addPage_ver]
  exact h.site hp rfl k d hk

theorem cause_make1 {s : State} {t i x : Nat} {p : Page} {r : Nat → Nat} (hi : Inv s) (h : Cause s)
    (hp : s.pc t = .froze i x) : Cause ((s.newLeaf s.nl p .zero r).go t (.one i x s.nl) (s.tv t)) := by
  have hl : (s.pc t).locked = true := by rw [hp]; rfl
  have ho : Froze s i x := hi.pcAt hp
  have hx : x < s.nl := hi.core.leaf _ _ _ (Nat.le_refl _) ho.top
  refine cause_hold hi hl rfl rfl (flow_new hi.core h.flow) ((h.whole hi hl).of rfl rfl rfl rfl) ?_
  intro j y hs k d hk
  cases hs
  rw [show (s.newLeaf s.nl p .zero r).ver x = s.ver x from upd_ne _ _ (by omega)]
  exact h.site hp rfl k d hk

theorem cause_make {s : State} {t i x b : Nat} {p p' : Page} {r r' : Nat → Nat} (hi : Inv s) (h : Cause s)
    (hc1 : Core (s.newLeaf s.nl p .zero r)) (hp : s.pc t = .froze i x) :
    Cause (((s.newLeaf s.nl p .zero r).newLeaf (s.nl + 1) p' .zero r').go t (.made i x b s.nl (s.nl + 1)) (s.tv t)) := by
  have hl : (s.pc t).locked = true := by rw [hp]; rfl
  have ho : Froze s i x := hi.pcAt hp
  have hx : x < s.nl := hi.core.leaf _ _ _ (Nat.le_refl _) ho.top
  have hf := flow_new (p := p') (v := .zero) (r := r') hc1 (flow_new hi.core h.flow)
  refine cause_hold hi hl rfl rfl hf ((h.whole hi hl).of rfl rfl rfl rfl) ?_
  intro j y hs k d hk
  cases hs
  rw [show ((s.newLeaf s.nl p .zero r).newLeaf (s.nl + 1) p' .zero r').ver x = s.ver x from
    (upd_ne _ _ (by omega)).trans (upd_ne _ _ (by omega))]
  exact h.site hp rfl k d hk

theorem tm_le {s : State} {t : Nat} (d : Nat) : (s.tv t).g d ≤ (s.tm t).g d ∧ (s.mv s.mn).g d ≤ (s.tm t).g d :=
  ⟨join_left _ _ d, join_right _ _ d⟩

theorem mono_word {s s1 : State} {v : View} (h : Flow s) (hmn : s1.mn = s.mn + 1) (hmv : s1.mv = upd s.mv (s.mn + 1) v)
    (hv : ∀ d, (s.mv s.mn).g d ≤ v.g d) : ∀ n n' d, n ≤ n' → n' ≤ s1.mn → (s1.mv n).g d ≤ (s1.mv n').g d := by
  intro n n' d h1 h2
  rw [hmn] at h2
  rw [hmv]
  by_cases e : n' = s.mn + 1
  · subst e
    rw [upd_self]
    by_cases e2 : n = s.mn + 1
    · subst e2; rw [upd_self]; exact Nat.le_refl _
    · rw [upd_ne _ _ e2]; exact Nat.le_trans (h.mono n s.mn d (by omega) (Nat.le_refl _)) (hv d)
  · rw [upd_ne _ _ e, upd_ne _ _ (show n ≠ s.mn + 1 by omega)]
    exact h.mono n n' d h1 (by omega)

theorem whole_word {s s1 : State} {v w : View} (h : Whole s w) (hmn : s1.mn = s.mn + 1) (hmv : s1.mv = upd s.mv (s.mn + 1) v)
    (hcn : s1.cn = s.cn) (hcv : ∀ i c, c ≤ s.cn i → s1.cv i c = s.cv i c ∨ s1.cv i c = .zero) (hv : ∀ d, v.g d ≤ w.g d) :
    Whole s1 w := by
  refine ⟨fun d => by rw [hmn, hmv, upd_self]; exact hv d, ?_⟩
  intro i c d hc
  rw [hcn] at hc
  cases hcv i c hc with
  | inl h1 => rw [h1]; exact h.c i c d hc
  | inr h1 => rw [h1]; exact Nat.zero_le _

theorem cause_resv {s : State} {t i x b lo hi : Nat} (hi' : Inv s) (h : Cause s) (hp : s.pc t = .made i x b lo hi) :
    Cause ((s.addWord { s.word with used := s.word.used + 1 } ((s.mv s.mn).seeM (s.mn + 1))).go t
      (.resv i x b lo hi (s.word.used + 1)) (s.tm t)) := by
  have hl : (s.pc t).locked = true := by rw [hp]; rfl
  have hmw : ∀ n, n ≤ s.mn → (s.addWord { s.word with used := s.word.used + 1 } ((s.mv s.mn).seeM (s.mn + 1))).mw n = s.mw n :=
    fun n hn => addWord_mw hn
  have hmv : ∀ n, n ≤ s.mn → (s.addWord { s.word with used := s.word.used + 1 } ((s.mv s.mn).seeM (s.mn + 1))).mv n = s.mv n :=
    fun n hn => addWord_mv hn
  have hnew := addWord_new (s := s) (w := { s.word with used := s.word.used + 1 }) (v := (s.mv s.mn).seeM (s.mn + 1))
  have hR : ∀ n k, n ≤ s.mn → (s.addWord { s.word with used := s.word.used + 1 } ((s.mv s.mn).seeM (s.mn + 1))).R n k =
      s.R n k := by intro n k hn; simp only [State.R, hmw n hn]
  have hR1 : ∀ k, (s.addWord { s.word with used := s.word.used + 1 } ((s.mv s.mn).seeM (s.mn + 1))).R (s.mn + 1) k =
      s.R s.mn k := by intro k; simp only [State.R, hnew.1]; rfl
  refine cause_hold hi' hl rfl rfl ⟨mono_word h.flow rfl rfl (fun _ => Nat.le_refl _), ?_, h.flow.ret⟩
    (whole_word ((h.whole hi' hl).more (fun d => (tm_le d).1)) rfl rfl rfl (fun _ _ _ => .inl rfl) (fun d => (tm_le d).2)) ?_
  · intro k n c y u d hpa hu
    by_cases hn : n ≤ s.mn
    · rw [hR n k hn] at hpa ⊢
      have := hpa.mc
      rw [hmv n hn] at this ⊢
      exact h.flow.pub k n c y u d ⟨hn, hpa.lc, this, hpa.cm, hpa.ptr⟩ hu
    · have hn' : n = s.mn + 1 := by have : n ≤ s.mn + 1 := hpa.le; omega
      subst hn'
      rw [hR1] at hpa ⊢
      have := hpa.mc
      rw [hnew.2] at this ⊢
      exact h.flow.pub k s.mn c y u d ⟨Nat.le_refl _, hpa.lc, this, hi'.core.cvm _ _ hpa.lc, hpa.ptr⟩ hu
  · intro j y hs k d hk
    cases hs
    have hk := (hR1 k).symm.trans hk
    exact Nat.le_trans (h.site hp rfl k d hk) (tm_le d).1

theorem cause_publ {s : State} {t i x b lo hi p : Nat} (hi' : Inv s) (h : Cause s) (hp : s.pc t = .resv i x b lo hi p) :
    Cause ((((s.initCell p lo).addWord { s.word with kids := put b p s.word.kids } (s.tm t)).setDead x).go t
      (.publ i x lo hi) (s.tm t)) := by
  have hl : (s.pc t).locked = true := by rw [hp]; rfl
  have ho : Made s i x b lo hi ∧ Slot s p := hi'.pcAt hp
  obtain ⟨ho, hsl⟩ := ho
  have hput := put_R (p := p) hi'.core ho
  have hpi : i ≠ p := by intro e; have := ho.old.top; rw [e, hsl.none] at this; cases this
  have hwhole := h.whole hi' hl
  have hsite := h.site hp rfl
  have hRp : ∀ n k, n ≤ s.mn → s.R n k ≠ p := by
    intro n k hn e
    cases route_mem (s.mw n).kids k with
    | inl h1 => have := hsl.pos; simp only [State.R] at e; omega
    | inr h1 =>
      obtain ⟨a, ha1, ha2⟩ := List.mem_map.mp h1
      exact hsl.kid n hn a ha1 (ha2.trans e)
  have hfull := (tm_full hi' hl).2
  generalize hs : ((s.initCell p lo).addWord { s.word with kids := put b p s.word.kids } (s.tm t)).setDead x = s1
  have hmn : s1.mn = s.mn + 1 := by subst hs; rfl
  have hmw : ∀ n, n ≤ s.mn → s1.mw n = s.mw n := by
    intro n hn; subst hs; exact addWord_mw (s := s.initCell p lo) (v := s.tm t) hn
  have hmv : ∀ n, n ≤ s.mn → s1.mv n = s.mv n := by
    intro n hn; subst hs
    exact addWord_mv (s := s.initCell p lo) (w := { s.word with kids := put b p s.word.kids }) (v := s.tm t) hn
  have hmvu : s1.mv = upd s.mv (s.mn + 1) (s.tm t) := by subst hs; rfl
  have hmv1 : s1.mv (s.mn + 1) = s.tm t := by rw [hmvu, upd_self]
  have hword : s1.mw (s.mn + 1) = { s.word with kids := put b p s.word.kids } := by
    subst hs; exact (addWord_new (s := s.initCell p lo) (v := s.tm t)).1
  have hR : ∀ n k, n ≤ s.mn → s1.R n k = s.R n k := by intro n k hn; simp only [State.R, hmw n hn]
  have hR1 : ∀ k, s1.R (s.mn + 1) k = if k ≤ b ∧ s.R s.mn k = i then p else s.R s.mn k := by
    intro k; simp only [State.R, hword]; exact hput k
  have hcn : s1.cn = s.cn := by subst hs; rfl
  have hcp : ∀ j c, j ≠ p → s1.cp j c = s.cp j c := by
    intro j c hj; subst hs
    show upd s.cp p _ j c = _
    rw [upd_ne _ _ hj]
  have hcpp : s1.cp p 0 = some lo := by subst hs; simp [State.initCell, State.addWord, State.setDead]
  have hcvj : ∀ j c, j ≠ p → s1.cv j c = s.cv j c := by
    intro j c hj; subst hs
    show upd s.cv p _ j c = _
    rw [upd_ne _ _ hj]
  have hcv : ∀ j c, c ≤ s.cn j → s1.cv j c = s.cv j c ∨ s1.cv j c = .zero := by
    intro j c hjc
    by_cases hj : j = p
    · have : c = 0 := by have := hsl.new; rw [hj] at hjc; omega
      right; subst hj this hs; simp [State.initCell, State.addWord, State.setDead]
    · exact .inl (hcvj j c hj)
  have hln : s1.ln = s.ln := by subst hs; rfl
  have hlw : s1.lw = s.lw := by subst hs; rfl
  have hlv : s1.lv = s.lv := by subst hs; rfl
  have hver : s1.ver = s.ver := by subst hs; rfl
  have hhw : s1.hw = s.hw := by subst hs; rfl
  refine cause_hold hi' hl (by subst hs; rfl) (by subst hs; rfl)
    ⟨mono_word h.flow hmn hmvu (fun d => (tm_le d).2), ?_, by rw [hln, hlw, hver]; exact h.flow.ret⟩
    (whole_word (hwhole.more (fun d => (tm_le d).1)) hmn hmvu hcn hcv (fun _ => Nat.le_refl _)) ?_
  · intro k n c y u d hpa hu
    rw [hln] at hu
    rw [hver, hhw, hlv]
    by_cases hn : n ≤ s.mn
    · rw [hR n k hn] at hpa ⊢
      have hj := hRp n k hn
      rw [hmv n hn, hcvj _ _ hj]
      refine h.flow.pub k n c y u d ⟨hn, by rw [← hcn]; exact hpa.lc, by rw [← hmv n hn]; exact hpa.mc, by
        rw [← hcvj _ _ hj]; exact hpa.cm, by rw [← hcp _ _ hj]; exact hpa.ptr⟩ hu
    · have hn' : n = s.mn + 1 := by have := hpa.le; omega
      subst hn'
      have h1 := hpa.mc
      have h2 := hpa.lc
      have h3 := hpa.ptr
      rw [hmv1, hfull] at h1
      rw [hcn] at h2
      rw [hmv1]
      rw [hR1] at h1 h2 h3 ⊢
      by_cases hk : k ≤ b ∧ s.R s.mn k = i
      · rw [if_pos hk] at h1 h2 h3 ⊢
        have hc0 : c = 0 := by have := hsl.new; omega
        subst hc0
        rw [hcpp] at h3; cases h3
        have hu0 : u = 0 := by have := ho.olo.new; omega
        subst hu0
        rw [ho.lov]
        have h4 := hsite k d hk.2
        have h5 := (tm_le (s := s) (t := t) d).1
        omega
      · rw [if_neg hk] at h1 h2 h3 ⊢
        have hj := hRp s.mn k (Nat.le_refl _)
        have hc0 : c = s.cn (s.R s.mn k) := by omega
        subst hc0
        rw [hcp _ _ hj] at h3
        rw [hcvj _ _ hj]
        have h4 := h.flow.pub k s.mn _ y u d (hi'.core.top h3) hu
        have h5 := (tm_le (s := s) (t := t) d).2
        omega
  · intro j y hsi k d hk
    cases hsi
    rw [hmn, hR1] at hk
    rw [hver, hhw, hln]
    by_cases hk' : k ≤ b ∧ s.R s.mn k = i
    · rw [if_pos hk'] at hk; exact absurd hk.symm hpi
    · rw [if_neg hk'] at hk
      exact Nat.le_trans (hsite k d hk) (tm_le d).1

theorem cause_swap {s : State} {t i x hi : Nat} (hi' : Inv s) (h : Cause s) (hp : s.pc t = .thawn i x hi) :
    Cause ((s.addCell i (some hi) (s.tc t i)).go t .lock ((s.tv t).seeC i (s.cn i + 1))) := by
  have hl : (s.pc t).locked = true := by rw [hp]; rfl
  have ho : Half s i x hi := hi'.pcAt hp
  have hw := h.whole hi' hl
  refine cause_hold hi' hl rfl rfl ?_ (whole_cell (i := i) (o := some hi) (v := s.tc t i)
    (hw.more (w := (s.tv t).seeC i (s.cn i + 1)) (fun _ => Nat.le_refl _)) rfl rfl rfl rfl (fun d => tc_le hw d))
    (fun _ _ e => by cases e)
  refine flow_cell h.flow id rfl rfl rfl rfl rfl rfl rfl rfl rfl (.inr (tc_m hi' hl)) ?_
  intro k y d u hy hk hu
  cases hy
  have hu0 : u = 0 := by have := ho.ohi.new; omega
  subst hu0
  rw [ho.hiv]
  exact Nat.le_trans (h.site hp rfl k d hk) (join_left _ _ d)

theorem cause_swap1 {s : State} {t i x y : Nat} (hi : Inv s) (h : Cause s) (hp : s.pc t = .one i x y) :
    Cause (((s.addCell i (some y) (s.tc t i)).setDead x).go t .lock ((s.tv t).seeC i (s.cn i + 1))) := by
  have hl : (s.pc t).locked = true := by rw [hp]; rfl
  have ho : Single s i x y := hi.pcAt hp
  have hw := h.whole hi hl
  refine cause_hold hi hl rfl rfl ?_ (whole_cell (i := i) (o := some y) (v := s.tc t i)
    (hw.more (w := (s.tv t).seeC i (s.cn i + 1)) (fun _ => Nat.le_refl _)) rfl rfl rfl rfl (fun d => tc_le hw d))
    (fun _ _ e => by cases e)
  refine flow_cell (i := i) (o := some y) (v := s.tc t i) h.flow (fun hp => ⟨hp.le, hp.lc, hp.mc, hp.cm, hp.ptr⟩) rfl rfl rfl rfl
    rfl rfl rfl rfl rfl (.inr (tc_m hi hl)) ?_
  intro k z d u hz hk hu
  cases hz
  have hu0 : u = 0 := by have := ho.oy.new; omega
  subst hu0
  rw [ho.ver]
  exact Nat.le_trans (h.site hp rfl k d hk) (join_left _ _ d)

theorem cause_null {s : State} {t q : Nat} (hi : Inv s) (h : Cause s) (hp : s.pc t = .drop q) :
    Cause ((s.addCell q none (s.tc t q)).go t .lock ((s.tv t).seeC q (s.cn q + 1))) := by
  have hl : (s.pc t).locked = true := by rw [hp]; rfl
  have hw := h.whole hi hl
  refine cause_hold hi hl rfl rfl ?_ (whole_cell (i := q) (o := none) (v := s.tc t q)
    (hw.more (w := (s.tv t).seeC q (s.cn q + 1)) (fun _ => Nat.le_refl _)) rfl rfl rfl rfl (fun d => tc_le hw d))
    (fun _ _ e => by cases e)
  exact flow_cell h.flow id rfl rfl rfl rfl rfl rfl rfl rfl rfl (.inl rfl) (fun _ _ _ _ e => by cases e)

theorem cause_drop {s : State} {t q c x u n : Nat} (hi : Inv s) (h : Cause s) (hp : s.pc t = .lock) (h1 : (s.tv t).m ≤ n)
    (h2 : n ≤ s.mn) (h3 : q ∈ (s.mw n).kids.map Prod.snd) (h4 : (s.tv t).c q ≤ c) (h5 : c ≤ s.cn q) (h6 : s.cp q c = some x)
    (h8 : u ≤ s.ln x) (h9 : (s.lw x u).retired = true) :
    Cause (((((s.addWord { s.word with kids := cut q s.word.kids, gone := s.word.gone + 1 }
      ((s.tm t).join (s.lv x u))).rever q).setDead x)).go t (.drop q) (((s.tm t).join (s.lv x u)).seeL x u)) := by
  have hl : (s.pc t).locked = true := by rw [hp]; rfl
  have hf := hi.full' hl
  have hn : n = s.mn := by have := hf.1; omega
  have hcq : c = s.cn q := by have := hf.2 q; omega
  subst hn hcq
  have hal : ∀ j y, s.Kid j → s.cp j (s.cn j) = some y → s.dead y = false := fun j y hk hy =>
    hi.alive hl hk hy (by intro _ _ _ _; rw [hp]; intro e; cases e) (by intro _ _ _; rw [hp]; intro e; cases e)
  have hw := h.whole hi hl
  have hlvc := hi.views.lv x u h8
  have hfc : ∀ j, ((s.tm t).join (s.lv x u)).c j = s.cn j := by
    intro j
    show max _ _ = _
    rw [(tm_full hi hl).2 j]; exact Nat.max_eq_left (hlvc.c j)
  have hg1 : ∀ d, (s.tv t).g d ≤ ((s.tm t).join (s.lv x u)).g d := fun d => Nat.le_trans (tm_le d).1 (join_left _ _ d)
  have hg2 : ∀ d, (s.mv s.mn).g d ≤ ((s.tm t).join (s.lv x u)).g d := fun d => Nat.le_trans (tm_le d).2 (join_left _ _ d)
  have hg3 : ∀ d, (s.lv x u).g d ≤ ((s.tm t).join (s.lv x u)).g d := fun d => join_right _ _ d
  generalize (s.tm t).join (s.lv x u) = v at *
  generalize hs : ((s.addWord { s.word with kids := cut q s.word.kids, gone := s.word.gone + 1 } v).rever q).setDead x = s1
  have hmn : s1.mn = s.mn + 1 := by subst hs; rfl
  have hmw : ∀ n, n ≤ s.mn → s1.mw n = s.mw n := by intro n hn; subst hs; exact (addWord_mw (v := v) hn)
  have hmv : ∀ n, n ≤ s.mn → s1.mv n = s.mv n := by
    intro n hn; subst hs
    exact (addWord_mv (w := { s.word with kids := cut q s.word.kids, gone := s.word.gone + 1 }) hn)
  have hmvu : s1.mv = upd s.mv (s.mn + 1) v := by subst hs; rfl
  have hmv1 : s1.mv (s.mn + 1) = v := by rw [hmvu, upd_self]
  have hword : s1.mw (s.mn + 1) = { s.word with kids := cut q s.word.kids, gone := s.word.gone + 1 } := by
    subst hs; exact (addWord_new (v := v)).1
  have hR : ∀ n k, n ≤ s.mn → s1.R n k = s.R n k := by intro n k hn; simp only [State.R, hmw n hn]
  have hR1 : ∀ k, s.R s.mn k ≠ q → s1.R (s.mn + 1) k = s.R s.mn k := by
    intro k hk; simp only [State.R, hword]; exact route_cut hk
  have hcn : s1.cn = s.cn := by subst hs; rfl
  have hcp : s1.cp = s.cp := by subst hs; rfl
  have hcv : s1.cv = s.cv := by subst hs; rfl
  have hln : s1.ln = s.ln := by subst hs; rfl
  have hlw : s1.lw = s.lw := by subst hs; rfl
  have hlv : s1.lv = s.lv := by subst hs; rfl
  have hhw : s1.hw = s.hw := by subst hs; rfl
  have hkid : ∀ k, s1.R (s.mn + 1) k ≠ q ∧ s.Kid (s1.R (s.mn + 1) k) := by
    intro k
    have hq0 : q ≠ 0 := by
      obtain ⟨e, he1, he2⟩ := List.mem_map.mp h3
      have := (hi.core.places s.mn (Nat.le_refl _) e he1).1
      omega
    cases route_mem (s1.mw (s.mn + 1)).kids k with
    | inl h7 =>
      have h7 : s1.R (s.mn + 1) k = 0 := h7
      rw [h7]; exact ⟨hq0.symm, .inl rfl⟩
    | inr h7 =>
      rw [hword] at h7
      have h10 := cut_places h7
      have e : s1.R (s.mn + 1) k = route (cut q s.word.kids) k := by simp only [State.R, hword]
      rw [e]; exact ⟨h10.2, .inr h10.1⟩
  have hver : ∀ y u k, s1.ver y u k = if s.R s.mn k = q ∧ s.cp (s1.R (s.mn + 1) k) (s.cn (s1.R (s.mn + 1) k)) = some y
      then s.hn k else s.ver y u k := by
    intro y u k
    have e1 : ∀ m, (s.addWord { s.word with kids := cut q s.word.kids, gone := s.word.gone + 1 } v).R m k = s1.R m k := by
      subst hs; intro m; rfl
    have e2 : s1.ver y u k = if (s.addWord { s.word with kids := cut q s.word.kids, gone := s.word.gone + 1 } v).R
        (s.mn + 1 - 1) k = q ∧ s.cp ((s.addWord { s.word with kids := cut q s.word.kids, gone := s.word.gone + 1 } v).R
        (s.mn + 1) k) (s.cn ((s.addWord { s.word with kids := cut q s.word.kids, gone := s.word.gone + 1 } v).R
        (s.mn + 1) k)) = some y then s.hn k else s.ver y u k := by subst hs; rfl
    rw [e2, e1, e1, Nat.add_sub_cancel, hR s.mn k (Nat.le_refl _)]
  refine cause_hold hi hl (by subst hs; rfl) (by subst hs; rfl) ⟨mono_word h.flow hmn hmvu hg2, ?_, ?_⟩
    (whole_word ((hw.more hg1).more (w := v.seeL x u) (fun _ => Nat.le_refl _)) hmn hmvu hcn (fun _ _ _ => .inl (by rw [hcv]))
      (fun _ => Nat.le_refl _)) (fun _ _ e => by cases e)
  · intro k n c y u' d hpa hu
    rw [hln] at hu
    rw [hver, hhw, hlv]
    by_cases hn : n ≤ s.mn
    · rw [hR n k hn] at hpa ⊢
      have hpa' : Path s n (s.R n k) c y := ⟨hn, by rw [← hcn]; exact hpa.lc, by rw [← hmv n hn]; exact hpa.mc, by
        rw [← hcv]; exact hpa.cm, by rw [← hcp]; exact hpa.ptr⟩
      have hno : ¬ (s.R s.mn k = q ∧ s.cp (s1.R (s.mn + 1) k) (s.cn (s1.R (s.mn + 1) k)) = some y) := by
        intro e
        have hdy := hal _ y (hkid k).2 e.2
        have h7 := hi.core.grow y k n _ c s.mn hdy hpa' rfl hn (Nat.le_refl _)
        have h10 := hi.core.uniq y _ _ _ _ hpa'.lc (Nat.le_refl _) hpa'.ptr e.2
        exact (hkid k).1 (h10.symm.trans (h7.symm.trans e.1))
      rw [if_neg hno, hmv n hn, hcv]
      exact h.flow.pub k n c y u' d hpa' hu
    · have hn' : n = s.mn + 1 := by have := hpa.le; omega
      subst hn'
      have a1 := hpa.mc
      have a2 := hpa.lc
      have a3 := hpa.ptr
      rw [hmv1, hfc] at a1
      rw [hcn] at a2
      rw [hcp] at a3
      have hc0 : c = s.cn (s1.R (s.mn + 1) k) := by omega
      subst hc0
      rw [hmv1, hcv]
      by_cases hk : s.R s.mn k = q
      · rw [if_pos ⟨hk, a3⟩]
        have b1 := h.flow.pub k s.mn (s.cn (s.R s.mn k)) x u d (hi.core.top (by rw [hk]; exact h6)) h8
        have b2 := h.flow.ret x u _ k h8 (Nat.le_refl _) h9
        have b3 := hi.core.fresh k x (by rw [hk]; exact h6)
        rw [← b2, b3] at b1
        have b4 := hw.c (s.R s.mn k) _ d (Nat.le_refl _)
        have b5 := hg1 d
        have b6 := hg2 d
        have b7 := hg3 d
        omega
      · rw [if_neg (fun e => hk e.1)]
        have e := hR1 k hk
        rw [e] at a3 ⊢
        have b1 := h.flow.pub k s.mn _ y u' d (hi.core.top a3) hu
        have b2 := hg2 d
        omega
  · intro y u1 u2 k a1 a2 a3
    rw [hln] at a2
    rw [hlw] at a3
    rw [hver, hver]
    split
    · rfl
    · exact h.flow.ret y u1 u2 k a1 a2 a3

theorem cause_step {s s' : State} {l : Label} (hi : Inv s) (h : Cause s) (hs : Step s l s') : Cause s' := by
  have unlocked : ∀ {t : Nat} {p : Pc}, s.pc t = p → p.locked = false → (s.pc t).locked = false := fun e hp => by rw [e]; exact hp
  cases hs with
  | sel h1 _ h3 => exact cause_read hi h (unlocked h1 rfl) rfl
  | load h1 h2 h3 h4 => exact cause_read hi h (unlocked h1 rfl) rfl
  | valid h1 h2 h3 h4 => exact cause_read hi h (unlocked h1 rfl) rfl
  | retry h1 =>
    refine cause_read hi h ?_ rfl
    cases h1 with
    | inl h1 => rw [h1]; rfl
    | inr h1 => cases h1 with
      | inl h1 => obtain ⟨_, _, h1⟩ := h1; rw [h1]; rfl
      | inr h1 => obtain ⟨_, _, h1⟩ := h1; rw [h1]; rfl
  | read h1 _ h3 h4 _ => exact cause_read hi h (unlocked h1 rfl) rfl
  | reserve h1 h2 h3 =>
    exact cause_page hi h (unlocked h1 rfl) wrote (fun _ _ _ _ => rfl) (fun _ => Nat.le_refl _)
      (fun _ _ => Nat.le_max_left _ _) (fun _ => rfl) (fun _ => rfl) rfl
  | undo h1 =>
    exact cause_page hi h (unlocked h1 rfl) wrote (fun _ _ _ _ => rfl) (fun d => join_right _ _ d)
      (fun _ _ => Nat.le_max_left _ _) (fun _ => rfl) (fun _ => rfl) rfl
  | late h1 h2 h3 =>
    exact cause_page hi h (unlocked h1 rfl) wrote (fun _ _ _ _ => rfl) (fun d => join_right _ _ d)
      (fun _ _ => Nat.le_max_left _ _) (fun _ => rfl) (fun _ => rfl) rfl
  | @ins t k n c x v h1 h2 h3 _ =>
    have hd : s.dead x = false := by
      cases hd : s.dead x with
      | false => rfl
      | true => cases hi.core.block x hd with
        | inl h4 => rw [h2] at h4; cases h4
        | inr h4 => rw [h3] at h4; cases h4
    exact cause_set hi h h1 h2 hd h3
  | @del t k n c x v r h1 h2 h3 h4 =>
    have hr : (s.page x).retired = false := by
      cases hr : (s.page x).retired with
      | false => rfl
      | true =>
        have := hi.core.empty x _ k (Nat.le_refl _) hr
        rw [show s.lw x (s.ln x) = s.page x from rfl, h3] at this; cases this
    have hd : s.dead x = false := by
      cases hd : s.dead x with
      | false => rfl
      | true => cases hi.core.block x hd with
        | inl h5 => rw [h2] at h5; cases h5
        | inr h5 => rw [hr] at h5; cases h5
    exact cause_set hi h h1 h2 hd hr
  | lock h1 h2 => exact cause_lock hi h h2
  | unlock h1 => exact cause_unlock hi h h1
  | freeze h1 h2 h3 h4 _ => exact cause_freeze hi h h1 h2 h3 h4
  | abort h1 => exact cause_abort hi h h1
  | @make t i x b d h1 h2 h3 h4 =>
    exact cause_make hi h (core_new hi.core (fun k => hi.core.verb x _ k (Nat.le_refl _)) rfl) h1
  | resv h1 => exact cause_resv hi h h1
  | publ h1 => exact cause_publ hi h h1
  | thaw h1 => exact cause_thaw hi h h1
  | swap h1 => exact cause_swap hi h h1
  | make1 h1 => exact cause_make1 hi h h1
  | swap1 h1 => exact cause_swap1 hi h h1
  | drop h1 h2 h3 h4 h5 h6 h7 _ h9 h10 => exact cause_drop hi h h1 h2 h3 h4 h5 h6 h7 h9 h10
  | null h1 => exact cause_null hi h h1
  | sync h1 => exact cause_read hi h (unlocked h1 rfl) rfl

theorem cause_reach {s : State} (h : Reach s) : Cause s := by
  have : ∀ {a b : State}, Steps a b → Inv a ∧ Cause a → Inv b ∧ Cause b := by
    intro a b hs
    induction hs with
    | refl => exact id
    | step _ h2 ih => exact fun ha => ⟨inv_step (ih ha).1 h2, cause_step (ih ha).1 (ih ha).2 h2⟩
  exact (this h ⟨inv_init, cause_init⟩).2

end Scc.Twig
