import Verif.Twig.Step

/-! # Steps of calls -/

namespace Scc.Twig

theorem Inv.pcAt {s : State} (h : Inv s) {t : Nat} {p : Pc} (hp : s.pc t = p) : PcOk s (s.tv t) p := hp ▸ h.pcs t

theorem inv_sel {s : State} {t k n : Nat} {o : Op} (h : Inv s) (hp : s.pc t = .idle) (hn : n ≤ s.mn) :
    Inv (s.go t (.sel o k n) (((s.tv t).join (s.mv n)).seeM n)) := by
  refine inv_read h (by rw [hp]; rfl) rfl (((h.views.tv t).join (h.views.mv n hn)).seeM hn) ?_
  show Sel s _ n
  exact ⟨hn, Nat.le_max_right _ _, fun i => Nat.le_max_right _ _⟩

theorem inv_load {s : State} {t k n c x : Nat} {o : Op} (h : Inv s) (hp : s.pc t = .sel o k n)
    (h1 : (s.tv t).c (s.R n k) ≤ c) (h2 : c ≤ s.cn (s.R n k)) (h3 : s.cp (s.R n k) c = some x) :
    Inv (s.go t (.got o k n c x) (((s.tv t).join (s.cv (s.R n k) c)).seeC (s.R n k) c)) := by
  have hs : Sel s (s.tv t) n := h.pcAt hp
  have hv := h.views.cv _ _ h2
  refine inv_read h (by rw [hp]; rfl) rfl (((h.views.tv t).join hv).seeC h2) ?_
  show Got s _ k n c x
  refine ⟨hs.le, Nat.le_trans hs.m (Nat.le_max_left _ _), h2, Nat.le_trans (hs.mv _) h1, h3, Nat.le_max_right _ _, ?_⟩
  show upd _ _ _ _ = c
  rw [upd_self]
  refine Nat.max_eq_right (Nat.max_le.mpr ⟨h1, h.views.self _ _ h2⟩)

theorem inv_valid {s : State} {t k n c x m : Nat} {o : Op} (h : Inv s) (hp : s.pc t = .got o k n c x)
    (h1 : (s.tv t).m ≤ m) (h2 : m ≤ s.mn) (h3 : s.mw m = s.mw n) :
    Inv (s.go t (.ent o k n c x) ((s.tv t).seeM m)) := by
  have hs : Got s (s.tv t) k n c x := h.pcAt hp
  have hm : m = n := by
    have a := h.core.stamp m h2
    have b := h.core.stamp n hs.le
    rw [h3] at a; omega
  subst hm
  have hpath : Path s m (s.R m k) c x := ⟨hs.le, hs.lc, hs.mc, Nat.le_trans hs.cm h1, hs.ptr⟩
  refine inv_read h (by rw [hp]; rfl) rfl ((h.views.tv t).seeM h2) ?_
  show Ent s _ k m c x
  refine ⟨hpath, Nat.le_max_right _ _, Nat.le_of_eq hs.vc.symm, (h.views.tv t).l x, ?_⟩
  intro u hu1 hu2
  have hg := VOk.find h.core (h.views.tv t) hpath hu2 h1 (Nat.le_of_eq hs.vc) hu1
  exact hg

theorem inv_idle {s : State} {t : Nat} (h : Inv s) (hu : (s.pc t).locked = false) : Inv (s.go t .idle (s.tv t)) :=
  inv_read h hu rfl (h.views.tv t) trivial

theorem inv_look {s : State} {t k n c x u u' : Nat} {o : Op} (h : Inv s) (hp : s.pc t = .ent o k n c x)
    (h2 : u ≤ u') (h3 : u' ≤ s.ln x) :
    Inv (s.go t .idle (((((s.tv t).join (s.lv x u)).join (s.lv x u')).seeL x u').know k (s.ver x u k))) := by
  have hs : Ent s (s.tv t) k n c x := h.pcAt hp
  have hv := (((h.views.tv t).join (h.views.lv x u (by omega))).join (h.views.lv x u' h3)).seeL h3
  refine inv_read h (by rw [hp]; rfl) rfl ?_ trivial
  refine hv.know (n := n) (c := c) (x := x) (u := u) hs.path (by omega) ?_ ?_ ?_ (Nat.le_refl _)
  · exact Nat.le_trans hs.m (Nat.le_trans (Nat.le_max_left _ _) (Nat.le_max_left _ _))
  · exact Nat.le_trans hs.vc (Nat.le_trans (Nat.le_max_left _ _) (Nat.le_max_left _ _))
  · show u ≤ upd _ _ _ _
    rw [upd_self]; exact Nat.le_trans h2 (Nat.le_max_right _ _)

/-- The leaf of a call that was validated. -/
theorem Ent.at {s : State} {v : View} {k n c x : Nat} (h : Ent s v k n c x) : ∃ j c, c ≤ s.cn j ∧ s.cp j c = some x :=
  ⟨_, c, h.path.lc, h.path.ptr⟩

theorem inv_reserve {s : State} {t k n c x v : Nat} (h : Inv s) (hp : s.pc t = .ent (.ins v) k n c x)
    (h1 : (s.page x).frozen = false) (h2 : (s.page x).retired = false) :
    Inv ((s.addPage x (s.page x) ((s.lv x (s.ln x)).seeL x (s.ln x + 1)) (s.ver x (s.ln x))).go t
      (.ent (.ins v) k n c x) (s.tl t x)) := by
  have hs : Ent s (s.tv t) k n c x := h.pcAt hp
  have hx : x < s.nl := h.core.leaf _ _ _ hs.path.lc hs.path.ptr
  have he : Ext s (s.addPage x (s.page x) ((s.lv x (s.ln x)).seeL x (s.ln x + 1)) (s.ver x (s.ln x))) :=
    ext_page (fun _ => Nat.le_refl _)
  have hd : s.dead x = false := by
    cases hd : s.dead x with
    | false => rfl
    | true => cases h.core.block x hd with
      | inl h3 => rw [h1] at h3; cases h3
      | inr h3 => rw [h2] at h3; cases h3
  have hnow := h.core.now hs.path hd
  refine inv_page h (by rw [hp]; rfl) wrote (core_page h.core hx rfl rfl (fun e => by rw [hd] at e; cases e)) he hs.at
    (fun _ => ⟨rfl, rfl⟩) ?_ (tl_ok h (fun _ => Nat.le_refl _)) rfl ?_
  · refine VOk.seeL ((h.views.lv x _ (Nat.le_refl _)).ext h.core he) ?_
    rw [addPage_ln, if_pos rfl]; exact Nat.le_refl _
  · show Ent _ _ k n c x
    have hl : (s.tl t x).l x = s.ln x + 1 := by
      show upd _ _ _ _ = _
      rw [upd_self]
      have a := (h.views.tv t).l x
      have b := (h.views.lv x _ (Nat.le_refl _)).l x
      refine Nat.max_eq_right (Nat.max_le.mpr ⟨?_, ?_⟩) <;> omega
    refine ⟨he.path hs.path, Nat.le_trans hs.m (Nat.le_max_left _ _), Nat.le_trans hs.vc (Nat.le_max_left _ _), ?_, ?_⟩
    · rw [hl, addPage_ln, if_pos rfl]; exact Nat.le_refl _
    · intro u hu1 hu2
      rw [hl] at hu1
      rw [addPage_ln, if_pos rfl] at hu2
      have e : u = s.ln x + 1 := by omega
      subst e
      have e2 : (s.addPage x (s.page x) ((s.lv x (s.ln x)).seeL x (s.ln x + 1)) (s.ver x (s.ln x))).ver x (s.ln x + 1) k =
          s.ver x (s.ln x) k := by simp [State.addPage]
      rw [e2]
      have a := hs.fine _ hs.l (Nat.le_refl _)
      have b : (s.lv x (s.ln x)).g k ≤ s.ver x (s.ln x) k :=
        VOk.find h.core (h.views.lv x _ (Nat.le_refl _)) (h.core.top hnow.2) (Nat.le_refl _)
          (h.views.lv x _ (Nat.le_refl _)).m ((h.views.lv x _ (Nat.le_refl _)).c _) ((h.views.lv x _ (Nat.le_refl _)).l x)
      exact Nat.max_le.mpr ⟨a, b⟩

theorem inv_undo {s : State} {t k n c x v : Nat} (h : Inv s) (hp : s.pc t = .ent (.ins v) k n c x) :
    Inv ((s.addPage x (s.page x) (s.tl t x) (s.ver x (s.ln x))).go t (.ent (.ins v) k n c x)
      ((s.tv t).seeL x (s.ln x + 1))) := by
  have hs : Ent s (s.tv t) k n c x := h.pcAt hp
  have hx : x < s.nl := h.core.leaf _ _ _ hs.path.lc hs.path.ptr
  have he : Ext s (s.addPage x (s.page x) (s.tl t x) (s.ver x (s.ln x))) := ext_page (fun _ => Nat.le_refl _)
  refine inv_page h (by rw [hp]; rfl) wrote (core_page h.core hx rfl rfl (fun e => h.core.block x e)) he hs.at
    (fun _ => ⟨rfl, rfl⟩) (tl_ok h (fun _ => Nat.le_refl _)) (seeL_ok h (fun _ => Nat.le_refl _)) rfl ?_
  show Ent _ _ k n c x
  have hl : ((s.tv t).seeL x (s.ln x + 1)).l x = s.ln x + 1 := by
    show upd _ _ _ _ = _
    rw [upd_self]
    have a := (h.views.tv t).l x
    exact Nat.max_eq_right (by omega)
  refine ⟨he.path hs.path, hs.m, hs.vc, ?_, ?_⟩
  · rw [hl, addPage_ln, if_pos rfl]; exact Nat.le_refl _
  · intro u hu1 hu2
    rw [hl] at hu1
    rw [addPage_ln, if_pos rfl] at hu2
    have e : u = s.ln x + 1 := by omega
    subst e
    have e2 : (s.addPage x (s.page x) (s.tl t x) (s.ver x (s.ln x))).ver x (s.ln x + 1) k = s.ver x (s.ln x) k := by
      simp [State.addPage]
    rw [e2]; exact hs.fine _ hs.l (Nat.le_refl _)

theorem inv_late {s : State} {t j c x : Nat} (h : Inv s) (hp : s.pc t = .idle) (hj : c ≤ s.cn j) (hx : s.cp j c = some x) :
    Inv ((s.addPage x (s.page x) (s.tl t x) (s.ver x (s.ln x))).go t .idle ((s.tv t).seeL x (s.ln x + 1))) :=
  inv_page h (by rw [hp]; rfl) wrote (core_page h.core (h.core.leaf _ _ _ hj hx) rfl rfl (fun e => h.core.block x e))
    (ext_page (fun _ => Nat.le_refl _)) ⟨j, c, hj, hx⟩ (fun _ => ⟨rfl, rfl⟩) (tl_ok h (fun _ => Nat.le_refl _))
    (seeL_ok h (fun _ => Nat.le_refl _)) rfl trivial

/-- The newest value is changed. -/
theorem inv_set {s : State} {t k n c x : Nat} {o : Op} {p : Page} {a : Option Nat} {w : Nat → Nat} (h : Inv s)
    (hp : s.pc t = .ent o k n c x) (hf : (s.page x).frozen = false) (hd : s.dead x = false)
    (hc : Core ((s.addPage x p ((s.tl t x).know k (s.hn k + 1)) (upd (s.ver x (s.ln x)) k (s.hn k + 1))).addHist k a w)) :
    Inv (((s.addPage x p ((s.tl t x).know k (s.hn k + 1)) (upd (s.ver x (s.ln x)) k (s.hn k + 1))).addHist k a w).go t .idle
      ((s.tl t x).know k (s.hn k + 1))) := by
  have hs : Ent s (s.tv t) k n c x := h.pcAt hp
  have hr : ∀ d, s.ver x (s.ln x) d ≤ upd (s.ver x (s.ln x)) k (s.hn k + 1) d := by
    intro d
    by_cases e : d = k
    · subst e; rw [upd_self]; have := h.core.verb x _ d (Nat.le_refl (s.ln x)); omega
    · rw [upd_ne _ _ e]; exact Nat.le_refl _
  have he := ext_hist (k := k) (r := a) (w := w) (ext_page (p := p) (v := (s.tl t x).know k (s.hn k + 1)) hr)
  have hv : VOk ((s.addPage x p ((s.tl t x).know k (s.hn k + 1)) (upd (s.ver x (s.ln x)) k (s.hn k + 1))).addHist k a w)
      ((s.tl t x).know k (s.hn k + 1)) := by
    have h0 : VOk ((s.addPage x p ((s.tl t x).know k (s.hn k + 1)) (upd (s.ver x (s.ln x)) k (s.hn k + 1))).addHist k a w)
        (s.tl t x) := by
      refine VOk.seeL (((h.views.tv t).join (h.views.lv x _ (Nat.le_refl _))).ext h.core he) ?_
      show s.ln x + 1 ≤ upd _ _ _ _
      rw [upd_self]; exact Nat.le_refl _
    refine h0.know (n := n) (c := c) (x := x) (u := s.ln x + 1) (he.path hs.path) ?_
      (Nat.le_trans hs.m (Nat.le_max_left _ _)) (Nat.le_trans hs.vc (Nat.le_max_left _ _)) ?_ ?_
    · show s.ln x + 1 ≤ upd _ _ _ _
      rw [upd_self]; exact Nat.le_refl _
    · show s.ln x + 1 ≤ upd _ _ _ _
      rw [upd_self]; exact Nat.le_max_right _ _
    · show s.hn k + 1 ≤ upd s.ver x _ x (s.ln x + 1) k
      rw [upd_self, upd_self, upd_self]; exact Nat.le_refl _
  refine inv_page h (by rw [hp]; rfl) wrote' hc he hs.at ?_ hv hv rfl trivial
  intro hb
  cases hb with
  | inl hb => rw [hf] at hb; cases hb
  | inr hb => rw [hd] at hb; cases hb

theorem inv_ins {s : State} {t k n c x v : Nat} (h : Inv s) (hp : s.pc t = .ent (.ins v) k n c x)
    (h1 : (s.page x).frozen = false) (h2 : (s.page x).retired = false) :
    Inv (((s.addPage x ⟨upd (s.page x).has k (some v), false, false⟩ ((s.tl t x).know k (s.hn k + 1))
      (upd (s.ver x (s.ln x)) k (s.hn k + 1))).addHist k (some v)
      ((s.tl t x).know k (s.hn k + 1)).g).go t .idle ((s.tl t x).know k (s.hn k + 1))) := by
  have hs : Ent s (s.tv t) k n c x := h.pcAt hp
  have hd : s.dead x = false := by
    cases hd : s.dead x with
    | false => rfl
    | true => cases h.core.block x hd with
      | inl h3 => rw [h1] at h3; cases h3
      | inr h3 => rw [h2] at h3; cases h3
  exact inv_set h hp h1 hd (core_set h.core hs.path hd rfl (by intro e; rw [h2] at e; cases e) (by intro e; cases e))

theorem inv_del {s : State} {t k n c x v : Nat} {r : Bool} (h : Inv s) (hp : s.pc t = .ent .del k n c x)
    (h1 : (s.page x).frozen = false) (h2 : (s.page x).has k = some v)
    (h3 : r = true → ∀ d, d ≠ k → (s.page x).has d = none) :
    Inv (((s.addPage x ⟨upd (s.page x).has k none, false, r⟩ ((s.tl t x).know k (s.hn k + 1))
      (upd (s.ver x (s.ln x)) k (s.hn k + 1))).addHist k none
      ((s.tl t x).know k (s.hn k + 1)).g).go t .idle ((s.tl t x).know k (s.hn k + 1))) := by
  have hs : Ent s (s.tv t) k n c x := h.pcAt hp
  have hr : (s.page x).retired = false := by
    cases hr : (s.page x).retired with
    | false => rfl
    | true => have := h.core.empty x _ k (Nat.le_refl _) hr; rw [show s.lw x (s.ln x) = s.page x from rfl, h2] at this; cases this
  have hd : s.dead x = false := by
    cases hd : s.dead x with
    | false => rfl
    | true => cases h.core.block x hd with
      | inl h3 => rw [h1] at h3; cases h3
      | inr h3 => rw [hr] at h3; cases h3
  refine inv_set h hp h1 hd (core_set h.core hs.path hd rfl ?_ ?_)
  · intro e; rw [hr] at e; cases e
  · intro e d
    show upd _ _ _ _ = none
    by_cases ed : d = k
    · subst ed; rw [upd_self]
    · rw [upd_ne _ _ ed]; exact h3 e d ed

theorem inv_sync {s : State} {a b : Nat} (h : Inv s) (hp : s.pc b = .idle) :
    Inv (s.go b .idle ((s.tv b).join (s.tv a))) :=
  inv_read h (by rw [hp]; rfl) rfl ((h.views.tv b).join (h.views.tv a)) trivial

theorem inv_lock {s : State} {t : Nat} (h : Inv s) (hp : s.pc t = .idle) (hh : s.holder = none) :
    Inv ({ s with holder := some t }.go t .lock ((s.tv t).join s.lockv)) := by
  have hv : VOk s ((s.tv t).join s.lockv) := (h.views.tv t).join h.views.lockv
  have hpc : ∀ t', t' ≠ t → ({ s with holder := some t }.go t .lock ((s.tv t).join s.lockv)).pc t' = s.pc t' :=
    fun t' e => upd_ne _ _ e
  have htv : ∀ t', t' ≠ t → ({ s with holder := some t }.go t .lock ((s.tv t).join s.lockv)).tv t' = s.tv t' :=
    fun t' e => upd_ne _ _ e
  have hpt : ({ s with holder := some t }.go t .lock ((s.tv t).join s.lockv)).pc t = .lock := upd_self _ _ _
  have htt : ({ s with holder := some t }.go t .lock ((s.tv t).join s.lockv)).tv t = (s.tv t).join s.lockv :=
    upd_self _ _ _
  have hno : ∀ t', (s.pc t').locked = false := by
    intro t'
    cases hl : (s.pc t').locked with
    | false => rfl
    | true => have := (h.lk t').mp hl; rw [hh] at this; cases this
  have hf := h.free hh
  have hview := views_go (t := t) (p := .lock) h.core h.views hv
  have he : Ext (s.go t .lock ((s.tv t).join s.lockv)) ({ s with holder := some t }.go t .lock ((s.tv t).join s.lockv)) :=
    ext_ctl
  refine ⟨core_ctl (s := s) h.core, hview.ext (core_go h.core) he (fun n hn => .inl ⟨hn, rfl⟩) (fun i c hn => .inl ⟨hn, rfl⟩)
    (fun x u hn => .inl ⟨hn, rfl⟩) (.inl rfl) (fun t => .inl rfl), ?_, ?_, ?_, ?_, ?_, ?_⟩
  · intro t'
    by_cases e : t' = t
    · subst e; rw [hpt]; trivial
    · rw [hpc t' e, htv t' e]; exact PcOk.ctl (s := s) h.core (h.pcs t')
  · intro t'
    show _ ↔ some t = some t'
    by_cases e : t' = t
    · subst e; rw [hpt]; exact ⟨fun _ => rfl, fun _ => rfl⟩
    · rw [hpc t' e, hno t']; exact ⟨(fun h => by cases h), fun h => absurd (Option.some.inj h).symm e⟩
  · intro t' ht'
    have e : t = t' := Option.some.inj ht'
    subst e
    rw [htt]
    refine ⟨?_, fun i => ?_⟩
    · show max (s.tv t).m s.lockv.m = s.mn
      rw [hf.1]; exact Nat.max_eq_right (h.views.tv t).m
    · show max ((s.tv t).c i) (s.lockv.c i) = s.cn i
      rw [hf.2 i]; exact Nat.max_eq_right ((h.views.tv t).c i)
  · intro e; cases e
  · intro i x hx
    cases h.tops i x hx with
    | inl h1 => exact .inl h1
    | inr h1 => obtain ⟨t', h1⟩ := h1; have := hno t'; rw [h1] at this; cases this
  · intro i x hk hx hd
    obtain ⟨t', h1⟩ := h.nodead i x hk hx hd
    have h2 := hno t'
    cases h1 with
    | inl h1 => obtain ⟨_, _, h1⟩ := h1; rw [h1] at h2; cases h2
    | inr h1 => obtain ⟨_, h1⟩ := h1; rw [h1] at h2; cases h2

theorem inv_unlock {s : State} {t : Nat} (h : Inv s) (hp : s.pc t = .lock) :
    Inv ({ s with holder := none, lockv := s.tv t }.go t .idle (s.tv t)) := by
  have hl : (s.pc t).locked = true := by rw [hp]; rfl
  have hpc : ∀ t', t' ≠ t → ({ s with holder := none, lockv := s.tv t }.go t .idle (s.tv t)).pc t' = s.pc t' :=
    fun t' e => upd_ne _ _ e
  have htv : ∀ t', ({ s with holder := none, lockv := s.tv t }.go t .idle (s.tv t)).tv t' = s.tv t' := by
    intro t'
    by_cases e : t' = t
    · subst e; exact upd_self _ _ _
    · exact upd_ne _ _ e
  have hpt : ({ s with holder := none, lockv := s.tv t }.go t .idle (s.tv t)).pc t = .idle := upd_self _ _ _
  have hno : ∀ t', t' ≠ t → (s.pc t').locked = false := by
    intro t' e
    cases hl' : (s.pc t').locked with
    | false => rfl
    | true => exact absurd (h.holds hl hl') e
  have hview := views_go (t := t) (p := .idle) h.core h.views (h.views.tv t)
  have he : Ext (s.go t .idle (s.tv t)) ({ s with holder := none, lockv := s.tv t }.go t .idle (s.tv t)) := ext_ctl
  refine ⟨core_ctl (s := s) h.core, hview.ext (core_go h.core) he (fun n hn => .inl ⟨hn, rfl⟩) (fun i c hn => .inl ⟨hn, rfl⟩)
    (fun x u hn => .inl ⟨hn, rfl⟩) (.inr ?_) (fun t => .inl rfl), ?_, ?_, ?_, ?_, ?_, ?_⟩
  · exact (h.views.tv t).ext h.core ext_ctl
  · intro t'
    rw [htv t']
    by_cases e : t' = t
    · subst e; rw [hpt]; trivial
    · rw [hpc t' e]; exact PcOk.ctl (s := s) h.core (h.pcs t')
  · intro t'
    show _ ↔ none = some t'
    by_cases e : t' = t
    · subst e; rw [hpt]; exact ⟨(fun h => by cases h), (fun h => by cases h)⟩
    · rw [hpc t' e, hno t' e]; exact ⟨(fun h => by cases h), (fun h => by cases h)⟩
  · intro t' ht'; cases ht'
  · intro _; exact h.full' hl
  · intro i x hx
    cases h.tops i x hx with
    | inl h1 => exact .inl h1
    | inr h1 =>
      obtain ⟨t', h1⟩ := h1
      have e : t' ≠ t := by intro e; subst e; rw [hp] at h1; cases h1
      exact .inr ⟨t', by rw [hpc t' e]; exact h1⟩
  · intro i x hk hx hd
    have h1 := h.nodead' hl hk hx hd
    rw [hp] at h1
    cases h1 with
    | inl h1 => obtain ⟨_, _, h1⟩ := h1; cases h1
    | inr h1 => obtain ⟨_, h1⟩ := h1; cases h1

end Scc.Twig
