import Verif.Twig.Pcs

/-! # Every step keeps the invariant -/

namespace Scc.Twig

/-! ## What only a thread itself depends on -/

theorem core_ctl {s : State} {a : Option Nat} {b : View} {c : Nat → Pc} {d : Nat → View} (h : Core s) :
    Core { s with holder := a, lockv := b, pc := c, tv := d } := by
  have hp : ∀ {n i j x}, Path { s with holder := a, lockv := b, pc := c, tv := d } n i j x → Path s n i j x :=
    fun h => ⟨h.le, h.lc, h.mc, h.cm, h.ptr⟩
  exact ⟨h.stamp, h.sorted, h.nodup, h.places, h.far, h.leaf, h.new, h.mvc, h.cvm, h.kid, h.verb,
    fun k n c x u n' c' x' u' p1 hu p2 => h.coh k n c x u n' c' x' u' (hp p1) hu (hp p2),
    fun k n c x u p => h.val k n c x u (hp p), h.fresh, h.live, h.uniq,
    fun x k n i c n' hd p => h.grow x k n i c n' hd (hp p), h.inrange, h.block, h.empty, h.retp⟩

theorem ext_ctl {s : State} {a : Option Nat} {b : View} {c : Nat → Pc} {d : Nat → View} :
    Ext s { s with holder := a, lockv := b, pc := c, tv := d } :=
  ⟨Nat.le_refl _, fun _ => Nat.le_refl _, fun _ => Nat.le_refl _, fun _ _ => rfl, fun _ _ => rfl, fun _ _ _ _ h => ⟨h, rfl⟩,
    fun _ _ _ _ _ => Nat.le_refl _, fun _ _ _ _ h1 h2 => absurd h2 (Nat.not_le.mpr h1)⟩

theorem PcOk.ctl {s : State} {a : Option Nat} {b : View} {c : Nat → Pc} {d : Nat → View} {v : View} {p : Pc} (hs : Core s)
    (h : PcOk s v p) : PcOk { s with holder := a, lockv := b, pc := c, tv := d } v p := by
  cases hp : p.locked with
  | false => exact h.ext hs ext_ctl hp
  | true =>
    exact h.page (y := s.nl) ⟨rfl, rfl, rfl, rfl, rfl, rfl⟩ (fun z hz e => by have := hz.lt; omega) (fun _ _ => rfl)
      (fun _ _ _ => rfl) (fun _ _ _ => rfl) (fun _ => ⟨rfl, rfl⟩) hp

theorem core_go {s : State} {t : Nat} {p : Pc} {v : View} (h : Core s) : Core (s.go t p v) := core_ctl h

theorem views_go {s : State} {t : Nat} {p : Pc} {v : View} (hc : Core s) (h : Views s) (hv : VOk s v) :
    Views (s.go t p v) := by
  have he : Ext s (s.go t p v) := (Ext.refl s).go
  refine h.ext hc he (fun n hn => .inl ⟨hn, rfl⟩) (fun i c hn => .inl ⟨hn, rfl⟩) (fun x u hn => .inl ⟨hn, rfl⟩) (.inl rfl) ?_
  intro t'
  by_cases e : t' = t
  · subst e; right
    have : (s.go t' p v).tv t' = v := by simp [State.go]
    rw [this]; exact hv.ext hc he
  · left; simp [State.go, upd_ne _ _ e]

/-! ## Steps of a thread without the lock -/

theorem Inv.holds {s : State} (h : Inv s) {t t' : Nat} (h1 : (s.pc t).locked = true) (h2 : (s.pc t').locked = true) :
    t' = t := by
  have h3 := (h.lk t).mp h1
  have h4 := (h.lk t').mp h2
  rw [h3] at h4; cases h4; rfl

/-- Only the thread itself changes. -/
theorem inv_read {s : State} {t : Nat} {q : Pc} {w : View} (h : Inv s) (hu : (s.pc t).locked = false)
    (hq : q.locked = false) (hw : VOk s w) (hok : PcOk s w q) : Inv (s.go t q w) := by
  have hpc : ∀ t', t' ≠ t → (s.go t q w).pc t' = s.pc t' := fun t' e => upd_ne _ _ e
  have htv : ∀ t', t' ≠ t → (s.go t q w).tv t' = s.tv t' := fun t' e => upd_ne _ _ e
  have hpt : (s.go t q w).pc t = q := upd_self _ _ _
  have htt : (s.go t q w).tv t = w := upd_self _ _ _
  have hh : s.holder ≠ some t := by intro e; rw [(h.lk t).mpr e] at hu; cases hu
  refine ⟨core_go h.core, views_go h.core h.views hw, ?_, ?_, ?_, h.free, ?_, ?_⟩
  · intro t'
    by_cases e : t' = t
    · subst e; rw [hpt, htt]; exact hok.ctl h.core
    · rw [hpc t' e, htv t' e]; exact (h.pcs t').ctl h.core
  · intro t'
    by_cases e : t' = t
    · subst e; rw [hpt, hq]; exact ⟨(fun h => by cases h), fun h => absurd h hh⟩
    · rw [hpc t' e]; exact h.lk t'
  · intro t' ht'
    have e : t' ≠ t := by intro e; subst e; exact hh ht'
    rw [htv t' e]; exact h.full t' ht'
  · intro i x hx
    cases h.tops i x hx with
    | inl h1 => exact .inl h1
    | inr h1 =>
      obtain ⟨t', h1⟩ := h1
      have e : t' ≠ t := by intro e; subst e; rw [h1] at hu; cases hu
      exact .inr ⟨t', by rw [hpc t' e]; exact h1⟩
  · intro i x hk hx hd
    obtain ⟨t', h1⟩ := h.nodead i x hk hx hd
    have e : t' ≠ t := by
      intro e; subst e
      cases h1 with
      | inl h1 => obtain ⟨_, _, h1⟩ := h1; rw [h1] at hu; cases hu
      | inr h1 => obtain ⟨_, h1⟩ := h1; rw [h1] at hu; cases hu
    exact ⟨t', by rw [hpc t' e]; exact h1⟩

theorem addPage_lv {s : State} {x : Nat} {p : Page} {v : View} {r : Nat → Nat} {y u : Nat}
    (h : u ≤ (s.addPage x p v r).ln y) :
    (u ≤ s.ln y ∧ (s.addPage x p v r).lv y u = s.lv y u) ∨ (s.addPage x p v r).lv y u = v := by
  rw [addPage_ln] at h
  by_cases hy : y = x
  · subst hy
    simp only [if_true] at h
    by_cases hu : u = s.ln y + 1
    · subst hu; right; simp [State.addPage]
    · left; refine ⟨by omega, ?_⟩; simp [State.addPage, upd_ne _ _ hu]
  · left
    simp only [hy, if_false] at h
    refine ⟨h, ?_⟩; simp [State.addPage, upd_ne _ _ hy]

/-- A state in which a word was written to a leaf, and perhaps a history goes on. -/
structure Wrote (s : State) (x : Nat) (p : Page) (v : View) (r : Nat → Nat) (s1 : State) : Prop where
  mn : s1.mn = s.mn
  mw : s1.mw = s.mw
  mv : s1.mv = s.mv
  cn : s1.cn = s.cn
  cp : s1.cp = s.cp
  cv : s1.cv = s.cv
  nl : s1.nl = s.nl
  dead : s1.dead = s.dead
  lockv : s1.lockv = s.lockv
  holder : s1.holder = s.holder
  pc : s1.pc = s.pc
  tv : s1.tv = s.tv
  ln : s1.ln = (s.addPage x p v r).ln
  lw : s1.lw = (s.addPage x p v r).lw
  lv : s1.lv = (s.addPage x p v r).lv
  ver : s1.ver = (s.addPage x p v r).ver

theorem wrote {s : State} {x : Nat} {p : Page} {v : View} {r : Nat → Nat} : Wrote s x p v r (s.addPage x p v r) :=
  ⟨rfl, rfl, rfl, rfl, rfl, rfl, rfl, rfl, rfl, rfl, rfl, rfl, rfl, rfl, rfl, rfl⟩

theorem wrote' {s : State} {x : Nat} {p : Page} {v : View} {r : Nat → Nat} {k : Nat} {a : Option Nat}
    {w : Nat → Nat} :
    Wrote s x p v r ((s.addPage x p v r).addHist k a w) :=
  ⟨rfl, rfl, rfl, rfl, rfl, rfl, rfl, rfl, rfl, rfl, rfl, rfl, rfl, rfl, rfl, rfl⟩

theorem views_page {s s1 : State} {x : Nat} {p : Page} {v : View} {r : Nat → Nat} (h : Views s) (hc : Core s)
    (hw : Wrote s x p v r s1) (he : Ext s s1) (hv : VOk s1 v) : Views s1 := by
  refine h.ext hc he ?_ ?_ ?_ (.inl hw.lockv) (fun t => .inl (by rw [hw.tv]))
  · intro n hn; rw [hw.mn] at hn; exact .inl ⟨hn, by rw [hw.mv]⟩
  · intro i c hn; rw [hw.cn] at hn; exact .inl ⟨hn, by rw [hw.cv]⟩
  · intro y u hu
    rw [hw.ln] at hu; rw [hw.lv]
    cases addPage_lv hu with
    | inl h1 => exact .inl h1
    | inr h1 => right; rw [h1]; exact hv

theorem inv_page {s s1 : State} {t x : Nat} {p : Page} {v w : View} {r : Nat → Nat} {q : Pc} (h : Inv s)
    (hu : (s.pc t).locked = false) (hs : Wrote s x p v r s1) (hc : Core s1) (he : Ext s s1)
    (hx : ∃ j c, c ≤ s.cn j ∧ s.cp j c = some x)
    (hpg : ((s.page x).frozen = true ∨ s.dead x = true) → p = s.page x ∧ r = s.ver x (s.ln x)) (hv : VOk s1 v)
    (hw : VOk s1 w) (hq : q.locked = false) (hok : PcOk s1 w q) : Inv (s1.go t q w) := by
  have hsame : Same s s1 := ⟨hs.mn, hs.mw, hs.cn, hs.cp, hs.nl, hs.dead⟩
  have h1 : Inv s1 := by
    refine ⟨hc, views_page h.views h.core hs he hv, ?_, ?_, ?_, ?_, ?_, ?_⟩
    · intro t'
      rw [hs.pc, hs.tv]
      cases hl : (s.pc t').locked with
      | false => exact (h.pcs t').ext h.core he hl
      | true =>
        obtain ⟨j, c, h1, h2⟩ := hx
        refine (h.pcs t').page (y := x) hsame (fun z hz e => by subst e; exact hz.off j c h1 h2) ?_ ?_ ?_ ?_ hl
        · intro z hz; rw [hs.ln, addPage_ln, if_neg hz]
        · intro z u hz; rw [hs.lw]; simp [State.addPage, upd_ne _ _ hz]
        · intro z u hz; rw [hs.ver]; simp [State.addPage, upd_ne _ _ hz]
        · intro hb
          have h3 := hpg hb
          refine ⟨?_, ?_⟩
          · show s1.lw x (s1.ln x) = _
            rw [hs.lw, hs.ln]; exact ((addPage_page x).trans (if_pos rfl)).trans h3.1
          · rw [hs.ver, hs.ln, addPage_ln, if_pos rfl]; simp [State.addPage, h3.2]
    · intro t'; rw [hs.pc, hs.holder]; exact h.lk t'
    · intro t'; rw [hs.holder, hs.tv, hs.mn, hs.cn]; exact h.full t'
    · rw [hs.holder, hs.lockv, hs.mn, hs.cn]; exact h.free
    · intro i z; rw [hs.cp, hs.cn, hs.pc, hsame.kid]; exact h.tops i z
    · intro i z; rw [hs.cp, hs.cn, hs.pc, hsame.kid, hs.dead]; exact h.nodead i z
  exact inv_read h1 (by rw [hs.pc]; exact hu) hq hw hok

/-! ## Steps of the thread with the lock -/

theorem inv_hold {s s1 : State} {t : Nat} {q : Pc} {w : View} (h : Inv s) (hl : (s.pc t).locked = true)
    (hpc : s1.pc = s.pc) (htv : s1.tv = s.tv) (hho : s1.holder = s.holder) (hc : Core s1)
    (he : Ext s s1) (hvs : Views s1) (hw : VOk s1 w) (hq : q.locked = true) (hok : PcOk s1 w q)
    (hm : w.m = s1.mn) (hwc : ∀ i, w.c i = s1.cn i)
    (htop : ∀ i x, s1.cp i (s1.cn i) = some x → s1.Kid i ∨ q = .drop i)
    (hnd : ∀ i x, s1.Kid i → s1.cp i (s1.cn i) = some x → s1.dead x = true →
      (∃ lo hi, q = .publ i x lo hi) ∨ ∃ hi, q = .thawn i x hi) : Inv (s1.go t q w) := by
  have hpc' : ∀ t', t' ≠ t → (s1.go t q w).pc t' = s.pc t' := fun t' e => (upd_ne _ _ e).trans (by rw [hpc])
  have htv' : ∀ t', t' ≠ t → (s1.go t q w).tv t' = s.tv t' := fun t' e => (upd_ne _ _ e).trans (by rw [htv])
  have hpt : (s1.go t q w).pc t = q := upd_self _ _ _
  have htt : (s1.go t q w).tv t = w := upd_self _ _ _
  have hh : s.holder = some t := (h.lk t).mp hl
  have hh1 : (s1.go t q w).holder = some t := hho.trans hh
  refine ⟨core_go hc, views_go hc hvs hw, ?_, ?_, ?_, ?_, ?_, ?_⟩
  · intro t'
    by_cases e : t' = t
    · subst e; rw [hpt, htt]; exact hok.ctl hc
    · rw [hpc' t' e, htv' t' e]
      cases hl' : (s.pc t').locked with
      | false => exact (((h.pcs t').ext h.core he hl')).ctl hc
      | true => exact absurd (h.holds hl hl') e
  · intro t'
    rw [hh1]
    by_cases e : t' = t
    · subst e; rw [hpt, hq]; exact ⟨fun _ => rfl, fun _ => rfl⟩
    · rw [hpc' t' e, h.lk t', hh]
  · intro t' ht'
    rw [hh1] at ht'; cases ht'
    rw [htt]; exact ⟨hm, hwc⟩
  · intro h1; rw [hh1] at h1; cases h1
  · intro i x hx
    cases htop i x hx with
    | inl h1 => exact .inl h1
    | inr h1 => exact .inr ⟨t, hpt.trans h1⟩
  · intro i x hk hx hd
    refine ⟨t, ?_⟩
    rw [hpt]; exact hnd i x hk hx hd

/-- What the thread with the lock knows. -/
theorem Inv.full' {s : State} (h : Inv s) {t : Nat} (hl : (s.pc t).locked = true) :
    (s.tv t).m = s.mn ∧ ∀ i, (s.tv t).c i = s.cn i := h.full t ((h.lk t).mp hl)

theorem Inv.top' {s : State} (h : Inv s) {t : Nat} (hl : (s.pc t).locked = true) (hd : ∀ q, s.pc t ≠ .drop q) :
    ∀ i x, s.cp i (s.cn i) = some x → s.Kid i := by
  intro i x hx
  cases h.tops i x hx with
  | inl h1 => exact h1
  | inr h1 =>
    obtain ⟨t', h1⟩ := h1
    have e : t' = t := h.holds hl (by rw [h1]; rfl)
    subst e; exact absurd h1 (hd i)

theorem Inv.nodead' {s : State} (h : Inv s) {t : Nat} (hl : (s.pc t).locked = true) {i x : Nat} (hk : s.Kid i)
    (hx : s.cp i (s.cn i) = some x) (hd : s.dead x = true) :
    (∃ lo hi, s.pc t = .publ i x lo hi) ∨ ∃ hi, s.pc t = .thawn i x hi := by
  obtain ⟨t', h1⟩ := h.nodead i x hk hx hd
  have e : t' = t := by
    cases h1 with
    | inl h1 => obtain ⟨_, _, h1⟩ := h1; exact h.holds hl (by rw [h1]; rfl)
    | inr h1 => obtain ⟨_, h1⟩ := h1; exact h.holds hl (by rw [h1]; rfl)
  subst e; exact h1

/-- The thread with the lock writes a word to a leaf. -/
theorem inv_hpage {s : State} {t x : Nat} {p : Page} {v w : View} {q : Pc} (h : Inv s) (hl : (s.pc t).locked = true)
    (hx : x < s.nl) (hhas : p.has = (s.page x).has) (hret : p.retired = (s.page x).retired) (hnd : s.dead x = false)
    (hv : VOk (s.addPage x p v (s.ver x (s.ln x))) v) (hw : VOk (s.addPage x p v (s.ver x (s.ln x))) w)
    (hq : q.locked = true) (hok : PcOk (s.addPage x p v (s.ver x (s.ln x))) w q) (hm : w.m = s.mn)
    (hwc : ∀ i, w.c i = s.cn i) (htop : ∀ i x, s.cp i (s.cn i) = some x → s.Kid i)
    (hnod : ∀ i x, s.Kid i → s.cp i (s.cn i) = some x → s.dead x = true →
      (∃ lo hi, q = .publ i x lo hi) ∨ ∃ hi, q = .thawn i x hi) :
    Inv ((s.addPage x p v (s.ver x (s.ln x))).go t q w) := by
  have he : Ext s (s.addPage x p v (s.ver x (s.ln x))) := ext_page (fun _ => Nat.le_refl _)
  exact inv_hold h hl rfl rfl rfl (core_page h.core hx hhas hret (fun e => by rw [hnd] at e; cases e)) he
    (views_page h.views h.core wrote he hv) hw hq hok hm hwc (fun i z hz => .inl (htop i z hz)) hnod

theorem tl_ok {s : State} {t x : Nat} {p : Page} {v : View} {r : Nat → Nat} (h : Inv s)
    (hr : ∀ k, s.ver x (s.ln x) k ≤ r k) : VOk (s.addPage x p v r) (s.tl t x) := by
  have he : Ext s (s.addPage x p v r) := ext_page hr
  refine VOk.seeL (((h.views.tv t).join (h.views.lv x _ (Nat.le_refl _))).ext h.core he) ?_
  rw [addPage_ln, if_pos rfl]; exact Nat.le_refl _

theorem tl_full {s : State} (h : Inv s) {t : Nat} (hl : (s.pc t).locked = true) (x : Nat) :
    (s.tl t x).m = s.mn ∧ ∀ i, (s.tl t x).c i = s.cn i := by
  have h1 := h.full' hl
  have h2 := h.views.lv x _ (Nat.le_refl _)
  refine ⟨?_, fun i => ?_⟩
  · show max (s.tv t).m _ = _
    rw [h1.1]; exact Nat.max_eq_left h2.m
  · show max ((s.tv t).c i) _ = _
    rw [h1.2 i]; exact Nat.max_eq_left (h2.c i)

theorem seeL_ok {s : State} {t x : Nat} {p : Page} {v : View} {r : Nat → Nat} (h : Inv s)
    (hr : ∀ k, s.ver x (s.ln x) k ≤ r k) : VOk (s.addPage x p v r) ((s.tv t).seeL x (s.ln x + 1)) := by
  have he : Ext s (s.addPage x p v r) := ext_page hr
  refine VOk.seeL ((h.views.tv t).ext h.core he) ?_
  rw [addPage_ln, if_pos rfl]; exact Nat.le_refl _

end Scc.Twig
