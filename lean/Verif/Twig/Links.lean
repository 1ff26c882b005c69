import Verif.Twig.Holder

/-! # Slots, pointers and keys of `children` -/

namespace Scc.Twig

theorem tm_ok {s s1 : State} {t : Nat} (h : Inv s) (he : Ext s s1) (hm : s1.mn = s.mn + 1) : VOk s1 (s.tm t) :=
  VOk.seeM (((h.views.tv t).join (h.views.mv _ (Nat.le_refl _))).ext h.core he) (by omega)

theorem tm_full {s : State} (h : Inv s) {t : Nat} (hl : (s.pc t).locked = true) :
    (s.tm t).m = s.mn + 1 ∧ ∀ i, (s.tm t).c i = s.cn i := by
  have h1 := h.full' hl
  have h2 := h.views.mv _ (Nat.le_refl s.mn)
  refine ⟨?_, fun i => ?_⟩
  · show max (max (s.tv t).m _) (s.mn + 1) = _
    have := h2.m
    rw [h1.1]; exact Nat.max_eq_right (Nat.max_le.mpr ⟨by omega, by omega⟩)
  · show max ((s.tv t).c i) _ = _
    rw [h1.2 i]; exact Nat.max_eq_left (h2.c i)

/-- The views of a state in which `v` is the view of the newest word of `children`. -/
theorem views_word {s s1 : State} {v : View} (h : Views s) (hc : Core s) (he : Ext s s1) (hmn : s1.mn = s.mn + 1)
    (hmv : s1.mv = upd s.mv (s.mn + 1) v) (hcn : s1.cn = s.cn)
    (hcv : ∀ i c, c ≤ s.cn i → s1.cv i c = s.cv i c ∨ s1.cv i c = .zero) (hln : s1.ln = s.ln)
    (hlv : s1.lv = s.lv) (hl : s1.lockv = s.lockv) (htv : s1.tv = s.tv) (hv : VOk s1 v) : Views s1 := by
  refine h.ext hc he ?_ ?_ ?_ (.inl hl) (fun t => .inl (by rw [htv]))
  · intro n hn
    by_cases e : n = s.mn + 1
    · subst e; right; rw [hmv, upd_self]; exact hv
    · left; exact ⟨by omega, by rw [hmv, upd_ne _ _ e]⟩
  · intro i c hn
    rw [hcn] at hn
    cases hcv i c hn with
    | inl h1 => exact .inl ⟨hn, h1⟩
    | inr h1 => right; rw [h1]; exact ⟨VOk.zero _, Nat.zero_le _⟩
  · intro x u hu; rw [hln] at hu; exact .inl ⟨hu, by rw [hlv]⟩

theorem inv_resv {s : State} {t i x b lo hi : Nat} (h : Inv s) (hp : s.pc t = .made i x b lo hi) :
    Inv ((s.addWord { s.word with used := s.word.used + 1 } ((s.mv s.mn).seeM (s.mn + 1))).go t
      (.resv i x b lo hi (s.word.used + 1)) (s.tm t)) := by
  have hl : (s.pc t).locked = true := by rw [hp]; rfl
  have ho : Made s i x b lo hi := h.pcAt hp
  have htop := h.top' hl (by intro q; rw [hp]; intro e; cases e)
  have he : Ext s (s.addWord { s.word with used := s.word.used + 1 } ((s.mv s.mn).seeM (s.mn + 1))) := ext_word
  have hc : Core (s.addWord { s.word with used := s.word.used + 1 } ((s.mv s.mn).seeM (s.mn + 1))) :=
    core_resv h.core (fun i => ⟨Nat.le_refl _, h.core.mvc _ i (Nat.le_refl _)⟩)
  have hw : (s.addWord { s.word with used := s.word.used + 1 } ((s.mv s.mn).seeM (s.mn + 1))).word =
      { s.word with used := s.word.used + 1 } := addWord_new.1
  have hmw : ∀ n, n ≤ s.mn → (s.addWord { s.word with used := s.word.used + 1 } ((s.mv s.mn).seeM (s.mn + 1))).mw n = s.mw n :=
    fun n hn => addWord_mw hn
  have hkid : ∀ {j}, (s.addWord { s.word with used := s.word.used + 1 } ((s.mv s.mn).seeM (s.mn + 1))).Kid j ↔ s.Kid j := by
    intro j; simp only [State.Kid, hw]
  have hnew : VOk (s.addWord { s.word with used := s.word.used + 1 } ((s.mv s.mn).seeM (s.mn + 1)))
      ((s.mv s.mn).seeM (s.mn + 1)) := ((h.views.mv _ (Nat.le_refl _)).ext h.core he).seeM (Nat.le_refl _)
  refine inv_hold h hl rfl rfl rfl hc he (views_word h.views h.core he rfl rfl rfl (fun i c _ => .inl rfl) rfl rfl rfl rfl hnew)
    (tm_ok h he rfl) rfl ?_ (tm_full h hl).1 (tm_full h hl).2 (fun j y hy => .inl (hkid.mpr (htop j y hy))) ?_
  · have hfar := h.core.far (s.word.used + 1) (Nat.lt_succ_self _)
    refine ⟨⟨⟨hkid.mpr ho.old.kid, ho.old.top, ho.old.alive, ho.old.frozen⟩, ho.key, ho.more,
      ⟨ho.olo.lt, ho.olo.alive, ho.olo.off, ho.olo.new⟩, ⟨ho.ohi.lt, ho.ohi.alive, ho.ohi.off, ho.ohi.new⟩, ho.ne, ho.lows,
      ho.highs, ho.lov, ho.hiv⟩, ⟨hfar.1, hfar.2, by omega, by rw [hw]; exact Nat.le_refl _, ?_⟩⟩
    intro n hn e hem
    have hkey : e ∈ (s.mw (min n s.mn)).kids := by
      by_cases h1 : n ≤ s.mn
      · rw [hmw n h1] at hem; rw [Nat.min_eq_left h1]; exact hem
      · have h2 : n = s.mn + 1 := by have : n ≤ s.mn + 1 := hn; omega
        subst h2
        rw [show (s.addWord { s.word with used := s.word.used + 1 } ((s.mv s.mn).seeM (s.mn + 1))).mw (s.mn + 1) = _ from
          addWord_new.1] at hem
        rw [Nat.min_eq_right (by omega)]; exact hem
    have := (h.core.places _ (Nat.min_le_right _ _) e hkey).2
    omega
  · intro j y hk hy hdy
    have h4 := h.nodead' hl (hkid.mp hk) hy hdy
    rw [hp] at h4
    cases h4 with
    | inl h4 => obtain ⟨_, _, h4⟩ := h4; cases h4
    | inr h4 => obtain ⟨_, h4⟩ := h4; cases h4

/-- Where keys belong when the lower half of the leaf at place `i` gets the slot `p`. -/
theorem put_R {s : State} {i x b p lo hi : Nat} (h : Core s) (ho : Made s i x b lo hi) (k : Nat) :
    route (put b p s.word.kids) k = if k ≤ b ∧ s.R s.mn k = i then p else s.R s.mn k := by
  obtain ⟨d, hbd, hd⟩ := ho.more
  have hRb : s.R s.mn b = i := h.inrange x i _ b ho.old.alive ho.old.top (Nat.le_refl _) ho.key
  have hRd : s.R s.mn d = i := h.inrange x i _ d ho.old.alive ho.old.top (Nat.le_refl _) hd
  have h0 : ∀ e ∈ s.word.kids, e.2 ≠ 0 := by
    intro e he; have := (h.places s.mn (Nat.le_refl _) e he).1; omega
  have hnd := h.nodup s.mn (Nat.le_refl _)
  have hb : ∀ e ∈ s.word.kids, e.1 ≠ b := by
    intro e he heb
    have h1 : s.R s.mn b = e.2 := by rw [← heb]; exact route_key (h.sorted s.mn (Nat.le_refl _)) he
    have h2 : d ≤ e.1 := route_le hnd h0 he (hRd.trans (hRb.symm.trans h1))
    omega
  have h1 := route_put (l := s.word.kids) (b := b) (p := p) (k := k) hnd h0 hb
  rw [h1]
  have h2 : route s.word.kids b = i := hRb
  rw [h2]; rfl

theorem inv_publ {s : State} {t i x b lo hi p : Nat} (h : Inv s) (hp : s.pc t = .resv i x b lo hi p) :
    Inv ((((s.initCell p lo).addWord { s.word with kids := put b p s.word.kids } (s.tm t)).setDead x).go t
      (.publ i x lo hi) (s.tm t)) := by
  have hl : (s.pc t).locked = true := by rw [hp]; rfl
  have ho : Made s i x b lo hi ∧ Slot s p := h.pcAt hp
  obtain ⟨ho, hsl⟩ := ho
  have htop := h.top' hl (by intro q; rw [hp]; intro e; cases e)
  have hc : Core (((s.initCell p lo).addWord { s.word with kids := put b p s.word.kids } (s.tm t)).setDead x) := by
    obtain ⟨d, hbd, hd⟩ := ho.more
    exact core_publ h.core ho.old.kid ho.old.top ho.old.alive ho.old.frozen ho.key hbd hd hsl.new hsl.none hsl.pos hsl.used
      hsl.kid ho.olo.lt ho.olo.alive ho.olo.off ho.olo.new ho.lows ho.lov (tm_full h hl).2
  have he : Ext s (((s.initCell p lo).addWord { s.word with kids := put b p s.word.kids } (s.tm t)).setDead x) :=
    ext_dead ((ext_init hsl.none).trans ext_word (Nat.le_refl _))
  have hput := put_R (p := p) h.core ho
  have hpi : i ≠ p := by intro e; have := ho.old.top; rw [e, hsl.none] at this; cases this
  have hxhi : hi ≠ x := by intro e; exact ho.ohi.off i _ (Nat.le_refl _) (by rw [e]; exact ho.old.top)
  have hxlo : lo ≠ x := by intro e; exact ho.olo.off i _ (Nat.le_refl _) (by rw [e]; exact ho.old.top)
  have hv := tm_ok (t := t) h he rfl
  generalize hs : ((s.initCell p lo).addWord { s.word with kids := put b p s.word.kids } (s.tm t)).setDead x = s1 at *
  have hmn : s1.mn = s.mn + 1 := by subst hs; rfl
  have hword : s1.word = { s.word with kids := put b p s.word.kids } := by
    subst hs; exact (addWord_new (s := s.initCell p lo) (v := s.tm t)).1
  have hR1 : ∀ k, s1.R s1.mn k = if k ≤ b ∧ s.R s.mn k = i then p else s.R s.mn k := by
    intro k
    have : s1.R s1.mn k = route s1.word.kids k := rfl
    rw [this, hword]; exact hput k
  have hcn : s1.cn = s.cn := by subst hs; rfl
  have hcp : ∀ j c, j ≠ p → s1.cp j c = s.cp j c := by
    intro j c hj; subst hs
    show upd s.cp p _ j c = _
    rw [upd_ne _ _ hj]
  have hcpp : s1.cp p 0 = some lo := by subst hs; simp [State.initCell, State.addWord, State.setDead]
  have hln : s1.ln = s.ln := by subst hs; rfl
  have hlw : s1.lw = s.lw := by subst hs; rfl
  have hlv : s1.lv = s.lv := by subst hs; rfl
  have hver : s1.ver = s.ver := by subst hs; rfl
  have hnl : s1.nl = s.nl := by subst hs; rfl
  have hmv : s1.mv = upd s.mv (s.mn + 1) (s.tm t) := by subst hs; rfl
  have hdead : ∀ z, s1.dead z = if z = x then true else s.dead z := by intro z; subst hs; rfl
  have hcv : ∀ j c, c ≤ s.cn j → s1.cv j c = s.cv j c ∨ s1.cv j c = .zero := by
    intro j c hjc; subst hs
    by_cases hj : j = p
    · subst hj
      have : c = 0 := by have := hsl.new; omega
      subst this; right; simp [State.initCell, State.addWord, State.setDead]
    · left
      show upd s.cv p _ j c = _
      rw [upd_ne _ _ hj]
  have hkid : ∀ j, s1.Kid j ↔ s.Kid j ∨ j = p := by
    intro j
    simp only [State.Kid, hword]
    constructor
    · rintro (h1 | h1)
      · exact .inl (.inl h1)
      · obtain ⟨e, he1, he2⟩ := List.mem_map.mp h1
        cases put_mem.mp he1 with
        | inl h2 => right; rw [← he2, h2]
        | inr h2 => exact .inl (.inr (List.mem_map.mpr ⟨e, h2, he2⟩))
    · rintro ((h1 | h1) | h1)
      · exact .inl h1
      · obtain ⟨e, he1, he2⟩ := List.mem_map.mp h1
        exact .inr (List.mem_map.mpr ⟨e, put_mem.mpr (.inr he1), he2⟩)
      · exact .inr (List.mem_map.mpr ⟨(b, p), put_mem.mpr (.inl rfl), h1.symm⟩)
  have hpage : ∀ z, s1.page z = s.page z := by intro z; simp only [State.page, hlw, hln]
  refine inv_hold h hl (by subst hs; rfl) (by subst hs; rfl) (by subst hs; rfl) hc he
    (views_word h.views h.core he hmn hmv hcn hcv hln hlv (by subst hs; rfl) (by subst hs; rfl) hv) hv rfl ?_
    (by rw [hmn]; exact (tm_full h hl).1) (by rw [hcn]; exact (tm_full h hl).2) ?_ ?_
  · show Half s1 i x hi ∧ lo < s1.nl ∧ s1.dead lo = false ∧ lo ≠ hi
    refine ⟨⟨(hkid i).mpr (.inl ho.old.kid), by rw [hcn, hcp i _ hpi]; exact ho.old.top, by rw [hdead, if_pos rfl],
      ⟨by rw [hnl]; exact ho.ohi.lt, by rw [hdead, if_neg hxhi]; exact ho.ohi.alive, ?_, by rw [hln]; exact ho.ohi.new⟩,
      ?_, ?_, ?_⟩, by rw [hnl]; exact ho.olo.lt, by rw [hdead, if_neg hxlo]; exact ho.olo.alive, ho.ne⟩
    · intro j c hjc hj
      rw [hcn] at hjc
      by_cases e : j = p
      · subst e
        have : c = 0 := by have := hsl.new; omega
        subst this; rw [hcpp] at hj; exact ho.ne (Option.some.inj hj)
      · rw [hcp j c e] at hj; exact ho.ohi.off j c hjc hj
    · intro k hk
      rw [hR1] at hk
      rw [hlw, hpage, ho.highs k]
      by_cases hkb : k ≤ b
      · by_cases hki : s.R s.mn k = i
        · rw [if_pos ⟨hkb, hki⟩] at hk; exact absurd hk.symm hpi
        · rw [if_neg (fun e => hki e.2)] at hk; exact absurd hk hki
      · rw [if_neg hkb]
    · rw [hver, hln]; exact ho.hiv
    · intro k hk
      rw [hlw, ho.highs k] at hk
      by_cases hkb : k ≤ b
      · rw [if_pos hkb] at hk; exact absurd rfl hk
      · rw [if_neg hkb] at hk
        rw [hR1, if_neg (fun e => hkb e.1)]
        exact h.core.inrange x i _ k ho.old.alive ho.old.top (Nat.le_refl _) hk
  · intro j y hy
    left
    by_cases e : j = p
    · exact (hkid j).mpr (.inr e)
    · rw [hcn, hcp j _ e] at hy; exact (hkid j).mpr (.inl (htop j y hy))
  · intro j y hk hy hdy
    left
    rw [hcn] at hy
    have hyx : y = x := by
      by_cases e1 : y = x
      · exact e1
      · rw [hdead, if_neg e1] at hdy
        by_cases e : j = p
        · subst e; rw [hsl.new, hcpp] at hy; cases hy; rw [ho.olo.alive] at hdy; cases hdy
        · rw [hcp j _ e] at hy
          have h4 := h.nodead' hl (htop j y hy) hy hdy
          rw [hp] at h4
          cases h4 with
          | inl h4 => obtain ⟨_, _, h4⟩ := h4; cases h4
          | inr h4 => obtain ⟨_, h4⟩ := h4; cases h4
    subst hyx
    have hji : j = i := by
      by_cases e : j = p
      · subst e; rw [hsl.new, hcpp] at hy; cases hy; exact absurd rfl hxlo
      · rw [hcp j _ e] at hy
        exact h.core.uniq y j i _ _ (Nat.le_refl _) (Nat.le_refl _) hy ho.old.top
    subst hji
    exact ⟨lo, hi, rfl⟩

/-! ## Pointers -/

theorem tc_ok {s s1 : State} {t i : Nat} (h : Inv s) (he : Ext s s1) (hm : s1.cn i = s.cn i + 1) : VOk s1 (s.tc t i) :=
  VOk.seeC (((h.views.tv t).join (h.views.cv i _ (Nat.le_refl _))).ext h.core he) (by omega)

theorem views_cell {s s1 : State} {i : Nat} {o : Option Nat} {v : View} (h : Views s) (hc : Core s) (he : Ext s s1)
    (hs : s1 = s.addCell i o v) (hv : VOk s1 v) (hvi : v.c i ≤ s.cn i + 1) : Views s1 := by
  subst hs
  refine h.ext hc he (fun n hn => .inl ⟨hn, rfl⟩) ?_ (fun x u hu => .inl ⟨hu, rfl⟩) (.inl rfl) (fun t => .inl rfl)
  intro j c hn
  cases addCell_at hn with
  | inl h1 => exact .inl ⟨h1.1, h1.2.2⟩
  | inr h1 => obtain ⟨rfl, rfl, _, h2⟩ := h1; right; rw [h2]; exact ⟨hv, hvi⟩

theorem tc_self {s : State} (h : Inv s) {t i : Nat} : (s.tc t i).c i ≤ s.cn i + 1 := by
  show upd _ _ _ _ ≤ _
  rw [upd_self]
  have a := (h.views.tv t).c i
  have b := (h.views.cv i _ (Nat.le_refl _)).c i
  refine Nat.max_le.mpr ⟨Nat.max_le.mpr ⟨by omega, by omega⟩, Nat.le_refl _⟩

theorem seeC_ok {s s1 : State} {t i : Nat} (h : Inv s) (he : Ext s s1) (hm : s1.cn i = s.cn i + 1) :
    VOk s1 ((s.tv t).seeC i (s.cn i + 1)) := VOk.seeC ((h.views.tv t).ext h.core he) (by omega)

theorem seeC_full {s : State} (h : Inv s) {t i : Nat} (hl : (s.pc t).locked = true) {o : Option Nat} {v : View} :
    ∀ j, ((s.tv t).seeC i (s.cn i + 1)).c j = (s.addCell i o v).cn j := by
  intro j
  have h1 := (h.full' hl).2
  rw [addCell_cn]
  show upd _ _ _ _ = _
  by_cases e : j = i
  · subst e; rw [upd_self, if_pos rfl, h1 j]; exact Nat.max_eq_right (by omega)
  · rw [upd_ne _ _ e, if_neg e]; exact h1 j

theorem tc_m {s : State} (h : Inv s) {t i : Nat} (hl : (s.pc t).locked = true) : (s.tc t i).m = s.mn := by
  show max (s.tv t).m _ = _
  rw [(h.full' hl).1]; exact Nat.max_eq_left (h.views.cv i _ (Nat.le_refl _)).m

theorem setDead_same {s : State} {x : Nat} (h : s.dead x = true) : s.setDead x = s := by
  have : upd s.dead x true = s.dead := by
    funext z
    by_cases e : z = x
    · subst e; rw [upd_self, h]
    · rw [upd_ne _ _ e]
  simp only [State.setDead, this]

/-- What the newest leaf of a place shows. -/
theorem Core.shows {s : State} (h : Core s) {k i x : Nat} (hk : s.R s.mn k = i) (hx : s.cp i (s.cn i) = some x) :
    s.ver x (s.ln x) k = s.hn k ∧ (s.page x).has k = s.hv k (s.hn k) := by
  subst hk
  have h1 := h.fresh k x hx
  have h2 := h.val k s.mn _ x (s.ln x) (h.top hx) (Nat.le_refl _)
  rw [h1] at h2
  exact ⟨h1, h2⟩

theorem inv_swap {s : State} {t i x hi : Nat} (h : Inv s) (hp : s.pc t = .thawn i x hi) :
    Inv ((s.addCell i (some hi) (s.tc t i)).go t .lock ((s.tv t).seeC i (s.cn i + 1))) := by
  have hl : (s.pc t).locked = true := by rw [hp]; rfl
  have ho : Half s i x hi := h.pcAt hp
  have htop := h.top' hl (by intro q; rw [hp]; intro e; cases e)
  have hc : Core (s.addCell i (some hi) (s.tc t i)) := by
    have h1 := core_swap (v := s.tc t i) h.core ho.kid ho.top (h.core.block x ho.dead) ho.ohi.lt ho.ohi.alive ho.ohi.off ho.ohi.new
      (tc_m h hl) (fun k hk => by rw [ho.hiv]; exact (h.core.shows hk ho.top).1)
      (fun k hk => by rw [ho.highs k hk]; exact (h.core.shows hk ho.top).2) ho.ran
    rw [setDead_same (show (s.addCell i (some hi) (s.tc t i)).dead x = true from ho.dead)] at h1
    exact h1
  have he : Ext s (s.addCell i (some hi) (s.tc t i)) := ext_cell
  have hcn : (s.addCell i (some hi) (s.tc t i)).cn i = s.cn i + 1 := by rw [addCell_cn, if_pos rfl]
  refine inv_hold h hl rfl rfl rfl hc he (views_cell h.views h.core he rfl (tc_ok h he hcn) (tc_self h)) (seeC_ok h he hcn) rfl
    trivial (h.full' hl).1 (seeC_full h hl) ?_ ?_
  · intro j y hy
    left
    rw [addCell_top] at hy
    by_cases e : j = i
    · subst e; exact ho.kid
    · rw [if_neg e] at hy; exact htop j y hy
  · intro j y hk hy hdy
    rw [addCell_top] at hy
    by_cases e : j = i
    · rw [if_pos e] at hy; cases hy
      rw [show (s.addCell i (some hi) (s.tc t i)).dead hi = s.dead hi from rfl, ho.ohi.alive] at hdy; cases hdy
    · rw [if_neg e] at hy
      have h4 := h.nodead' hl hk hy hdy
      rw [hp] at h4
      cases h4 with
      | inl h4 => obtain ⟨_, _, h4⟩ := h4; cases h4
      | inr h4 => obtain ⟨_, h4⟩ := h4; cases h4; exact absurd rfl e

theorem inv_swap1 {s : State} {t i x y : Nat} (h : Inv s) (hp : s.pc t = .one i x y) :
    Inv (((s.addCell i (some y) (s.tc t i)).setDead x).go t .lock ((s.tv t).seeC i (s.cn i + 1))) := by
  have hl : (s.pc t).locked = true := by rw [hp]; rfl
  have ho : Single s i x y := h.pcAt hp
  have htop := h.top' hl (by intro q; rw [hp]; intro e; cases e)
  have hxy : y ≠ x := by intro e; exact ho.oy.off i _ (Nat.le_refl _) (by rw [e]; exact ho.old.top)
  have hc : Core ((s.addCell i (some y) (s.tc t i)).setDead x) :=
    core_swap (v := s.tc t i) h.core ho.old.kid ho.old.top (.inl ho.old.frozen) ho.oy.lt ho.oy.alive ho.oy.off ho.oy.new
      (tc_m h hl) (fun k hk => by rw [ho.ver]; exact (h.core.shows hk ho.old.top).1)
      (fun k hk => by rw [ho.has]; exact (h.core.shows hk ho.old.top).2)
      (fun k hk => by rw [ho.has] at hk; exact h.core.inrange x i _ k ho.old.alive ho.old.top (Nat.le_refl _) hk)
  have he0 : Ext s (s.addCell i (some y) (s.tc t i)) := ext_cell
  have he : Ext s ((s.addCell i (some y) (s.tc t i)).setDead x) := ext_dead he0
  have hcn : ((s.addCell i (some y) (s.tc t i)).setDead x).cn i = s.cn i + 1 := by
    show (s.addCell i (some y) (s.tc t i)).cn i = _
    rw [addCell_cn, if_pos rfl]
  have hvs : Views ((s.addCell i (some y) (s.tc t i)).setDead x) := by
    refine h.views.ext h.core he (fun n hn => .inl ⟨hn, rfl⟩) ?_ (fun x u hu => .inl ⟨hu, rfl⟩) (.inl rfl) (fun t => .inl rfl)
    intro j c hn
    cases addCell_at (s := s) (i := i) (o := some y) (v := s.tc t i) hn with
    | inl h1 => exact .inl ⟨h1.1, h1.2.2⟩
    | inr h1 =>
      obtain ⟨rfl, rfl, _, h2⟩ := h1
      right
      have h3 : ((s.addCell j (some y) (s.tc t j)).setDead x).cv j (s.cn j + 1) = s.tc t j := h2
      rw [h3]; exact ⟨tc_ok h he hcn, tc_self h⟩
  refine inv_hold h hl rfl rfl rfl hc he hvs (seeC_ok h he hcn) rfl trivial (h.full' hl).1
    (seeC_full (o := some y) (v := s.tc t i) h hl) ?_ ?_
  · intro j z hz
    left
    have hz : (s.addCell i (some y) (s.tc t i)).cp j ((s.addCell i (some y) (s.tc t i)).cn j) = some z := hz
    rw [addCell_top] at hz
    by_cases e : j = i
    · subst e; exact ho.old.kid
    · rw [if_neg e] at hz; exact htop j z hz
  · intro j z hk hz hdz
    have hz' : (s.addCell i (some y) (s.tc t i)).cp j ((s.addCell i (some y) (s.tc t i)).cn j) = some z := hz
    rw [addCell_top] at hz'
    have hdz : (if z = x then true else s.dead z) = true := hdz
    by_cases e : j = i
    · rw [if_pos e] at hz'; cases hz'
      rw [if_neg hxy, ho.oy.alive] at hdz; cases hdz
    · rw [if_neg e] at hz'
      have hzx : z ≠ x := by
        intro e2; subst e2
        exact e (h.core.uniq z j i _ _ (Nat.le_refl _) (Nat.le_refl _) hz' ho.old.top)
      rw [if_neg hzx] at hdz
      have h4 := h.nodead' hl hk hz' hdz
      rw [hp] at h4
      cases h4 with
      | inl h4 => obtain ⟨_, _, h4⟩ := h4; cases h4
      | inr h4 => obtain ⟨_, h4⟩ := h4; cases h4

theorem inv_null {s : State} {t q : Nat} (h : Inv s) (hp : s.pc t = .drop q) :
    Inv ((s.addCell q none (s.tc t q)).go t .lock ((s.tv t).seeC q (s.cn q + 1))) := by
  have hl : (s.pc t).locked = true := by rw [hp]; rfl
  have ho : Gone s q := h.pcAt hp
  obtain ⟨x, hx, hxd⟩ := ho.top
  have hc : Core (s.addCell q none (s.tc t q)) :=
    core_null h.core ho.kid ho.used hx hxd (Nat.le_of_eq (tc_m h hl))
  have he : Ext s (s.addCell q none (s.tc t q)) := ext_cell
  have hcn : (s.addCell q none (s.tc t q)).cn q = s.cn q + 1 := by rw [addCell_cn, if_pos rfl]
  refine inv_hold h hl rfl rfl rfl hc he (views_cell h.views h.core he rfl (tc_ok h he hcn) (tc_self h)) (seeC_ok h he hcn) rfl
    trivial (h.full' hl).1 (seeC_full h hl) ?_ ?_
  · intro j y hy
    left
    rw [addCell_top] at hy
    by_cases e : j = q
    · rw [if_pos e] at hy; cases hy
    · rw [if_neg e] at hy
      cases h.tops j y hy with
      | inl h1 => exact h1
      | inr h1 =>
        obtain ⟨t', h1⟩ := h1
        have e2 : t' = t := h.holds hl (by rw [h1]; rfl)
        subst e2; rw [hp] at h1; cases h1; exact absurd rfl e
  · intro j y hk hy hdy
    rw [addCell_top] at hy
    by_cases e : j = q
    · rw [if_pos e] at hy; cases hy
    · rw [if_neg e] at hy
      have h4 := h.nodead' hl hk hy hdy
      rw [hp] at h4
      cases h4 with
      | inl h4 => obtain ⟨_, _, h4⟩ := h4; cases h4
      | inr h4 => obtain ⟨_, h4⟩ := h4; cases h4

/-! ## A key is removed -/

theorem inv_drop {s : State} {t q c x u n : Nat} (h : Inv s) (hp : s.pc t = .lock) (h1 : (s.tv t).m ≤ n) (h2 : n ≤ s.mn)
    (h3 : q ∈ (s.mw n).kids.map Prod.snd) (h4 : (s.tv t).c q ≤ c) (h5 : c ≤ s.cn q) (h6 : s.cp q c = some x)
    (h8 : u ≤ s.ln x) (h9 : (s.lw x u).retired = true) :
    Inv (((((s.addWord { s.word with kids := cut q s.word.kids, gone := s.word.gone + 1 }
      ((s.tm t).join (s.lv x u))).rever q).setDead x)).go t (.drop q) (((s.tm t).join (s.lv x u)).seeL x u)) := by
  have hl : (s.pc t).locked = true := by rw [hp]; rfl
  have hf := h.full' hl
  have hn : n = s.mn := by have := hf.1; omega
  have hcq : c = s.cn q := by have := hf.2 q; omega
  subst hn hcq
  have htop := h.top' hl (by intro q; rw [hp]; intro e; cases e)
  have hal : ∀ j y, s.Kid j → s.cp j (s.cn j) = some y → s.dead y = false := fun j y hk hy =>
    h.alive hl hk hy (by intro _ _ _ _; rw [hp]; intro e; cases e) (by intro _ _ _; rw [hp]; intro e; cases e)
  have hlv := h.views.lv x u h8
  have hfc : ∀ j, ((s.tm t).join (s.lv x u)).c j = s.cn j := by
    intro j
    show max _ _ = _
    rw [(tm_full h hl).2 j]; exact Nat.max_eq_left (hlv.c j)
  have hfm : ((s.tm t).join (s.lv x u)).m = s.mn + 1 := by
    show max _ _ = _
    rw [(tm_full h hl).1]; have := hlv.m; exact Nat.max_eq_left (by omega)
  have hc := core_drop (v := (s.tm t).join (s.lv x u)) h.core h3 h6 (h.core.retp x u h8 h9) hal hfc
  have he : Ext s (((s.addWord { s.word with kids := cut q s.word.kids, gone := s.word.gone + 1 }
      ((s.tm t).join (s.lv x u))).rever q).setDead x) := by
    refine ext_dead ?_
    exact (ext_word (s := s)).trans (ext_rever (fun x u k hu => h.core.verb x u k hu)) (Nat.le_refl _)
  have hused : q ≤ s.word.used := by
    obtain ⟨e, he1, he2⟩ := List.mem_map.mp h3
    rw [← he2]; exact (h.core.places s.mn (Nat.le_refl _) e he1).2
  have hv : VOk (((s.addWord { s.word with kids := cut q s.word.kids, gone := s.word.gone + 1 }
      ((s.tm t).join (s.lv x u))).rever q).setDead x) ((s.tm t).join (s.lv x u)) :=
    (tm_ok h he rfl).join (hlv.ext h.core he)
  generalize hs : ((s.addWord { s.word with kids := cut q s.word.kids, gone := s.word.gone + 1 }
    ((s.tm t).join (s.lv x u))).rever q).setDead x = s1 at *
  have hmn : s1.mn = s.mn + 1 := by subst hs; rfl
  have hword : s1.word = { s.word with kids := cut q s.word.kids, gone := s.word.gone + 1 } := by
    subst hs; exact (addWord_new (s := s) (v := (s.tm t).join (s.lv x u))).1
  have hcn : s1.cn = s.cn := by subst hs; rfl
  have hcp : s1.cp = s.cp := by subst hs; rfl
  have hcv : s1.cv = s.cv := by subst hs; rfl
  have hln : s1.ln = s.ln := by subst hs; rfl
  have hlv1 : s1.lv = s.lv := by subst hs; rfl
  have hmv : s1.mv = upd s.mv (s.mn + 1) ((s.tm t).join (s.lv x u)) := by subst hs; rfl
  have hdead : ∀ z, s1.dead z = if z = x then true else s.dead z := by intro z; subst hs; rfl
  have hkid : ∀ j, s1.Kid j → s.Kid j ∧ j ≠ q := by
    intro j hj
    simp only [State.Kid, hword] at hj
    cases hj with
    | inl h1 =>
      refine ⟨.inl h1, ?_⟩
      intro e
      obtain ⟨a, ha1, ha2⟩ := List.mem_map.mp h3
      have := (h.core.places s.mn (Nat.le_refl _) a ha1).1
      omega
    | inr h1 => have := cut_places h1; exact ⟨.inr this.1, this.2⟩
  have hkid' : ∀ j, s.Kid j → j ≠ q → s1.Kid j := by
    intro j hj hjq
    simp only [State.Kid, hword]
    cases hj with
    | inl h1 => exact .inl h1
    | inr h1 =>
      obtain ⟨a, ha1, ha2⟩ := List.mem_map.mp h1
      refine .inr (List.mem_map.mpr ⟨a, List.mem_filter.mpr ⟨ha1, ?_⟩, ha2⟩)
      rw [ha2]; simp [hjq]
  refine inv_hold h hl (by subst hs; rfl) (by subst hs; rfl) (by subst hs; rfl) hc he
    (views_word h.views h.core he hmn hmv hcn (fun i c _ => .inl (by rw [hcv])) hln hlv1 (by subst hs; rfl) (by subst hs; rfl) hv)
    (hv.seeL (by rw [hln]; exact h8)) rfl ?_ (hfm.trans hmn.symm) (fun j => (hfc j).trans (by rw [hcn])) ?_ ?_
  · show Gone s1 q
    exact ⟨fun e => (hkid q e).2 rfl, by rw [hword]; exact hused, x, by rw [hcp, hcn]; exact h6, by rw [hdead, if_pos rfl]⟩
  · intro j y hy
    rw [hcp, hcn] at hy
    by_cases e : j = q
    · right; rw [e]
    · exact .inl (hkid' j (htop j y hy) e)
  · intro j y hk hy hdy
    rw [hcp, hcn] at hy
    have hk' := hkid j hk
    have hyx : y ≠ x := by
      intro e; subst e
      exact hk'.2 (h.core.uniq y j q _ _ (Nat.le_refl _) (Nat.le_refl _) hy h6)
    rw [hdead, if_neg hyx, hal j y hk'.1 hy] at hdy; cases hdy

/-! ## All steps -/

theorem inv_step {s s' : State} {l : Label} (h : Inv s) (hs : Step s l s') : Inv s' := by
  cases hs with
  | sel h1 _ h3 => exact inv_sel h h1 h3
  | load h1 h2 h3 h4 => exact inv_load h h1 h2 h3 h4
  | valid h1 h2 h3 h4 => exact inv_valid h h1 h2 h3 h4
  | retry h1 =>
    refine inv_idle h ?_
    cases h1 with
    | inl h1 => rw [h1]; rfl
    | inr h1 => cases h1 with
      | inl h1 => obtain ⟨_, _, h1⟩ := h1; rw [h1]; rfl
      | inr h1 => obtain ⟨_, _, h1⟩ := h1; rw [h1]; rfl
  | read h1 _ h3 h4 _ => exact inv_look h h1 h3 h4
  | reserve h1 h2 h3 => exact inv_reserve h h1 h2 h3
  | undo h1 => exact inv_undo h h1
  | late h1 h2 h3 => exact inv_late h h1 h2 h3
  | ins h1 h2 h3 _ => exact inv_ins h h1 h2 h3
  | del h1 h2 h3 h4 => exact inv_del h h1 h2 h3 h4
  | lock h1 h2 => exact inv_lock h h1 h2
  | unlock h1 => exact inv_unlock h h1
  | freeze h1 h2 h3 h4 _ => exact inv_freeze h h1 h2 h3 h4
  | abort h1 => exact inv_abort h h1
  | make h1 h2 h3 h4 => exact inv_make h h1 h2 h3 h4
  | resv h1 => exact inv_resv h h1
  | publ h1 => exact inv_publ h h1
  | thaw h1 => exact inv_thaw h h1
  | swap h1 => exact inv_swap h h1
  | make1 h1 => exact inv_make1 h h1
  | swap1 h1 => exact inv_swap1 h h1
  | drop h1 h2 h3 h4 h5 h6 h7 _ h9 h10 => exact inv_drop h h1 h2 h3 h4 h5 h6 h7 h9 h10
  | null h1 => exact inv_null h h1
  | sync h1 => exact inv_sync h h1

theorem inv_reach {s : State} (h : Reach s) : Inv s := by
  have : ∀ {a b : State}, Steps a b → Inv a → Inv b := by
    intro a b hs
    induction hs with
    | refl => exact id
    | step _ h2 ih => exact fun ha => inv_step (ih ha) h2
  exact this h inv_init

end Scc.Twig
