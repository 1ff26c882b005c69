import Verif.Twig.Links

/-! # Whoever sees a value knows what the thread that wrote it knew -/

namespace Scc.Twig

/-- The leaf that is being replaced. -/
def Pc.site : Pc → Option (Nat × Nat)
  | .froze i x | .made i x _ _ _ | .resv i x _ _ _ _ | .publ i x _ _ | .thawn i x _ | .one i x _ => some (i, x)
  | _ => none

/-- What the views of the values on a path bring. -/
structure Flow (s : State) : Prop where
  mono : ∀ n n' d, n ≤ n' → n' ≤ s.mn → (s.mv n).g d ≤ (s.mv n').g d
  pub : ∀ k n c x u d, Path s n (s.R n k) c x → u ≤ s.ln x →
    s.hw k (s.ver x u k) d ≤ max (max ((s.mv n).g d) ((s.cv (s.R n k) c).g d)) ((s.lv x u).g d)
  ret : ∀ x u u' k, u ≤ u' → u' ≤ s.ln x → (s.lw x u).retired = true → s.ver x u' k = s.ver x u k

/-- A view that has all that was written with the lock. -/
structure Whole (s : State) (v : View) : Prop where
  m : ∀ d, (s.mv s.mn).g d ≤ v.g d
  c : ∀ i c d, c ≤ s.cn i → (s.cv i c).g d ≤ v.g d

structure Cause (s : State) : Prop where
  flow : Flow s
  hold : ∀ t, s.holder = some t → Whole s (s.tv t)
  free : s.holder = none → Whole s s.lockv
  own : ∀ t i x, (s.pc t).site = some (i, x) → ∀ k d, s.R s.mn k = i → s.hw k (s.ver x (s.ln x) k) d ≤ (s.tv t).g d

theorem cause_init : Cause .init :=
  ⟨⟨fun _ _ _ _ _ => Nat.le_refl _, fun _ _ _ _ _ _ _ _ => Nat.zero_le _, fun _ _ _ _ _ _ h => by cases h⟩,
    (fun _ h => by cases h), fun _ => ⟨fun _ => Nat.le_refl _, fun _ _ _ _ => Nat.le_refl _⟩, (fun _ _ _ h => by cases h)⟩

theorem Flow.ctl {s : State} {a : Option Nat} {b : View} {c : Nat → Pc} {d : Nat → View} (h : Flow s) :
    Flow { s with holder := a, lockv := b, pc := c, tv := d } :=
  ⟨h.mono, fun k n c x u d p hu => h.pub k n c x u d ⟨p.le, p.lc, p.mc, p.cm, p.ptr⟩ hu, h.ret⟩

theorem Whole.of {s s' : State} {v : View} (h : Whole s v) (h1 : s'.mv = s.mv) (h2 : s'.mn = s.mn) (h3 : s'.cv = s.cv)
    (h4 : s'.cn = s.cn) : Whole s' v := ⟨by rw [h1, h2]; exact h.m, by rw [h3, h4]; exact h.c⟩

theorem Whole.more {s : State} {v w : View} (h : Whole s v) (hg : ∀ d, v.g d ≤ w.g d) : Whole s w :=
  ⟨fun d => Nat.le_trans (h.m d) (hg d), fun i c d hc => Nat.le_trans (h.c i c d hc) (hg d)⟩

theorem site_locked {p : Pc} {e : Nat × Nat} (h : p.site = some e) : p.locked = true := by
  cases p <;> first | rfl | cases h

/-- Only a thread without the lock changes. -/
theorem cause_read {s : State} {t : Nat} {q : Pc} {w : View} (hi : Inv s) (h : Cause s) (hu : (s.pc t).locked = false)
    (hq : q.locked = false) : Cause (s.go t q w) := by
  have hh : s.holder ≠ some t := by intro e; rw [(hi.lk t).mpr e] at hu; cases hu
  refine ⟨h.flow.ctl, ?_, fun e => (h.free e).of rfl rfl rfl rfl, ?_⟩
  · intro t' ht'
    have e : t' ≠ t := by intro e; subst e; exact hh ht'
    rw [show (s.go t q w).tv t' = s.tv t' from upd_ne _ _ e]
    exact (h.hold t' ht').of rfl rfl rfl rfl
  · intro t' i x hs
    by_cases e : t' = t
    · subst e
      rw [show (s.go t' q w).pc t' = q from upd_self _ _ _] at hs
      rw [site_locked hs] at hq; cases hq
    · rw [show (s.go t q w).pc t' = s.pc t' from upd_ne _ _ e] at hs
      rw [show (s.go t q w).tv t' = s.tv t' from upd_ne _ _ e]
      exact h.own t' i x hs

/-! ## Words of leaves -/

theorem addPage_lv' {s : State} {x : Nat} {p : Page} {v : View} {r : Nat → Nat} :
    (s.addPage x p v r).lv x (s.ln x + 1) = v := by simp [State.addPage]

theorem flow_page {s s1 : State} {x : Nat} {p : Page} {v : View} {r : Nat → Nat} (hc : Core s) (h : Flow s)
    (hs : Wrote s x p v r s1) (hhw : ∀ k j d, j ≤ s.hn k → s1.hw k j d = s.hw k j d)
    (hv : ∀ d, (s.lv x (s.ln x)).g d ≤ v.g d)
    (hr : ∀ k d, s1.hw k (r k) d ≤ max (s.hw k (s.ver x (s.ln x) k) d) (v.g d))
    (hret : (s.page x).retired = true → r = s.ver x (s.ln x)) : Flow s1 := by
  have hR : ∀ n k, s1.R n k = s.R n k := by intro n k; simp only [State.R, hs.mw]
  have hold : ∀ {y u}, u ≤ s.ln y → s1.lw y u = s.lw y u ∧ s1.ver y u = s.ver y u ∧ s1.lv y u = s.lv y u := by
    intro y u hu
    rw [hs.lw, hs.ver, hs.lv]
    by_cases e : y = x
    · subst e
      have hu' : u ≠ s.ln y + 1 := by omega
      refine ⟨?_, ?_, ?_⟩ <;> simp [State.addPage, upd_ne _ _ hu']
    · refine ⟨?_, ?_, ?_⟩ <;> simp [State.addPage, upd_ne _ _ e]
  have hln : ∀ y, s1.ln y = if y = x then s.ln x + 1 else s.ln y := by intro y; rw [hs.ln]; exact addPage_ln y
  have hnew : s1.ver x (s.ln x + 1) = r ∧ s1.lv x (s.ln x + 1) = v := by
    rw [hs.ver, hs.lv]; constructor <;> simp [State.addPage]
  have hcase : ∀ {y u}, u ≤ s1.ln y → u ≤ s.ln y ∨ (y = x ∧ u = s.ln x + 1) := by
    intro y u hu
    rw [hln] at hu
    by_cases e : y = x
    · subst e; rw [if_pos rfl] at hu
      by_cases h1 : u ≤ s.ln y
      · exact .inl h1
      · exact .inr ⟨rfl, by omega⟩
    · rw [if_neg e] at hu; exact .inl hu
  refine ⟨by rw [hs.mn, hs.mv]; exact h.mono, ?_, ?_⟩
  · intro k n c y u d hp hu
    rw [hR] at hp ⊢
    have hp' : Path s n (s.R n k) c y :=
      ⟨by rw [← hs.mn]; exact hp.le, by rw [← hs.cn]; exact hp.lc, by rw [← hs.mv]; exact hp.mc, by rw [← hs.cv]; exact hp.cm, by
        rw [← hs.cp]; exact hp.ptr⟩
    rw [hs.mv, hs.cv]
    cases hcase hu with
    | inl h1 =>
      have h2 := hold h1
      rw [h2.2.1, h2.2.2, hhw _ _ _ (hc.verb y u k h1)]
      exact h.pub k n c y u d hp' h1
    | inr h1 =>
      obtain ⟨rfl, rfl⟩ := h1
      rw [hnew.1, hnew.2]
      have h2 := h.pub k n c y _ d hp' (Nat.le_refl _)
      have h3 := hv d
      have h4 := hr k d
      omega
  · intro y u u' k h1 h2 h3
    cases hcase h2 with
    | inl h4 =>
      have h5 := hold (show u ≤ s.ln y by omega)
      rw [h5.1] at h3
      rw [h5.2.1, (hold h4).2.1]
      exact h.ret y u u' k h1 h4 h3
    | inr h4 =>
      obtain ⟨rfl, rfl⟩ := h4
      by_cases h5 : u = s.ln y + 1
      · subst h5; rfl
      · have h6 : u ≤ s.ln y := by omega
        have h7 := hold h6
        rw [h7.1] at h3
        rw [h7.2.1, hnew.1, hret (hc.retp y u h6 h3)]
        exact h.ret y u _ k h6 (Nat.le_refl _) h3

theorem cause_page {s s1 : State} {t x : Nat} {p : Page} {v w : View} {r : Nat → Nat} {q : Pc} (hi : Inv s) (h : Cause s)
    (hu : (s.pc t).locked = false) (hs : Wrote s x p v r s1) (hhw : ∀ k j d, j ≤ s.hn k → s1.hw k j d = s.hw k j d)
    (hv : ∀ d, (s.lv x (s.ln x)).g d ≤ v.g d)
    (hr : ∀ k d, s1.hw k (r k) d ≤ max (s.hw k (s.ver x (s.ln x) k) d) (v.g d))
    (hret : (s.page x).retired = true → r = s.ver x (s.ln x))
    (hpg : ((s.page x).frozen = true ∨ s.dead x = true) → r = s.ver x (s.ln x)) (hq : q.locked = false) :
    Cause (s1.go t q w) := by
  have hh : s.holder ≠ some t := by intro e; rw [(hi.lk t).mpr e] at hu; cases hu
  refine ⟨(flow_page hi.core h.flow hs hhw hv hr hret).ctl, ?_, ?_, ?_⟩
  · intro t' ht'
    have ht2 : s1.holder = some t' := ht'
    rw [hs.holder] at ht2
    have e : t' ≠ t := by intro e; subst e; exact hh ht2
    rw [show (s1.go t q w).tv t' = s.tv t' from (upd_ne _ _ e).trans (by rw [hs.tv])]
    exact (h.hold t' ht2).of hs.mv hs.mn hs.cv hs.cn
  · intro e
    have e : s1.holder = none := e
    rw [hs.holder] at e
    show Whole _ s1.lockv
    rw [hs.lockv]; exact (h.free e).of hs.mv hs.mn hs.cv hs.cn
  · intro t' i y hsite
    by_cases e : t' = t
    · subst e
      rw [show (s1.go t' q w).pc t' = q from upd_self _ _ _] at hsite
      rw [site_locked hsite] at hq; cases hq
    · rw [show (s1.go t q w).pc t' = s.pc t' from (upd_ne _ _ e).trans (by rw [hs.pc])] at hsite
      rw [show (s1.go t q w).tv t' = s.tv t' from (upd_ne _ _ e).trans (by rw [hs.tv])]
      have hb : (s.page y).frozen = true ∨ s.dead y = true := by
        have hpc := hi.pcs t'
        revert hsite hpc
        cases s.pc t' with
        | froze j z => intro hsite hpc; cases hsite; exact .inl (show Froze s i y from hpc).frozen
        | made j z b lo hi => intro hsite hpc; cases hsite; exact .inl (show Made s i y b lo hi from hpc).old.frozen
        | resv j z b lo hi p =>
          intro hsite hpc; cases hsite; exact .inl (show Made s i y b lo hi ∧ Slot s p from hpc).1.old.frozen
        | publ j z lo hi =>
          intro hsite hpc; cases hsite
          exact .inr (show Half s i y hi ∧ lo < s.nl ∧ s.dead lo = false ∧ lo ≠ hi from hpc).1.dead
        | thawn j z hi => intro hsite hpc; cases hsite; exact .inr (show Half s i y hi from hpc).dead
        | one j z o => intro hsite hpc; cases hsite; exact .inl (show Single s i y o from hpc).old.frozen
        | idle => intro hsite; cases hsite
        | sel => intro hsite; cases hsite
        | got => intro hsite; cases hsite
        | ent => intro hsite; cases hsite
        | lock => intro hsite; cases hsite
        | drop => intro hsite; cases hsite
      have hver : s1.ver y (s1.ln y) = s.ver y (s.ln y) := by
        rw [hs.ver, hs.ln, addPage_ln]
        by_cases ey : y = x
        · subst ey; rw [if_pos rfl, ← hpg hb]; simp [State.addPage]
        · rw [if_neg ey]; simp [State.addPage, upd_ne _ _ ey]
      intro k d hk
      have hk : s1.R s1.mn k = i := hk
      rw [hs.mn, show s1.R s.mn k = s.R s.mn k by simp only [State.R, hs.mw]] at hk
      show s1.hw k (s1.ver y (s1.ln y) k) d ≤ _
      rw [hver, hhw _ _ _ (hi.core.verb y _ k (Nat.le_refl _))]
      exact h.own t' i y hsite k d hk

theorem join_left (v w : View) (d : Nat) : v.g d ≤ (v.join w).g d := Nat.le_max_left _ _
theorem join_right (v w : View) (d : Nat) : w.g d ≤ (v.join w).g d := Nat.le_max_right _ _

theorem cause_set {s : State} {t k n c x : Nat} {o : Op} {p : Page} {a : Option Nat} (hi : Inv s) (h : Cause s)
    (hp : s.pc t = .ent o k n c x) (hf : (s.page x).frozen = false) (hd : s.dead x = false)
    (hr : (s.page x).retired = false) :
    Cause (((s.addPage x p ((s.tl t x).know k (s.hn k + 1)) (upd (s.ver x (s.ln x)) k (s.hn k + 1))).addHist k a
      ((s.tl t x).know k (s.hn k + 1)).g).go t .idle ((s.tl t x).know k (s.hn k + 1))) := by
  have hhw : ∀ e j d, j ≤ s.hn e → ((s.addPage x p ((s.tl t x).know k (s.hn k + 1))
      (upd (s.ver x (s.ln x)) k (s.hn k + 1))).addHist k a ((s.tl t x).know k (s.hn k + 1)).g).hw e j d = s.hw e j d := by
    intro e j d hj
    show upd s.hw k _ e j d = _
    by_cases ek : e = k
    · subst ek; rw [upd_self]
      have hj' : j ≠ s.hn e + 1 := by omega
      show upd (s.hw e) (s.hn e + 1) _ j d = _
      rw [upd_ne _ _ hj']
    · rw [upd_ne _ _ ek]
  refine cause_page hi h (by rw [hp]; rfl) wrote' hhw ?_ ?_ (fun e => by rw [hr] at e; cases e) ?_ rfl
  · intro d
    exact Nat.le_trans (join_right (s.tv t) _ d) le_upd
  · intro e d
    by_cases ek : e = k
    · subst ek
      rw [upd_self]
      have : ((s.addPage x p ((s.tl t x).know e (s.hn e + 1)) (upd (s.ver x (s.ln x)) e (s.hn e + 1))).addHist e a
          ((s.tl t x).know e (s.hn e + 1)).g).hw e (s.hn e + 1) = ((s.tl t x).know e (s.hn e + 1)).g := by
        show upd s.hw e (upd (s.hw e) (s.hn e + 1) _) e (s.hn e + 1) = _
        rw [upd_self, upd_self]
      rw [this]; exact Nat.le_max_right _ _
    · rw [upd_ne _ _ ek, hhw _ _ _ (hi.core.verb x _ e (Nat.le_refl _))]; exact Nat.le_max_left _ _
  · intro e
    cases e with
    | inl e => rw [hf] at e; cases e
    | inr e => rw [hd] at e; cases e

/-! ## With the lock -/

theorem cause_hold {s s1 : State} {t : Nat} {q : Pc} {w : View} (hi : Inv s) (hl : (s.pc t).locked = true)
    (hpc : s1.pc = s.pc) (hho : s1.holder = s.holder) (hf : Flow s1) (hw : Whole s1 w)
    (hown : ∀ i x, q.site = some (i, x) → ∀ k d, s1.R s1.mn k = i → s1.hw k (s1.ver x (s1.ln x) k) d ≤ w.g d) :
    Cause (s1.go t q w) := by
  have hh : s.holder = some t := (hi.lk t).mp hl
  have hh1 : (s1.go t q w).holder = some t := hho.trans hh
  have htt : (s1.go t q w).tv t = w := upd_self _ _ _
  refine ⟨hf.ctl, ?_, ?_, ?_⟩
  · intro t' ht'
    rw [hh1] at ht'; cases ht'
    rw [htt]; exact hw.of rfl rfl rfl rfl
  · intro e; rw [hh1] at e; cases e
  · intro t' i x hs
    by_cases e : t' = t
    · subst e
      rw [show (s1.go t' q w).pc t' = q from upd_self _ _ _] at hs
      rw [htt]; exact hown i x hs
    · rw [show (s1.go t q w).pc t' = s.pc t' from (upd_ne _ _ e).trans (by rw [hpc])] at hs
      exact absurd (hi.holds hl (site_locked hs)) e

theorem Cause.whole {s : State} (h : Cause s) (hi : Inv s) {t : Nat} (hl : (s.pc t).locked = true) : Whole s (s.tv t) :=
  h.hold t ((hi.lk t).mp hl)

theorem cause_hpage {s : State} {t x : Nat} {p : Page} {v w : View} {q : Pc} (hi : Inv s) (h : Cause s)
    (hl : (s.pc t).locked = true) (hv : ∀ d, (s.lv x (s.ln x)).g d ≤ v.g d) (hw : ∀ d, (s.tv t).g d ≤ w.g d)
    (hown : ∀ i y, q.site = some (i, y) → ∀ k d, s.R s.mn k = i →
      s.hw k ((s.addPage x p v (s.ver x (s.ln x))).ver y ((s.addPage x p v (s.ver x (s.ln x))).ln y) k) d ≤ w.g d) :
    Cause ((s.addPage x p v (s.ver x (s.ln x))).go t q w) := by
  refine cause_hold hi hl rfl rfl ?_ (((h.whole hi hl).more hw).of rfl rfl rfl rfl) hown
  exact flow_page hi.core h.flow wrote (fun _ _ _ _ => rfl) hv (fun k d => Nat.le_max_left _ _) (fun _ => rfl)

theorem addPage_ver {s : State} {x : Nat} {p : Page} {v : View} (y : Nat) :
    (s.addPage x p v (s.ver x (s.ln x))).ver y ((s.addPage x p v (s.ver x (s.ln x))).ln y) = s.ver y (s.ln y) := by
  rw [addPage_ln]
  by_cases e : y = x
  · subst e; rw [if_pos rfl]; simp [State.addPage]
  · rw [if_neg e]; simp [State.addPage, upd_ne _ _ e]

theorem flow_new {s : State} {p : Page} {v : View} {r : Nat → Nat} (hc : Core s) (h : Flow s) :
    Flow (s.newLeaf s.nl p v r) := by
  refine ⟨h.mono, ?_, ?_⟩
  · intro k n c y u d hp hu
    have hy : y ≠ s.nl := by
      have h1 : s.cp (s.R n k) c = some y := hp.ptr
      have h2 := hc.leaf _ _ _ hp.lc h1
      omega
    have h1 := h.pub k n c y u d ⟨hp.le, hp.lc, hp.mc, hp.cm, hp.ptr⟩ hu
    have e1 : (s.newLeaf s.nl p v r).ver y = s.ver y := upd_ne _ _ hy
    have e2 : (s.newLeaf s.nl p v r).lv y = s.lv y := upd_ne _ _ hy
    rw [e1, e2]; exact h1
  · intro y u u' k h1 h2 h3
    by_cases hy : y = s.nl
    · subst hy
      have h4 : s.ln s.nl = 0 := (hc.new _ (Nat.le_refl _)).1
      have h5 : u' ≤ s.ln s.nl := h2
      have : u = u' := by omega
      rw [this]
    · have e1 : (s.newLeaf s.nl p v r).ver y = s.ver y := upd_ne _ _ hy
      have e2 : (s.newLeaf s.nl p v r).lw y = s.lw y := upd_ne _ _ hy
      rw [e2] at h3
      rw [e1]; exact h.ret y u u' k h1 h2 h3

theorem flow_cell {s s1 : State} {i : Nat} {o : Option Nat} {v : View} (h : Flow s)
    (hpath : ∀ {n j c y}, Path s1 n j c y → Path (s.addCell i o v) n j c y) (hmn : s1.mn = s.mn) (hmw : s1.mw = s.mw)
    (hmv : s1.mv = s.mv) (hcv : s1.cv = (s.addCell i o v).cv) (hln : s1.ln = s.ln)
    (hlw : s1.lw = s.lw) (hlv : s1.lv = s.lv) (hver : s1.ver = s.ver) (hhw : s1.hw = s.hw) (hm : o = none ∨ v.m = s.mn)
    (hnew : ∀ k y d u, o = some y → s.R s.mn k = i → u ≤ s.ln y → s.hw k (s.ver y u k) d ≤ v.g d) : Flow s1 := by
  have hR : ∀ n k, s1.R n k = s.R n k := by intro n k; simp only [State.R, hmw]
  refine ⟨by rw [hmv, hmn]; exact h.mono, ?_, by rw [hln, hlw, hver]; exact h.ret⟩
  intro k n c y u d hp hu
  rw [hR] at hp ⊢
  rw [hln] at hu
  rw [hmv, hcv, hlv, hver, hhw]
  have hp := hpath hp
  cases addCell_at hp.lc with
  | inl h1 =>
    rw [h1.2.2]
    refine h.pub k n c y u d ⟨hp.le, h1.1, hp.mc, ?_, ?_⟩ hu
    · rw [← h1.2.2]; exact hp.cm
    · rw [← h1.2.1]; exact hp.ptr
  | inr h1 =>
    have h2 := hp.ptr
    rw [h1.2.2.1] at h2
    have h3 := hp.cm
    rw [h1.2.2.2] at h3
    have h4 : n = s.mn := by
      cases hm with
      | inl hm => rw [hm] at h2; cases h2
      | inr hm => have h5 : n ≤ s.mn := hp.le; omega
    subst h4
    rw [h1.2.2.2]
    have := hnew k y d u h2 h1.1 hu
    omega

theorem whole_cell {s s1 : State} {i : Nat} {o : Option Nat} {v w : View} (h : Whole s w) (hmn : s1.mn = s.mn)
    (hmv : s1.mv = s.mv) (hcv : s1.cv = (s.addCell i o v).cv) (hcn : s1.cn = (s.addCell i o v).cn)
    (hv : ∀ d, v.g d ≤ w.g d) : Whole s1 w := by
  refine ⟨by rw [hmn, hmv]; exact h.m, ?_⟩
  intro j c d hjc
  rw [hcn] at hjc
  rw [hcv]
  cases addCell_at hjc with
  | inl h1 => rw [h1.2.2]; exact h.c j c d h1.1
  | inr h1 => rw [h1.2.2.2]; exact hv d

theorem tc_le {s : State} {t i : Nat} (h : Whole s (s.tv t)) (d : Nat) : (s.tc t i).g d ≤ (s.tv t).g d := by
  show max _ _ ≤ _
  exact Nat.max_le.mpr ⟨Nat.le_refl _, h.c i _ d (Nat.le_refl _)⟩

end Scc.Twig
