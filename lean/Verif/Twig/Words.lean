import Verif.Twig.Cells

/-! # Words of `children` -/

namespace Scc.Twig

theorem addWord_mw {s : State} {w : Word} {v : View} {n : Nat} (h : n ≤ s.mn) :
    (s.addWord w v).mw n = s.mw n := by
  have : n ≠ s.mn + 1 := by omega
  simp [State.addWord, upd_ne _ _ this]

theorem addWord_mv {s : State} {w : Word} {v : View} {n : Nat} (h : n ≤ s.mn) : (s.addWord w v).mv n = s.mv n := by
  have : n ≠ s.mn + 1 := by omega
  simp [State.addWord, upd_ne _ _ this]

theorem addWord_new {s : State} {w : Word} {v : View} :
    (s.addWord w v).mw (s.mn + 1) = w ∧ (s.addWord w v).mv (s.mn + 1) = v := by simp [State.addWord]

/-- A slot is reserved. -/
theorem core_resv {s : State} {v : View} (h : Core s) (hv : ∀ i, (s.mv s.mn).c i ≤ v.c i ∧ v.c i ≤ s.cn i) :
    Core (s.addWord { s.word with used := s.word.used + 1 } v) := by
  generalize hs : s.addWord { s.word with used := s.word.used + 1 } v = s1
  have hmn : s1.mn = s.mn + 1 := by subst hs; rfl
  -- word `n` of the new state routes like word `min n mn` of the old one
  have hw : ∀ n, n ≤ s1.mn → (s1.mw n).kids = (s.mw (min n s.mn)).kids := by
    intro n hn
    by_cases h1 : n ≤ s.mn
    · subst hs; rw [(addWord_mw h1), Nat.min_eq_left h1]
    · have h2 : n = s.mn + 1 := by omega
      subst h2 hs; rw [addWord_new.1, Nat.min_eq_right (by omega)]; rfl
  have hword : s1.word = { s.word with used := s.word.used + 1 } := by subst hs; exact addWord_new.1
  have hR : ∀ n k, n ≤ s1.mn → s1.R n k = s.R (min n s.mn) k := by
    intro n k hn; simp only [State.R, hw n hn]
  have hRt : ∀ k, s1.R s1.mn k = s.R s.mn k := by
    intro k; rw [hR _ _ (Nat.le_refl _), hmn, Nat.min_eq_right (by omega)]
  have hcn : s1.cn = s.cn := by subst hs; rfl
  have hcp : s1.cp = s.cp := by subst hs; rfl
  have hln : s1.ln = s.ln := by subst hs; rfl
  have hlw : s1.lw = s.lw := by subst hs; rfl
  have hver : s1.ver = s.ver := by subst hs; rfl
  have hhn : s1.hn = s.hn := by subst hs; rfl
  have hhv : s1.hv = s.hv := by subst hs; rfl
  have hdead : s1.dead = s.dead := by subst hs; rfl
  have hnl : s1.nl = s.nl := by subst hs; rfl
  have hpath : ∀ {n i c x}, Path s1 n i c x → Path s (min n s.mn) i c x := by
    intro n i c x hp
    have hle := hp.le
    have hlc := hp.lc
    have hptr := hp.ptr
    rw [hcn] at hlc
    rw [hcp] at hptr
    have hcm : (s.cv i c).m ≤ n := by have := hp.cm; subst hs; exact this
    refine ⟨by omega, hlc, ?_, ?_, hptr⟩
    · by_cases h1 : n ≤ s.mn
      · rw [Nat.min_eq_left h1]
        have := hp.mc; subst hs; rw [(addWord_mv h1)] at this; exact this
      · have h2 : n = s.mn + 1 := by omega
        rw [Nat.min_eq_right (by omega)]
        have := hp.mc; subst h2 hs; rw [addWord_new.2] at this
        exact Nat.le_trans (hv i).1 this
    · have := h.cvm i c hlc; omega
  refine ⟨?_, ?_, ?_, ?_, ?_, ?_, ?_, ?_, ?_, ?_, ?_, ?_, ?_, ?_, ?_, ?_, ?_, ?_, ?_, ?_, ?_⟩
  · intro n hn
    by_cases h1 : n ≤ s.mn
    · subst hs; rw [(addWord_mw h1)]; exact h.stamp n h1
    · have h2 : n = s.mn + 1 := by omega
      have := h.stamp s.mn (Nat.le_refl _)
      subst h2 hs; rw [addWord_new.1]; show s.word.used + 1 + s.word.kids.length + 2 * s.word.gone = _
      simp only [State.word]; omega
  · intro n hn; rw [hw n hn]; exact h.sorted _ (by omega)
  · intro n hn; rw [hw n hn]; exact h.nodup _ (by omega)
  · intro n hn e he
    rw [hw n hn] at he
    have := h.places _ (by omega) e he
    rw [hword]; show 1 ≤ e.2 ∧ e.2 ≤ s.word.used + 1; omega
  · intro p hp
    rw [hword] at hp
    have hp' : s.word.used + 1 < p := hp
    rw [hcn, hcp]; exact h.far p (by omega)
  · rw [hcn, hcp, hnl]; exact h.leaf
  · rw [hnl, hln, hdead]; exact h.new
  · intro n i hn
    rw [hcn]
    by_cases h1 : n ≤ s.mn
    · subst hs; rw [(addWord_mv h1)]; exact h.mvc n i h1
    · have h2 : n = s.mn + 1 := by omega
      subst h2 hs; rw [addWord_new.2]; exact (hv i).2
  · intro i c hc
    rw [hcn] at hc
    have : (s1.cv i c).m ≤ s.mn := by have := h.cvm i c hc; subst hs; exact this
    omega
  · intro i hi
    have hi' : s.Kid i := by
      cases hi with
      | inl h1 => exact .inl h1
      | inr h1 => right; rw [hword] at h1; exact h1
    rw [hcp, hcn]; exact h.kid i hi'
  · rw [hln, hver, hhn]; exact h.verb
  · intro k n c x u n' c' x' u' hp1 hu hp2 hu' hn hc hx
    have h1 := hpath hp1
    have h2 := hpath hp2
    rw [hR n k hp1.le] at h1 hc
    rw [hR n' k hp2.le] at h2 hc
    rw [hln] at hu hu'
    rw [hver]
    exact h.coh k _ c x u _ c' x' u' h1 hu h2 hu' (by omega) hc hx
  · intro k n c x u hp1 hu
    have h1 := hpath hp1
    rw [hR n k hp1.le] at h1
    rw [hln] at hu
    rw [hver, hlw, hhv]
    exact h.val k _ c x u h1 hu
  · intro k x hx
    rw [hRt, hcp, hcn] at hx
    rw [hver, hln, hhn]; exact h.fresh k x hx
  · rw [hdead, hcn, hcp]; exact h.live
  · rw [hcn, hcp]; exact h.uniq
  · intro x k n i c n' hd hp1 hr hn hn'
    rw [hdead] at hd
    rw [hR n k hp1.le] at hr
    rw [hR n' k hn']
    exact h.grow x k _ i c _ hd (hpath hp1) hr (by omega) (by omega)
  · intro x i u k hd hx hu hk
    rw [hdead] at hd
    rw [hcp, hcn] at hx
    rw [hln] at hu
    rw [hlw] at hk
    rw [hRt]; exact h.inrange x i u k hd hx hu hk
  · intro x hd; rw [hdead] at hd; have := h.block x hd; subst hs; exact this
  · rw [hln, hlw]; exact h.empty
  · intro x u hu hr; have := h.retp x u (by rw [hln] at hu; exact hu) (by rw [hlw] at hr; exact hr); subst hs; exact this

/-- The lower leaf becomes reachable. -/
theorem core_publ {s : State} {i x b d lo p : Nat} {v : View} (h : Core s) (hk : s.Kid i)
    (hx : s.cp i (s.cn i) = some x) (hxd : s.dead x = false) (hxf : (s.page x).frozen = true)
    (hb : (s.page x).has b ≠ none) (hbd : b < d) (hd : (s.page x).has d ≠ none)
    (hp0 : s.cn p = 0) (hpn : ∀ c, s.cp p c = none) (hp1 : 1 ≤ p) (hpu : p ≤ s.word.used)
    (hpk : ∀ n, n ≤ s.mn → ∀ e ∈ (s.mw n).kids, e.2 ≠ p)
    (hlo : lo < s.nl) (hlod : s.dead lo = false) (hloc : ∀ j c, c ≤ s.cn j → s.cp j c ≠ some lo) (hlo0 : s.ln lo = 0)
    (hlow : ∀ k, (s.lw lo 0).has k = if k ≤ b then (s.page x).has k else none)
    (hlov : s.ver lo 0 = s.ver x (s.ln x)) (hvc : ∀ j, v.c j = s.cn j) :
    Core (((s.initCell p lo).addWord { s.word with kids := put b p s.word.kids } v).setDead x) := by
  have hxlo : lo ≠ x := by intro e; subst e; exact hloc i _ (Nat.le_refl _) hx
  have hpi : p ≠ i := by intro e; subst e; rw [hpn] at hx; cases hx
  have hRb : s.R s.mn b = i := h.inrange x i _ b hxd hx (Nat.le_refl _) hb
  have hRd : s.R s.mn d = i := h.inrange x i _ d hxd hx (Nat.le_refl _) hd
  have hpl0 : ∀ e ∈ s.word.kids, e.2 ≠ 0 := by
    intro e he h0
    have := (h.places s.mn (Nat.le_refl _) e he).1
    omega
  have hbk : ∀ e ∈ s.word.kids, e.1 ≠ b := by
    intro e he heb
    have h1 := route_key (h.sorted s.mn (Nat.le_refl _)) he
    rw [heb] at h1
    have h2 : e.2 = i := h1.symm.trans hRb
    have := route_le (k := d) (h.nodup s.mn (Nat.le_refl _)) hpl0 he (by rw [h2]; exact hRd)
    omega
  have hroute : ∀ k, route (put b p s.word.kids) k = if k ≤ b ∧ s.R s.mn k = i then p else s.R s.mn k := by
    intro k
    rw [route_put (l := s.word.kids) (h.nodup s.mn (Nat.le_refl _)) hpl0 hbk]
    show (if k ≤ b ∧ s.R s.mn k = s.R s.mn b then p else s.R s.mn k) = _
    rw [hRb]
  generalize hs : ((s.initCell p lo).addWord { s.word with kids := put b p s.word.kids } v).setDead x = s1
  have hmn : s1.mn = s.mn + 1 := by subst hs; rfl
  have hmw : ∀ n, n ≤ s.mn → s1.mw n = s.mw n := by intro n hn; subst hs; exact (addWord_mw (s := s.initCell p lo) (v := v) hn)
  have hmv : ∀ n, n ≤ s.mn → s1.mv n = s.mv n := by intro n hn; subst hs; exact (addWord_mv (s := s.initCell p lo) (w := { s.word with kids := put b p s.word.kids }) hn)
  have hmw1 : s1.mw (s.mn + 1) = { s.word with kids := put b p s.word.kids } := by
    subst hs; exact (addWord_new (s := s.initCell p lo) (v := v)).1
  have hmv1 : s1.mv (s.mn + 1) = v := by subst hs; exact (addWord_new (s := s.initCell p lo) (w := { s.word with kids := put b p s.word.kids })).2
  have hword : s1.word = { s.word with kids := put b p s.word.kids } := by rw [State.word, hmn]; exact hmw1
  have hcn : s1.cn = s.cn := by subst hs; rfl
  have hln : s1.ln = s.ln := by subst hs; rfl
  have hlw : s1.lw = s.lw := by subst hs; rfl
  have hver : s1.ver = s.ver := by subst hs; rfl
  have hhn : s1.hn = s.hn := by subst hs; rfl
  have hhv : s1.hv = s.hv := by subst hs; rfl
  have hnl : s1.nl = s.nl := by subst hs; rfl
  have hdead : ∀ z, s1.dead z = if z = x then true else s.dead z := by subst hs; intro z; rfl
  have hcp : ∀ j c, j ≠ p → s1.cp j c = s.cp j c := by
    intro j c hj; subst hs; simp [State.initCell, State.addWord, State.setDead, upd_ne _ _ hj]
  have hcv : ∀ j c, j ≠ p → s1.cv j c = s.cv j c := by
    intro j c hj; subst hs; simp [State.initCell, State.addWord, State.setDead, upd_ne _ _ hj]
  have hcpp : s1.cp p 0 = some lo := by subst hs; simp [State.initCell, State.addWord, State.setDead]
  have hcvp : (s1.cv p 0).m = 0 := by subst hs; simp [State.initCell, State.addWord, State.setDead, View.zero]
  have hR : ∀ n k, n ≤ s.mn → s1.R n k = s.R n k := by intro n k hn; simp only [State.R, hmw n hn]
  have hR1 : ∀ k, s1.R (s.mn + 1) k = if k ≤ b ∧ s.R s.mn k = i then p else s.R s.mn k := by
    intro k; simp only [State.R, hmw1]; exact hroute k
  have hRp : ∀ n k, n ≤ s.mn → s.R n k ≠ p := by
    intro n k hn he
    cases route_mem (s.mw n).kids k with
    | inl h1 =>
      have h2 : s.R n k = 0 := h1
      omega
    | inr h1 =>
      obtain ⟨e, he1, he2⟩ := List.mem_map.mp h1
      exact hpk n hn e he1 (he2.trans he)
  have hkp : ¬ s.Kid p := by
    intro hkid
    cases hkid with
    | inl h1 => omega
    | inr h1 => obtain ⟨e, he1, he2⟩ := List.mem_map.mp h1; exact hpk s.mn (Nat.le_refl _) e he1 he2
  -- the paths of the new state
  have hpath : ∀ {n j c z}, Path s1 n j c z → j ≠ p → Path s (min n s.mn) j c z ∧ (s.mn < n → c = s.cn j) := by
    intro n j c z hp hj
    have hle := hp.le
    have hlc := hp.lc
    have hptr := hp.ptr
    have hcm := hp.cm
    have hmc := hp.mc
    rw [hcn] at hlc
    rw [hcp j c hj] at hptr
    rw [hcv j c hj] at hcm
    by_cases h1 : n ≤ s.mn
    · rw [Nat.min_eq_left h1]
      rw [hmv n h1] at hmc
      exact ⟨⟨h1, hlc, hmc, hcm, hptr⟩, fun h2 => by omega⟩
    · have h2 : n = s.mn + 1 := by omega
      subst h2
      rw [hmv1, hvc] at hmc
      rw [Nat.min_eq_right (by omega)]
      refine ⟨⟨Nat.le_refl _, hlc, Nat.le_trans (h.mvc _ j (Nat.le_refl _)) hmc, h.cvm j c hlc, hptr⟩, fun _ => by omega⟩
  -- a path of a key: either as before, or to the new place
  have hkp1 : ∀ {n k c z}, Path s1 n (s1.R n k) c z →
      (Path s (min n s.mn) (s.R (min n s.mn) k) c z ∧ s1.R n k = s.R (min n s.mn) k) ∨
      (n = s.mn + 1 ∧ s.R s.mn k = i ∧ k ≤ b ∧ c = 0 ∧ z = lo) := by
    intro n k c z hp
    have hle := hp.le
    by_cases h1 : n ≤ s.mn
    · left
      have h2 := hR n k h1
      have h3 := hpath hp (by rw [h2]; exact hRp n k h1)
      rw [h2] at h3
      rw [Nat.min_eq_left h1] at h3 ⊢
      exact ⟨h3.1, h2⟩
    · have h2 : n = s.mn + 1 := by omega
      subst h2
      by_cases hc : k ≤ b ∧ s.R s.mn k = i
      · right
        have h3 : s1.R (s.mn + 1) k = p := by rw [hR1, if_pos hc]
        rw [h3] at hp
        have h4 := hp.lc
        rw [hcn, hp0] at h4
        have h5 : c = 0 := by omega
        subst h5
        have h6 := hp.ptr
        rw [hcpp] at h6
        cases h6
        exact ⟨rfl, hc.2, hc.1, rfl, rfl⟩
      · left
        have h3 : s1.R (s.mn + 1) k = s.R s.mn k := by rw [hR1, if_neg hc]
        have h4 := hpath hp (by rw [h3]; exact hRp s.mn k (Nat.le_refl _))
        rw [h3] at h4
        rw [Nat.min_eq_right (show s.mn ≤ s.mn + 1 by omega)] at h4 ⊢
        exact ⟨h4.1, h3⟩
  have hcelli : ∀ k, s.R s.mn k = i → Path s s.mn (s.R s.mn k) (s.cn (s.R s.mn k)) x := by
    intro k hk1; exact h.top (by rw [hk1]; exact hx)
  refine ⟨?_, ?_, ?_, ?_, ?_, ?_, ?_, ?_, ?_, ?_, ?_, ?_, ?_, ?_, ?_, ?_, ?_, ?_, ?_, ?_, ?_⟩
  · intro n hn
    by_cases h1 : n ≤ s.mn
    · rw [hmw n h1]; exact h.stamp n h1
    · have h2 : n = s.mn + 1 := by omega
      subst h2
      have := h.stamp s.mn (Nat.le_refl _)
      rw [hmw1]; show s.word.used + (put b p s.word.kids).length + 2 * s.word.gone = _
      rw [put_length]; simp only [State.word] at this ⊢; omega
  · intro n hn
    by_cases h1 : n ≤ s.mn
    · rw [hmw n h1]; exact h.sorted n h1
    · have h2 : n = s.mn + 1 := by omega
      subst h2; rw [hmw1]; exact put_sorted (h.sorted s.mn (Nat.le_refl _)) hbk
  · intro n hn
    by_cases h1 : n ≤ s.mn
    · rw [hmw n h1]; exact h.nodup n h1
    · have h2 : n = s.mn + 1 := by omega
      subst h2; rw [hmw1]; exact put_nodup (h.nodup s.mn (Nat.le_refl _)) (hpk s.mn (Nat.le_refl _))
  · intro n hn e he
    rw [hword]; show 1 ≤ e.2 ∧ e.2 ≤ s.word.used
    by_cases h1 : n ≤ s.mn
    · rw [hmw n h1] at he; exact h.places n h1 e he
    · have h2 : n = s.mn + 1 := by omega
      subst h2; rw [hmw1] at he
      cases put_mem.mp he with
      | inl h3 => rw [h3]; exact ⟨hp1, hpu⟩
      | inr h3 => exact h.places s.mn (Nat.le_refl _) e h3
  · intro j hj
    rw [hword] at hj
    have hj' : s.word.used < j := hj
    have hjp : j ≠ p := by omega
    refine ⟨by rw [hcn]; exact (h.far j hj').1, fun c => ?_⟩
    rw [hcp j c hjp]; exact (h.far j hj').2 c
  · intro j c z hc hz
    rw [hcn] at hc
    rw [hnl]
    by_cases hj : j = p
    · subst hj
      have : c = 0 := by omega
      subst this
      rw [hcpp] at hz; cases hz; exact hlo
    · rw [hcp j c hj] at hz; exact h.leaf j c z hc hz
  · intro z hz
    rw [hnl] at hz
    have hxl : x < s.nl := h.leaf _ _ _ (Nat.le_refl _) hx
    rw [hln, hdead, if_neg (by omega)]; exact h.new z hz
  · intro n j hn
    rw [hcn]
    by_cases h1 : n ≤ s.mn
    · rw [hmv n h1]; exact h.mvc n j h1
    · have h2 : n = s.mn + 1 := by omega
      subst h2; rw [hmv1, hvc]; exact Nat.le_refl _
  · intro j c hc
    rw [hcn] at hc
    by_cases hj : j = p
    · subst hj
      have : c = 0 := by omega
      subst this; rw [hcvp]; exact Nat.zero_le _
    · rw [hcv j c hj]; have := h.cvm j c hc; omega
  · intro j hj
    by_cases hjp : j = p
    · subst hjp; rw [hcn, hp0, hcpp]; exact ⟨lo, rfl⟩
    · have hj' : s.Kid j := by
        cases hj with
        | inl h1 => exact .inl h1
        | inr h1 =>
          right
          rw [hword] at h1
          obtain ⟨e, he1, he2⟩ := List.mem_map.mp h1
          cases put_mem.mp he1 with
          | inl h3 => rw [h3] at he2; exact absurd he2.symm hjp
          | inr h3 => exact List.mem_map.mpr ⟨e, h3, he2⟩
      rw [hcn, hcp j _ hjp]; exact h.kid j hj'
  · rw [hln, hver, hhn]; exact h.verb
  · intro k n c z u n' c' z' u' hq1 hu hq2 hu' hn hc hz
    rw [hln] at hu hu'
    rw [hver]
    have hle1 := hq1.le
    have hle2 := hq2.le
    cases hkp1 hq2 with
    | inl h2 =>
      cases hkp1 hq1 with
      | inl h1 =>
        rw [h1.2, h2.2] at hc
        exact h.coh k _ c z u _ c' z' u' h1.1 hu h2.1 hu' (by omega) hc hz
      | inr h1 =>
        obtain ⟨rfl, h12, h13, rfl, rfl⟩ := h1
        have : n' = s.mn + 1 := by omega
        subst this
        have h3 : s1.R (s.mn + 1) k = p := by rw [hR1, if_pos ⟨h13, h12⟩]
        have h4 := h2.2
        rw [h3] at h4
        exact absurd h4.symm (hRp _ k (by omega))
    | inr h2 =>
      obtain ⟨rfl, h22, h23, rfl, rfl⟩ := h2
      have hu0 : u' = 0 := by omega
      subst hu0
      cases hkp1 hq1 with
      | inl h1 =>
        rw [hlov]
        refine h.coh k _ c z u s.mn _ x (s.ln x) h1.1 hu (hcelli k h22) (Nat.le_refl _) (by omega) ?_ ?_
        · intro he
          have := h1.1.lc
          rw [he] at this; exact this
        · intro he; subst he; exact hu
      | inr h1 =>
        obtain ⟨_, _, _, _, rfl⟩ := h1
        have : u = 0 := by omega
        subst this; exact Nat.le_refl _
  · intro k n c z u hq1 hu
    rw [hln] at hu
    rw [hlw, hver, hhv]
    cases hkp1 hq1 with
    | inl h1 => exact h.val k _ c z u h1.1 hu
    | inr h1 =>
      obtain ⟨rfl, h12, h13, rfl, rfl⟩ := h1
      have hu0 : u = 0 := by omega
      subst hu0
      rw [hlow, if_pos h13, hlov]
      exact h.val k _ _ x _ (hcelli k h12) (Nat.le_refl _)
  · intro k z hz
    rw [hln, hver, hhn]
    rw [hmn] at hz
    by_cases hc : k ≤ b ∧ s.R s.mn k = i
    · have h3 : s1.R (s.mn + 1) k = p := by rw [hR1, if_pos hc]
      rw [h3, hcn, hp0, hcpp] at hz
      cases hz
      rw [hlo0, hlov]
      exact h.fresh k x (by rw [hc.2]; exact hx)
    · have h3 : s1.R (s.mn + 1) k = s.R s.mn k := by rw [hR1, if_neg hc]
      rw [h3, hcn, hcp _ _ (hRp s.mn k (Nat.le_refl _))] at hz
      exact h.fresh k z hz
  · intro z j c c' hzd hcc hc' hz
    rw [hcn] at hc'
    have hzx : z ≠ x := by intro e; subst e; rw [hdead, if_pos rfl] at hzd; cases hzd
    rw [hdead, if_neg hzx] at hzd
    by_cases hj : j = p
    · subst hj
      have : c' = c := by omega
      subst this; exact hz
    · rw [hcp j c hj] at hz
      rw [hcp j c' hj]
      exact h.live z j c c' hzd hcc hc' hz
  · intro z j j' c c' hc hc' hz hz'
    rw [hcn] at hc hc'
    by_cases hj : j = p
    · by_cases hj' : j' = p
      · rw [hj, hj']
      · subst hj
        have : c = 0 := by omega
        subst this
        rw [hcpp] at hz; cases hz
        rw [hcp j' c' hj'] at hz'
        exact absurd hz' (hloc j' c' hc')
    · rw [hcp j c hj] at hz
      by_cases hj' : j' = p
      · subst hj'
        have : c' = 0 := by omega
        subst this
        rw [hcpp] at hz'; cases hz'
        exact absurd hz (hloc j c hc)
      · rw [hcp j' c' hj'] at hz'
        exact h.uniq z j j' c c' hc hc' hz hz'
  · intro z k n j c n' hzd hq1 hr hn hn'
    have hzx : z ≠ x := by intro e; subst e; rw [hdead, if_pos rfl] at hzd; cases hzd
    rw [hdead, if_neg hzx] at hzd
    have hle1 := hq1.le
    cases hkp1 (k := k) (by rw [hr]; exact hq1) with
    | inl h1 =>
      rw [h1.2] at hr
      have hg : ∀ m, n ≤ m → m ≤ s.mn → s.R m k = j := by
        intro m hm hm'
        rw [hr] at h1
        exact h.grow z k _ j c m hzd h1.1 hr (by omega) hm'
      by_cases h2 : n' ≤ s.mn
      · rw [hR n' k h2]; exact hg n' hn h2
      · have h3 : n' = s.mn + 1 := by omega
        subst h3
        have h4 : s.R s.mn k = j := by
          by_cases h5 : n ≤ s.mn
          · exact hg s.mn h5 (Nat.le_refl _)
          · rw [Nat.min_eq_right (by omega)] at hr; exact hr
        rw [hR1]
        by_cases hc : k ≤ b ∧ s.R s.mn k = i
        · -- then the leaf would be `x`
          exfalso
          have h5 : z = x := by
            have h6 := h1.1
            rw [hr] at h6
            have h7 := h.live z j c _ hzd h6.lc (Nat.le_refl _) h6.ptr
            rw [← h4, hc.2, hx] at h7
            cases h7; rfl
          exact hzx h5
        · rw [if_neg hc]; exact h4
    | inr h1 =>
      have : n' = n := by omega
      rw [this]; exact hr
  · intro z j u k hzd hz hu hk'
    have hzx : z ≠ x := by intro e; subst e; rw [hdead, if_pos rfl] at hzd; cases hzd
    rw [hdead, if_neg hzx] at hzd
    rw [hcn] at hz
    rw [hln] at hu
    rw [hlw] at hk'
    rw [hmn, hR1]
    by_cases hj : j = p
    · subst hj
      rw [hp0, hcpp] at hz; cases hz
      have hu0 : u = 0 := by omega
      subst hu0
      rw [hlow] at hk'
      by_cases hkb : k ≤ b
      · rw [if_pos hkb] at hk'
        rw [if_pos ⟨hkb, h.inrange x i _ k hxd hx (Nat.le_refl _) hk'⟩]
      · rw [if_neg hkb] at hk'; exact absurd rfl hk'
    · rw [hcp j _ hj] at hz
      have h1 := h.inrange z j u k hzd hz hu hk'
      by_cases hc : k ≤ b ∧ s.R s.mn k = i
      · exfalso
        rw [← h1, hc.2, hx] at hz; cases hz; exact hzx rfl
      · rw [if_neg hc]; exact h1
  · intro z hzd
    rw [hdead] at hzd
    have hpg : s1.page z = s.page z := by simp only [State.page, hlw, hln]
    rw [hpg]
    by_cases hzx : z = x
    · subst hzx; exact .inl hxf
    · rw [if_neg hzx] at hzd; exact h.block z hzd
  · rw [hln, hlw]; exact h.empty
  · intro z u hu hr
    rw [hln] at hu
    rw [hlw] at hr
    have hpg : s1.page z = s.page z := by simp only [State.page, hlw, hln]
    rw [hpg]; exact h.retp z u hu hr

/-- The key of a place whose leaf has retired is removed. -/
theorem core_drop {s : State} {q x : Nat} {v : View} (h : Core s) (hq : q ∈ s.word.kids.map Prod.snd)
    (hx : s.cp q (s.cn q) = some x) (hxr : (s.page x).retired = true)
    (hnd : ∀ j z, s.Kid j → s.cp j (s.cn j) = some z → s.dead z = false) (hvc : ∀ j, v.c j = s.cn j) :
    Core (((s.addWord { s.word with kids := cut q s.word.kids, gone := s.word.gone + 1 } v).rever q).setDead x) := by
  have hq0 : q ≠ 0 := by
    intro e; subst e
    obtain ⟨e, he1, he2⟩ := List.mem_map.mp hq
    have := (h.places s.mn (Nat.le_refl _) e he1).1
    omega
  generalize hs : ((s.addWord { s.word with kids := cut q s.word.kids, gone := s.word.gone + 1 } v).rever q).setDead x = s1
  have hmn : s1.mn = s.mn + 1 := by subst hs; rfl
  have hmw : ∀ n, n ≤ s.mn → s1.mw n = s.mw n := by intro n hn; subst hs; exact (addWord_mw (v := v) hn)
  have hmv : ∀ n, n ≤ s.mn → s1.mv n = s.mv n := by intro n hn; subst hs; exact (addWord_mv (w := { s.word with kids := cut q s.word.kids, gone := s.word.gone + 1 }) hn)
  have hmw1 : s1.mw (s.mn + 1) = { s.word with kids := cut q s.word.kids, gone := s.word.gone + 1 } := by
    subst hs; exact (addWord_new (v := v)).1
  have hmv1 : s1.mv (s.mn + 1) = v := by
    subst hs; exact (addWord_new (w := { s.word with kids := cut q s.word.kids, gone := s.word.gone + 1 })).2
  have hword : s1.word = { s.word with kids := cut q s.word.kids, gone := s.word.gone + 1 } := by
    rw [State.word, hmn]; exact hmw1
  have hcn : s1.cn = s.cn := by subst hs; rfl
  have hcp : s1.cp = s.cp := by subst hs; rfl
  have hcv : s1.cv = s.cv := by subst hs; rfl
  have hln : s1.ln = s.ln := by subst hs; rfl
  have hlw : s1.lw = s.lw := by subst hs; rfl
  have hhn : s1.hn = s.hn := by subst hs; rfl
  have hhv : s1.hv = s.hv := by subst hs; rfl
  have hnl : s1.nl = s.nl := by subst hs; rfl
  have hdead : ∀ z, s1.dead z = if z = x then true else s.dead z := by subst hs; intro z; rfl
  have hR : ∀ n k, n ≤ s.mn → s1.R n k = s.R n k := by intro n k hn; simp only [State.R, hmw n hn]
  have hR1 : ∀ k, s.R s.mn k ≠ q → s1.R (s.mn + 1) k = s.R s.mn k := by
    intro k hk; simp only [State.R, hmw1]; exact route_cut hk
  have hRq : ∀ k, s1.R (s.mn + 1) k ≠ q := by
    intro k he
    have he' : route (cut q s.word.kids) k = q := by simp only [State.R, hmw1] at he; exact he
    cases route_mem (cut q s.word.kids) k with
    | inl h1 => exact hq0 (he'.symm.trans h1)
    | inr h1 => exact (cut_places h1).2 he'
  have hkid : ∀ j, s1.Kid j → s.Kid j ∧ j ≠ q := by
    intro j hj
    cases hj with
    | inl h1 => exact ⟨.inl h1, fun e => hq0 (e.symm.trans h1)⟩
    | inr h1 => rw [hword] at h1; have := cut_places h1; exact ⟨.inr this.1, this.2⟩
  have hkR : ∀ k, s.Kid (s1.R (s.mn + 1) k) := by
    intro k
    have : s1.Kid (s1.R (s.mn + 1) k) := by
      have h1 := route_mem s1.word.kids k
      have h2 : s1.R (s.mn + 1) k = route s1.word.kids k := by simp only [State.R, State.word, hmn]
      rw [h2]; exact h1
    exact (hkid _ this).1
  have hver : ∀ y u k, s1.ver y u k =
      if s.R s.mn k = q ∧ s.cp (s1.R (s.mn + 1) k) (s.cn (s1.R (s.mn + 1) k)) = some y then s.hn k else s.ver y u k := by
    intro y u k
    have h0 : s1.ver y u k = if s1.R s.mn k = q ∧ s1.cp (s1.R (s.mn + 1) k) (s1.cn (s1.R (s.mn + 1) k)) = some y then s.hn k
        else s.ver y u k := by subst hs; rfl
    rw [h0, hcp, hcn, hR _ _ (Nat.le_refl _)]
  have hxd : s.dead x = false := hnd q x (.inr hq) hx
  -- a key of `q` is not there, and no path leads to its new leaf
  have hnone : ∀ k, s.R s.mn k = q → s.hv k (s.hn k) = none := by
    intro k hk
    have hx' : s.cp (s.R s.mn k) (s.cn (s.R s.mn k)) = some x := by rw [hk]; exact hx
    have h1 := h.val k _ _ x _ (h.top hx') (Nat.le_refl _)
    rw [h.fresh k x hx'] at h1
    rw [← h1]; exact h.empty x _ k (Nat.le_refl _) hxr
  have hnopath : ∀ k n c y, s.R s.mn k = q → s.cp (s1.R (s.mn + 1) k) (s.cn (s1.R (s.mn + 1) k)) = some y →
      ¬ Path s n (s.R n k) c y := by
    intro k n c y hk hy hp
    have h1 := h.now hp (hnd _ _ (hkR k) hy)
    have h2 := h.uniq y _ _ _ _ (Nat.le_refl _) (Nat.le_refl _) h1.2 hy
    rw [hk] at h2
    exact hRq k h2.symm
  have hold : ∀ k n c y u, Path s n (s.R n k) c y → s1.ver y u k = s.ver y u k := by
    intro k n c y u hp
    rw [hver]
    split
    · rename_i h1; exact absurd hp (hnopath k n c y h1.1 h1.2)
    · rfl
  have hpath : ∀ {n j c z}, Path s1 n j c z → Path s (min n s.mn) j c z ∧ (s.mn < n → c = s.cn j) := by
    intro n j c z hp
    have hle := hp.le
    have hlc := hp.lc
    have hptr := hp.ptr
    have hcm := hp.cm
    have hmc := hp.mc
    rw [hcn] at hlc
    rw [hcp] at hptr
    rw [hcv] at hcm
    by_cases h1 : n ≤ s.mn
    · rw [Nat.min_eq_left h1]
      rw [hmv n h1] at hmc
      exact ⟨⟨h1, hlc, hmc, hcm, hptr⟩, fun h2 => by omega⟩
    · have h2 : n = s.mn + 1 := by omega
      subst h2
      rw [hmv1, hvc] at hmc
      rw [Nat.min_eq_right (by omega)]
      refine ⟨⟨Nat.le_refl _, hlc, Nat.le_trans (h.mvc _ j (Nat.le_refl _)) hmc, h.cvm j c hlc, hptr⟩, fun _ => by omega⟩
  have hkp1 : ∀ {n k c z}, Path s1 n (s1.R n k) c z →
      (Path s (min n s.mn) (s.R (min n s.mn) k) c z ∧ s1.R n k = s.R (min n s.mn) k) ∨
      (n = s.mn + 1 ∧ s.R s.mn k = q ∧ s.cp (s1.R (s.mn + 1) k) (s.cn (s1.R (s.mn + 1) k)) = some z) := by
    intro n k c z hp
    have hle := hp.le
    by_cases h1 : n ≤ s.mn
    · left
      have h2 := hR n k h1
      have h3 := hpath hp
      rw [h2] at h3
      rw [Nat.min_eq_left h1] at h3 ⊢
      exact ⟨h3.1, h2⟩
    · have h2 : n = s.mn + 1 := by omega
      subst h2
      have h4 := hpath hp
      by_cases hc : s.R s.mn k = q
      · right
        have h5 := h4.1.ptr
        rw [h4.2 (by omega)] at h5
        exact ⟨rfl, hc, h5⟩
      · left
        have h3 := hR1 k hc
        rw [h3] at h4
        rw [Nat.min_eq_right (show s.mn ≤ s.mn + 1 by omega)] at h4 ⊢
        exact ⟨h4.1, h3⟩
  refine ⟨?_, ?_, ?_, ?_, ?_, ?_, ?_, ?_, ?_, ?_, ?_, ?_, ?_, ?_, ?_, ?_, ?_, ?_, ?_, ?_, ?_⟩
  · intro n hn
    by_cases h1 : n ≤ s.mn
    · rw [hmw n h1]; exact h.stamp n h1
    · have h2 : n = s.mn + 1 := by omega
      subst h2
      have h3 := h.stamp s.mn (Nat.le_refl _)
      have h4 := cut_length (h.nodup s.mn (Nat.le_refl _)) hq
      rw [hmw1]; show s.word.used + (cut q s.word.kids).length + 2 * (s.word.gone + 1) = _
      simp only [State.word] at h3 h4 ⊢; omega
  · intro n hn
    by_cases h1 : n ≤ s.mn
    · rw [hmw n h1]; exact h.sorted n h1
    · have h2 : n = s.mn + 1 := by omega
      subst h2; rw [hmw1]; exact (h.sorted s.mn (Nat.le_refl _)).filter _
  · intro n hn
    by_cases h1 : n ≤ s.mn
    · rw [hmw n h1]; exact h.nodup n h1
    · have h2 : n = s.mn + 1 := by omega
      subst h2; rw [hmw1]; exact (h.nodup s.mn (Nat.le_refl _)).filter _
  · intro n hn e he
    rw [hword]; show 1 ≤ e.2 ∧ e.2 ≤ s.word.used
    by_cases h1 : n ≤ s.mn
    · rw [hmw n h1] at he; exact h.places n h1 e he
    · have h2 : n = s.mn + 1 := by omega
      subst h2; rw [hmw1] at he
      exact h.places s.mn (Nat.le_refl _) e (List.mem_filter.mp he).1
  · intro j hj
    rw [hword] at hj
    rw [hcn, hcp]; exact h.far j hj
  · rw [hcn, hcp, hnl]; exact h.leaf
  · intro z hz
    rw [hnl] at hz
    have hxl : x < s.nl := h.leaf _ _ _ (Nat.le_refl _) hx
    rw [hln, hdead, if_neg (by omega)]; exact h.new z hz
  · intro n j hn
    rw [hcn]
    by_cases h1 : n ≤ s.mn
    · rw [hmv n h1]; exact h.mvc n j h1
    · have h2 : n = s.mn + 1 := by omega
      subst h2; rw [hmv1, hvc]; exact Nat.le_refl _
  · intro j c hc
    rw [hcn] at hc
    rw [hcv]; have := h.cvm j c hc; omega
  · intro j hj; rw [hcp, hcn]; exact h.kid j (hkid j hj).1
  · intro y u k hu
    rw [hln] at hu
    rw [hver, hhn]
    split
    · exact Nat.le_refl _
    · exact h.verb y u k hu
  · intro k n c z u n' c' z' u' hq1 hu hq2 hu' hn hc hz
    rw [hln] at hu hu'
    have hle1 := hq1.le
    have hle2 := hq2.le
    cases hkp1 hq2 with
    | inl h2 =>
      cases hkp1 hq1 with
      | inl h1 =>
        rw [hold k _ c z u h1.1, hold k _ c' z' u' h2.1]
        rw [h1.2, h2.2] at hc
        exact h.coh k _ c z u _ c' z' u' h1.1 hu h2.1 hu' (by omega) hc hz
      | inr h1 =>
        obtain ⟨rfl, h12, _⟩ := h1
        have : n' = s.mn + 1 := by omega
        subst this
        have h4 := h2.2
        rw [Nat.min_eq_right (show s.mn ≤ s.mn + 1 by omega), h12] at h4
        exact absurd h4 (hRq k)
    | inr h2 =>
      obtain ⟨rfl, h22, h23⟩ := h2
      have h3 : s1.ver z' u' k = s.hn k := by rw [hver, if_pos ⟨h22, h23⟩]
      rw [h3, hver]
      split
      · exact Nat.le_refl _
      · exact h.verb z u k hu
  · intro k n c z u hq1 hu
    rw [hln] at hu
    rw [hlw, hhv]
    cases hkp1 hq1 with
    | inl h1 => rw [hold k _ c z u h1.1]; exact h.val k _ c z u h1.1 hu
    | inr h1 =>
      obtain ⟨rfl, h12, h13⟩ := h1
      rw [hver, if_pos ⟨h12, h13⟩, hnone k h12]
      by_cases he : (s.lw z u).has k = none
      · exact he
      · have h2 := h.inrange z _ u k (hnd _ _ (hkR k) h13) h13 hu he
        rw [h12] at h2
        exact absurd h2.symm (hRq k)
  · intro k z hz
    rw [hcp, hcn, hmn] at hz
    rw [hln, hhn, hver]
    by_cases hc : s.R s.mn k = q
    · rw [if_pos ⟨hc, hz⟩]
    · rw [if_neg (fun e => hc e.1)]
      rw [hR1 k hc] at hz
      exact h.fresh k z hz
  · intro z j c c' hzd hcc hc' hz
    have hzx : z ≠ x := by intro e; subst e; rw [hdead, if_pos rfl] at hzd; cases hzd
    rw [hdead, if_neg hzx] at hzd
    rw [hcn] at hc'
    rw [hcp] at hz ⊢
    exact h.live z j c c' hzd hcc hc' hz
  · rw [hcn, hcp]; exact h.uniq
  · intro z k n j c n' hzd hq1 hr hn hn'
    have hzx : z ≠ x := by intro e; subst e; rw [hdead, if_pos rfl] at hzd; cases hzd
    rw [hdead, if_neg hzx] at hzd
    have hle1 := hq1.le
    cases hkp1 (k := k) (by rw [hr]; exact hq1) with
    | inl h1 =>
      rw [h1.2] at hr
      have hg : ∀ m, n ≤ m → m ≤ s.mn → s.R m k = j := by
        intro m hm hm'
        rw [hr] at h1
        exact h.grow z k _ j c m hzd h1.1 hr (by omega) hm'
      by_cases h2 : n' ≤ s.mn
      · rw [hR n' k h2]; exact hg n' hn h2
      · have h3 : n' = s.mn + 1 := by omega
        subst h3
        have h4 : s.R s.mn k = j := by
          by_cases h5 : n ≤ s.mn
          · exact hg s.mn h5 (Nat.le_refl _)
          · rw [Nat.min_eq_right (by omega)] at hr; exact hr
        by_cases hc : s.R s.mn k = q
        · exfalso
          have h6 := h1.1
          rw [hr] at h6
          have h7 := h.live z j c _ hzd h6.lc (Nat.le_refl _) h6.ptr
          rw [← h4, hc, hx] at h7
          cases h7; exact hzx rfl
        · rw [hR1 k hc]; exact h4
    | inr h1 =>
      have : n' = n := by omega
      rw [this]; exact hr
  · intro z j u k hzd hz hu hk'
    have hzx : z ≠ x := by intro e; subst e; rw [hdead, if_pos rfl] at hzd; cases hzd
    rw [hdead, if_neg hzx] at hzd
    rw [hcp, hcn] at hz
    rw [hln] at hu
    rw [hlw] at hk'
    have h1 := h.inrange z j u k hzd hz hu hk'
    rw [hmn]
    by_cases hc : s.R s.mn k = q
    · exfalso
      rw [← h1, hc, hx] at hz; cases hz; exact hzx rfl
    · rw [hR1 k hc]; exact h1
  · intro z hzd
    rw [hdead] at hzd
    have hpg : s1.page z = s.page z := by simp only [State.page, hlw, hln]
    rw [hpg]
    by_cases hzx : z = x
    · subst hzx; exact .inr hxr
    · rw [if_neg hzx] at hzd; exact h.block z hzd
  · rw [hln, hlw]; exact h.empty
  · intro z u hu hr
    rw [hln] at hu
    rw [hlw] at hr
    have hpg : s1.page z = s.page z := by simp only [State.page, hlw, hln]
    rw [hpg]; exact h.retp z u hu hr

end Scc.Twig
