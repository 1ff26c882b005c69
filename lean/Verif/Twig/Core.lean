import Verif.Twig.Inv

/-! # Words written to leaves -/

namespace Scc.Twig

theorem addPage_ln {s : State} {x : Nat} {p : Page} {v : View} {r : Nat → Nat} (y : Nat) :
    (s.addPage x p v r).ln y = if y = x then s.ln x + 1 else s.ln y := rfl

theorem addPage_page {s : State} {x : Nat} {p : Page} {v : View} {r : Nat → Nat} (y : Nat) :
    (s.addPage x p v r).page y = if y = x then p else s.page y := by
  simp only [State.page, State.addPage]
  by_cases h : y = x
  · subst h; simp
  · simp [h, upd_ne]

/-- Values written before are still there; a new one is the last. -/
theorem addPage_at {s : State} {x : Nat} {p : Page} {v : View} {r : Nat → Nat} {y u : Nat}
    (h : u ≤ (s.addPage x p v r).ln y) :
    (u ≤ s.ln y ∧ (s.addPage x p v r).lw y u = s.lw y u ∧ (s.addPage x p v r).ver y u = s.ver y u) ∨
    (y = x ∧ u = s.ln x + 1 ∧ (s.addPage x p v r).lw y u = p ∧ (s.addPage x p v r).ver y u = r) := by
  rw [addPage_ln] at h
  by_cases hy : y = x
  · subst hy
    simp only [if_true] at h
    by_cases hu : u = s.ln y + 1
    · subst hu; right; refine ⟨rfl, rfl, ?_, ?_⟩ <;> simp [State.addPage]
    · left; refine ⟨by omega, ?_, ?_⟩ <;> simp [State.addPage, upd_ne _ _ hu]
  · left
    simp only [hy, if_false] at h
    refine ⟨h, ?_, ?_⟩ <;> simp [State.addPage, upd_ne _ _ hy]

theorem path_page {s : State} {x : Nat} {p : Page} {v : View} {r : Nat → Nat} {n i c y : Nat} :
    Path (s.addPage x p v r) n i c y ↔ Path s n i c y :=
  ⟨fun h => ⟨h.le, h.lc, h.mc, h.cm, h.ptr⟩, fun h => ⟨h.le, h.lc, h.mc, h.cm, h.ptr⟩⟩

/-- A word that shows the same as the one before. -/
theorem core_page {s : State} {x : Nat} {p : Page} {v : View} (h : Core s) (hx : x < s.nl) (hh : p.has = (s.page x).has)
    (hr : p.retired = (s.page x).retired) (hb : s.dead x = true → p.frozen = true ∨ p.retired = true) :
    Core (s.addPage x p v (s.ver x (s.ln x))) := by
  have key : ∀ y u, u ≤ (s.addPage x p v (s.ver x (s.ln x))).ln y → ∃ u0, u0 ≤ s.ln y ∧ u0 = min u (s.ln y) ∧
      ((s.addPage x p v (s.ver x (s.ln x))).lw y u).has = (s.lw y u0).has ∧
      ((s.addPage x p v (s.ver x (s.ln x))).lw y u).retired = (s.lw y u0).retired ∧
      (s.addPage x p v (s.ver x (s.ln x))).ver y u = s.ver y u0 := by
    intro y u hu
    cases addPage_at hu with
    | inl h1 => exact ⟨u, h1.1, by omega, by rw [h1.2.1], by rw [h1.2.1], h1.2.2⟩
    | inr h1 =>
      obtain ⟨rfl, rfl, h3, h4⟩ := h1
      exact ⟨s.ln y, Nat.le_refl _, by omega, by rw [h3]; exact hh, by rw [h3]; exact hr, h4⟩
  refine ⟨h.stamp, h.sorted, h.nodup, h.places, h.far, h.leaf, ?_, h.mvc, h.cvm, h.kid, ?_, ?_, ?_, ?_, h.live, h.uniq, ?_,
    ?_, ?_, ?_, ?_⟩
  · intro y hy
    have hy' : s.nl ≤ y := hy
    rw [addPage_ln, if_neg (by omega)]
    exact h.new y hy'
  · intro y u k hu
    obtain ⟨u0, h0, _, _, _, h4⟩ := key y u hu
    rw [h4]; exact h.verb y u0 k h0
  · intro k n c y u n' c' y' u' hp hu hp' hu' hn hc hxu
    obtain ⟨u0, h0, h1, _, _, h4⟩ := key y u hu
    obtain ⟨u0', h0', h1', _, _, h4'⟩ := key y' u' hu'
    rw [h4, h4']
    refine h.coh k n c y u0 n' c' y' u0' (path_page.mp hp) h0 (path_page.mp hp') h0' hn hc ?_
    intro he
    have := hxu he
    subst he
    omega
  · intro k n c y u hp hu
    obtain ⟨u0, h0, _, h2, _, h4⟩ := key y u hu
    rw [h2, h4]
    exact h.val k n c y u0 (path_page.mp hp) h0
  · intro k y hy
    obtain ⟨u0, h0, h1, _, _, h4⟩ := key y _ (Nat.le_refl _)
    rw [h4]
    have h5 : u0 = s.ln y := by
      rw [h1, addPage_ln]; split
      · rename_i h; subst h; omega
      · omega
    rw [h5]
    exact h.fresh k y hy
  · intro y k n i c n' hd hp; exact h.grow y k n i c n' hd (path_page.mp hp)
  · intro y i u k hd hy hu hk
    obtain ⟨u0, h0, _, h2, _, _⟩ := key y u hu
    rw [h2] at hk
    exact h.inrange y i u0 k hd hy h0 hk
  · intro y hd
    rw [addPage_page]
    split
    · rename_i he; subst he; exact hb hd
    · exact h.block y hd
  · intro y u k hu hk
    obtain ⟨u0, h0, _, h2, h3, _⟩ := key y u hu
    rw [h2]; rw [h3] at hk
    exact h.empty y u0 k h0 hk
  · intro y u hu hk
    obtain ⟨u0, h0, _, _, h3, _⟩ := key y u hu
    rw [h3] at hk
    have := h.retp y u0 h0 hk
    rw [addPage_page]
    split
    · rename_i he; subst he; rw [hr]; exact this
    · exact this

/-- A word that shows something new for key `k`, in a leaf that can be changed. -/
theorem core_set {s : State} {x k n c : Nat} {p : Page} {v : View} {r : Option Nat} {w : Nat → Nat} (h : Core s)
    (hp : Path s n (s.R n k) c x) (hd : s.dead x = false) (hh : p.has = upd (s.page x).has k r)
    (hne : (s.page x).retired = true → p.retired = true) (he : p.retired = true → ∀ d, p.has d = none) :
    Core ((s.addPage x p v (upd (s.ver x (s.ln x)) k (s.hn k + 1))).addHist k r w) := by
  obtain ⟨hR, htop⟩ := h.now hp hd
  have hxl : x < s.nl := h.leaf _ _ _ hp.lc hp.ptr
  have key := @addPage_at s x p v (upd (s.ver x (s.ln x)) k (s.hn k + 1))
  generalize hs : s.addPage x p v (upd (s.ver x (s.ln x)) k (s.hn k + 1)) = s1 at key
  have hpath : ∀ {n i c y}, Path (s1.addHist k r w) n i c y ↔ Path s n i c y := by
    intro n i c y; subst hs
    exact ⟨fun h => ⟨h.le, h.lc, h.mc, h.cm, h.ptr⟩, fun h => ⟨h.le, h.lc, h.mc, h.cm, h.ptr⟩⟩
  have hhn : ∀ d, (s1.addHist k r w).hn d = if d = k then s.hn k + 1 else s.hn d := by subst hs; intro d; rfl
  have hhv : ∀ d j, j ≤ s.hn d → (s1.addHist k r w).hv d j = s.hv d j := by
    subst hs; intro d j hj
    simp only [State.addHist, State.addPage]
    by_cases hdk : d = k
    · subst hdk; simp [upd_ne _ _ (show j ≠ s.hn d + 1 by omega)]
    · simp [upd_ne _ _ hdk]
  have hhk : (s1.addHist k r w).hv k (s.hn k + 1) = r := by subst hs; simp [State.addHist, State.addPage]
  have hRe : ∀ n d, (s1.addHist k r w).R n d = s.R n d := by subst hs; intro n d; rfl
  have hln : ∀ y, s1.ln y = if y = x then s.ln x + 1 else s.ln y := by subst hs; intro y; rfl
  have hpg : ∀ y, s1.page y = if y = x then p else s.page y := by subst hs; intro y; exact addPage_page y
  -- what a value shows for another key, it showed before
  have old : ∀ y u d, u ≤ s1.ln y → d ≠ k → ∃ u0, u0 ≤ s.ln y ∧ u0 = min u (s.ln y) ∧
      (s1.lw y u).has d = (s.lw y u0).has d ∧ s1.ver y u d = s.ver y u0 d := by
    intro y u d hu hdk
    cases key hu with
    | inl h1 => exact ⟨u, h1.1, by omega, by rw [h1.2.1], by rw [h1.2.2]⟩
    | inr h1 =>
      obtain ⟨rfl, rfl, h3, h4⟩ := h1
      exact ⟨s.ln y, Nat.le_refl _, by omega, by rw [h3, hh, upd_ne _ _ hdk]; rfl, by rw [h4, upd_ne _ _ hdk]⟩
  refine ⟨?_, ?_, ?_, ?_, ?_, ?_, ?_, ?_, ?_, ?_, ?_, ?_, ?_, ?_, ?_, ?_, ?_, ?_, ?_, ?_, ?_⟩
  · subst hs; exact h.stamp
  · subst hs; exact h.sorted
  · subst hs; exact h.nodup
  · subst hs; exact h.places
  · subst hs; exact h.far
  · subst hs; exact h.leaf
  · intro y hy
    have hy' : s.nl ≤ y := by subst hs; exact hy
    have hl : s1.ln y = s.ln y := by rw [hln, if_neg (by omega)]
    refine ⟨hl.trans (h.new y hy').1, ?_⟩
    subst hs; exact (h.new y hy').2
  · subst hs; exact h.mvc
  · subst hs; exact h.cvm
  · subst hs; exact h.kid
  · intro y u d hu
    rw [hhn]
    cases key (u := u) (y := y) hu with
    | inl h1 =>
      have := h.verb y u d h1.1
      show s1.ver y u d ≤ _
      rw [h1.2.2]; split
      · rename_i e; subst e; omega
      · exact this
    | inr h1 =>
      obtain ⟨rfl, rfl, _, h4⟩ := h1
      show s1.ver _ _ d ≤ _
      rw [h4]
      by_cases hdk : d = k
      · subst hdk; simp
      · rw [upd_ne _ _ hdk, if_neg hdk]; exact h.verb _ _ d (Nat.le_refl _)
  · intro d n1 c1 y u n' c' y' u' hp1 hu hp' hu' hn hc hxu
    rw [hRe] at hp1 hp'
    rw [hRe, hRe] at hc
    rw [hpath] at hp1 hp'
    show s1.ver y u d ≤ s1.ver y' u' d
    by_cases hdk : d = k
    · subst hdk
      cases key (u := u) (y := y) hu with
      | inl h1 =>
        rw [h1.2.2]
        cases key (u := u') (y := y') hu' with
        | inl h2 => rw [h2.2.2]; exact h.coh d n1 c1 y u n' c' y' u' hp1 h1.1 hp' h2.1 hn hc hxu
        | inr h2 =>
          rw [h2.2.2.2]
          have := h.verb y u d h1.1
          simp; omega
      | inr h1 =>
        obtain ⟨rfl, rfl, _, h4⟩ := h1
        have hR' := h.grow _ d n1 _ c1 n' hd hp1 rfl hn hp'.le
        have hc' := hc hR'.symm
        have h5 := h.live _ _ c1 c' hd hc' (by rw [← hR']; exact hp'.lc) hp1.ptr
        have h6 : some y = some y' := by
          rw [← h5, ← hR']; exact hp'.ptr
        cases h6
        have := hxu rfl
        have h7 : u' = s.ln y + 1 := by
          have : u' ≤ s1.ln y := hu'
          rw [hln, if_pos rfl] at this; omega
        rw [h7]; exact Nat.le_refl _
    · obtain ⟨u0, h0, h1, _, h4⟩ := old y u d hu hdk
      obtain ⟨u0', h0', h1', _, h4'⟩ := old y' u' d hu' hdk
      rw [h4, h4']
      refine h.coh d n1 c1 y u0 n' c' y' u0' hp1 h0 hp' h0' hn hc ?_
      intro e
      have := hxu e
      subst e
      omega
  · intro d n1 c1 y u hp1 hu
    rw [hRe, hpath] at hp1
    show (s1.lw y u).has d = (s1.addHist k r w).hv d (s1.ver y u d)
    by_cases hdk : d = k
    · subst hdk
      cases key (u := u) (y := y) hu with
      | inl h1 =>
        rw [h1.2.1, h1.2.2, hhv d _ (h.verb y u d h1.1)]
        exact h.val d n1 c1 y u hp1 h1.1
      | inr h1 =>
        obtain ⟨rfl, rfl, h3, h4⟩ := h1
        rw [h3, h4, hh]; simp only [upd_self]; exact hhk.symm
    · obtain ⟨u0, h0, _, h2, h4⟩ := old y u d hu hdk
      rw [h2, h4, hhv d _ (h.verb y u0 d h0)]
      exact h.val d n1 c1 y u0 hp1 h0
  · intro d y hy
    have hy' : s.cp (s.R s.mn d) (s.cn (s.R s.mn d)) = some y := by subst hs; exact hy
    show s1.ver y (s1.ln y) d = _
    rw [hhn]
    by_cases hdk : d = k
    · subst hdk
      rw [htop] at hy'; cases hy'
      rw [if_pos rfl]
      have h1 : s1.ln x = s.ln x + 1 := by rw [hln, if_pos rfl]
      have h2 : s1.ver x (s1.ln x) = upd (s.ver x (s.ln x)) d (s.hn d + 1) := by
        rw [h1]; subst hs; simp [State.addPage]
      rw [h2, upd_self]
    · obtain ⟨u0, h0, h1, _, h4⟩ := old y _ d (Nat.le_refl _) hdk
      rw [h4, if_neg hdk]
      have h5 : u0 = s.ln y := by
        rw [h1, hln]; split
        · rename_i e; subst e; omega
        · omega
      rw [h5]; exact h.fresh d y hy'
  · subst hs; exact h.live
  · subst hs; exact h.uniq
  · intro y d n1 i c1 n' hd1 hp1
    rw [hpath] at hp1
    subst hs; exact h.grow y d n1 i c1 n' hd1 hp1
  · intro y i u d hd1 hy hu hk
    have hy' : s.cp i (s.cn i) = some y := by subst hs; exact hy
    have hd1' : s.dead y = false := by subst hs; exact hd1
    have hg : s.R s.mn d = i := by
      cases key (u := u) (y := y) hu with
      | inl h1 =>
        have hk' : (s1.lw y u).has d ≠ none := hk
        rw [h1.2.1] at hk'
        exact h.inrange y i u d hd1' hy' h1.1 hk'
      | inr h1 =>
        obtain ⟨rfl, rfl, h3, h4⟩ := h1
        by_cases hdk : d = k
        · subst hdk
          exact h.uniq y _ _ _ _ (Nat.le_refl _) (Nat.le_refl _) htop hy'
        · have hk' : (s1.lw y (s.ln y + 1)).has d ≠ none := hk
          rw [h3, hh, upd_ne _ _ hdk] at hk'
          exact h.inrange y i _ d hd1' hy' (Nat.le_refl _) hk'
    subst hs; exact hg
  · intro y hd1
    have hd1' : s.dead y = true := by subst hs; exact hd1
    have hyx : y ≠ x := by intro e; subst e; rw [hd] at hd1'; cases hd1'
    show (s1.page y).frozen = true ∨ (s1.page y).retired = true
    rw [hpg, if_neg hyx]; exact h.block y hd1'
  · intro y u d hu hk
    show (s1.lw y u).has d = none
    have hk' : (s1.lw y u).retired = true := hk
    cases key (u := u) (y := y) hu with
    | inl h1 => rw [h1.2.1] at hk' ⊢; exact h.empty y u d h1.1 hk'
    | inr h1 => rw [h1.2.2.1] at hk' ⊢; exact he hk' d
  · intro y u hu hk
    show (s1.page y).retired = true
    have hk' : (s1.lw y u).retired = true := hk
    rw [hpg]
    cases key (u := u) (y := y) hu with
    | inl h1 =>
      rw [h1.2.1] at hk'
      have := h.retp y u h1.1 hk'
      split
      · rename_i e; subst e; exact hne this
      · exact this
    | inr h1 =>
      rw [h1.2.2.1] at hk'
      rw [if_pos h1.1]; exact hk'

end Scc.Twig
