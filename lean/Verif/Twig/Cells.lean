import Verif.Twig.Core

/-! # New leaves, pointers and words of `children` -/

namespace Scc.Twig

/-! ## New leaves -/

theorem core_new {s : State} {p : Page} {v : View} {r : Nat → Nat} (h : Core s) (hr : ∀ k, r k ≤ s.hn k)
    (hp : p.retired = false) : Core (s.newLeaf s.nl p v r) := by
  have hlt : ∀ {i c y}, c ≤ s.cn i → s.cp i c = some y → y ≠ s.nl := by
    intro i c y h1 h2 h3; have := h.leaf i c y h1 h2; omega
  have hpath : ∀ {n i c y}, Path (s.newLeaf s.nl p v r) n i c y ↔ Path s n i c y :=
    ⟨fun h => ⟨h.le, h.lc, h.mc, h.cm, h.ptr⟩, fun h => ⟨h.le, h.lc, h.mc, h.cm, h.ptr⟩⟩
  have hlw : ∀ y u, y ≠ s.nl → (s.newLeaf s.nl p v r).lw y u = s.lw y u := by
    intro y u hy; simp [State.newLeaf, upd_ne _ _ hy]
  have hver : ∀ y u, y ≠ s.nl → (s.newLeaf s.nl p v r).ver y u = s.ver y u := by
    intro y u hy; simp [State.newLeaf, upd_ne _ _ hy]
  have hl0 : s.ln s.nl = 0 := (h.new _ (Nat.le_refl _)).1
  have hlw0 : (s.newLeaf s.nl p v r).lw s.nl 0 = p := by simp [State.newLeaf]
  have hver0 : (s.newLeaf s.nl p v r).ver s.nl 0 = r := by simp [State.newLeaf]
  refine ⟨h.stamp, h.sorted, h.nodup, h.places, h.far, ?_, ?_, h.mvc, h.cvm, h.kid, ?_, ?_, ?_, ?_, h.live, h.uniq, ?_, ?_,
    ?_, ?_, ?_⟩
  · intro i c x h1 h2; exact Nat.lt_succ_of_lt (h.leaf i c x h1 h2)
  · intro y hy; exact h.new y (Nat.le_of_succ_le hy)
  · intro y u k hu
    by_cases hy : y = s.nl
    · have hu' : u ≤ s.ln s.nl := by subst hy; exact hu
      have : u = 0 := by omega
      subst hy this; rw [hver0]; exact hr k
    · rw [hver y u hy]; exact h.verb y u k hu
  · intro k n c x u n' c' x' u' hp1 hu hp2 hu' hn hc hx
    rw [hpath] at hp1 hp2
    rw [hver x u (hlt hp1.lc hp1.ptr), hver x' u' (hlt hp2.lc hp2.ptr)]
    exact h.coh k n c x u n' c' x' u' hp1 hu hp2 hu' hn hc hx
  · intro k n c x u hp1 hu
    rw [hpath] at hp1
    rw [hver x u (hlt hp1.lc hp1.ptr), hlw x u (hlt hp1.lc hp1.ptr)]
    exact h.val k n c x u hp1 hu
  · intro k x hx
    have hx' : s.cp (s.R s.mn k) (s.cn (s.R s.mn k)) = some x := hx
    rw [hver x _ (hlt (Nat.le_refl _) hx')]
    exact h.fresh k x hx'
  · intro x k n i c n' hd hp1; exact h.grow x k n i c n' hd (hpath.mp hp1)
  · intro x i u k hd hx hu hk
    have hx' : s.cp i (s.cn i) = some x := hx
    rw [hlw x u (hlt (Nat.le_refl _) hx')] at hk
    exact h.inrange x i u k hd hx' hu hk
  · intro x hd
    have hd' : s.dead x = true := hd
    have hx : x ≠ s.nl := by
      intro e; subst e; rw [(h.new _ (Nat.le_refl _)).2] at hd'; cases hd'
    show ((s.newLeaf s.nl p v r).lw x (s.ln x)).frozen = true ∨ ((s.newLeaf s.nl p v r).lw x (s.ln x)).retired = true
    rw [hlw x _ hx]; exact h.block x hd
  · intro x u k hu hk
    by_cases hx : x = s.nl
    · have hu' : u ≤ s.ln s.nl := by subst hx; exact hu
      have : u = 0 := by omega
      subst hx this; rw [hlw0, hp] at hk; cases hk
    · rw [hlw x u hx] at hk ⊢; exact h.empty x u k hu hk
  · intro x u hu hk
    show ((s.newLeaf s.nl p v r).lw x (s.ln x)).retired = true
    by_cases hx : x = s.nl
    · have hu' : u ≤ s.ln s.nl := by subst hx; exact hu
      have : u = 0 := by omega
      subst hx this; rw [hl0]; exact hk
    · rw [hlw x _ hx] at hk ⊢; exact h.retp x u hu hk

/-! ## Pointers -/

theorem addCell_cn {s : State} {i : Nat} {o : Option Nat} {v : View} (j : Nat) :
    (s.addCell i o v).cn j = if j = i then s.cn i + 1 else s.cn j := rfl

theorem addCell_at {s : State} {i : Nat} {o : Option Nat} {v : View} {j c : Nat} (h : c ≤ (s.addCell i o v).cn j) :
    (c ≤ s.cn j ∧ (s.addCell i o v).cp j c = s.cp j c ∧ (s.addCell i o v).cv j c = s.cv j c) ∨
    (j = i ∧ c = s.cn i + 1 ∧ (s.addCell i o v).cp j c = o ∧ (s.addCell i o v).cv j c = v) := by
  rw [addCell_cn] at h
  by_cases hj : j = i
  · subst hj
    simp only [if_true] at h
    by_cases hc : c = s.cn j + 1
    · subst hc; right; refine ⟨rfl, rfl, ?_, ?_⟩ <;> simp [State.addCell]
    · left; refine ⟨by omega, ?_, ?_⟩ <;> simp [State.addCell, upd_ne _ _ hc]
  · left
    simp only [hj, if_false] at h
    refine ⟨h, ?_, ?_⟩ <;> simp [State.addCell, upd_ne _ _ hj]

theorem addCell_old {s : State} {i : Nat} {o : Option Nat} {v : View} {j c : Nat} (h : c ≤ s.cn j) :
    c ≤ (s.addCell i o v).cn j ∧ (s.addCell i o v).cp j c = s.cp j c ∧ (s.addCell i o v).cv j c = s.cv j c := by
  have h1 : c ≤ (s.addCell i o v).cn j := by
    rw [addCell_cn]; split
    · rename_i e; subst e; omega
    · exact h
  refine ⟨h1, ?_⟩
  cases addCell_at h1 with
  | inl h2 => exact h2.2
  | inr h2 => obtain ⟨rfl, rfl, _⟩ := h2; omega

theorem addCell_top {s : State} {i : Nat} {o : Option Nat} {v : View} (j : Nat) :
    (s.addCell i o v).cp j ((s.addCell i o v).cn j) = if j = i then o else s.cp j (s.cn j) := by
  rw [addCell_cn]
  by_cases hj : j = i
  · subst hj; simp [State.addCell]
  · simp [hj, State.addCell, upd_ne _ _ hj]

/-- Leaf `y`, which shows the newest values of the keys of place `i`, takes the place of `x`. -/
theorem core_swap {s : State} {i x y : Nat} {v : View} (h : Core s) (hk : s.Kid i) (hx : s.cp i (s.cn i) = some x)
    (hxb : (s.page x).frozen = true ∨ (s.page x).retired = true) (hy : y < s.nl) (hyd : s.dead y = false)
    (hyc : ∀ j c, c ≤ s.cn j → s.cp j c ≠ some y) (hy0 : s.ln y = 0) (hvm : v.m = s.mn)
    (hver : ∀ k, s.R s.mn k = i → s.ver y 0 k = s.hn k)
    (hval : ∀ k, s.R s.mn k = i → (s.lw y 0).has k = s.hv k (s.hn k))
    (hran : ∀ k, (s.lw y 0).has k ≠ none → s.R s.mn k = i) :
    Core ((s.addCell i (some y) v).setDead x) := by
  have hxy : y ≠ x := by intro e; subst e; exact hyc i _ (Nat.le_refl _) hx
  have hul : s.word.used < i → False := by
    intro hlt; have := (h.far i hlt).2 (s.cn i); rw [hx] at this; cases this
  have hxl : x < s.nl := h.leaf _ _ _ (Nat.le_refl _) hx
  have hdead : ∀ z, ((s.addCell i (some y) v).setDead x).dead z = if z = x then true else s.dead z := fun z => rfl
  have hpath : ∀ {n j c z}, Path ((s.addCell i (some y) v).setDead x) n j c z →
      Path s n j c z ∨ (n = s.mn ∧ j = i ∧ c = s.cn i + 1 ∧ z = y) := by
    intro n j c z hp
    cases addCell_at (show c ≤ (s.addCell i (some y) v).cn j from hp.lc) with
    | inl h1 =>
      left
      refine ⟨hp.le, h1.1, hp.mc, ?_, ?_⟩
      · rw [← h1.2.2]; exact hp.cm
      · rw [← h1.2.1]; exact hp.ptr
    | inr h1 =>
      right
      obtain ⟨rfl, rfl, h3, h4⟩ := h1
      refine ⟨?_, rfl, rfl, ?_⟩
      · have h5 := hp.cm
        have h6 : ((s.addCell j (some y) v).cv j (s.cn j + 1)).m ≤ n := h5
        rw [h4, hvm] at h6
        have := hp.le
        have h7 : n ≤ s.mn := this
        omega
      · have h5 : (s.addCell j (some y) v).cp j (s.cn j + 1) = some z := hp.ptr
        rw [h3] at h5; cases h5; rfl
  refine ⟨h.stamp, h.sorted, h.nodup, h.places, ?_, ?_, ?_, ?_, ?_, ?_, h.verb, ?_, ?_, ?_, ?_, ?_, ?_, ?_, ?_, h.empty,
    h.retp⟩
  · intro p hp
    have hpi : p ≠ i := by intro e; subst e; exact hul hp
    refine ⟨?_, fun c => ?_⟩
    · show (s.addCell i (some y) v).cn p = 0
      rw [addCell_cn, if_neg hpi]; exact (h.far p hp).1
    · show (s.addCell i (some y) v).cp p c = none
      have : (s.addCell i (some y) v).cp p c = s.cp p c := by simp [State.addCell, upd_ne _ _ hpi]
      rw [this]; exact (h.far p hp).2 c
  · intro j c z hc hz
    cases addCell_at (show c ≤ (s.addCell i (some y) v).cn j from hc) with
    | inl h1 => have hz' : (s.addCell i (some y) v).cp j c = some z := hz; rw [h1.2.1] at hz'; exact h.leaf j c z h1.1 hz'
    | inr h1 => have hz' : (s.addCell i (some y) v).cp j c = some z := hz; rw [h1.2.2.1] at hz'; cases hz'; exact hy
  · intro z hz
    have hz' : s.nl ≤ z := hz
    refine ⟨(h.new z hz').1, ?_⟩
    rw [hdead, if_neg (by omega)]; exact (h.new z hz').2
  · intro n j hn
    have := h.mvc n j hn
    show (s.mv n).c j ≤ (s.addCell i (some y) v).cn j
    rw [addCell_cn]; split
    · rename_i e; subst e; omega
    · exact this
  · intro j c hc
    show ((s.addCell i (some y) v).cv j c).m ≤ s.mn
    cases addCell_at (show c ≤ (s.addCell i (some y) v).cn j from hc) with
    | inl h1 => rw [h1.2.2]; exact h.cvm j c h1.1
    | inr h1 => rw [h1.2.2.2, hvm]; exact Nat.le_refl _
  · intro j hj
    have hj' : s.Kid j := hj
    show ∃ z, (s.addCell i (some y) v).cp j ((s.addCell i (some y) v).cn j) = some z
    rw [addCell_top]; split
    · exact ⟨y, rfl⟩
    · exact h.kid j hj'
  · intro k n c z u n' c' z' u' hp1 hu hp2 hu' hn hc hz
    have hp1' : Path ((s.addCell i (some y) v).setDead x) n (s.R n k) c z := hp1
    have hp2' : Path ((s.addCell i (some y) v).setDead x) n' (s.R n' k) c' z' := hp2
    show s.ver z u k ≤ s.ver z' u' k
    cases hpath hp2' with
    | inl h2 =>
      cases hpath hp1' with
      | inl h1 => exact h.coh k n c z u n' c' z' u' h1 hu h2 hu' hn hc hz
      | inr h1 =>
        obtain ⟨rfl, h12, rfl, rfl⟩ := h1
        have hn' : n' = s.mn := Nat.le_antisymm h2.le hn
        subst hn'
        have := hc rfl
        have h3 := h2.lc
        rw [h12] at h3
        omega
    | inr h2 =>
      obtain ⟨rfl, h22, rfl, rfl⟩ := h2
      have hu0 : u' = 0 := by have h3 : u' ≤ s.ln z' := hu'; omega
      rw [hu0, hver k h22]
      exact h.verb z u k hu
  · intro k n c z u hp1 hu
    have hp1' : Path ((s.addCell i (some y) v).setDead x) n (s.R n k) c z := hp1
    show (s.lw z u).has k = s.hv k (s.ver z u k)
    cases hpath hp1' with
    | inl h1 => exact h.val k n c z u h1 hu
    | inr h1 =>
      obtain ⟨rfl, h12, rfl, rfl⟩ := h1
      have hu0 : u = 0 := by have h3 : u ≤ s.ln z := hu; omega
      rw [hu0, hver k h12]; exact hval k h12
  · intro k z hz
    have hz' : (s.addCell i (some y) v).cp (s.R s.mn k) ((s.addCell i (some y) v).cn (s.R s.mn k)) = some z := hz
    show s.ver z (s.ln z) k = s.hn k
    rw [addCell_top] at hz'
    by_cases hi : s.R s.mn k = i
    · rw [if_pos hi] at hz'; cases hz'; rw [hy0]; exact hver k hi
    · rw [if_neg hi] at hz'; exact h.fresh k z hz'
  · intro z j c c' hd hcc hc' hz
    have hzx : z ≠ x := by intro e; subst e; rw [hdead, if_pos rfl] at hd; cases hd
    rw [hdead, if_neg hzx] at hd
    have hz' : (s.addCell i (some y) v).cp j c = some z := hz
    show (s.addCell i (some y) v).cp j c' = some z
    have hc2 : c' ≤ (s.addCell i (some y) v).cn j := hc'
    cases addCell_at hc2 with
    | inl h1 =>
      rw [h1.2.1]
      rw [(addCell_old (s := s) (show c ≤ s.cn j by omega)).2.1] at hz'
      exact h.live z j c c' hd hcc h1.1 hz'
    | inr h1 =>
      obtain ⟨rfl, rfl, h3, _⟩ := h1
      by_cases hcn : c = s.cn j + 1
      · subst hcn; exact hz'
      · have hcl : c ≤ s.cn j := by omega
        rw [(addCell_old (s := s) hcl).2.1] at hz'
        have := h.live z j c _ hd hcl (Nat.le_refl _) hz'
        rw [hx] at this; cases this; exact absurd rfl hzx
  · intro z j j' c c' hc hc' hz hz'
    have hz1 : (s.addCell i (some y) v).cp j c = some z := hz
    have hz2 : (s.addCell i (some y) v).cp j' c' = some z := hz'
    cases addCell_at (show c ≤ (s.addCell i (some y) v).cn j from hc) with
    | inl h1 =>
      rw [h1.2.1] at hz1
      cases addCell_at (show c' ≤ (s.addCell i (some y) v).cn j' from hc') with
      | inl h2 => rw [h2.2.1] at hz2; exact h.uniq z j j' c c' h1.1 h2.1 hz1 hz2
      | inr h2 => rw [h2.2.2.1] at hz2; cases hz2; exact absurd hz1 (hyc j c h1.1)
    | inr h1 =>
      rw [h1.2.2.1] at hz1; cases hz1
      cases addCell_at (show c' ≤ (s.addCell i (some y) v).cn j' from hc') with
      | inl h2 => rw [h2.2.1] at hz2; exact absurd hz2 (hyc j' c' h2.1)
      | inr h2 => rw [h1.1, h2.1]
  · intro z k n j c n' hd hp1 hr hn hn'
    have hzx : z ≠ x := by intro e; subst e; rw [hdead, if_pos rfl] at hd; cases hd
    rw [hdead, if_neg hzx] at hd
    have hr' : s.R n k = j := hr
    show s.R n' k = j
    cases hpath hp1 with
    | inl h1 => exact h.grow z k n j c n' hd h1 hr' hn hn'
    | inr h1 =>
      have h3 : n' ≤ s.mn := hn'
      have : n' = n := by omega
      rw [this]; exact hr'
  · intro z j u k hd hz hu hk'
    have hzx : z ≠ x := by intro e; subst e; rw [hdead, if_pos rfl] at hd; cases hd
    rw [hdead, if_neg hzx] at hd
    have hz' : (s.addCell i (some y) v).cp j ((s.addCell i (some y) v).cn j) = some z := hz
    show s.R s.mn k = j
    rw [addCell_top] at hz'
    by_cases hj : j = i
    · rw [if_pos hj] at hz'; cases hz'
      have hu0 : u = 0 := by have h3 : u ≤ s.ln y := hu; omega
      subst hu0
      rw [hj]; exact hran k hk'
    · rw [if_neg hj] at hz'; exact h.inrange z j u k hd hz' hu hk'
  · intro z hd
    rw [hdead] at hd
    show (s.page z).frozen = true ∨ (s.page z).retired = true
    by_cases hzx : z = x
    · subst hzx; exact hxb
    · rw [if_neg hzx] at hd; exact h.block z hd

/-- The pointer of a place that is not in use becomes null. -/
theorem core_null {s : State} {q x : Nat} {v : View} (h : Core s) (hk : ¬ s.Kid q) (hq : q ≤ s.word.used)
    (hx : s.cp q (s.cn q) = some x) (hxd : s.dead x = true) (hvm : v.m ≤ s.mn) : Core (s.addCell q none v) := by
  have hRq : ∀ k, s.R s.mn k ≠ q := fun k e => hk (e ▸ h.kidR k)
  have hpath : ∀ {n j c z}, Path (s.addCell q none v) n j c z → Path s n j c z := by
    intro n j c z hp
    cases addCell_at hp.lc with
    | inl h1 =>
      refine ⟨hp.le, h1.1, hp.mc, ?_, ?_⟩
      · rw [← h1.2.2]; exact hp.cm
      · rw [← h1.2.1]; exact hp.ptr
    | inr h1 => have h2 := hp.ptr; rw [h1.2.2.1] at h2; cases h2
  have hat : ∀ {j c z}, c ≤ (s.addCell q none v).cn j → (s.addCell q none v).cp j c = some z → c ≤ s.cn j ∧
      s.cp j c = some z := by
    intro j c z hc hz
    cases addCell_at hc with
    | inl h1 => rw [h1.2.1] at hz; exact ⟨h1.1, hz⟩
    | inr h1 => rw [h1.2.2.1] at hz; cases hz
  refine ⟨h.stamp, h.sorted, h.nodup, h.places, ?_, ?_, h.new, ?_, ?_, ?_, h.verb, ?_, ?_, ?_, ?_, ?_, ?_, ?_, h.block,
    h.empty, h.retp⟩
  · intro p hp
    have hp' : s.word.used < p := hp
    have hpi : p ≠ q := by omega
    refine ⟨?_, fun c => ?_⟩
    · rw [addCell_cn, if_neg hpi]; exact (h.far p hp).1
    · have : (s.addCell q none v).cp p c = s.cp p c := by simp [State.addCell, upd_ne _ _ hpi]
      rw [this]; exact (h.far p hp).2 c
  · intro j c z hc hz; have := hat hc hz; exact h.leaf j c z this.1 this.2
  · intro n j hn
    have := h.mvc n j hn
    show (s.mv n).c j ≤ (s.addCell q none v).cn j
    rw [addCell_cn]; split
    · rename_i e; subst e; omega
    · exact this
  · intro j c hc
    cases addCell_at hc with
    | inl h1 => rw [h1.2.2]; exact h.cvm j c h1.1
    | inr h1 => rw [h1.2.2.2]; exact hvm
  · intro j hj
    have hj' : s.Kid j := hj
    rw [addCell_top, if_neg (show j ≠ q from fun e => hk (e ▸ hj'))]; exact h.kid j hj'
  · intro k n c z u n' c' z' u' hp1 hu hp2 hu' hn hc hz
    exact h.coh k n c z u n' c' z' u' (hpath hp1) hu (hpath hp2) hu' hn hc hz
  · intro k n c z u hp1 hu; exact h.val k n c z u (hpath hp1) hu
  · intro k z hz
    have hz' : (s.addCell q none v).cp (s.R s.mn k) ((s.addCell q none v).cn (s.R s.mn k)) = some z := hz
    rw [addCell_top, if_neg (hRq k)] at hz'
    exact h.fresh k z hz'
  · intro z j c c' hd hcc hc' hz
    cases addCell_at hc' with
    | inl h1 =>
      rw [h1.2.1]
      have hcl : c ≤ s.cn j := by omega
      rw [(addCell_old (s := s) hcl).2.1] at hz
      exact h.live z j c c' hd hcc h1.1 hz
    | inr h1 =>
      obtain ⟨rfl, rfl, h3, _⟩ := h1
      have hcl := hat (Nat.le_trans hcc hc') hz
      have := h.live z j c _ hd hcl.1 (Nat.le_refl _) hcl.2
      rw [hx] at this; cases this
      have hd' : s.dead x = false := hd
      rw [hxd] at hd'; cases hd'
  · intro z j j' c c' hc hc' hz hz'
    have h1 := hat hc hz
    have h2 := hat hc' hz'
    exact h.uniq z j j' c c' h1.1 h2.1 h1.2 h2.2
  · intro z k n j c n' hd hp1; exact h.grow z k n j c n' hd (hpath hp1)
  · intro z j u k hd hz hu hk'
    have h1 := hat (Nat.le_refl _) hz
    rw [addCell_top] at hz
    by_cases hj : j = q
    · rw [if_pos hj] at hz; cases hz
    · rw [if_neg hj] at hz; exact h.inrange z j u k hd hz hu hk'

end Scc.Twig
