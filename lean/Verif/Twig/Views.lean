import Verif.Twig.Words

/-! # What views say -/

namespace Scc.Twig

/-- Nothing that was written changes. -/
structure Ext (s s' : State) : Prop where
  mn : s.mn ≤ s'.mn
  cn : ∀ i, s.cn i ≤ s'.cn i
  ln : ∀ x, s.ln x ≤ s'.ln x
  mw : ∀ n, n ≤ s.mn → s'.mw n = s.mw n
  mv : ∀ n, n ≤ s.mn → s'.mv n = s.mv n
  cell : ∀ i c x, c ≤ s.cn i → s.cp i c = some x → s'.cp i c = some x ∧ s'.cv i c = s.cv i c
  ver : ∀ x u k, x < s.nl → u ≤ s.ln x → s.ver x u k ≤ s'.ver x u k
  up : ∀ x u k, x < s.nl → s.ln x < u → u ≤ s'.ln x → s.ver x (s.ln x) k ≤ s'.ver x u k

theorem Ext.refl (s : State) : Ext s s :=
  ⟨Nat.le_refl _, fun _ => Nat.le_refl _, fun _ => Nat.le_refl _, fun _ _ => rfl, fun _ _ => rfl, fun _ _ _ _ h => ⟨h, rfl⟩,
    fun _ _ _ _ _ => Nat.le_refl _, fun _ _ _ _ h1 h2 => by omega⟩

theorem Ext.R {s s' : State} (h : Ext s s') {n k : Nat} (hn : n ≤ s.mn) : s'.R n k = s.R n k := by
  simp only [State.R, h.mw n hn]

theorem Ext.path {s s' : State} (h : Ext s s') {n i c x : Nat} (hp : Path s n i c x) : Path s' n i c x := by
  have h1 := h.cell i c x hp.lc hp.ptr
  refine ⟨Nat.le_trans hp.le h.mn, Nat.le_trans hp.lc (h.cn i), ?_, ?_, h1.1⟩
  · rw [h.mv n hp.le]; exact hp.mc
  · rw [h1.2]; exact hp.cm

/-- The view is not ahead of what was written, and what it says to know of the history of a key is shown by a leaf that
it has seen in this way. -/
structure VOk (s : State) (v : View) : Prop where
  m : v.m ≤ s.mn
  c : ∀ i, v.c i ≤ s.cn i
  l : ∀ x, v.l x ≤ s.ln x
  wit : ∀ k, v.g k = 0 ∨ ∃ n c x u, Path s n (s.R n k) c x ∧ u ≤ s.ln x ∧ n ≤ v.m ∧ c ≤ v.c (s.R n k) ∧ u ≤ v.l x ∧
    v.g k ≤ s.ver x u k

theorem VOk.ext {s s' : State} {v : View} (hv : VOk s v) (hc : Core s) (h : Ext s s') : VOk s' v := by
  refine ⟨Nat.le_trans hv.m h.mn, fun i => Nat.le_trans (hv.c i) (h.cn i), fun x => Nat.le_trans (hv.l x) (h.ln x), ?_⟩
  intro k
  cases hv.wit k with
  | inl h1 => exact .inl h1
  | inr h1 =>
    obtain ⟨n, c, x, u, h2, h3, h4, h5, h6, h7⟩ := h1
    refine .inr ⟨n, c, x, u, ?_, Nat.le_trans h3 (h.ln x), h4, ?_, h6, ?_⟩
    · rw [h.R h2.le]; exact h.path h2
    · rw [h.R h2.le]; exact h5
    · exact Nat.le_trans h7 (h.ver x u k (hc.leaf _ _ _ h2.lc h2.ptr) h3)

theorem VOk.zero (s : State) : VOk s .zero :=
  ⟨Nat.zero_le _, fun _ => Nat.zero_le _, fun _ => Nat.zero_le _, fun _ => .inl rfl⟩

theorem VOk.join {s : State} {v w : View} (hv : VOk s v) (hw : VOk s w) : VOk s (v.join w) := by
  refine ⟨Nat.max_le.mpr ⟨hv.m, hw.m⟩, fun i => Nat.max_le.mpr ⟨hv.c i, hw.c i⟩, fun x => Nat.max_le.mpr ⟨hv.l x, hw.l x⟩,
    ?_⟩
  intro k
  show max (v.g k) (w.g k) = 0 ∨ _
  by_cases hlt : v.g k ≤ w.g k
  · rw [Nat.max_eq_right hlt]
    cases hw.wit k with
    | inl h1 => exact .inl h1
    | inr h1 =>
      obtain ⟨n, c, x, u, h2, h3, h4, h5, h6, h7⟩ := h1
      refine .inr ⟨n, c, x, u, h2, h3, Nat.le_trans h4 (Nat.le_max_right _ _), Nat.le_trans h5 (Nat.le_max_right _ _),
        Nat.le_trans h6 (Nat.le_max_right _ _), ?_⟩
      show max (v.g k) (w.g k) ≤ _
      rw [Nat.max_eq_right hlt]; exact h7
  · have hlt' : w.g k ≤ v.g k := by omega
    rw [Nat.max_eq_left hlt']
    cases hv.wit k with
    | inl h1 => exact .inl h1
    | inr h1 =>
      obtain ⟨n, c, x, u, h2, h3, h4, h5, h6, h7⟩ := h1
      refine .inr ⟨n, c, x, u, h2, h3, Nat.le_trans h4 (Nat.le_max_left _ _), Nat.le_trans h5 (Nat.le_max_left _ _),
        Nat.le_trans h6 (Nat.le_max_left _ _), ?_⟩
      show max (v.g k) (w.g k) ≤ _
      rw [Nat.max_eq_left hlt']; exact h7

theorem le_upd {f : Nat → Nat} {i a j : Nat} : f j ≤ upd f i (max (f i) a) j := by
  by_cases h : j = i
  · subst h; simp; omega
  · rw [upd_ne _ _ h]; exact Nat.le_refl _

theorem upd_le {f g : Nat → Nat} {i a : Nat} (h : ∀ j, f j ≤ g j) (ha : a ≤ g i) (j : Nat) :
    upd f i (max (f i) a) j ≤ g j := by
  by_cases hj : j = i
  · subst hj; rw [upd_self]; exact Nat.max_le.mpr ⟨h j, ha⟩
  · rw [upd_ne _ _ hj]; exact h j

/-- A view that has seen more. -/
theorem VOk.more {s : State} {v w : View} (hv : VOk s v) (hm : w.m ≤ s.mn) (hc : ∀ i, w.c i ≤ s.cn i)
    (hl : ∀ x, w.l x ≤ s.ln x) (h1 : v.m ≤ w.m) (h2 : ∀ i, v.c i ≤ w.c i) (h3 : ∀ x, v.l x ≤ w.l x) (h4 : w.g = v.g) :
    VOk s w := by
  refine ⟨hm, hc, hl, ?_⟩
  intro k
  rw [h4]
  cases hv.wit k with
  | inl h => exact .inl h
  | inr h =>
    obtain ⟨n, c, x, u, a1, a2, a3, a4, a5, a6⟩ := h
    exact .inr ⟨n, c, x, u, a1, a2, Nat.le_trans a3 h1, Nat.le_trans a4 (h2 _), Nat.le_trans a5 (h3 _), a6⟩

theorem VOk.seeM {s : State} {v : View} {n : Nat} (hv : VOk s v) (hn : n ≤ s.mn) : VOk s (v.seeM n) :=
  hv.more (Nat.max_le.mpr ⟨hv.m, hn⟩) hv.c hv.l (Nat.le_max_left _ _) (fun _ => Nat.le_refl _) (fun _ => Nat.le_refl _) rfl

theorem VOk.seeC {s : State} {v : View} {i c : Nat} (hv : VOk s v) (hn : c ≤ s.cn i) : VOk s (v.seeC i c) :=
  hv.more hv.m (upd_le hv.c hn) hv.l (Nat.le_refl _) (fun _ => le_upd) (fun _ => Nat.le_refl _) rfl

theorem VOk.seeL {s : State} {v : View} {x u : Nat} (hv : VOk s v) (hn : u ≤ s.ln x) : VOk s (v.seeL x u) :=
  hv.more hv.m hv.c (upd_le hv.l hn) (Nat.le_refl _) (fun _ => Nat.le_refl _) (fun _ => le_upd) rfl

theorem VOk.know {s : State} {v : View} {k n c x u j : Nat} (hv : VOk s v) (hp : Path s n (s.R n k) c x) (hu : u ≤ s.ln x)
    (h1 : n ≤ v.m) (h2 : c ≤ v.c (s.R n k)) (h3 : u ≤ v.l x) (hj : j ≤ s.ver x u k) : VOk s (v.know k j) := by
  refine ⟨hv.m, hv.c, hv.l, ?_⟩
  intro d
  show upd v.g k (max (v.g k) j) d = 0 ∨ _
  by_cases hd : d = k
  · subst hd
    by_cases hlt : v.g d ≤ j
    · refine .inr ⟨n, c, x, u, hp, hu, h1, h2, h3, ?_⟩
      show upd v.g d (max (v.g d) j) d ≤ _
      rw [upd_self, Nat.max_eq_right hlt]; exact hj
    · have hlt' : j ≤ v.g d := by omega
      cases hv.wit d with
      | inl h => omega
      | inr h =>
        obtain ⟨n, c, x, u, a1, a2, a3, a4, a5, a6⟩ := h
        refine .inr ⟨n, c, x, u, a1, a2, a3, a4, a5, ?_⟩
        show upd v.g d (max (v.g d) j) d ≤ _
        rw [upd_self, Nat.max_eq_left hlt']; exact a6
  · rw [upd_ne _ _ hd]
    cases hv.wit d with
    | inl h => exact .inl h
    | inr h =>
      obtain ⟨n, c, x, u, a1, a2, a3, a4, a5, a6⟩ := h
      refine .inr ⟨n, c, x, u, a1, a2, a3, a4, a5, ?_⟩
      show upd v.g k (max (v.g k) j) d ≤ _
      rw [upd_ne _ _ hd]; exact a6

/-- Whoever has seen as much finds nothing older. -/
theorem VOk.find {s : State} {v : View} {k n c x u : Nat} (hs : Core s) (hv : VOk s v) (hp : Path s n (s.R n k) c x)
    (hu : u ≤ s.ln x) (h1 : v.m ≤ n) (h2 : v.c (s.R n k) ≤ c) (h3 : v.l x ≤ u) : v.g k ≤ s.ver x u k := by
  cases hv.wit k with
  | inl h => omega
  | inr h =>
    obtain ⟨n', c', x', u', a1, a2, a3, a4, a5, a6⟩ := h
    refine Nat.le_trans a6 (hs.coh k n' c' x' u' n c x u a1 a2 hp hu (by omega) ?_ ?_)
    · intro e; rw [e] at a4; omega
    · intro e; subst e; omega

/-! ## All views there are -/

structure Views (s : State) : Prop where
  mv : ∀ n, n ≤ s.mn → VOk s (s.mv n)
  cv : ∀ i c, c ≤ s.cn i → VOk s (s.cv i c)
  self : ∀ i c, c ≤ s.cn i → (s.cv i c).c i ≤ c
  lv : ∀ x u, u ≤ s.ln x → VOk s (s.lv x u)
  lockv : VOk s s.lockv
  tv : ∀ t, VOk s (s.tv t)

theorem views_init : Views .init :=
  ⟨fun _ _ => VOk.zero _, fun _ _ _ => VOk.zero _, fun _ _ _ => Nat.zero_le _, fun _ _ _ => VOk.zero _, VOk.zero _, fun _ => VOk.zero _⟩

/-- The only new views of `s'` are `v` and `w`: `w` the one thread `t` has now. -/
theorem Views.ext {s s' : State} (h : Views s) (hc : Core s) (he : Ext s s')
    (hmv : ∀ n, n ≤ s'.mn → (n ≤ s.mn ∧ s'.mv n = s.mv n) ∨ VOk s' (s'.mv n))
    (hcv : ∀ i c, c ≤ s'.cn i → (c ≤ s.cn i ∧ s'.cv i c = s.cv i c) ∨ (VOk s' (s'.cv i c) ∧ (s'.cv i c).c i ≤ c))
    (hlv : ∀ x u, u ≤ s'.ln x → (u ≤ s.ln x ∧ s'.lv x u = s.lv x u) ∨ VOk s' (s'.lv x u))
    (hl : s'.lockv = s.lockv ∨ VOk s' s'.lockv) (ht : ∀ t, s'.tv t = s.tv t ∨ VOk s' (s'.tv t)) : Views s' := by
  refine ⟨?_, ?_, ?_, ?_, ?_, ?_⟩
  · intro n hn
    cases hmv n hn with
    | inl h1 => rw [h1.2]; exact (h.mv n h1.1).ext hc he
    | inr h1 => exact h1
  · intro i c hn
    cases hcv i c hn with
    | inl h1 => rw [h1.2]; exact (h.cv i c h1.1).ext hc he
    | inr h1 => exact h1.1
  · intro i c hn
    cases hcv i c hn with
    | inl h1 => rw [h1.2]; exact h.self i c h1.1
    | inr h1 => exact h1.2
  · intro x u hn
    cases hlv x u hn with
    | inl h1 => rw [h1.2]; exact (h.lv x u h1.1).ext hc he
    | inr h1 => exact h1
  · cases hl with
    | inl h1 => rw [h1]; exact h.lockv.ext hc he
    | inr h1 => exact h1
  · intro t
    cases ht t with
    | inl h1 => rw [h1]; exact (h.tv t).ext hc he
    | inr h1 => exact h1

/-! ## What each kind of write leaves -/

theorem Ext.go {s s1 : State} (h : Ext s s1) {t : Nat} {p : Pc} {v : View} : Ext s (s1.go t p v) :=
  ⟨h.mn, h.cn, h.ln, h.mw, h.mv, h.cell, h.ver, h.up⟩

theorem ext_page {s : State} {x : Nat} {p : Page} {v : View} {r : Nat → Nat} (hr : ∀ k, s.ver x (s.ln x) k ≤ r k) :
    Ext s (s.addPage x p v r) := by
  refine ⟨Nat.le_refl _, fun _ => Nat.le_refl _, ?_, fun _ _ => rfl, fun _ _ => rfl, fun _ _ _ _ h => ⟨h, rfl⟩, ?_, ?_⟩
  · intro y; rw [addPage_ln]; split
    · rename_i e; subst e; omega
    · exact Nat.le_refl _
  · intro y u k _ hu
    have hu' : u ≤ (s.addPage x p v r).ln y := by
      rw [addPage_ln]; split
      · rename_i e; subst e; omega
      · exact hu
    cases addPage_at hu' with
    | inl h => rw [h.2.2]; exact Nat.le_refl _
    | inr h => obtain ⟨rfl, rfl, _⟩ := h; omega
  · intro y u k _ h1 h2
    cases addPage_at h2 with
    | inl h => omega
    | inr h => obtain ⟨rfl, rfl, _, h3⟩ := h; rw [h3]; exact hr k

theorem ext_hist {s s1 : State} {k : Nat} {r : Option Nat} {w : Nat → Nat} (h : Ext s s1) :
    Ext s (s1.addHist k r w) :=
  ⟨h.mn, h.cn, h.ln, h.mw, h.mv, h.cell, h.ver, h.up⟩

theorem ext_word {s : State} {w : Word} {v : View} : Ext s (s.addWord w v) := by
  refine ⟨Nat.le_succ _, fun _ => Nat.le_refl _, fun _ => Nat.le_refl _, ?_, ?_, fun _ _ _ _ h => ⟨h, rfl⟩,
    fun _ _ _ _ _ => Nat.le_refl _, fun x u _ _ h1 h2 => ?_⟩
  · intro n hn; exact addWord_mw hn
  · intro n hn; exact addWord_mv hn
  · have : u ≤ s.ln x := h2; omega

theorem ext_dead {s s1 : State} {x : Nat} (h : Ext s s1) : Ext s (s1.setDead x) :=
  ⟨h.mn, h.cn, h.ln, h.mw, h.mv, h.cell, h.ver, h.up⟩

theorem ext_cell {s : State} {i : Nat} {o : Option Nat} {v : View} : Ext s (s.addCell i o v) := by
  refine ⟨Nat.le_refl _, ?_, fun _ => Nat.le_refl _, fun _ _ => rfl, fun _ _ => rfl, ?_, fun _ _ _ _ _ => Nat.le_refl _,
    fun x u _ _ h1 h2 => ?_⟩
  · intro j; rw [addCell_cn]; split
    · rename_i e; subst e; omega
    · exact Nat.le_refl _
  · intro j c x hc hx
    have := addCell_old (s := s) (i := i) (o := o) (v := v) hc
    exact ⟨by rw [this.2.1]; exact hx, this.2.2⟩
  · have : u ≤ s.ln x := h2; omega

theorem ext_new {s : State} {y : Nat} {p : Page} {v : View} {r : Nat → Nat} (hy : s.nl ≤ y) :
    Ext s (s.newLeaf y p v r) := by
  refine ⟨Nat.le_refl _, fun _ => Nat.le_refl _, fun _ => Nat.le_refl _, fun _ _ => rfl, fun _ _ => rfl,
    fun _ _ _ _ h => ⟨h, rfl⟩, ?_, fun x u _ _ h1 h2 => ?_⟩
  · intro x u k hx _
    have : x ≠ y := by omega
    simp [State.newLeaf, upd_ne _ _ this]
  · have : u ≤ s.ln x := h2; omega

theorem ext_init {s : State} {p x : Nat} (hp : ∀ c, s.cp p c = none) : Ext s (s.initCell p x) := by
  refine ⟨Nat.le_refl _, fun _ => Nat.le_refl _, fun _ => Nat.le_refl _, fun _ _ => rfl, fun _ _ => rfl, ?_,
    fun _ _ _ _ _ => Nat.le_refl _, fun x u _ _ h1 h2 => ?_⟩
  · intro i c z _ hz
    by_cases hi : i = p
    · subst hi; rw [hp] at hz; cases hz
    · simp [State.initCell, upd_ne _ _ hi]; exact hz
  · have : u ≤ s.ln x := h2; omega

theorem Ext.trans {s s1 s2 : State} (h : Ext s s1) (h2 : Ext s1 s2) (hn : s.nl ≤ s1.nl) : Ext s s2 := by
  refine ⟨Nat.le_trans h.mn h2.mn, fun i => Nat.le_trans (h.cn i) (h2.cn i), fun x => Nat.le_trans (h.ln x) (h2.ln x), ?_, ?_,
    ?_, ?_, ?_⟩
  · intro n hn; rw [h2.mw n (Nat.le_trans hn h.mn), h.mw n hn]
  · intro n hn; rw [h2.mv n (Nat.le_trans hn h.mn), h.mv n hn]
  · intro i c x hc hx
    have h3 := h.cell i c x hc hx
    have h4 := h2.cell i c x (Nat.le_trans hc (h.cn i)) h3.1
    exact ⟨h4.1, h4.2.trans h3.2⟩
  · intro x u k hx hu
    exact Nat.le_trans (h.ver x u k hx hu) (h2.ver x u k (by omega) (Nat.le_trans hu (h.ln x)))
  · intro x u k hx h3 h4
    by_cases h5 : u ≤ s1.ln x
    · exact Nat.le_trans (h.up x u k hx h3 h5) (h2.ver x u k (by omega) h5)
    · have h6 : s.ver x (s.ln x) k ≤ s1.ver x (s1.ln x) k := by
        by_cases h7 : s.ln x = s1.ln x
        · have := h.ver x _ k hx (Nat.le_refl (s.ln x)); rw [h7] at this ⊢; exact this
        · have := h.ln x
          exact h.up x _ k hx (by omega) (Nat.le_refl _)
      exact Nat.le_trans h6 (h2.up x u k (by omega) (by omega) h4)

theorem ext_rever {s : State} {q : Nat} (h : ∀ x u k, u ≤ s.ln x → s.ver x u k ≤ s.hn k) : Ext s (s.rever q) := by
  refine ⟨Nat.le_refl _, fun _ => Nat.le_refl _, fun _ => Nat.le_refl _, fun _ _ => rfl, fun _ _ => rfl,
    fun _ _ _ _ h => ⟨h, rfl⟩, ?_, fun x u _ _ h1 h2 => ?_⟩
  · intro x u k _ hu
    simp only [State.rever]; split
    · exact h x u k hu
    · exact Nat.le_refl _
  · have : u ≤ s.ln x := h2; omega

end Scc.Twig
