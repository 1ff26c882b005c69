import Verif.Twig.Views

/-! # Where threads are -/

namespace Scc.Twig

def Pc.locked : Pc → Bool
  | .idle | .sel .. | .got .. | .ent .. => false
  | _ => true

/-- A leaf that nobody else can reach. -/
structure Own (s : State) (y : Nat) : Prop where
  lt : y < s.nl
  alive : s.dead y = false
  off : ∀ j c, c ≤ s.cn j → s.cp j c ≠ some y
  new : s.ln y = 0

/-- `x`, the leaf at place `i`, is being replaced. -/
structure Froze (s : State) (i x : Nat) : Prop where
  kid : s.Kid i
  top : s.cp i (s.cn i) = some x
  alive : s.dead x = false
  frozen : (s.page x).frozen = true

structure Made (s : State) (i x b lo hi : Nat) : Prop where
  old : Froze s i x
  key : (s.page x).has b ≠ none
  more : ∃ d, b < d ∧ (s.page x).has d ≠ none
  olo : Own s lo
  ohi : Own s hi
  ne : lo ≠ hi
  lows : ∀ k, (s.lw lo 0).has k = if k ≤ b then (s.page x).has k else none
  highs : ∀ k, (s.lw hi 0).has k = if k ≤ b then none else (s.page x).has k
  lov : s.ver lo 0 = s.ver x (s.ln x)
  hiv : s.ver hi 0 = s.ver x (s.ln x)

structure Slot (s : State) (p : Nat) : Prop where
  new : s.cn p = 0
  none : ∀ c, s.cp p c = none
  pos : 1 ≤ p
  used : p ≤ s.word.used
  kid : ∀ n, n ≤ s.mn → ∀ e ∈ (s.mw n).kids, e.2 ≠ p

/-- The lower leaf is reachable, the upper one not yet. -/
structure Half (s : State) (i x hi : Nat) : Prop where
  kid : s.Kid i
  top : s.cp i (s.cn i) = some x
  dead : s.dead x = true
  ohi : Own s hi
  highs : ∀ k, s.R s.mn k = i → (s.lw hi 0).has k = (s.page x).has k
  hiv : s.ver hi 0 = s.ver x (s.ln x)
  ran : ∀ k, (s.lw hi 0).has k ≠ none → s.R s.mn k = i

structure Single (s : State) (i x y : Nat) : Prop where
  old : Froze s i x
  oy : Own s y
  has : (s.lw y 0).has = (s.page x).has
  ver : s.ver y 0 = s.ver x (s.ln x)

structure Gone (s : State) (q : Nat) : Prop where
  kid : ¬ s.Kid q
  used : q ≤ s.word.used
  top : ∃ x, s.cp q (s.cn q) = some x ∧ s.dead x = true

structure Sel (s : State) (v : View) (n : Nat) : Prop where
  le : n ≤ s.mn
  m : n ≤ v.m
  mv : ∀ i, (s.mv n).c i ≤ v.c i

structure Got (s : State) (v : View) (k n c x : Nat) : Prop where
  le : n ≤ s.mn
  m : n ≤ v.m
  lc : c ≤ s.cn (s.R n k)
  mc : (s.mv n).c (s.R n k) ≤ c
  ptr : s.cp (s.R n k) c = some x
  cm : (s.cv (s.R n k) c).m ≤ v.m
  vc : v.c (s.R n k) = c

/-- After validation the leaf shows nothing older than what the thread knows. -/
structure Ent (s : State) (v : View) (k n c x : Nat) : Prop where
  path : Path s n (s.R n k) c x
  m : n ≤ v.m
  vc : c ≤ v.c (s.R n k)
  l : v.l x ≤ s.ln x
  fine : ∀ u, v.l x ≤ u → u ≤ s.ln x → v.g k ≤ s.ver x u k

def PcOk (s : State) (v : View) : Pc → Prop
  | .idle => True
  | .sel _ _ n => Sel s v n
  | .got _ k n c x => Got s v k n c x
  | .ent _ k n c x => Ent s v k n c x
  | .lock => True
  | .froze i x => Froze s i x
  | .made i x b lo hi => Made s i x b lo hi
  | .resv i x b lo hi p => Made s i x b lo hi ∧ Slot s p
  | .publ i x lo hi => Half s i x hi ∧ lo < s.nl ∧ s.dead lo = false ∧ lo ≠ hi
  | .thawn i x hi => Half s i x hi
  | .one i x y => Single s i x y
  | .drop q => Gone s q

structure Inv (s : State) : Prop where
  core : Core s
  views : Views s
  pcs : ∀ t, PcOk s (s.tv t) (s.pc t)
  lk : ∀ t, (s.pc t).locked = true ↔ s.holder = some t
  full : ∀ t, s.holder = some t → (s.tv t).m = s.mn ∧ ∀ i, (s.tv t).c i = s.cn i
  free : s.holder = none → s.lockv.m = s.mn ∧ ∀ i, s.lockv.c i = s.cn i
  tops : ∀ i x, s.cp i (s.cn i) = some x → s.Kid i ∨ ∃ t, s.pc t = .drop i
  nodead : ∀ i x, s.Kid i → s.cp i (s.cn i) = some x → s.dead x = true →
    ∃ t, (∃ lo hi, s.pc t = .publ i x lo hi) ∨ ∃ hi, s.pc t = .thawn i x hi

theorem inv_init : Inv .init := by
  refine ⟨core_init, views_init, fun _ => trivial, ?_, ?_, ?_, ?_, ?_⟩
  · intro t; exact ⟨(fun h => by cases h), (fun h => by cases h)⟩
  · intro t h; cases h
  · intro _; exact ⟨rfl, fun _ => rfl⟩
  · intro i x h
    by_cases hi : i = 0
    · exact .inl (.inl hi)
    · simp [State.init, hi] at h
  · intro i x _ _ h; cases h

/-- Readers do not mind. -/
theorem PcOk.ext {s s' : State} {v : View} {p : Pc} (h : PcOk s v p) (hs : Core s) (he : Ext s s') (hp : p.locked = false) :
    PcOk s' v p := by
  cases p with
  | idle => trivial
  | sel o k n =>
    have h : Sel s v n := h
    show Sel s' v n
    exact ⟨Nat.le_trans h.le he.mn, h.m, fun i => by rw [he.mv n h.le]; exact h.mv i⟩
  | got o k n c x =>
    have h : Got s v k n c x := h
    show Got s' v k n c x
    have hc := he.cell _ c x h.lc h.ptr
    have hR : s'.R n k = s.R n k := he.R h.le
    refine ⟨Nat.le_trans h.le he.mn, h.m, ?_, ?_, ?_, ?_, ?_⟩
    · rw [hR]; exact Nat.le_trans h.lc (he.cn _)
    · rw [hR, he.mv n h.le]; exact h.mc
    · rw [hR]; exact hc.1
    · rw [hR, hc.2]; exact h.cm
    · rw [hR]; exact h.vc
  | ent o k n c x =>
    have h : Ent s v k n c x := h
    show Ent s' v k n c x
    have hR : s'.R n k = s.R n k := he.R h.path.le
    have hx : x < s.nl := hs.leaf _ _ _ h.path.lc h.path.ptr
    refine ⟨by rw [hR]; exact he.path h.path, h.m, by rw [hR]; exact h.vc, Nat.le_trans h.l (he.ln x), ?_⟩
    intro u h1 h2
    by_cases h3 : u ≤ s.ln x
    · exact Nat.le_trans (h.fine u h1 h3) (he.ver x u k hx h3)
    · exact Nat.le_trans (h.fine _ h.l (Nat.le_refl _)) (he.up x u k hx (by omega) h2)
  | _ => cases hp

/-! ## What the holder of the lock relies on -/

/-- Everything but leaves and their histories is as before. -/
structure Same (s s' : State) : Prop where
  mn : s'.mn = s.mn
  mw : s'.mw = s.mw
  cn : s'.cn = s.cn
  cp : s'.cp = s.cp
  nl : s'.nl = s.nl
  dead : s'.dead = s.dead

theorem Same.word {s s' : State} (h : Same s s') : s'.word = s.word := by simp only [State.word, h.mw, h.mn]
theorem Same.kid {s s' : State} (h : Same s s') {i : Nat} : s'.Kid i ↔ s.Kid i := by simp only [State.Kid, h.word]
theorem Same.R {s s' : State} (h : Same s s') (n k : Nat) : s'.R n k = s.R n k := by simp only [State.R, h.mw]

theorem Own.same {s s' : State} (h : Same s s') {y : Nat} (hy : Own s y) (hl : s'.ln y = s.ln y) : Own s' y :=
  ⟨by rw [h.nl]; exact hy.lt, by rw [h.dead]; exact hy.alive, by rw [h.cn, h.cp]; exact hy.off, hl.trans hy.new⟩

theorem Froze.same {s s' : State} (h : Same s s') {i x : Nat} (hf : Froze s i x)
    (hp : (s'.page x).frozen = (s.page x).frozen) : Froze s' i x :=
  ⟨h.kid.mpr hf.kid, by rw [h.cp, h.cn]; exact hf.top, by rw [h.dead]; exact hf.alive, hp.trans hf.frozen⟩

/-- A word is written to leaf `y`, which others can reach; the leaf being replaced keeps what it shows. -/
theorem PcOk.page {s s' : State} {v : View} {p : Pc} {y : Nat} (h : PcOk s v p) (hs : Same s s')
    (hy : ∀ z, Own s z → z ≠ y) (hln : ∀ z, z ≠ y → s'.ln z = s.ln z)
    (hlw : ∀ z u, z ≠ y → s'.lw z u = s.lw z u) (hver : ∀ z u, z ≠ y → s'.ver z u = s.ver z u)
    (hpg : ((s.page y).frozen = true ∨ s.dead y = true) → s'.page y = s.page y ∧ s'.ver y (s'.ln y) = s.ver y (s.ln y))
    (hp : p.locked = true) : PcOk s' v p := by
  have own : ∀ {z}, Own s z → z ≠ y := fun hz => hy _ hz
  have hOwn : ∀ {z}, Own s z → Own s' z := fun hz => hz.same hs (hln _ (own hz))
  have hlw0 : ∀ {z}, Own s z → s'.lw z 0 = s.lw z 0 := fun hz => hlw _ _ (own hz)
  have hver0 : ∀ {z}, Own s z → s'.ver z 0 = s.ver z 0 := fun hz => hver _ _ (own hz)
  have hx : ∀ x, ((s.page x).frozen = true ∨ s.dead x = true) → s'.page x = s.page x ∧
      s'.ver x (s'.ln x) = s.ver x (s.ln x) := by
    intro x hx
    by_cases e : x = y
    · subst e; exact hpg hx
    · refine ⟨?_, ?_⟩
      · simp only [State.page]; rw [hln x e, hlw x _ e]
      · rw [hln x e, hver x _ e]
  have hMade : ∀ {i x b lo hi}, Made s i x b lo hi → Made s' i x b lo hi := by
    intro i x b lo hi h
    have h1 := hx x (.inl h.old.frozen)
    refine ⟨h.old.same hs (by rw [h1.1]), by rw [h1.1]; exact h.key, by rw [h1.1]; exact h.more, hOwn h.olo, hOwn h.ohi, h.ne,
      ?_, ?_, ?_, ?_⟩
    · rw [hlw0 h.olo, h1.1]; exact h.lows
    · rw [hlw0 h.ohi, h1.1]; exact h.highs
    · rw [hver0 h.olo, h1.2]; exact h.lov
    · rw [hver0 h.ohi, h1.2]; exact h.hiv
  have hHalf : ∀ {i x hi}, Half s i x hi → Half s' i x hi := by
    intro i x hi h
    have h1 := hx x (.inr h.dead)
    refine ⟨hs.kid.mpr h.kid, by rw [hs.cp, hs.cn]; exact h.top, by rw [hs.dead]; exact h.dead, hOwn h.ohi, ?_, ?_, ?_⟩
    · intro k hk; rw [hs.R, hs.mn] at hk; rw [hlw0 h.ohi, h1.1]; exact h.highs k hk
    · rw [hver0 h.ohi, h1.2]; exact h.hiv
    · intro k hk; rw [hlw0 h.ohi] at hk; rw [hs.R, hs.mn]; exact h.ran k hk
  cases p with
  | idle => cases hp
  | sel => cases hp
  | got => cases hp
  | ent => cases hp
  | lock => trivial
  | froze i x =>
    have h : Froze s i x := h
    exact h.same hs (by rw [(hx x (.inl h.frozen)).1])
  | made i x b lo hi => exact hMade h
  | resv i x b lo hi q =>
    have h : Made s i x b lo hi ∧ Slot s q := h
    refine ⟨hMade h.1, ?_⟩
    have h2 := h.2
    exact ⟨by rw [hs.cn]; exact h2.new, by rw [hs.cp]; exact h2.none, h2.pos, by rw [hs.word]; exact h2.used, by
      rw [hs.mn, hs.mw]; exact h2.kid⟩
  | publ i x lo hi =>
    have h : Half s i x hi ∧ lo < s.nl ∧ s.dead lo = false ∧ lo ≠ hi := h
    exact ⟨hHalf h.1, by rw [hs.nl]; exact h.2.1, by rw [hs.dead]; exact h.2.2.1, h.2.2.2⟩
  | thawn i x hi => exact hHalf h
  | one i x z =>
    have h : Single s i x z := h
    have h1 := hx x (.inl h.old.frozen)
    exact ⟨h.old.same hs (by rw [h1.1]), hOwn h.oy, by rw [hlw0 h.oy, h1.1]; exact h.has, by
      rw [hver0 h.oy, h1.2]; exact h.ver⟩
  | drop q =>
    have h : Gone s q := h
    exact ⟨fun e => h.kid (hs.kid.mp e), by rw [hs.word]; exact h.used, by rw [hs.cp, hs.cn, hs.dead]; exact h.top⟩

end Scc.Twig
