import Verif.Haze.Props

/-!
# What those who use an array know of the one before it

`Sharp` says what two steps of `Verif/Haze` leave open and lookups without locks need: who finds the lock of a bucket poisoned
learns what was released with it, and who unlinks an old array knows what was released with its buckets.
-/

namespace Scc.Mist

open Scc.Haze

/-- The accesses to a bucket. -/
def Ids (s : State) (v b x : Nat) : Prop := s.wr v b x ∨ s.rd v b x

/-- The access `y` was made in a bucket of an array after the relocation of the bucket of the old array that `x` accessed. -/
def R1 (ix : Nat → Nat → Nat) (s : State) (y x : Nat) : Prop :=
  ∃ v p e, e ∈ s.log v ∧ s.prev v = some p ∧ e.id = y ∧ Ids s p (ix p e.op.key) x
/-- The array `w` was made after the relocation of the array that `x` accessed was over. -/
def R2 (ix : Nat → Nat → Nat) (s : State) (w x : Nat) : Prop :=
  ∃ v p k, s.prev w = some v ∧ s.prev v = some p ∧ Ids s p (ix p k) x

/-- The view is closed under both. -/
structure Kn (ix : Nat → Nat → Nat) (s : State) (V : View) : Prop where
  k1 : ∀ y x, R1 ix s y x → V.ops y → V.ops x
  k2 : ∀ w x, R2 ix s w x → V.ver w → V.ops x

structure Kns (ix : Nat → Nat → Nat) (s' s : State) : Prop where
  tv : ∀ t, Kn ix s' (s.tv t)
  cm : ∀ v, v ≤ s.n → Kn ix s' (s.cmsg v)
  um : ∀ v, Kn ix s' (s.umsg v)
  bm : ∀ v b, Kn ix s' (s.bmsg v b)
  rm : Kn ix s' s.rmsg
  po : ∀ V, s.post V → Kn ix s' V

def PcK (ix : Nat → Nat → Nat) (s : State) (t : Nat) : Pc → Prop
  | .rdy _ o v | .crit _ o v => ∀ p, s.prev v = some p → ∀ x, Ids s p (ix p o.key) x → (s.tv t).ops x
  | _ => True

def MpK (ix : Nat → Nat → Nat) (s : State) (t : Nat) : Mp → Prop
  | .chk v | .lk v | .swp v => ∀ p, s.prev v = some p → ∀ k x, Ids s p (ix p k) x → (s.tv t).ops x
  | _ => True

structure Know (ix : Nat → Nat → Nat) (s : State) : Prop where
  d1 : ∀ v p e, e ∈ s.log v → s.prev v = some p → s.dead p (ix p e.op.key) = true
  d3 : ∀ w v p, s.prev w = some v → s.prev v = some p → ∀ k, s.dead p (ix p k) = true
  vs : Kns ix s s
  c2 : ∀ v p, s.unl v = true → s.prev v = some p → ∀ k x, Ids s p (ix p k) x → (s.umsg v).ops x
  c3 : ∀ p b, s.dead p b = true → ∀ x, Ids s p b x → (s.bmsg p b).ops x
  c4 : ∀ t, PcK ix s t (s.pc t)
  c5 : ∀ t, MpK ix s t (s.mp t)

structure Sharp (ix : Nat → Nat → Nat) (s s' : State) : Prop where
  /-- Who goes on because the old bucket is dead knows what was released with it; who found the link removed knows what was released
  with that. -/
  poison : ∀ t x o v p, s.pc t = .at x o v → s'.pc t = .rdy x o v → s.prev v = some p →
    (∀ y, (s.bmsg p (ix p o.key)).ops y → (s'.tv t).ops y) ∨ (s.unl v = true ∧ ∀ y, (s.umsg v).ops y → (s'.tv t).ops y)
  /-- The first to remove a link releases what it learned from all buckets of the old array. -/
  unlink : ∀ v p, s.unl v = false → s'.unl v = true → s.prev v = some p → ∀ k y, (s.bmsg p (ix p k)).ops y → (s'.umsg v).ops y

theorem know_init (ix : Nat → Nat → Nat) : Know ix State.init := by
  have z : ∀ V, Kn ix State.init V := by
    intro V
    refine ⟨?_, ?_⟩
    · rintro y x ⟨v, p, e, he, _⟩; cases he
    · rintro w x ⟨v, p, k, h, _⟩; cases h
  refine ⟨fun _ _ _ h => (by cases h), fun _ _ _ h => (by cases h), ⟨fun _ => z _, fun _ _ => z _, fun _ => z _, fun _ _ => z _, z _, fun _ _ => z _⟩,
    fun _ _ h => (by cases h), fun _ _ h => (by cases h), fun _ => trivial, fun _ => trivial⟩

theorem Kn.join {ix : Nat → Nat → Nat} {s : State} {a b : View} (h : Kn ix s a) (g : Kn ix s b) : Kn ix s (a.join b) where
  k1 := fun y x r hy => hy.elim (fun q => .inl (h.k1 y x r q)) (fun q => .inr (g.k1 y x r q))
  k2 := fun y x r hy => hy.elim (fun q => .inl (h.k2 y x r q)) (fun q => .inr (g.k2 y x r q))

theorem Kn.sup {ix : Nat → Nat → Nat} {s : State} {f : Nat → View} {p : Nat → Prop} (h : ∀ b, Kn ix s (f b)) : Kn ix s (View.sup f p) where
  k1 := fun y x r ⟨b, hb, hy⟩ => ⟨b, hb, (h b).k1 y x r hy⟩
  k2 := fun y x r ⟨b, hb, hy⟩ => ⟨b, hb, (h b).k2 y x r hy⟩

theorem Kn.addV {ix : Nat → Nat → Nat} {s : State} {a : View} {v : Nat} (h : Kn ix s a) (hv : ∀ x, R2 ix s v x → a.ops x) : Kn ix s (a.addV v) where
  k1 := h.k1
  k2 := fun y x r hy => hy.elim (fun q => h.k2 y x r q) (fun q => hv x (q ▸ r))

theorem Kn.addO {ix : Nat → Nat → Nat} {s : State} {a : View} {x : Nat} (h : Kn ix s a) (hx : ∀ y, R1 ix s x y → a.ops y) : Kn ix s (a.addO x) where
  k1 := fun y z r hy => hy.elim (fun q => .inl (h.k1 y z r q)) (fun q => .inl (hx z (q ▸ r)))
  k2 := fun y z r hy => .inl (h.k2 y z r hy)

theorem Kn.ite {ix : Nat → Nat → Nat} {s : State} {b : Bool} {V W : View} (h : Kn ix s V) (h' : Kn ix s W) : Kn ix s (if b then V else W) := by
  cases b
  · exact h'
  · exact h

theorem Kn.acq {ix : Nat → Nat → Nat} {s' s : State} (K : Kns ix s' s) (C : Cls s s) {t m : Nat} (hm : m ≤ s.n) : Kn ix s' (acq s t m) :=
  ((K.tv t).join (K.cm m hm)).addV (fun x r => .inr ((K.cm m hm).k2 m x r (C.cm m hm).2))

theorem knU {ix : Nat → Nat → Nat} {s : State} {f : Nat → View} {t : Nat} {V : View} (h : ∀ u, Kn ix s (f u)) (hV : Kn ix s V) : ∀ u, Kn ix s (upd f t V u) := by
  intro u
  by_cases e : u = t
  · rw [e, upd_eq]; exact hV
  · rw [upd_ne _ _ e]; exact h u

theorem knU2 {ix : Nat → Nat → Nat} {s : State} {f : Nat → Nat → View} {a c : Nat} {V : View} (h : ∀ v b, Kn ix s (f v b)) (hV : Kn ix s V) : ∀ v b, Kn ix s (upd2 f a c V v b) := by
  intro v b
  by_cases e : v = a ∧ b = c
  · rw [e.1, e.2, upd2_eq]; exact hV
  · rw [upd2_ne _ _ e]; exact h v b

/-- What the steps do to the parts the relations depend on. -/
structure Frame (s s' : State) : Prop where
  n : s.n ≤ s'.n
  prev : ∀ v p, s'.prev v = some p → s.prev v = some p ∨ (s'.n = s.n + 1 ∧ v = s.n + 1 ∧ p = s.n)
  log : ∀ v e, e ∈ s'.log v → e ∈ s.log v ∨ ∃ t, pend (s.pc t) = some e.id
  ids : ∀ p b x, s.dead p b = true → Ids s' p b x → Ids s p b x
  dead : ∀ p b, s.dead p b = true → s'.dead p b = true
  tv : ∀ t x, (s.tv t).ops x → (s'.tv t).ops x

theorem Frame.same {ix : Nat → Nat → Nat} {s s' : State} (st : Step ix s s') (hn : s'.n = s.n) (hp : s'.prev = s.prev) (hl : s'.log = s.log) (hw : s'.wr = s.wr) (hr : s'.rd = s.rd)
    (hd : s'.dead = s.dead) : Frame s s' where
  n := by omega
  prev := by rw [hp]; exact fun v p h => .inl h
  log := by rw [hl]; exact fun v p h => .inl h
  ids := by intro p b x _ h; unfold Ids at *; rw [hw, hr] at h; exact h
  dead := by rw [hd]; exact fun _ _ h => h
  tv := fun t x h => c66_grow st t x h

theorem prev_push {s : State} {l : Option Nat} (hl : l = none ∨ l = some s.n) (v p : Nat) (h : upd s.prev (s.n + 1) l v = some p) :
    s.prev v = some p ∨ (s.n + 1 = s.n + 1 ∧ v = s.n + 1 ∧ p = s.n) := by
  by_cases e : v = s.n + 1
  · rw [e, upd_eq] at h
    rcases hl with hl | hl
    · rw [hl] at h; cases h
    · rw [hl] at h; cases h; exact .inr ⟨rfl, e, rfl⟩
  · rw [upd_ne _ _ e] at h; exact .inl h

theorem log_upd {s : State} {v x : Nat} {o : Op} {r : Option Nat} {t : Nat} (hp : pend (s.pc t) = some x) (w : Nat) (e : Ev)
    (h : e ∈ upd s.log v (s.log v ++ [⟨x, o, r⟩]) w) : e ∈ s.log w ∨ ∃ t, pend (s.pc t) = some e.id := by
  by_cases e' : w = v
  · rw [e', upd_eq] at h
    rcases List.mem_append.mp h with h | h
    · exact .inl (e' ▸ h)
    · rw [List.mem_singleton.mp h]; exact .inr ⟨t, hp⟩
  · rw [upd_ne _ _ e'] at h; exact .inl h

theorem grow_link {ix : Nat → Nat → Nat} {s : State} (I : Inv ix s) {t v m : Nat} (h : s.mp t = .swp v) (ok : Ok s t m) : m = s.n ∧ v = s.n ∧ s.isA s.n = true := by
  have hm := I.mps t; rw [h] at hm
  have := ok.1
  have := ok.2 v hm.2.2.2.2
  have := hm.2.2.2.1
  exact ⟨by omega, this, this ▸ hm.1⟩

theorem frame_step {ix : Nat → Nat → Nat} {s s' : State} (I : Inv ix s) (st : Step ix s s') : Frame s s' := by
  have g := c66_grow st
  have st0 := st
  cases st with
  | @act t x o v h =>
    have hp := I.pcs t; rw [h] at hp
    refine ⟨Nat.le_refl _, fun _ _ h => .inl h, log_upd (t := t) (by rw [h]; rfl), ?_, fun _ _ h => h, g⟩
    intro p b y hd hy
    have ha := held_alive I hp.2.2
    rcases hy with (hy | hy) | (hy | hy)
    · exact .inl hy
    · rw [hy.2.1, hy.2.2.1, ha] at hd; cases hd
    · exact .inr hy
    · rw [hy.2.1, hy.2.2.1, ha] at hd; cases hd
  | @null t x o m h ok ha hm => exact ⟨Nat.le_refl _, fun _ _ h => .inl h, log_upd (t := t) (by rw [h]; rfl), fun _ _ _ _ h => h, fun _ _ h => h, g⟩
  | make h ha => exact ⟨Nat.le_succ _, prev_push (.inl rfl), fun _ _ h => .inl h, fun _ _ _ _ h => h, fun _ _ h => h, g⟩
  | @grow t v m h ok =>
    obtain ⟨e1, e2, e3⟩ := grow_link I h ok
    refine ⟨Nat.le_succ _, prev_push (.inr ?_), fun _ _ h => .inl h, fun _ _ _ _ h => h, fun _ _ h => h, g⟩
    rw [e1, e3]; rfl
  | clear h => exact ⟨Nat.le_succ _, prev_push (.inl rfl), fun _ _ h => .inl h, fun _ _ _ _ h => h, fun _ _ h => h, g⟩
  | @move t v p i h hw =>
    have hp := I.mps t; rw [h] at hp
    refine ⟨Nat.le_refl _, fun _ _ h => .inl h, fun _ _ h => .inl h, ?_, fun _ _ h => h, g⟩
    intro a b y hd hy
    rcases hy with (hy | ⟨_, ⟨e1, e2⟩ | ⟨e1, e2⟩⟩) | hy
    · exact .inl hy
    · rw [e1, e2, wl_alive I hp.2] at hd; cases hd
    · obtain ⟨k, hk, _⟩ := e2
      have hv : v = s.n := mv_where I hp.1 (hk ▸ hp.2) (by rw [h]; exact fun h => by cases h)
      have := (I.dead a b hd).2.2.2; omega
    · exact .inr hy
  | @kill t v p i h =>
    refine ⟨Nat.le_refl _, fun _ _ h => .inl h, fun _ _ h => .inl h, fun _ _ _ _ h => h, ?_, g⟩
    intro a b hd
    show upd2 s.dead p i true a b = true
    by_cases e : a = p ∧ b = i
    · rw [e.1, e.2, upd2_eq]
    · rw [upd2_ne _ _ e]; exact hd
  | @killAll t v h =>
    refine ⟨Nat.le_refl _, fun _ _ h => .inl h, fun _ _ h => .inl h, fun _ _ _ _ h => h, ?_, g⟩
    intro a b hd
    show (if a = v then true else s.dead a b) = true
    by_cases e : a = v
    · rw [if_pos e]
    · rw [if_neg e]; exact hd
  | _ => exact Frame.same st0 rfl rfl rfl rfl rfl rfl

theorem Kn.mono {ix : Nat → Nat → Nat} {s s' : State} (I : Inv ix s) (L : Lin ix s) (K : Know ix s) (F : Frame s s') {V : View} (c : Cl s V) (h : Kn ix s V) : Kn ix s' V where
  k1 := by
    rintro y x ⟨v, p, e, he, hp, hy, hx⟩ hV
    rcases F.log v e he with he | ⟨t, ht⟩
    · rcases F.prev v p hp with hp | ⟨_, hp, _⟩
      · exact h.k1 y x ⟨v, p, e, he, hp, hy, F.ids _ _ _ (K.d1 v p e he hp) hx⟩ hV
      · rw [hp, L.blank _ (Nat.lt_succ_self _)] at he; cases he
    · exact absurd (hy ▸ ht) (c.np y hV t)
  k2 := by
    rintro w x ⟨v, p, k, hw, hp, hx⟩ hV
    have hle := c.le w hV
    rcases F.prev w v hw with hw | ⟨_, hw, _⟩
    · rcases F.prev v p hp with hp | ⟨_, hp, _⟩
      · exact h.k2 w x ⟨v, p, k, hw, hp, F.ids _ _ _ (K.d3 w v p hw hp k) hx⟩ hV
      · have := (I.link w v hw).1; omega
    · omega

theorem Kns.mono {ix : Nat → Nat → Nat} {s s' : State} (I : Inv ix s) (L : Lin ix s) (O : Ord s) (K : Know ix s) (F : Frame s s') : Kns ix s' s where
  tv := fun t => (K.vs.tv t).mono I L K F (O.cls.tv t)
  cm := fun v hv => (K.vs.cm v hv).mono I L K F (O.cls.cm v hv).1
  um := fun v => (K.vs.um v).mono I L K F (O.cls.um v)
  bm := fun v b => (K.vs.bm v b).mono I L K F (O.cls.bm v b)
  rm := K.vs.rm.mono I L K F O.cls.rm
  po := fun V hV => (K.vs.po V hV).mono I L K F (O.cls.po V hV)

end Scc.Mist
