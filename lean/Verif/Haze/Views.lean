import Verif.Haze.Lin

/-! # What is known to whom -/

namespace Scc.Haze

/-- The call that has not taken effect yet. -/
def pend : Pc → Option Nat
  | .idle | .rel _ _ _ _ => none
  | .go x _ | .alloc x _ | .at x _ _ | .rdy x _ _ | .crit x _ _ => some x

/-- A view is closed: with a value of the pointer all those before it are known; with a call the array it used, and the call has taken effect. -/
structure Cl (s : State) (V : View) : Prop where
  le : ∀ w, V.ver w → w ≤ s.n
  down : ∀ w, V.ver w → ∀ w', w' ≤ w → V.ver w'
  lt : ∀ x, V.ops x → x < s.nid
  np : ∀ x, V.ops x → ∀ t, pend (s.pc t) ≠ some x
  ev : ∀ x, V.ops x → ∀ w e, e ∈ s.log w → e.id = x → V.ver w

structure Cls (s' s : State) : Prop where
  tv : ∀ t, Cl s' (s.tv t)
  cm : ∀ v, v ≤ s.n → Cl s' (s.cmsg v) ∧ (s.cmsg v).ver v
  um : ∀ v, Cl s' (s.umsg v)
  bm : ∀ v b, Cl s' (s.bmsg v b)
  rm : Cl s' s.rmsg
  po : ∀ V, s.post V → Cl s' V
  be : ∀ x, Cl s' (s.bef x)

theorem Cl.join {s : State} {a b : View} (h : Cl s a) (g : Cl s b) : Cl s (a.join b) where
  le := fun w hw => hw.elim (h.le w) (g.le w)
  down := fun w hw w' hl => hw.elim (fun q => .inl (h.down w q w' hl)) (fun q => .inr (g.down w q w' hl))
  lt := fun x hx => hx.elim (h.lt x) (g.lt x)
  np := fun x hx => hx.elim (h.np x) (g.np x)
  ev := fun x hx w e he hi => hx.elim (fun q => .inl (h.ev x q w e he hi)) (fun q => .inr (g.ev x q w e he hi))

theorem Cl.sup {s : State} {f : Nat → View} {p : Nat → Prop} (h : ∀ b, Cl s (f b)) : Cl s (View.sup f p) where
  le := fun w ⟨b, _, hw⟩ => (h b).le w hw
  down := fun w ⟨b, hb, hw⟩ w' hl => ⟨b, hb, (h b).down w hw w' hl⟩
  lt := fun x ⟨b, _, hx⟩ => (h b).lt x hx
  np := fun x ⟨b, _, hx⟩ => (h b).np x hx
  ev := fun x ⟨b, hb, hx⟩ w e he hi => ⟨b, hb, (h b).ev x hx w e he hi⟩

theorem Cl.addV {s : State} {a : View} {v : Nat} (h : Cl s a) (hv : v ≤ s.n) (hd : ∀ w, w < v → a.ver w) : Cl s (a.addV v) where
  le := fun w hw => hw.elim (h.le w) (fun e => by omega)
  down := by
    intro w hw w' hl
    rcases hw with hw | hw
    · exact .inl (h.down w hw w' hl)
    · by_cases e : w' = v
      · exact .inr e
      · exact .inl (hd w' (by omega))
  lt := h.lt
  np := h.np
  ev := fun x hx w e he hi => .inl (h.ev x hx w e he hi)

theorem Cl.addO {s : State} {a : View} {x : Nat} (h : Cl s a) (hx : x < s.nid) (hp : ∀ t, pend (s.pc t) ≠ some x)
    (he : ∀ w e, e ∈ s.log w → e.id = x → a.ver w) : Cl s (a.addO x) where
  le := h.le
  down := h.down
  lt := fun y hy => hy.elim (h.lt y) (fun e => e ▸ hx)
  np := fun y hy => hy.elim (h.np y) (fun e => e ▸ hp)
  ev := fun y hy w e hm hi => hy.elim (fun q => h.ev y q w e hm hi) (fun q => he w e hm (hi.trans q))

theorem Cl.acq {s' s : State} (C : Cls s' s) (hn : s.n ≤ s'.n) {t m : Nat} (hm : m ≤ s.n) : Cl s' (acq s t m) := by
  obtain ⟨h1, h2⟩ := C.cm m hm
  exact ((C.tv t).join h1).addV (by omega) (fun w hw => .inr (h1.down m h2 w (by omega)))

theorem Cls.mono {s s' : State} (C : Cls s s) (hn : s.n ≤ s'.n) (hi : s.nid ≤ s'.nid)
    (hp : ∀ t x, pend (s'.pc t) = some x → (∃ u, pend (s.pc u) = some x) ∨ s.nid ≤ x)
    (hl : ∀ w e, e ∈ s'.log w → e ∈ s.log w ∨ ∃ u, pend (s.pc u) = some e.id) : Cls s' s := by
  have key : ∀ V, Cl s V → Cl s' V := by
    intro V h
    refine ⟨fun w hw => Nat.le_trans (h.le w hw) hn, h.down, fun x hx => Nat.lt_of_lt_of_le (h.lt x hx) hi, ?_, ?_⟩
    · intro x hx t ht
      rcases hp t x ht with ⟨u, hu⟩ | hu
      · exact h.np x hx u hu
      · have := h.lt x hx; omega
    · intro x hx w e he hi
      rcases hl w e he with he | ⟨u, hu⟩
      · exact h.ev x hx w e he hi
      · exact absurd (hi ▸ hu) (h.np x hx u)
  exact ⟨fun t => key _ (C.tv t), fun v hv => ⟨key _ (C.cm v hv).1, (C.cm v hv).2⟩, fun v => key _ (C.um v), fun v b => key _ (C.bm v b), key _ C.rm, fun V h => key _ (C.po V h), fun x => key _ (C.be x)⟩

theorem clU {s : State} {f : Nat → View} {t : Nat} {V : View} (h : ∀ u, Cl s (f u)) (hV : Cl s V) : ∀ u, Cl s (upd f t V u) := by
  intro u
  by_cases e : u = t
  · rw [e, upd_eq]; exact hV
  · rw [upd_ne _ _ e]; exact h u

theorem clU2 {s : State} {f : Nat → Nat → View} {a c : Nat} {V : View} (h : ∀ v b, Cl s (f v b)) (hV : Cl s V) : ∀ v b, Cl s (upd2 f a c V v b) := by
  intro v b
  by_cases e : v = a ∧ b = c
  · rw [e.1, e.2, upd2_eq]; exact hV
  · rw [upd2_ne _ _ e]; exact h v b

theorem pend_upd {s : State} {t : Nat} {p : Pc} (h : ∀ x, pend p = some x → pend (s.pc t) = some x) :
    ∀ u x, pend (upd s.pc t p u) = some x → (∃ u', pend (s.pc u') = some x) ∨ s.nid ≤ x := by
  intro u x hu
  by_cases e : u = t
  · rw [e, upd_eq] at hu; exact .inl ⟨t, h x hu⟩
  · rw [upd_ne _ _ e] at hu; exact .inl ⟨u, hu⟩

/-- The array a thread uses next to its call. -/
def mpv : Mp → Option Nat
  | .idle | .fin => none
  | .have v | .mv v _ _ | .kl v _ _ | .chk v | .lk v | .swp v | .drp v | .drd v => some v

/-- A call that has not taken effect. -/
structure Pd (s : State) (t x : Nat) : Prop where
  lt : x < s.nid
  only : ∀ u, u ≠ t → pend (s.pc u) ≠ some x
  none : ∀ w e, e ∈ s.log w → e.id ≠ x
  bef : ∀ w, (s.bef x).ver w → (s.tv t).ver w

def PcV (s : State) (t : Nat) : Pc → Prop
  | .idle => True
  | .go x _ | .alloc x _ => Pd s t x
  | .at x _ v | .rdy x _ v | .crit x _ v => Pd s t x ∧ (s.tv t).ver v ∧ ∀ w, (s.bef x).ver w → w ≤ v
  | .rel x o v r => (s.tv t).ver v ∧ (s.tv t).ops x ∧ ⟨x, o, r⟩ ∈ s.log v

/-- `e` may come before `e'`: they are not the same call, and `e'` does not happen before `e`. -/
def Before (s : State) (e e' : Ev) : Prop := e.id ≠ e'.id ∧ ¬(s.bef e.id).ops e'.id

structure Ord (s : State) : Prop where
  cls : Cls s s
  kn : ∀ t v, mpv (s.mp t) = some v → (s.tv t).ver v
  pcv : ∀ t, PcV s t (s.pc t)
  eid : ∀ w e, e ∈ s.log w → e.id < s.nid
  order : List.Pairwise (Before s) (flat s.log s.n)
  ans : ∀ x o r, s.ans x = some (o, r) → ∃ v, ⟨x, o, r⟩ ∈ s.log v

theorem ord_init : Ord State.init := by
  have c : Cl State.init View.start := ⟨fun w h => by cases h; exact Nat.le_refl _, fun w h w' hl => by cases h; show w' = 0; omega, fun _ h => h.elim, fun _ h => h.elim, fun _ h => h.elim⟩
  have n : Cl State.init View.none := ⟨fun w h => h.elim, fun _ h => h.elim, fun _ h => h.elim, fun _ h => h.elim, fun _ h => h.elim⟩
  refine ⟨⟨fun _ => c, fun v hv => ⟨c, ?_⟩, fun _ => n, fun _ _ => n, c, fun _ h => h.elim, fun _ => n⟩, fun _ _ h => (by cases h), fun _ => trivial, fun _ _ h => (by cases h), List.Pairwise.nil, fun _ _ _ h => (by cases h)⟩
  have hv : v ≤ 0 := hv
  show v = 0; omega

theorem PcV.mono {s s' : State} {u : Nat} {q : Pc} (h : PcV s u q) (hi : s.nid ≤ s'.nid)
    (hp : ∀ x, pend q = some x → ∀ u', u' ≠ u → pend (s'.pc u') = some x → pend (s.pc u') = some x ∨ s.nid ≤ x)
    (hl : ∀ x, pend q = some x → ∀ w e, e ∈ s'.log w → e ∈ s.log w ∨ e.id ≠ x)
    (hl2 : ∀ w e, e ∈ s.log w → e ∈ s'.log w)
    (hb : ∀ x, x < s.nid → s'.bef x = s.bef x) (ht : ∀ w, (s.tv u).ver w → (s'.tv u).ver w) (ho : ∀ w, (s.tv u).ops w → (s'.tv u).ops w) : PcV s' u q := by
  have pd : ∀ x, pend q = some x → Pd s u x → Pd s' u x := by
    intro x hx p
    refine ⟨Nat.lt_of_lt_of_le p.lt hi, ?_, ?_, ?_⟩
    · intro u' hu' he
      rcases hp x hx u' hu' he with g | g
      · exact p.only u' hu' g
      · have := p.lt; omega
    · intro w e he
      rcases hl x hx w e he with g | g
      · exact p.none w e g
      · exact g
    · rw [hb x p.lt]; exact fun w hw => ht w (p.bef w hw)
  cases q with
  | idle => trivial
  | go x o => exact pd x rfl h
  | alloc x o => exact pd x rfl h
  | «at» x o v => exact ⟨pd x rfl h.1, ht _ h.2.1, by rw [hb x h.1.lt]; exact h.2.2⟩
  | rdy x o v => exact ⟨pd x rfl h.1, ht _ h.2.1, by rw [hb x h.1.lt]; exact h.2.2⟩
  | crit x o v => exact ⟨pd x rfl h.1, ht _ h.2.1, by rw [hb x h.1.lt]; exact h.2.2⟩
  | rel x o v r => exact ⟨ht _ h.1, ho _ h.2.1, hl2 _ _ h.2.2⟩

theorem PcV.pd {s : State} {t x : Nat} {q : Pc} (h : PcV s t q) (hq : pend q = some x) : Pd s t x := by
  cases q with
  | idle => cases hq
  | go y o => cases hq; exact h
  | alloc y o => cases hq; exact h
  | «at» y o v => cases hq; exact h.1
  | rdy y o v => cases hq; exact h.1
  | crit y o v => cases hq; exact h.1
  | rel y o v r => cases hq

end Scc.Haze
