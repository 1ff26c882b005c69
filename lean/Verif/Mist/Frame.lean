import Verif.Mist.Model
import Verif.Mist.Keep

/-! # What steps leave as it is -/

namespace Scc.Mist

open Scc.Haze

theorem ite_ver {b : Bool} {V W : View} {x : Nat} (h : V.ver x) (h' : W.ver x) : (if b then V else W).ver x := by
  cases b
  · exact h'
  · exact h

theorem ver_upd {s : State} {t : Nat} {v : View} (h : ∀ w, (s.tv t).ver w → v.ver w) : ∀ u w, (s.tv u).ver w → (upd s.tv t v u).ver w := by
  intro u w hw
  by_cases e : u = t
  · subst e; rw [upd_eq]; exact h w hw
  · rw [upd_ne _ _ e]; exact hw

theorem grow_ver {ix : Nat → Nat → Nat} {s s' : State} (st : Haze.Step ix s s') (t x : Nat) (h : (s.tv t).ver x) : (s'.tv t).ver x := by
  cases st with
  | call o g => exact h
  | send => exact h
  | recv g => refine ver_upd (s := s) ?_ t x h; exact fun _ h => .inl h
  | load g ok ha => refine ver_upd (s := s) ?_ t x h; exact fun _ h => .inl (.inl h)
  | null g ok ha hm => refine ver_upd (s := s) ?_ t x h; exact fun _ h => .inl (.inl h)
  | loadNull g ok ha hm => refine ver_upd (s := s) ?_ t x h; exact fun _ h => .inl (.inl h)
  | make g ha => refine ver_upd (s := s) ?_ t x h; exact fun _ h => .inl (.inl (.inl h))
  | found g ok ha => refine ver_upd (s := s) ?_ t x h; exact fun _ h => .inl (.inl h)
  | direct g hp => refine ver_upd (s := s) ?_ t x h; exact fun _ h => h
  | past g hu => refine ver_upd (s := s) ?_ t x h; exact fun _ h => .inl h
  | moved l g hp hd => refine ver_upd (s := s) ?_ t x h; exact fun _ h => ite_ver (.inl h) h
  | lock g hr hd hw hs => refine ver_upd (s := s) ?_ t x h; exact fun _ h => .inl h
  | share g hr hd hw => refine ver_upd (s := s) ?_ t x h; exact fun _ h => .inl h
  | retry l g hd => refine ver_upd (s := s) ?_ t x h; exact fun _ h => ite_ver (.inl h) h
  | act g => refine ver_upd (s := s) ?_ t x h; exact fun _ h => h
  | unlock g hr => refine ver_upd (s := s) ?_ t x h; exact fun _ h => h
  | unshare g hr => refine ver_upd (s := s) ?_ t x h; exact fun _ h => h
  | take g ok ha => refine ver_upd (s := s) ?_ t x h; exact fun _ h => .inl (.inl h)
  | leave g => refine ver_upd (s := s) ?_ t x h; exact fun _ h => h
  | pick i g hp hd hw hs => refine ver_upd (s := s) ?_ t x h; exact fun _ h => .inl h
  | move g hw => refine ver_upd (s := s) ?_ t x h; exact fun _ h => .inl h
  | giveUp g => refine ver_upd (s := s) ?_ t x h; exact fun _ h => h
  | kill g => refine ver_upd (s := s) ?_ t x h; exact fun _ h => h
  | unlink g hp hd => exact h
  | check g ok hl => refine ver_upd (s := s) ?_ t x h; exact fun _ h => ite_ver (.inl (.inl (.inl h))) (.inl (.inl h))
  | resize g hr => refine ver_upd (s := s) ?_ t x h; exact fun _ h => .inl h
  | busy g => refine ver_upd (s := s) ?_ t x h; exact fun _ h => h
  | same g ok => refine ver_upd (s := s) ?_ t x h; exact fun _ h => .inl (.inl h)
  | other g ok hm => refine ver_upd (s := s) ?_ t x h; exact fun _ h => .inl (.inl h)
  | skip g => refine ver_upd (s := s) ?_ t x h; exact fun _ h => h
  | grow g ok => refine ver_upd (s := s) ?_ t x h; exact fun _ h => .inl h
  | lockAll g hd hw hs he => refine ver_upd (s := s) ?_ t x h; exact fun _ h => .inl h
  | clear g => refine ver_upd (s := s) ?_ t x h; exact fun _ h => .inl h
  | killAll g => refine ver_upd (s := s) ?_ t x h; exact fun _ h => h
  | done g => refine ver_upd (s := s) ?_ t x h; exact fun _ h => h

/-- Facts about all steps. -/
structure Grow (ix : Nat → Nat → Nat) (s s' : State) : Prop where
  isA : ∀ v, s.isA v = true → s'.isA v = true
  isN : ∀ v, v ≤ s.n → s'.isA v = s.isA v
  prev : ∀ v, s.isA v = true → s'.prev v = s.prev v
  ids : ∀ a b x, Ids s a b x → Ids s' a b x
  post : ∀ V, s.post V → s'.post V

theorem Grow.push {ix : Nat → Nat → Nat} {s s' : State} (I : Inv ix s) {a : Bool} {l : Option Nat} (hA : s'.isA = upd s.isA (s.n + 1) a) (hp : s'.prev = upd s.prev (s.n + 1) l)
    (hw : s'.wr = s.wr) (hr : s'.rd = s.rd) (ho : s'.post = s.post) : Grow ix s s' where
  isA := by
    intro v h
    rw [hA, upd_ne _ _ (by have := isA_le I h; omega)]; exact h
  isN := by intro v h; rw [hA, upd_ne _ _ (by omega)]
  prev := by
    intro v h
    rw [hp, upd_ne _ _ (by have := isA_le I h; omega)]
  ids := by unfold Ids; rw [hw, hr]; exact fun _ _ _ h => h
  post := by rw [ho]; exact fun _ h => h

theorem grow_step {ix : Nat → Nat → Nat} {s s' : State} (I : Inv ix s) (st : Haze.Step ix s s') : Grow ix s s' := by
  cases st with
  | make => exact Grow.push I rfl rfl rfl rfl rfl
  | grow => exact Grow.push I rfl rfl rfl rfl rfl
  | clear => exact Grow.push I rfl rfl rfl rfl rfl
  | act => exact ⟨fun _ h => h, fun _ _ => rfl, fun _ _ => rfl, fun _ _ _ h => h.elim (fun h => .inl (.inl h)) (fun h => .inr (.inl h)), fun _ h => h⟩
  | move => exact ⟨fun _ h => h, fun _ _ => rfl, fun _ _ => rfl, fun _ _ _ h => h.elim (fun h => .inl (.inl h)) (fun h => .inr h), fun _ h => h⟩
  | send => exact ⟨fun _ h => h, fun _ _ => rfl, fun _ _ => rfl, fun _ _ _ h => h, fun _ h => .inl h⟩
  | _ => exact ⟨fun _ h => h, fun _ _ => rfl, fun _ _ => rfl, fun _ _ _ h => h, fun _ h => h⟩

/-- Where a pointer to a dropped array was replaced there is null. -/
def Drd (s : State) : Prop := ∀ t v, s.mp t = .drd v → s.isA (v + 1) = false

theorem drd_step {ix : Nat → Nat → Nat} {s s' : State} (I : Inv ix s) (D : Drd s) (st : Haze.Step ix s s') : Drd s' := by
  have G := grow_step I st
  intro t v h
  have old : s.mp t = .drd v → s'.isA (v + 1) = false := by
    intro g
    have hm := I.mps t; rw [g] at hm
    rw [G.isN _ (by have := hm.2.2.1; omega)]; exact D t v g
  cases st with
  | @clear t' v' h' =>
    rcases upd_back h with g | ⟨e, g⟩
    · exact old g
    · cases g
      have hm := I.mps t'; rw [h'] at hm
      have e : v = s.n := hm.2.2.2.1
      show upd s.isA (s.n + 1) false (v + 1) = false
      rw [e, upd_eq]
  | take | leave | pick | move | giveUp | kill | check | resize | busy | same | other | skip | grow | lockAll | killAll | done =>
    rcases upd_back h with g | ⟨e, g⟩
    · exact old g
    · cases g
  | _ => exact old h

/-- A call that finds no array changes nothing. -/
theorem aft_null {ix : Nat → Nat → Nat} {s : State} (L : Lin ix s) {x : Nat} {o : Op} {m : Nat} (ok : m ≤ s.n) (ha : s.isA m = false) (hm : o.make = false)
    (r : Option Nat) (j : Nat) : after empty (flat (upd s.log m (s.log m ++ [⟨x, o, r⟩])) j) = after empty (flat s.log j) := by
  rcases Nat.lt_or_ge j m with h | h
  · rw [flat_lt _ h]
  · obtain ⟨B, hB1, hB2, hB3⟩ := flat_split s.log h
    rw [hB3, hB1, after_append, after_append, after_append]
    congr 1
    show upd (after empty (flat s.log m)) o.key (o.f (after empty (flat s.log m) o.key)).1 = _
    funext k
    by_cases e : k = o.key
    · rw [e, upd_eq, L.nulls m ok ha, o.absent hm]
    · rw [upd_ne _ _ e]

/-- A call does not change what is known of other keys. -/
theorem aft_other (log : Nat → List Ev) {m k : Nat} (e : Ev) (hk : e.op.key ≠ k) (j : Nat) :
    after empty (flat (upd log m (log m ++ [e])) j) k = after empty (flat log j) k := by
  rcases Nat.lt_or_ge j m with h | h
  · rw [flat_lt _ h]
  · obtain ⟨B, hB1, hB2, hB3⟩ := flat_split log h
    rw [hB3, hB1, after_append, after_append, after_append]
    exact after_key B (upd_ne _ _ (Ne.symm hk))

/-- A bucket that is to be moved has what the calls so far have made of its keys. -/
theorem alive_val {ix : Nat → Nat → Nat} {s : State} (I : Inv ix s) (L : Lin ix s) {p k : Nat} (hp : s.prev s.n = some p) (hd : s.dead p (ix p k) = false)
    (hk : ∀ t, s.mp t ≠ .kl s.n p (ix p k)) : after empty (flat s.log p) k = s.val p k := by
  obtain ⟨h1, h2, h3⟩ := I.link _ _ hp
  have hc := L.cur k
  rw [State.cval, hp, I.fresh p hp k hd hk] at hc
  have hc : after empty (flat s.log s.n) k = (none : Option Nat).or (s.val p k) := hc
  obtain ⟨B, hB1, hB2, hB3⟩ := flat_split s.log (v := p) (j := s.n) (by omega)
  have hBk : ∀ e ∈ B, e.op.key ≠ k := by
    intro e he
    obtain ⟨w, g1, g2, g3⟩ := hB2 e he
    have hw : w = s.n := by omega
    exact L.quiet p hp k hd e (hw ▸ g3)
  rw [hB1, after_append, after_other B hBk] at hc
  rw [hc]; simp

theorem mv_val {ix : Nat → Nat → Nat} {s : State} (I : Inv ix s) (L : Lin ix s) {t v p i : Nat} (h : s.mp t = .mv v p i) :
    s.prev v = some p ∧ v = p + 1 ∧ s.wl p i = some (t, true) ∧ ∀ k, ix p k = i → v = s.n ∧ after empty (flat s.log p) k = s.val p k := by
  have hm := I.mps t; rw [h] at hm
  refine ⟨hm.1, (I.link _ _ hm.1).1, hm.2, fun k e => ?_⟩
  have hv : v = s.n := mv_where (k := k) I hm.1 (e ▸ hm.2) (by rw [h]; exact fun h => by cases h)
  refine ⟨hv, alive_val I L (hv ▸ hm.1) (wl_alive I (e ▸ hm.2)) (fun u hu => ?_)⟩
  have hq := I.mps u; rw [hu] at hq
  have := hq.2.1; rw [e, hm.2] at this; cases this
  rw [h] at hu; cases hu

theorem act_val {ix : Nat → Nat → Nat} {s : State} (I : Inv ix s) (L : Lin ix s) {t x : Nat} {o : Op} {v : Nat} (h : s.pc t = .crit x o v) :
    after empty (flat s.log v) o.key = s.val v o.key := by
  have hp := I.pcs t; rw [h] at hp
  obtain ⟨hA, hg, hh⟩ := hp
  obtain ⟨hc, hc'⟩ := cval_val I hA hg hh
  obtain ⟨B, hB1, hB2, hB3⟩ := flat_split s.log (isA_le I hA)
  have hBk : ∀ e ∈ B, e.op.key ≠ o.key := by
    intro e he
    obtain ⟨w, h1, h2, h3⟩ := hB2 e he
    rcases crit_where I hA hh with e' | e'
    · omega
    · have := (I.link _ _ e').1
      have hw : w = s.n := by omega
      exact L.quiet v e' o.key (held_alive I hh) e (hw ▸ h3)
  have h0 := L.cur o.key
  rw [hB1, after_append, after_other B hBk, hc] at h0
  exact h0

/-- What is left as it is by steps that change no entry. -/
structure Same (ix : Nat → Nat → Nat) (s s' : State) : Prop where
  val : s'.val = s.val
  log : ∀ a, s.isA a = true → s'.log a = s.log a
  new : ∀ e, e ∈ s'.log (s.n + 1) → e ∈ s.log (s.n + 1)
  isA : ∀ a, s'.isA a = true → s.isA a = true ∨ a = s.n + 1
  aft : ∀ j k, after empty (flat s'.log j) k = after empty (flat s.log j) k
  kl : ∀ t a p i, s.mp t = .kl a p i → s'.mp t = .kl a p i ∨ s'.dead p i = true
  dead : ∀ p b, s'.dead p b = true → s.dead p b = true ∨ (∃ t a, s.mp t = .kl a p b) ∨ (∃ t v, s.mp t = .mv v p b ∧ ∀ k, ix p k = b → s.val p k = none) ∨ ∃ t, s.mp t = .drd p

theorem Same.pcs {ix : Nat → Nat → Nat} {s s' : State} (hv : s'.val = s.val) (hl : s'.log = s.log) (hA : s'.isA = s.isA) (hm : s'.mp = s.mp) (hd : s'.dead = s.dead) : Same ix s s' where
  val := hv
  log := by rw [hl]; exact fun _ _ => rfl
  new := by rw [hl]; exact fun _ h => h
  isA := by rw [hA]; exact fun _ h => .inl h
  aft := by rw [hl]; exact fun _ _ => rfl
  kl := by rw [hm]; exact fun _ _ _ _ h => .inl h
  dead := by rw [hd]; exact fun _ _ h => .inl h

theorem Same.mps {ix : Nat → Nat → Nat} {s s' : State} {t : Nat} {q : Mp} (hv : s'.val = s.val) (hl : s'.log = s.log) (hA : ∀ a, s'.isA a = true → s.isA a = true ∨ a = s.n + 1)
    (hm : s'.mp = upd s.mp t q) (hk : ∀ a p i, s.mp t ≠ .kl a p i) (hd : s'.dead = s.dead) : Same ix s s' where
  val := hv
  log := by rw [hl]; exact fun _ _ => rfl
  new := by rw [hl]; exact fun _ h => h
  isA := hA
  aft := by rw [hl]; exact fun _ _ => rfl
  kl := by
    intro u a p i h
    rw [hm]
    by_cases e : u = t
    · subst e; exact absurd h (hk a p i)
    · rw [upd_ne _ _ e]; exact .inl h
  dead := by rw [hd]; exact fun _ _ h => .inl h

theorem isA_push {s : State} {b : Bool} (a : Nat) (h : upd s.isA (s.n + 1) b a = true) : s.isA a = true ∨ a = s.n + 1 := by
  by_cases e : a = s.n + 1
  · exact .inr e
  · rw [upd_ne _ _ e] at h; exact .inl h

theorem same_step {ix : Nat → Nat → Nat} {s s' : State} (L : Lin ix s) (st : Haze.Step ix s s') (hc : ∀ t x o v, s.pc t = .crit x o v → s'.pc t = .crit x o v)
    (hm : ∀ t v p i, s'.mp t = .kl v p i → s.mp t = .kl v p i) : Same ix s s' := by
  cases st with
  | @act t x o v h =>
    have := hc t x o v h
    have : upd s.pc t _ t = _ := this
    rw [upd_eq] at this; cases this
  | @move t v p i h =>
    have := hm t v p i (upd_eq _ _ _)
    rw [h] at this; cases this
  | @null t x o m h ok ha hmk =>
    refine ⟨rfl, ?_, ?_, fun _ h => .inl h, ?_, fun _ _ _ _ h => .inl h, fun _ _ h => .inl h⟩
    · intro a g
      exact upd_ne _ _ (fun e => by rw [e, ha] at g; cases g)
    · intro e he
      have he : e ∈ upd s.log m _ (s.n + 1) := he
      rw [upd_ne _ _ (by have := ok.1; omega)] at he; exact he
    · intro j k
      exact congrFun (aft_null L ok.1 ha hmk _ j) k
  | make h ha =>
    refine ⟨rfl, fun _ _ => rfl, fun _ h => h, isA_push, fun _ _ => rfl, fun _ _ _ _ h => .inl h, fun _ _ h => .inl h⟩
  | @kill t v p i h =>
    refine ⟨rfl, fun _ _ => rfl, fun _ h => h, fun _ h => .inl h, fun _ _ => rfl, ?_, ?_⟩
    · intro u a q j g
      by_cases e : u = t
      · subst e
        rcases h with h | ⟨h, _⟩
        · rw [h] at g; cases g
          exact .inr (upd2_eq _ _ _ _)
        · rw [h] at g; cases g
      · exact .inl ((upd_ne _ _ e).trans g)
    · intro q b hd
      have hd : upd2 s.dead p i true q b = true := hd
      by_cases e : q = p ∧ b = i
      · obtain ⟨rfl, rfl⟩ := e
        rcases h with h | h
        · exact .inr (.inl ⟨t, v, h⟩)
        · exact .inr (.inr (.inl ⟨t, v, h⟩))
      · rw [upd2_ne _ _ e] at hd; exact .inl hd
  | @killAll t v h =>
    refine ⟨rfl, fun _ _ => rfl, fun _ h => h, fun _ h => .inl h, fun _ _ => rfl, ?_, ?_⟩
    · intro u a q j g
      refine .inl ((upd_ne _ _ ?_).trans g)
      rintro rfl
      rw [h] at g; cases g
    · intro q b hd
      have hd : (if q = v then true else s.dead q b) = true := hd
      by_cases e : q = v
      · subst e; exact .inr (.inr (.inr ⟨t, h⟩))
      · rw [if_neg e] at hd; exact .inl hd
  | grow h ok => exact Same.mps rfl rfl isA_push rfl (fun _ _ _ g => by rw [h] at g; cases g) rfl
  | clear h => exact Same.mps rfl rfl isA_push rfl (fun _ _ _ g => by rw [h] at g; cases g) rfl
  | take h | leave h | pick _ h | giveUp h | check h | resize h | busy h | same h | other h | skip h | lockAll h | done h =>
    exact Same.mps rfl rfl (fun _ h => .inl h) rfl (fun _ _ _ g => by rw [h] at g; cases g) rfl
  | _ => exact Same.pcs rfl rfl rfl rfl rfl

end Scc.Mist
