import Verif.Mist.Know

/-! # `Know` is preserved -/

namespace Scc.Mist

open Scc.Haze

theorem upd_back {β : Type} {f : Nat → β} {t u : Nat} {x y : β} (h : upd f t x u = y) : f u = y ∨ (u = t ∧ x = y) := by
  by_cases e : u = t
  · rw [e, upd_eq] at h; exact .inr ⟨e, h⟩
  · rw [upd_ne _ _ e] at h; exact .inl h

/-- Where a call that is ready or has the lock was before. -/
theorem pc_back {ix : Nat → Nat → Nat} {s s' : State} (st : Step ix s s') (u x : Nat) (o : Op) (v : Nat) :
    (s'.pc u = .rdy x o v → s.pc u = .rdy x o v ∨ s.pc u = .at x o v) ∧
    (s'.pc u = .crit x o v → s.pc u = .crit x o v ∨ s.pc u = .rdy x o v) := by
  cases st with
  | lock h hr hd hw hs =>
    refine ⟨fun g => ?_, fun g => ?_⟩
    · rcases upd_back g with g | ⟨e, g⟩
      · exact .inl g
      · cases g
    · rcases upd_back g with g | ⟨e, g⟩
      · exact .inl g
      · cases g; subst e; exact .inr h
  | share h hr hd hw =>
    refine ⟨fun g => ?_, fun g => ?_⟩
    · rcases upd_back g with g | ⟨e, g⟩
      · exact .inl g
      · cases g
    · rcases upd_back g with g | ⟨e, g⟩
      · exact .inl g
      · cases g; subst e; exact .inr h
  | direct h _ | past h _ | moved _ h _ _ =>
    refine ⟨fun g => ?_, fun g => ?_⟩
    · rcases upd_back g with g | ⟨e, g⟩
      · exact .inl g
      · cases g; subst e; exact .inr h
    · rcases upd_back g with g | ⟨e, g⟩
      · exact .inl g
      · cases g
  | call | load | null | loadNull | make | found | retry | act | unlock | unshare =>
    refine ⟨fun g => ?_, fun g => ?_⟩
    · rcases upd_back g with g | ⟨e, g⟩
      · exact .inl g
      · cases g
    · rcases upd_back g with g | ⟨e, g⟩
      · exact .inl g
      · cases g
  | _ => exact ⟨fun g => .inl g, fun g => .inl g⟩

/-- Where a thread that is resizing was before. -/
theorem mp_back {ix : Nat → Nat → Nat} {s s' : State} (st : Step ix s s') (u v : Nat) :
    (s'.mp u = .chk v → s.mp u = .chk v ∨ (Link s v ∧ (s.unl v = true → ∀ y, (s.umsg v).ops y → (s'.tv u).ops y))) ∧
    (s'.mp u = .lk v → s.mp u = .lk v ∨ s.mp u = .chk v) ∧
    (s'.mp u = .swp v → s.mp u = .swp v ∨ s.mp u = .lk v) := by
  cases st with
  | @check t w h ok hl =>
    refine ⟨fun g => ?_, fun g => ?_, fun g => ?_⟩
    · rcases upd_back g with g | ⟨e, g⟩
      · exact .inl g
      · cases g; subst e
        refine .inr ⟨hl, fun hu y hy => ?_⟩
        show (upd s.tv u _ u).ops y
        rw [upd_eq, hu]; exact .inr hy
    · rcases upd_back g with g | ⟨e, g⟩
      · exact .inl g
      · cases g
    · rcases upd_back g with g | ⟨e, g⟩
      · exact .inl g
      · cases g
  | resize h hr =>
    refine ⟨fun g => ?_, fun g => ?_, fun g => ?_⟩
    · rcases upd_back g with g | ⟨e, g⟩
      · exact .inl g
      · cases g
    · rcases upd_back g with g | ⟨e, g⟩
      · exact .inl g
      · cases g; subst e; exact .inr h
    · rcases upd_back g with g | ⟨e, g⟩
      · exact .inl g
      · cases g
  | same h ok =>
    refine ⟨fun g => ?_, fun g => ?_, fun g => ?_⟩
    · rcases upd_back g with g | ⟨e, g⟩
      · exact .inl g
      · cases g
    · rcases upd_back g with g | ⟨e, g⟩
      · exact .inl g
      · cases g
    · rcases upd_back g with g | ⟨e, g⟩
      · exact .inl g
      · cases g; subst e; exact .inr h
  | take | leave | pick | move | giveUp | kill | busy | other | skip | grow | lockAll | clear | killAll | done =>
    refine ⟨fun g => ?_, fun g => ?_, fun g => ?_⟩
    · rcases upd_back g with g | ⟨e, g⟩
      · exact .inl g
      · cases g
    · rcases upd_back g with g | ⟨e, g⟩
      · exact .inl g
      · cases g
    · rcases upd_back g with g | ⟨e, g⟩
      · exact .inl g
      · cases g
  | _ => exact ⟨fun g => .inl g, fun g => .inl g, fun g => .inl g⟩

/-- A new event, if any, is one of a call in its critical section, or one that has found no array. -/
theorem log_back {ix : Nat → Nat → Nat} {s s' : State} (st : Step ix s s') {v : Nat} {e : Ev} (he : e ∈ s'.log v) :
    e ∈ s.log v ∨ (∃ t, s.pc t = .crit e.id e.op v) ∨ s.isA v = false := by
  have key : ∀ (w x : Nat) (o : Op) (r : Option Nat), e ∈ upd s.log w (s.log w ++ [⟨x, o, r⟩]) v → e ∈ s.log v ∨ (v = w ∧ e = ⟨x, o, r⟩) := by
    intro w x o r h
    by_cases e' : v = w
    · rw [e', upd_eq] at h
      rcases List.mem_append.mp h with h | h
      · exact .inl (e' ▸ h)
      · exact .inr ⟨e', List.mem_singleton.mp h⟩
    · rw [upd_ne _ _ e'] at h; exact .inl h
  cases st with
  | @act t x o w h =>
    rcases key w x o _ he with h1 | ⟨h1, h2⟩
    · exact .inl h1
    · subst h1 h2; exact .inr (.inl ⟨t, h⟩)
  | @null t x o m h ok ha hm =>
    rcases key m x o _ he with h1 | ⟨h1, h2⟩
    · exact .inl h1
    · exact .inr (.inr (h1 ▸ ha))
  | _ => exact .inl he

/-- Who has removed a link, and what is released with it. -/
theorem unl_back {ix : Nat → Nat → Nat} {s s' : State} (st : Step ix s s') (v : Nat) :
    (∀ y, (s.umsg v).ops y → (s'.umsg v).ops y) ∧ (s'.unl v = true → s.unl v = true ∨ ∃ p, s.prev v = some p ∧ ∀ k, s.dead p (ix p k) = true) := by
  cases st with
  | @unlink t w p h hp hd =>
    refine ⟨fun y hy => ?_, fun g => ?_⟩
    · show (upd s.umsg w _ v).ops y
      by_cases e : v = w
      · rw [e, upd_eq]; exact .inl (e ▸ hy)
      · rw [upd_ne _ _ e]; exact hy
    · rcases upd_back g with g | ⟨e, _⟩
      · exact .inl g
      · exact .inr ⟨p, e ▸ hp, hd⟩
  | _ => exact ⟨fun _ h => h, fun h => .inl h⟩

theorem bmsg_mono {ix : Nat → Nat → Nat} {s s' : State} (st : Step ix s s') (a c y : Nat) (hy : (s.bmsg a c).ops y) : (s'.bmsg a c).ops y := by
  have key : ∀ v b V, (upd2 s.bmsg v b ((s.bmsg v b).join V) a c).ops y := by
    intro v b V
    by_cases e : a = v ∧ c = b
    · rw [e.1, e.2, upd2_eq]; rw [e.1, e.2] at hy; exact .inl hy
    · rw [upd2_ne _ _ e]; exact hy
  cases st with
  | unlock => exact key _ _ _
  | unshare => exact key _ _ _
  | giveUp => exact key _ _ _
  | kill => exact key _ _ _
  | move => exact .inl hy
  | @killAll t v h =>
    show (if a = v then (s.bmsg a c).join (s.tv t) else s.bmsg a c).ops y
    split
    · exact .inl hy
    · exact hy
  | _ => exact hy

/-- A bucket that dies was locked by its killer, who releases all it knows. -/
theorem dead_back {ix : Nat → Nat → Nat} {s s' : State} (I : Inv ix s) (R : Race s) (st : Step ix s s') (a c : Nat) (hd : s'.dead a c = true) :
    s.dead a c = true ∨ ∀ x, Ids s' a c x → (s'.bmsg a c).ops x := by
  cases st with
  | @kill t v p i h =>
    have hd : upd2 s.dead p i true a c = true := hd
    by_cases e : a = p ∧ c = i
    · refine .inr (fun x hx => ?_)
      show (upd2 s.bmsg p i _ a c).ops x
      obtain ⟨rfl, rfl⟩ := e
      rw [upd2_eq]
      have hw : s.wl a c = some (t, true) := by
        have hp := I.mps t
        rcases h with h | h
        · rw [h] at hp; exact hp.2.1
        · rw [h.1] at hp; exact hp.2
      exact .inr (R.r3 a c t true hw x hx)
    · rw [upd2_ne _ _ e] at hd; exact .inl hd
  | @killAll t v h =>
    have hd : (if a = v then true else s.dead a c) = true := hd
    by_cases e : a = v
    · refine .inr (fun x hx => ?_)
      show (if a = v then (s.bmsg a c).join (s.tv t) else s.bmsg a c).ops x
      rw [if_pos e]
      have hp := I.mps t; rw [h] at hp
      subst e
      exact .inr (R.r3 a c t true (hp.2.2.2.1 c) x hx)
    · rw [if_neg e] at hd; exact .inl hd
  | _ => exact .inl hd

theorem kns_push {ix : Nat → Nat → Nat} {s s' : State} (K : Kns ix s' s) {rel : View} (hr : Kn ix s' rel) (h2 : ∀ x, R2 ix s' (s.n + 1) x → rel.ops x) :
    ∀ v, v ≤ s.n + 1 → Kn ix s' (upd s.cmsg (s.n + 1) (((s.cmsg s.n).join rel).addV (s.n + 1)) v) := by
  intro v hv
  by_cases e : v = s.n + 1
  · rw [e, upd_eq]
    exact ((K.cm s.n (Nat.le_refl _)).join hr).addV (fun x r => .inr (h2 x r))
  · rw [upd_ne _ _ e]; exact K.cm v (by omega)

theorem kns_step {ix : Nat → Nat → Nat} {s s' : State} (I : Inv ix s) (L : Lin ix s) (O : Ord s) (K : Know ix s) (st : Step ix s s') : Kns ix s' s' := by
  have F := frame_step I st
  have C : Kns ix s' s := Kns.mono I L O K F
  have I' := inv_step I st
  have nop : s'.prev (s.n + 1) = none → ∀ V : View, ∀ x, R2 ix s' (s.n + 1) x → V.ops x := by
    rintro hp V x ⟨v, p, k, h1, _⟩
    rw [hp] at h1; cases h1
  cases st with
  | call o h => exact ⟨C.tv, C.cm, C.um, C.bm, C.rm, C.po⟩
  | @send t => exact ⟨C.tv, C.cm, C.um, C.bm, C.rm, fun V hV => hV.elim (C.po V) (fun e => e ▸ C.tv t)⟩
  | @recv t v h => exact ⟨knU C.tv ((C.tv t).join (C.po v h)), C.cm, C.um, C.bm, C.rm, C.po⟩
  | load h ok ha => exact ⟨knU C.tv (Kn.acq C O.cls ok.1), C.cm, C.um, C.bm, C.rm, C.po⟩
  | loadNull h ok ha hm => exact ⟨knU C.tv (Kn.acq C O.cls ok.1), C.cm, C.um, C.bm, C.rm, C.po⟩
  | found h ok ha => exact ⟨knU C.tv (Kn.acq C O.cls ok.1), C.cm, C.um, C.bm, C.rm, C.po⟩
  | @null t x o m h ok ha hm =>
    refine ⟨knU C.tv ((Kn.acq C O.cls ok.1).addO ?_), C.cm, C.um, C.bm, C.rm, C.po⟩
    rintro y ⟨v, p, e, he, hp, hi, hx⟩
    have hp : s.prev v = some p := hp
    have he : e ∈ upd s.log m (s.log m ++ [⟨x, o, (o.f none).2⟩]) v := he
    have hpd := O.pcv t; rw [h] at hpd
    by_cases e' : v = m
    · have := (I.link _ _ hp).2.2; rw [e', ha] at this; cases this
    · rw [upd_ne _ _ e'] at he; exact absurd hi (Pd.none hpd v e he)
  | @make t x o h ha =>
    have hn : (s.push true none (s.tv t)).prev (s.n + 1) = none := upd_eq _ _ _
    exact ⟨knU C.tv ((Kn.acq C O.cls (Nat.le_refl _)).addV (nop hn _)), kns_push C (C.tv t) (nop hn _), C.um, C.bm, C.rm, C.po⟩
  | @direct t x o v h hp => exact ⟨knU C.tv (C.tv t), C.cm, C.um, C.bm, C.rm, C.po⟩
  | @past t x o v h hu => exact ⟨knU C.tv ((C.tv t).join (C.um v)), C.cm, C.um, C.bm, C.rm, C.po⟩
  | @moved t x o v p l h hp hd => exact ⟨knU C.tv (Kn.ite ((C.tv t).join (C.bm _ _)) (C.tv t)), C.cm, C.um, C.bm, C.rm, C.po⟩
  | @lock t x o v h hr hd hw hs => exact ⟨knU C.tv ((C.tv t).join (C.bm _ _)), C.cm, C.um, C.bm, C.rm, C.po⟩
  | @share t x o v h hr hd hw => exact ⟨knU C.tv ((C.tv t).join (C.bm _ _)), C.cm, C.um, C.bm, C.rm, C.po⟩
  | @retry t x o v l h hd => exact ⟨knU C.tv (Kn.ite ((C.tv t).join (C.bm _ _)) (C.tv t)), C.cm, C.um, C.bm, C.rm, C.po⟩
  | @act t x o v h =>
    refine ⟨knU C.tv ((C.tv t).addO ?_), C.cm, C.um, C.bm, C.rm, C.po⟩
    rintro y ⟨w, p, e, he, hp, hi, hx⟩
    have hp : s.prev w = some p := hp
    have he : e ∈ upd s.log v (s.log v ++ [⟨x, o, (o.f (s.val v o.key)).2⟩]) w := he
    have hpd := O.pcv t; rw [h] at hpd
    have h4 := K.c4 t; rw [h] at h4
    have hpo := I.pcs t; rw [h] at hpo
    by_cases e' : w = v
    · rw [e', upd_eq] at he
      rcases List.mem_append.mp he with he | he
      · exact absurd hi (hpd.1.none v e he)
      · have := List.mem_singleton.mp he
        subst this
        subst e'
        have hp : s.prev w = some p := hp
        have hdd : s.dead p (ix p o.key) = true := by
          rcases hpo.2.1 with g | ⟨q, g, g'⟩
          · rw [hp] at g; cases g
          · rw [hp] at g; cases g; exact g'
        exact h4 p hp y (F.ids _ _ _ hdd hx)
    · rw [upd_ne _ _ e'] at he; exact absurd hi (hpd.1.none w e he)
  | @unlock t x o v r h hr => exact ⟨knU C.tv (C.tv t), C.cm, C.um, knU2 C.bm ((C.bm _ _).join (C.tv t)), C.rm, C.po⟩
  | @unshare t x o v r h hr => exact ⟨knU C.tv (C.tv t), C.cm, C.um, knU2 C.bm ((C.bm _ _).join (C.tv t)), C.rm, C.po⟩
  | @take t m h ok ha => exact ⟨knU C.tv (Kn.acq C O.cls ok.1), C.cm, C.um, C.bm, C.rm, C.po⟩
  | @leave t v h => exact ⟨knU C.tv (C.tv t), C.cm, C.um, C.bm, C.rm, C.po⟩
  | @pick t v p i h hp hd hw hs => exact ⟨knU C.tv ((C.tv t).join (C.bm _ _)), C.cm, C.um, C.bm, C.rm, C.po⟩
  | @move t v p i h hw =>
    have cw : Kn ix (s.move ix t v p i) (((s.tv t).join (View.sup (s.bmsg v) (Target ix v p i))).addO s.nid) := by
      refine ((C.tv t).join (Kn.sup (C.bm v))).addO ?_
      rintro y ⟨w, q, e, he, _, hi, _⟩
      have := O.eid w e he; omega
    refine ⟨knU C.tv cw, C.cm, C.um, ?_, C.rm, C.po⟩
    intro a b
    have c0 := C.bm a b
    refine ⟨?_, ?_⟩
    · exact fun y x r hy => hy.elim (fun g => .inl (c0.k1 y x r g)) (fun g => .inr ⟨g.1, g.2.1, cw.k1 y x r g.2.2⟩)
    · exact fun y x r hy => hy.elim (fun g => .inl (c0.k2 y x r g)) (fun g => .inr ⟨g.1, g.2.1, cw.k2 y x r g.2.2⟩)
  | @giveUp t v p i h => exact ⟨knU C.tv (C.tv t), C.cm, C.um, knU2 C.bm ((C.bm _ _).join (C.tv t)), C.rm, C.po⟩
  | @kill t v p i h => exact ⟨knU C.tv (C.tv t), C.cm, C.um, knU2 C.bm ((C.bm _ _).join (C.tv t)), C.rm, C.po⟩
  | @unlink t v p h hp hd => exact ⟨C.tv, C.cm, knU C.um ((C.um v).join (C.tv t)), C.bm, C.rm, C.po⟩
  | @check t v h ok hl =>
    have ca := Kn.acq C O.cls (t := t) ok.1
    exact ⟨knU C.tv (Kn.ite (ca.join (C.um v)) ca), C.cm, C.um, C.bm, C.rm, C.po⟩
  | @resize t v h hr => exact ⟨knU C.tv ((C.tv t).join C.rm), C.cm, C.um, C.bm, C.rm, C.po⟩
  | @busy t v h => exact ⟨knU C.tv (C.tv t), C.cm, C.um, C.bm, C.rm, C.po⟩
  | @same t v h ok => exact ⟨knU C.tv (Kn.acq C O.cls ok.1), C.cm, C.um, C.bm, C.rm, C.po⟩
  | @other t v m h ok hm => exact ⟨knU C.tv (Kn.acq C O.cls ok.1), C.cm, C.um, C.bm, C.rm, C.po⟩
  | @skip t v h => exact ⟨knU C.tv (C.tv t), C.cm, C.um, C.bm, C.rm, C.po⟩
  | @grow t v m h ok =>
    obtain ⟨e1, e2, e3⟩ := grow_link I h ok
    have h5 := K.c5 t; rw [h] at h5
    have hm := I.mps t; rw [h] at hm
    have hR : ∀ x, R2 ix ((s.push true (if s.isA m then some m else none) (s.tv t)).goto' t .fin ((s.tv t).addV (s.n + 1))) (s.n + 1) x → (s.tv t).ops x := by
      rintro x ⟨w, p, k, h1, h2, h3⟩
      have h1 : upd s.prev (s.n + 1) (if s.isA m then some m else none) (s.n + 1) = some w := h1
      rw [upd_eq, e1, e3] at h1; cases h1
      have h2 : upd s.prev (s.n + 1) (if s.isA m then some m else none) s.n = some p := h2
      rw [upd_ne _ _ (by omega)] at h2
      exact h5 p (e2 ▸ h2) k x h3
    exact ⟨knU C.tv ((C.tv t).addV hR), kns_push C (C.tv t) hR, C.um, C.bm, C.rm, C.po⟩
  | @lockAll t v h hd hw hs he => exact ⟨knU C.tv ((C.tv t).join (Kn.sup (C.bm v))), C.cm, C.um, C.bm, C.rm, C.po⟩
  | @clear t v h =>
    have hn : (s.push false none (s.tv t)).prev (s.n + 1) = none := upd_eq _ _ _
    exact ⟨knU C.tv ((C.tv t).addV (nop hn _)), kns_push C (C.tv t) (nop hn _), C.um, C.bm, C.rm, C.po⟩
  | @killAll t v h =>
    refine ⟨knU C.tv (C.tv t), C.cm, C.um, ?_, C.rm, C.po⟩
    intro a b
    show Kn ix _ (if a = v then (s.bmsg a b).join (s.tv t) else s.bmsg a b)
    by_cases e : a = v
    · rw [if_pos e]; exact (C.bm a b).join (C.tv t)
    · rw [if_neg e]; exact C.bm a b
  | @done t h => exact ⟨knU C.tv (C.tv t), C.cm, C.um, C.bm, C.rm.join (C.tv t), C.po⟩

theorem know_step {ix : Nat → Nat → Nat} {s s' : State} (I : Inv ix s) (L : Lin ix s) (O : Ord s) (R : Race s) (K : Know ix s) (S : Sharp ix s s') (st : Step ix s s') :
    Know ix s' := by
  have F := frame_step I st
  have old : ∀ v p, s.isA v = true → s'.prev v = some p → s.prev v = some p := by
    intro v p ha hp
    rcases F.prev v p hp with h | ⟨_, h, _⟩
    · exact h
    · have := isA_le I ha; omega
  refine ⟨?_, ?_, kns_step I L O K st, ?_, ?_, ?_, ?_⟩
  · intro v p e he hp
    rcases F.prev v p hp with hq | ⟨h1, h2, h3⟩
    · rcases log_back st he with h | ⟨t, h⟩ | h
      · exact F.dead _ _ (K.d1 v p e h hq)
      · have hpo := I.pcs t; rw [h] at hpo
        rcases hpo.2.1 with g | ⟨q, g, g'⟩
        · rw [hq] at g; cases g
        · rw [hq] at g; cases g; exact F.dead _ _ g'
      · have := (I.link _ _ hq).2.2; rw [h] at this; cases this
    · have hb := (lin_step I L st).blank
      rcases log_back st he with h | ⟨t, h⟩ | h
      · rw [h2, L.blank _ (Nat.lt_succ_self _)] at h; cases h
      · have hpo := I.pcs t; rw [h] at hpo
        have := isA_le I hpo.1; omega
      · exfalso
        rcases F.log v e he with g | ⟨t, g⟩
        · rw [h2, L.blank _ (Nat.lt_succ_self _)] at g; cases g
        · cases st with
          | @null t x o m h ok ha hm =>
            have : (s.actNull t x o m).n = s.n := rfl
            omega
          | act => have h1 : s.n = s.n + 1 := h1
                   omega
          | _ =>
            have he : e ∈ s.log v := he
            rw [h2, L.blank _ (Nat.lt_succ_self _)] at he; cases he
  · intro w v p hw hp k
    rcases F.prev v p hp with hp0 | ⟨h1, h2, h3⟩
    · rcases F.prev w v hw with hw | ⟨h1, h2, h3⟩
      · exact F.dead _ _ (K.d3 w v p hw hp0 k)
      · -- a new array: the one it replaces has no link
        cases st with
        | @grow t u m h ok =>
          obtain ⟨e1, e2, e3⟩ := grow_link I h ok
          have hm := I.mps t; rw [h] at hm
          have hl : Link s s.n := e2 ▸ hm.2.1
          rw [h3] at hp0
          have hp : s.prev s.n = some p := hp0
          rcases hl with hl | hl
          · rw [hp] at hl; cases hl
          · exact I.unl _ hl p hp k
        | make =>
          have hw : upd s.prev (s.n + 1) none w = some v := hw
          rw [h2, upd_eq] at hw; cases hw
        | clear =>
          have hw : upd s.prev (s.n + 1) none w = some v := hw
          rw [h2, upd_eq] at hw; cases hw
        | _ =>
          have hw : s.prev w = some v := hw
          have := isA_le I (I.link _ _ hw).2.2
          omega
    · exfalso
      have := (inv_step I st).link w v hw
      have h5 := isA_le (inv_step I st) this.2.2
      omega
  · intro v p hu hp k x hx
    obtain ⟨u1, u2⟩ := unl_back st v
    cases hb : s.unl v with
    | true =>
      have hv : v ≤ s.n := by
        rcases Nat.lt_or_ge s.n v with h | h
        · rw [(I.blank v h).2.2.1] at hb; cases hb
        · exact h
      rcases F.prev v p hp with hp | ⟨_, h, _⟩
      · exact u1 x (K.c2 v p hb hp k x (F.ids _ _ _ (I.unl v hb p hp k) hx))
      · omega
    | false =>
      rcases u2 hu with h | ⟨q, hq, hd⟩
      · rw [h] at hb; cases hb
      · have hv := isA_le I (I.link _ _ hq).2.2
        rcases F.prev v p hp with hp | ⟨_, h, _⟩
        · rw [hp] at hq; cases hq
          exact S.unlink v p hb hu hp k x (K.c3 p _ (hd k) x (F.ids _ _ _ (hd k) hx))
        · omega
  · intro p b hd x hx
    rcases dead_back I R st p b hd with h | h
    · exact bmsg_mono st p b x (K.c3 p b h x (F.ids _ _ _ h hx))
    · exact h x hx
  · intro t
    have key : ∀ x o v, (s.pc t = .rdy x o v ∨ s.pc t = .crit x o v) → ∀ p, s'.prev v = some p → ∀ y, Ids s' p (ix p o.key) y → (s'.tv t).ops y := by
      intro x o v h p hp y hy
      have hpo := I.pcs t
      have h4 := K.c4 t
      have ⟨ha, hg⟩ : s.isA v = true ∧ Gate ix s v o.key := by
        rcases h with h | h
        · rw [h] at hpo; exact hpo
        · rw [h] at hpo; exact ⟨hpo.1, hpo.2.1⟩
      have hp := old v p ha hp
      have hd : s.dead p (ix p o.key) = true := by
        rcases hg with g | ⟨q, g, g'⟩
        · rw [hp] at g; cases g
        · rw [hp] at g; cases g; exact g'
      refine F.tv t y ?_
      rcases h with h | h
      · rw [h] at h4; exact h4 p hp y (F.ids _ _ _ hd hy)
      · rw [h] at h4; exact h4 p hp y (F.ids _ _ _ hd hy)
    cases hq : s'.pc t with
    | rdy x o v =>
      intro p hp y hy
      rcases (pc_back st t x o v).1 hq with h | h
      · exact key x o v (.inl h) p hp y hy
      · have hpo := I.pcs t; rw [h] at hpo
        have hp' := old v p hpo hp
        have hpo' := (inv_step I st).pcs t; rw [hq] at hpo'
        have hd : s.dead p (ix p o.key) = true ∨ s.unl v = true := by
          cases st with
          | @moved t' x' o' v' p' l h' hp'' hd' =>
            rcases upd_back hq with g | ⟨e, g⟩
            · rw [h] at g; cases g
            · cases g
              rw [hp'] at hp''; cases hp''
              exact .inl hd'
          | @past t' x' o' v' h' hu =>
            rcases upd_back hq with g | ⟨e, g⟩
            · rw [h] at g; cases g
            · cases g; exact .inr hu
          | @direct t' x' o' v' h' hu =>
            rcases upd_back hq with g | ⟨e, g⟩
            · rw [h] at g; cases g
            · cases g; rw [hp'] at hu; cases hu
          | call | load | null | loadNull | make | found | retry | act | unlock | unshare | lock | share =>
            rcases upd_back hq with g | ⟨e, g⟩
            · have g : s.pc t = .rdy x o v := g
              rw [h] at g; cases g
            · cases g
          | _ =>
            have hq : s.pc t = .rdy x o v := hq
            rw [h] at hq; cases hq
        have hdd : s.dead p (ix p o.key) = true := by
          rcases hd with g | g
          · exact g
          · exact I.unl v g p hp' o.key
        rcases S.poison t x o v p h hq hp' with g | ⟨g1, g2⟩
        · exact g y (K.c3 p _ hdd y (F.ids _ _ _ hdd hy))
        · exact g2 y (K.c2 v p g1 hp' o.key y (F.ids _ _ _ hdd hy))
    | crit x o v =>
      intro p hp y hy
      rcases (pc_back st t x o v).2 hq with h | h
      · exact key x o v (.inr h) p hp y hy
      · exact key x o v (.inl h) p hp y hy
    | _ => trivial
  · intro t
    have key : ∀ v, (s.mp t = .chk v ∨ s.mp t = .lk v ∨ s.mp t = .swp v) → ∀ p, s'.prev v = some p → ∀ k y, Ids s' p (ix p k) y → (s'.tv t).ops y := by
      intro v h p hp k y hy
      have hmo := I.mps t
      have h5 := K.c5 t
      have ⟨ha, hg⟩ : s.isA v = true ∧ Link s v := by
        rcases h with h | h | h
        · rw [h] at hmo; exact hmo
        · rw [h] at hmo; exact ⟨hmo.1, hmo.2.1⟩
        · rw [h] at hmo; exact ⟨hmo.1, hmo.2.1⟩
      have hp := old v p ha hp
      have hd : s.dead p (ix p k) = true := by
        rcases hg with g | g
        · rw [hp] at g; cases g
        · exact I.unl v g p hp k
      refine F.tv t y ?_
      rcases h with h | h | h
      · rw [h] at h5; exact h5 p hp k y (F.ids _ _ _ hd hy)
      · rw [h] at h5; exact h5 p hp k y (F.ids _ _ _ hd hy)
      · rw [h] at h5; exact h5 p hp k y (F.ids _ _ _ hd hy)
    cases hq : s'.mp t with
    | chk v =>
      intro p hp k y hy
      rcases (mp_back st t v).1 hq with h | ⟨h1, h2⟩
      · exact key v (.inl h) p hp k y hy
      · have hmo := (inv_step I st).mps t; rw [hq] at hmo
        have hv : v ≤ s.n ∨ v = s.n + 1 := by
          rcases F.prev v p hp with g | ⟨_, g, _⟩
          · exact .inl (isA_le I (I.link _ _ g).2.2)
          · exact .inr g
        rcases F.prev v p hp with hp' | ⟨g1, g2, g3⟩
        · rcases h1 with h1 | h1
          · rw [hp'] at h1; cases h1
          · have hd := I.unl v h1 p hp' k
            exact h2 h1 y (K.c2 v p h1 hp' k y (F.ids _ _ _ hd hy))
        · cases st with
          | check => have g1 : s.n = s.n + 1 := g1
                     omega
          | make => rename_i h _; have hq : s.mp t = .chk v := hq
                    have := I.mps t; rw [hq] at this; have := isA_le I this.1; omega
          | grow => rcases upd_back hq with g | ⟨_, g⟩
                    · have g : s.mp t = .chk v := g
                      have := I.mps t; rw [g] at this; have := isA_le I this.1; omega
                    · cases g
          | clear => rcases upd_back hq with g | ⟨_, g⟩
                     · have g : s.mp t = .chk v := g
                       have := I.mps t; rw [g] at this; have := isA_le I this.1; omega
                     · cases g
          | _ => have g1 : s.n = s.n + 1 := g1
                 omega
    | lk v =>
      rcases (mp_back st t v).2.1 hq with h | h
      · exact key v (.inr (.inl h))
      · exact key v (.inl h)
    | swp v =>
      rcases (mp_back st t v).2.2 hq with h | h
      · exact key v (.inr (.inr h))
      · exact key v (.inr (.inl h))
    | _ => trivial

end Scc.Mist
