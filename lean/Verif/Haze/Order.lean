import Verif.Haze.Views

/-! # The order of the calls agrees with what happens before them -/

namespace Scc.Haze

/-- Steps in which no call takes effect. -/
theorem Ord.keep {s s' : State} (O : Ord s) (t : Nat) (hn : s.n ≤ s'.n) (hf : flat s.log s'.n = flat s.log s.n) (hi : s.nid ≤ s'.nid) (hl : s'.log = s.log)
    (hb : ∀ x, x < s.nid → s'.bef x = s.bef x) (hpc : ∀ u, u ≠ t → s'.pc u = s.pc u) (hmp : ∀ u, u ≠ t → s'.mp u = s.mp u)
    (hpt : ∀ x, pend (s'.pc t) = some x → pend (s.pc t) = some x ∨ s.nid ≤ x)
    (htv : ∀ u w, (s.tv u).ver w → (s'.tv u).ver w) (hto : ∀ u w, (s.tv u).ops w → (s'.tv u).ops w)
    (hV : Cls s' s → Cls s' s') (hk : ∀ v, mpv (s'.mp t) = some v → mpv (s.mp t) = some v ∨ (s'.tv t).ver v)
    (hq : PcV s' t (s.pc t) → PcV s' t (s'.pc t))
    (ha : ∀ x, s'.ans x = s.ans x ∨ ∃ o v r, s.pc t = .rel x o v r ∧ s'.ans x = some (o, r)) : Ord s' := by
  have hC : Cls s' s := by
    refine O.cls.mono hn hi ?_ (fun w e he => .inl (hl ▸ he))
    intro u x hx
    by_cases e : u = t
    · rw [e] at hx
      rcases hpt x hx with h | h
      · exact .inl ⟨t, h⟩
      · exact .inr h
    · rw [hpc u e] at hx; exact .inl ⟨u, hx⟩
  have hold : ∀ u, PcV s' u (s.pc u) := by
    intro u
    refine (O.pcv u).mono hi ?_ (fun _ _ w e he => .inl (hl ▸ he)) (fun w e he => by rw [hl]; exact he) hb (htv u) (hto u)
    intro x _ u' _ hx'
    by_cases e : u' = t
    · rw [e] at hx' ⊢; exact hpt x hx'
    · rw [hpc u' e] at hx'; exact .inl hx'
  refine ⟨hV hC, ?_, ?_, ?_, ?_, ?_⟩
  · intro u v hv
    by_cases e : u = t
    · rw [e] at hv ⊢
      rcases hk v hv with h | h
      · exact htv t v (O.kn t v h)
      · exact h
    · rw [hmp u e] at hv; exact htv u v (O.kn u v hv)
  · intro u
    by_cases e : u = t
    · rw [e]; exact hq (hold t)
    · rw [hpc u e]; exact hold u
  · intro w e he
    rw [hl] at he; exact Nat.lt_of_lt_of_le (O.eid w e he) hi
  · rw [hl, hf]
    refine List.Pairwise.imp_of_mem ?_ O.order
    intro a b ha' _ hab
    obtain ⟨w, _, hw⟩ := mem_flat.mp ha'
    exact ⟨hab.1, by rw [hb _ (O.eid w a hw)]; exact hab.2⟩
  · intro x o r hx
    rcases ha x with h | ⟨o', v, r', h1, h2⟩
    · rw [h] at hx; rw [hl]; exact O.ans x o r hx
    · rw [h2] at hx; cases hx
      have := O.pcv t; rw [h1] at this
      exact ⟨v, by rw [hl]; exact this.2.2⟩

/-- Steps in which a call takes effect. -/
theorem Ord.effect {s s' : State} (O : Ord s) (t x : Nat) (o : Op) (r : Option Nat) (m : Nat) (hm : m ≤ s.n) (hn : s'.n = s.n) (hi : s'.nid = s.nid)
    (hl : s'.log = upd s.log m (s.log m ++ [⟨x, o, r⟩])) (hb : s'.bef = s.bef) (hpc : ∀ u, u ≠ t → s'.pc u = s.pc u) (hmp : s'.mp = s.mp)
    (hx : pend (s.pc t) = some x) (hx' : pend (s'.pc t) = none) (hlow : ∀ w, (s.bef x).ver w → w ≤ m)
    (htv : ∀ u w, (s.tv u).ver w → (s'.tv u).ver w) (hto : ∀ u w, (s.tv u).ops w → (s'.tv u).ops w)
    (hV : Cls s' s → (∀ u, pend (s'.pc u) ≠ some x) → (∀ w e, e ∈ s'.log w → e.id = x → w = m) → Cls s' s') (hq : ⟨x, o, r⟩ ∈ s'.log m → PcV s' t (s'.pc t))
    (ha : ∀ y, s'.ans y = s.ans y ∨ (y = x ∧ s'.ans y = some (o, r))) : Ord s' := by
  have hpd : Pd s t x := (O.pcv t).pd hx
  have hnew : ∀ w e, e ∈ s'.log w → e ∈ s.log w ∨ (w = m ∧ e = ⟨x, o, r⟩) := by
    intro w e he
    rw [hl] at he
    by_cases e' : w = m
    · rw [e', upd_eq] at he
      rcases List.mem_append.mp he with he | he
      · exact .inl (e' ▸ he)
      · exact .inr ⟨e', List.mem_singleton.mp he⟩
    · rw [upd_ne _ _ e'] at he; exact .inl he
  have hkeep : ∀ w e, e ∈ s.log w → e ∈ s'.log w := by
    intro w e he
    rw [hl]
    by_cases e' : w = m
    · rw [e', upd_eq]; exact List.mem_append.mpr (.inl (e' ▸ he))
    · rw [upd_ne _ _ e']; exact he
  have hC : Cls s' s := by
    refine O.cls.mono (by omega) (by omega) ?_ ?_
    · intro u y hy
      by_cases e : u = t
      · rw [e, hx'] at hy; cases hy
      · rw [hpc u e] at hy; exact .inl ⟨u, hy⟩
    · intro w e he
      rcases hnew w e he with h | ⟨_, h⟩
      · exact .inl h
      · exact .inr ⟨t, by rw [h]; exact hx⟩
  have hin : (⟨x, o, r⟩ : Ev) ∈ s'.log m := by
    rw [hl, upd_eq]; exact List.mem_append.mpr (.inr (List.mem_singleton.mpr rfl))
  refine ⟨hV hC ?_ ?_, ?_, ?_, ?_, ?_, ?_⟩
  · intro u hu
    by_cases e : u = t
    · rw [e, hx'] at hu; cases hu
    · rw [hpc u e] at hu; exact hpd.only u e hu
  · intro w e he hid
    rcases hnew w e he with h | ⟨h, _⟩
    · exact absurd hid (hpd.none w e h)
    · exact h
  · intro u v hv
    rw [hmp] at hv; exact htv u v (O.kn u v hv)
  · intro u
    by_cases e : u = t
    · rw [e]; exact hq hin
    · rw [hpc u e]
      refine (O.pcv u).mono (by omega) ?_ ?_ hkeep (fun y _ => by rw [hb]) (htv u) (hto u)
      · intro y _ u' _ hy
        by_cases e' : u' = t
        · rw [e', hx'] at hy; cases hy
        · rw [hpc u' e'] at hy; exact .inl hy
      · intro y hy w e' he'
        rcases hnew w e' he' with h | ⟨_, h⟩
        · exact .inl h
        · refine .inr (fun hc => ?_)
          rw [h] at hc
          have hc : x = y := hc
          exact hpd.only u e (hc ▸ hy)
  · intro w e he
    rcases hnew w e he with h | ⟨_, h⟩
    · rw [hi]; exact O.eid w e h
    · rw [h, hi]; exact hpd.lt
  · obtain ⟨B, hB1, hB2, hB3⟩ := flat_split s.log hm
    rw [hl, hn, hB3]
    have hpw := O.order; rw [hB1] at hpw
    have hpw : List.Pairwise (Before s') (flat s.log m ++ B) := hpw.imp (fun h => ⟨h.1, by rw [hb]; exact h.2⟩)
    obtain ⟨hA, hBp, hAB⟩ := List.pairwise_append.mp hpw
    rw [List.append_assoc]
    refine List.pairwise_append.mpr ⟨hA, ?_, ?_⟩
    · rw [List.singleton_append]
      refine List.Pairwise.cons (fun b hb' => ?_) hBp
      obtain ⟨w, h1, h2, h3⟩ := hB2 b hb'
      refine ⟨fun hc => hpd.none w b h3 hc.symm, ?_⟩
      rw [hb]
      intro hc
      have := hlow w ((O.cls.be x).ev b.id hc w b h3 rfl)
      omega
    · intro a ha' b hb'
      obtain ⟨w, _, hw⟩ := mem_flat.mp ha'
      rcases List.mem_append.mp hb' with hb' | hb'
      · have := List.mem_singleton.mp hb'; subst this
        refine ⟨hpd.none w a hw, ?_⟩
        rw [hb]
        exact fun hc => (O.cls.be a.id).np x hc t hx
      · exact hAB a ha' b hb'
  · intro y o' r' hy
    rcases ha y with h | ⟨h1, h2⟩
    · rw [h] at hy
      obtain ⟨v, hv⟩ := O.ans y o' r' hy
      exact ⟨v, hkeep v _ hv⟩
    · rw [h2] at hy; cases hy; rw [h1]; exact ⟨m, hin⟩

theorem tv_mono {s : State} {t : Nat} {v : View} (h : ∀ w, (s.tv t).ver w → v.ver w) (h' : ∀ w, (s.tv t).ops w → v.ops w) :
    (∀ u w, (s.tv u).ver w → (upd s.tv t v u).ver w) ∧ ∀ u w, (s.tv u).ops w → (upd s.tv t v u).ops w := by
  refine ⟨upd_mono h, ?_⟩
  intro u w hu
  by_cases e : u = t
  · rw [e, upd_eq]; exact h' w (e ▸ hu)
  · rw [upd_ne _ _ e]; exact hu

/-- A step of a call. -/
theorem Ord.pcstep {s s' : State} (O : Ord s) {t : Nat} {p : Pc} {V : View} (hpc : s'.pc = upd s.pc t p) (htv : s'.tv = upd s.tv t V)
    (hn : s.n ≤ s'.n) (hf : flat s.log s'.n = flat s.log s.n)
    (hi : s'.nid = s.nid) (hl : s'.log = s.log) (hb : s'.bef = s.bef) (hmp : s'.mp = s.mp)
    (hp : ∀ x, pend p = some x → pend (s.pc t) = some x) (h1 : ∀ w, (s.tv t).ver w → V.ver w) (h2 : ∀ w, (s.tv t).ops w → V.ops w)
    (hV : Cls s' s → Cls s' s') (hq : s'.tv t = V → PcV s' t (s.pc t) → PcV s' t p)
    (ha : ∀ x, s'.ans x = s.ans x ∨ ∃ o v r, s.pc t = .rel x o v r ∧ s'.ans x = some (o, r)) : Ord s' := by
  obtain ⟨m1, m2⟩ := tv_mono h1 h2
  refine O.keep t hn hf (by omega) hl (fun x _ => by rw [hb]) (fun u e => by rw [hpc, upd_ne _ _ e]) (fun u _ => by rw [hmp]) ?_ (by rw [htv]; exact m1) (by rw [htv]; exact m2) hV ?_ ?_ ha
  · rw [hpc, upd_eq]; exact fun x hx => .inl (hp x hx)
  · rw [hmp]; exact fun v hv => .inl hv
  · intro h; rw [hpc, upd_eq]; exact hq (by rw [htv, upd_eq]) h

/-- A step next to a call. -/
theorem Ord.mpstep {s s' : State} (O : Ord s) {t : Nat} {p : Mp} {V : View} (hmp : s'.mp = upd s.mp t p) (htv : s'.tv = upd s.tv t V)
    (hn : s.n ≤ s'.n) (hf : flat s.log s'.n = flat s.log s.n)
    (hi : s.nid ≤ s'.nid) (hl : s'.log = s.log) (hb : s'.bef = s.bef) (hpc : s'.pc = s.pc) (hans : s'.ans = s.ans)
    (h1 : ∀ w, (s.tv t).ver w → V.ver w) (h2 : ∀ w, (s.tv t).ops w → V.ops w)
    (hV : Cls s' s → Cls s' s') (hk : ∀ v, mpv p = some v → mpv (s.mp t) = some v ∨ V.ver v) : Ord s' := by
  obtain ⟨m1, m2⟩ := tv_mono h1 h2
  refine O.keep t hn hf hi hl (fun x _ => by rw [hb]) (fun u e => by rw [hpc]) (fun u e => by rw [hmp, upd_ne _ _ e]) ?_ (by rw [htv]; exact m1) (by rw [htv]; exact m2) hV ?_ ?_ (fun x => .inl (by rw [hans]))
  · rw [hpc]; exact fun x hx => .inl hx
  · rw [hmp, upd_eq, htv, upd_eq]; exact hk
  · intro h; rw [hpc]; exact h

theorem flat_push {ix : Nat → Nat → Nat} {s : State} (L : Lin ix s) : flat s.log (s.n + 1) = flat s.log s.n := by
  rw [flat, L.blank _ (Nat.lt_succ_self _), List.append_nil]

theorem cm_push {s s' : State} (C : Cls s' s) (hn : s'.n = s.n + 1) {rel : View} (hr : Cl s' rel) :
    ∀ v, v ≤ s.n + 1 → Cl s' (upd s.cmsg (s.n + 1) (((s.cmsg s.n).join rel).addV (s.n + 1)) v) ∧ (upd s.cmsg (s.n + 1) (((s.cmsg s.n).join rel).addV (s.n + 1)) v).ver v := by
  intro v hv
  obtain ⟨h1, h2⟩ := C.cm s.n (Nat.le_refl _)
  by_cases e : v = s.n + 1
  · rw [e, upd_eq]
    exact ⟨(h1.join hr).addV (by omega) (fun w hw => .inl (h1.down _ h2 w (by omega))), .inr rfl⟩
  · rw [upd_ne _ _ e]; exact C.cm v (by omega)

theorem Cl.ite {s : State} {b : Bool} {V W : View} (h : Cl s V) (h' : Cl s W) : Cl s (if b then V else W) := by
  cases b
  · exact h'
  · exact h

theorem ord_step {ix : Nat → Nat → Nat} {s s' : State} (I : Inv ix s) (L : Lin ix s) (O : Ord s) (st : Step ix s s') : Ord s' := by
  cases st with
  | @call t o h =>
    refine O.keep t (Nat.le_refl _) rfl (Nat.le_succ _) rfl (fun x hx => upd_ne _ _ (Nat.ne_of_lt hx)) (fun u e => upd_ne _ _ e) (fun _ _ => rfl) ?_ (fun _ _ h => h) (fun _ _ h => h) ?_ (fun _ h => .inl h) ?_ (fun _ => .inl rfl)
    · intro x hx
      have hx : pend (upd s.pc t (.go s.nid o) t) = some x := hx
      rw [upd_eq] at hx; cases hx; exact .inr (Nat.le_refl _)
    · intro C
      exact ⟨C.tv, C.cm, C.um, C.bm, C.rm, C.po, clU C.be (C.tv t)⟩
    · intro _
      show PcV _ t (upd s.pc t (.go s.nid o) t)
      rw [upd_eq]
      refine ⟨Nat.lt_succ_self _, ?_, ?_, ?_⟩
      · intro u hu hc
        have hc : pend (upd s.pc t (.go s.nid o) u) = some s.nid := hc
        rw [upd_ne _ _ hu] at hc
        have := ((O.pcv u).pd hc).lt; omega
      · intro w e he hc
        have := O.eid w e he; omega
      · intro w hw
        have hw : (upd s.bef s.nid (s.tv t) s.nid).ver w := hw
        rw [upd_eq] at hw; exact hw
  | @send t =>
    refine O.keep 0 (Nat.le_refl _) rfl (Nat.le_refl _) rfl (fun _ _ => rfl) (fun _ _ => rfl) (fun _ _ => rfl) (fun _ h => .inl h) (fun _ _ h => h) (fun _ _ h => h) ?_ (fun _ h => .inl h) (fun h => h) (fun _ => .inl rfl)
    intro C
    exact ⟨C.tv, C.cm, C.um, C.bm, C.rm, fun V hV => hV.elim (C.po V) (fun e => e ▸ C.tv t), C.be⟩
  | @recv t v h =>
    obtain ⟨m1, m2⟩ := tv_mono (s := s) (t := t) (v := (s.tv t).join v) (fun _ h => .inl h) (fun _ h => .inl h)
    refine O.keep t (Nat.le_refl _) rfl (Nat.le_refl _) rfl (fun _ _ => rfl) (fun _ _ => rfl) (fun _ _ => rfl) (fun _ h => .inl h) m1 m2 ?_ (fun _ h => .inl h) (fun h => h) (fun _ => .inl rfl)
    intro C
    exact ⟨clU C.tv ((C.tv t).join (C.po v h)), C.cm, C.um, C.bm, C.rm, C.po, C.be⟩
  | @load t x o m h ok ha =>
    refine O.pcstep rfl rfl (Nat.le_refl _) rfl rfl rfl rfl rfl (fun y hy => by rw [h]; exact hy) acq_mono (fun _ h => .inl h) ?_ ?_ (fun _ => .inl rfl)
    · intro C; exact ⟨clU C.tv (Cl.acq C (Nat.le_refl _) ok.1), C.cm, C.um, C.bm, C.rm, C.po, C.be⟩
    · intro e hp
      rw [h] at hp
      have := O.pcv t; rw [h] at this
      exact ⟨hp, by rw [e]; exact .inr rfl, fun w hw => ok.2 w (Pd.bef this w hw)⟩
  | @loadNull t x o m h ok ha hm =>
    refine O.pcstep rfl rfl (Nat.le_refl _) rfl rfl rfl rfl rfl (fun y hy => by rw [h]; exact hy) acq_mono (fun _ h => .inl h) ?_ ?_ (fun _ => .inl rfl)
    · intro C; exact ⟨clU C.tv (Cl.acq C (Nat.le_refl _) ok.1), C.cm, C.um, C.bm, C.rm, C.po, C.be⟩
    · intro e hp; rw [h] at hp; exact hp
  | @found t x o m h ok ha =>
    refine O.pcstep rfl rfl (Nat.le_refl _) rfl rfl rfl rfl rfl (fun y hy => by rw [h]; exact hy) acq_mono (fun _ h => .inl h) ?_ ?_ (fun _ => .inl rfl)
    · intro C; exact ⟨clU C.tv (Cl.acq C (Nat.le_refl _) ok.1), C.cm, C.um, C.bm, C.rm, C.po, C.be⟩
    · intro e hp
      rw [h] at hp
      have := O.pcv t; rw [h] at this
      exact ⟨hp, by rw [e]; exact .inr rfl, fun w hw => ok.2 w (Pd.bef this w hw)⟩
  | @null t x o m h ok ha hm =>
    have hpd := O.pcv t; rw [h] at hpd
    have hlt : x < s.nid := Pd.lt hpd
    obtain ⟨m1, m2⟩ := tv_mono (s := s) (t := t) (v := (acq s t m).addO x) (fun _ h => .inl (.inl h)) (fun _ h => .inl (.inl h))
    refine O.effect t x o (o.f none).2 m ok.1 rfl rfl rfl rfl (fun u e => upd_ne _ _ e) rfl (by rw [h]; rfl) ?_ (fun w hw => ok.2 w (Pd.bef hpd w hw)) m1 m2 ?_ ?_ ?_
    · show pend (upd s.pc t .idle t) = none; rw [upd_eq]; rfl
    · intro C h1 h2
      refine ⟨clU C.tv ((Cl.acq C (Nat.le_refl _) ok.1).addO hlt h1 ?_), C.cm, C.um, C.bm, C.rm, C.po, C.be⟩
      intro w e he hi
      rw [h2 w e he hi]; exact .inr rfl
    · intro _; show PcV _ t (upd s.pc t .idle t); rw [upd_eq]; trivial
    · intro y
      by_cases e : y = x
      · refine .inr ⟨e, ?_⟩; show upd s.ans x _ y = _; rw [e, upd_eq]
      · refine .inl ?_; show upd s.ans x _ y = _; rw [upd_ne _ _ e]
  | @make t x o h ha =>
    refine O.pcstep rfl rfl (Nat.le_succ _) (flat_push L) rfl rfl rfl rfl (fun y hy => by rw [h]; exact hy) (fun w h => .inl (acq_mono w h)) (fun _ h => .inl h) ?_ ?_ (fun _ => .inl rfl)
    · intro C
      have ca := Cl.acq C (Nat.le_succ _) (t := t) (Nat.le_refl s.n)
      refine ⟨clU C.tv (ca.addV (Nat.le_refl _) ?_), cm_push C rfl (C.tv t), C.um, C.bm, C.rm, C.po, C.be⟩
      exact fun w hw => ca.down s.n (.inr rfl) w (by omega)
    · intro e hp
      rw [h] at hp
      have := O.pcv t; rw [h] at this
      refine ⟨hp, by rw [e]; exact .inr rfl, fun w hw => ?_⟩
      have := (O.cls.be x).le w hw; omega
  | @direct t x o v h hp =>
    refine O.pcstep rfl rfl (Nat.le_refl _) rfl rfl rfl rfl rfl (fun y hy => by rw [h]; exact hy) (fun _ h => h) (fun _ h => h) ?_ ?_ (fun _ => .inl rfl)
    · intro C; exact ⟨clU C.tv (C.tv t), C.cm, C.um, C.bm, C.rm, C.po, C.be⟩
    · intro e hp; rw [h] at hp; exact hp
  | @past t x o v h hu =>
    refine O.pcstep rfl rfl (Nat.le_refl _) rfl rfl rfl rfl rfl (fun y hy => by rw [h]; exact hy) (fun _ h => .inl h) (fun _ h => .inl h) ?_ ?_ (fun _ => .inl rfl)
    · intro C; exact ⟨clU C.tv ((C.tv t).join (C.um v)), C.cm, C.um, C.bm, C.rm, C.po, C.be⟩
    · intro e hp; rw [h] at hp; exact hp
  | @moved t x o v p l h hp hd =>
    refine O.pcstep rfl rfl (Nat.le_refl _) rfl rfl rfl rfl rfl (fun y hy => by rw [h]; exact hy) ?_ ?_ ?_ ?_ (fun _ => .inl rfl)
    · intro w hw; cases l
      · exact hw
      · exact .inl hw
    · intro w hw; cases l
      · exact hw
      · exact .inl hw
    · intro C
      refine ⟨clU C.tv ?_, C.cm, C.um, C.bm, C.rm, C.po, C.be⟩
      cases l
      · exact C.tv t
      · exact (C.tv t).join (C.bm _ _)
    · intro e hp; rw [h] at hp; exact hp
  | @lock t x o v h hr hd hw hs =>
    refine O.pcstep rfl rfl (Nat.le_refl _) rfl rfl rfl rfl rfl (fun y hy => by rw [h]; exact hy) (fun _ h => .inl h) (fun _ h => .inl h) ?_ ?_ (fun _ => .inl rfl)
    · intro C; exact ⟨clU C.tv ((C.tv t).join (C.bm _ _)), C.cm, C.um, C.bm, C.rm, C.po, C.be⟩
    · intro e hp; rw [h] at hp; exact hp
  | @share t x o v h hr hd hw =>
    refine O.pcstep rfl rfl (Nat.le_refl _) rfl rfl rfl rfl rfl (fun y hy => by rw [h]; exact hy) (fun _ h => .inl h) (fun _ h => .inl h) ?_ ?_ (fun _ => .inl rfl)
    · intro C; exact ⟨clU C.tv ((C.tv t).join (C.bm _ _)), C.cm, C.um, C.bm, C.rm, C.po, C.be⟩
    · intro e hp; rw [h] at hp; exact hp
  | @retry t x o v l h hd =>
    refine O.pcstep rfl rfl (Nat.le_refl _) rfl rfl rfl rfl rfl (fun y hy => by rw [h]; exact hy) ?_ ?_ ?_ ?_ (fun _ => .inl rfl)
    · intro w hw; cases l
      · exact hw
      · exact .inl hw
    · intro w hw; cases l
      · exact hw
      · exact .inl hw
    · intro C
      refine ⟨clU C.tv ?_, C.cm, C.um, C.bm, C.rm, C.po, C.be⟩
      cases l
      · exact C.tv t
      · exact (C.tv t).join (C.bm _ _)
    · intro e hp; rw [h] at hp; exact hp.1
  | @act t x o v h =>
    have hpd := O.pcv t; rw [h] at hpd
    have hp := I.pcs t; rw [h] at hp
    obtain ⟨m1, m2⟩ := tv_mono (s := s) (t := t) (v := (s.tv t).addO x) (fun _ h => h) (fun _ h => .inl h)
    refine O.effect t x o (o.f (s.val v o.key)).2 v (isA_le I hp.1) rfl rfl rfl rfl (fun u e => upd_ne _ _ e) rfl (by rw [h]; rfl) ?_ hpd.2.2 m1 m2 ?_ ?_ (fun _ => .inl rfl)
    · show pend (upd s.pc t _ t) = none; rw [upd_eq]; rfl
    · intro C h1 h2
      refine ⟨clU C.tv ((C.tv t).addO hpd.1.lt h1 ?_), C.cm, C.um, C.bm, C.rm, C.po, C.be⟩
      intro w e he hi
      rw [h2 w e he hi]; exact hpd.2.1
    · intro hin
      show PcV _ t (upd s.pc t _ t); rw [upd_eq]
      refine ⟨?_, ?_, hin⟩
      · show (upd s.tv t _ t).ver v; rw [upd_eq]; exact hpd.2.1
      · show (upd s.tv t _ t).ops x; rw [upd_eq]; exact .inr rfl
  | @unlock t x o v r h hr =>
    refine O.pcstep rfl rfl (Nat.le_refl _) rfl rfl rfl rfl rfl (fun y hy => by cases hy) (fun _ h => h) (fun _ h => h) ?_ (fun _ _ => trivial) ?_
    · intro C; exact ⟨clU C.tv (C.tv t), C.cm, C.um, clU2 C.bm ((C.bm _ _).join (C.tv t)), C.rm, C.po, C.be⟩
    · intro y
      by_cases e : y = x
      · refine .inr ⟨o, v, r, e ▸ h, ?_⟩; show upd s.ans x _ y = _; rw [e, upd_eq]
      · refine .inl ?_; show upd s.ans x _ y = _; rw [upd_ne _ _ e]
  | @unshare t x o v r h hr =>
    refine O.pcstep rfl rfl (Nat.le_refl _) rfl rfl rfl rfl rfl (fun y hy => by cases hy) (fun _ h => h) (fun _ h => h) ?_ (fun _ _ => trivial) ?_
    · intro C; exact ⟨clU C.tv (C.tv t), C.cm, C.um, clU2 C.bm ((C.bm _ _).join (C.tv t)), C.rm, C.po, C.be⟩
    · intro y
      by_cases e : y = x
      · refine .inr ⟨o, v, r, e ▸ h, ?_⟩; show upd s.ans x _ y = _; rw [e, upd_eq]
      · refine .inl ?_; show upd s.ans x _ y = _; rw [upd_ne _ _ e]
  | @take t m h ok ha =>
    refine O.mpstep rfl rfl (Nat.le_refl _) rfl (Nat.le_refl _) rfl rfl rfl rfl acq_mono (fun _ h => .inl h) ?_ (fun v hv => by cases hv; exact .inr (.inr rfl))
    intro C; exact ⟨clU C.tv (Cl.acq C (Nat.le_refl _) ok.1), C.cm, C.um, C.bm, C.rm, C.po, C.be⟩
  | @leave t v h =>
    refine O.mpstep rfl rfl (Nat.le_refl _) rfl (Nat.le_refl _) rfl rfl rfl rfl (fun _ h => h) (fun _ h => h) ?_ (fun v hv => by cases hv)
    intro C; exact ⟨clU C.tv (C.tv t), C.cm, C.um, C.bm, C.rm, C.po, C.be⟩
  | @pick t v p i h hp hd hw hs =>
    refine O.mpstep rfl rfl (Nat.le_refl _) rfl (Nat.le_refl _) rfl rfl rfl rfl (fun _ h => .inl h) (fun _ h => .inl h) ?_ (fun v hv => by cases hv; rw [h]; exact .inl rfl)
    intro C; exact ⟨clU C.tv ((C.tv t).join (C.bm _ _)), C.cm, C.um, C.bm, C.rm, C.po, C.be⟩
  | @move t v p i h hw =>
    refine O.mpstep rfl rfl (Nat.le_refl _) rfl (Nat.le_succ _) rfl rfl rfl rfl (fun _ h => .inl h) (fun _ h => .inl (.inl h)) ?_ (fun v hv => by cases hv; rw [h]; exact .inl rfl)
    intro C
    have cw : Cl (s.move ix t v p i) (((s.tv t).join (View.sup (s.bmsg v) (Target ix v p i))).addO s.nid) := by
      refine ((C.tv t).join (Cl.sup (C.bm v))).addO (Nat.lt_succ_self _) ?_ ?_
      · intro u hu
        have := ((O.pcv u).pd hu).lt; omega
      · intro w e he hi
        have := O.eid w e he; omega
    refine ⟨clU C.tv cw, C.cm, C.um, ?_, C.rm, C.po, C.be⟩
    intro a b
    have c0 := C.bm a b
    refine ⟨?_, ?_, ?_, ?_, ?_⟩
    · exact fun w hw => hw.elim (c0.le w) (fun g => cw.le w g.2.2)
    · exact fun w hw w' hl => hw.elim (fun g => .inl (c0.down w g w' hl)) (fun g => .inr ⟨g.1, g.2.1, cw.down w g.2.2 w' hl⟩)
    · exact fun w hw => hw.elim (c0.lt w) (fun g => cw.lt w g.2.2)
    · exact fun w hw => hw.elim (c0.np w) (fun g => cw.np w g.2.2)
    · exact fun x hx w e he hi => hx.elim (fun g => .inl (c0.ev x g w e he hi)) (fun g => .inr ⟨g.1, g.2.1, cw.ev x g.2.2 w e he hi⟩)
  | @giveUp t v p i h =>
    refine O.mpstep rfl rfl (Nat.le_refl _) rfl (Nat.le_refl _) rfl rfl rfl rfl (fun _ h => h) (fun _ h => h) ?_ (fun v hv => by cases hv; rw [h]; exact .inl rfl)
    intro C; exact ⟨clU C.tv (C.tv t), C.cm, C.um, clU2 C.bm ((C.bm _ _).join (C.tv t)), C.rm, C.po, C.be⟩
  | @kill t v p i h =>
    refine O.mpstep rfl rfl (Nat.le_refl _) rfl (Nat.le_refl _) rfl rfl rfl rfl (fun _ h => h) (fun _ h => h) ?_ ?_
    · intro C; exact ⟨clU C.tv (C.tv t), C.cm, C.um, clU2 C.bm ((C.bm _ _).join (C.tv t)), C.rm, C.po, C.be⟩
    · intro v hv; cases hv
      rcases h with h | h
      · rw [h]; exact .inl rfl
      · rw [h.1]; exact .inl rfl
  | @unlink t v p h hp hd =>
    refine O.keep t (Nat.le_refl _) rfl (Nat.le_refl _) rfl (fun _ _ => rfl) (fun _ _ => rfl) (fun _ _ => rfl) (fun _ h => .inl h) (fun _ _ h => h) (fun _ _ h => h) ?_ (fun _ h => .inl h) (fun h => h) (fun _ => .inl rfl)
    intro C
    exact ⟨C.tv, C.cm, clU C.um ((C.um v).join (C.tv t)), C.bm, C.rm, C.po, C.be⟩
  | @check t v h ok hl =>
    refine O.mpstep rfl rfl (Nat.le_refl _) rfl (Nat.le_refl _) rfl rfl rfl rfl ?_ ?_ ?_ (fun v hv => by cases hv; rw [h]; exact .inl rfl)
    · intro w hw; cases s.unl v
      · exact acq_mono w hw
      · exact .inl (acq_mono w hw)
    · intro w hw; cases s.unl v
      · exact .inl hw
      · exact .inl (.inl hw)
    · intro C
      refine ⟨clU C.tv ?_, C.cm, C.um, C.bm, C.rm, C.po, C.be⟩
      have ca := Cl.acq C (Nat.le_refl _) (t := t) ok.1
      exact Cl.ite (ca.join (C.um v)) ca
  | @resize t v h hr =>
    refine O.mpstep rfl rfl (Nat.le_refl _) rfl (Nat.le_refl _) rfl rfl rfl rfl (fun _ h => .inl h) (fun _ h => .inl h) ?_ (fun v hv => by cases hv; rw [h]; exact .inl rfl)
    intro C; exact ⟨clU C.tv ((C.tv t).join C.rm), C.cm, C.um, C.bm, C.rm, C.po, C.be⟩
  | @busy t v h =>
    refine O.mpstep rfl rfl (Nat.le_refl _) rfl (Nat.le_refl _) rfl rfl rfl rfl (fun _ h => h) (fun _ h => h) ?_ (fun v hv => by cases hv; rw [h]; exact .inl rfl)
    intro C; exact ⟨clU C.tv (C.tv t), C.cm, C.um, C.bm, C.rm, C.po, C.be⟩
  | @same t v h ok =>
    refine O.mpstep rfl rfl (Nat.le_refl _) rfl (Nat.le_refl _) rfl rfl rfl rfl acq_mono (fun _ h => .inl h) ?_ (fun v hv => by cases hv; rw [h]; exact .inl rfl)
    intro C; exact ⟨clU C.tv (Cl.acq C (Nat.le_refl _) ok.1), C.cm, C.um, C.bm, C.rm, C.po, C.be⟩
  | @other t v m h ok hm =>
    refine O.mpstep rfl rfl (Nat.le_refl _) rfl (Nat.le_refl _) rfl rfl rfl rfl acq_mono (fun _ h => .inl h) ?_ (fun v hv => by cases hv)
    intro C; exact ⟨clU C.tv (Cl.acq C (Nat.le_refl _) ok.1), C.cm, C.um, C.bm, C.rm, C.po, C.be⟩
  | @skip t v h =>
    refine O.mpstep rfl rfl (Nat.le_refl _) rfl (Nat.le_refl _) rfl rfl rfl rfl (fun _ h => h) (fun _ h => h) ?_ (fun v hv => by cases hv)
    intro C; exact ⟨clU C.tv (C.tv t), C.cm, C.um, C.bm, C.rm, C.po, C.be⟩
  | @grow t v m h ok =>
    have hm := I.mps t; rw [h] at hm
    refine O.mpstep rfl rfl (Nat.le_succ _) (flat_push L) (Nat.le_refl _) rfl rfl rfl rfl (fun _ h => .inl h) (fun _ h => h) ?_ (fun v hv => by cases hv)
    intro C
    refine ⟨clU C.tv ((C.tv t).addV (Nat.le_refl _) ?_), cm_push C rfl (C.tv t), C.um, C.bm, C.rm, C.po, C.be⟩
    exact fun w hw => (C.tv t).down v hm.2.2.2.2 w (by have := hm.2.2.2.1; omega)
  | @lockAll t v h hd hw hs he =>
    refine O.mpstep rfl rfl (Nat.le_refl _) rfl (Nat.le_refl _) rfl rfl rfl rfl (fun _ h => .inl h) (fun _ h => .inl h) ?_ (fun v hv => by cases hv; rw [h]; exact .inl rfl)
    intro C; exact ⟨clU C.tv ((C.tv t).join (Cl.sup (C.bm v))), C.cm, C.um, C.bm, C.rm, C.po, C.be⟩
  | @clear t v h =>
    have hm := I.mps t; rw [h] at hm
    have hk : (s.tv t).ver v := O.kn t v (by rw [h]; rfl)
    refine O.mpstep rfl rfl (Nat.le_succ _) (flat_push L) (Nat.le_refl _) rfl rfl rfl rfl (fun _ h => .inl h) (fun _ h => h) ?_ (fun v hv => by cases hv; rw [h]; exact .inl rfl)
    intro C
    refine ⟨clU C.tv ((C.tv t).addV (Nat.le_refl _) ?_), cm_push C rfl (C.tv t), C.um, C.bm, C.rm, C.po, C.be⟩
    exact fun w hw => (C.tv t).down v hk w (by have := hm.2.2.2.1; omega)
  | @killAll t v h =>
    refine O.mpstep rfl rfl (Nat.le_refl _) rfl (Nat.le_refl _) rfl rfl rfl rfl (fun _ h => h) (fun _ h => h) ?_ (fun v hv => by cases hv)
    intro C
    refine ⟨clU C.tv (C.tv t), C.cm, C.um, ?_, C.rm, C.po, C.be⟩
    intro a b
    show Cl _ (if a = v then (s.bmsg a b).join (s.tv t) else s.bmsg a b)
    by_cases e : a = v
    · rw [if_pos e]; exact (C.bm a b).join (C.tv t)
    · rw [if_neg e]; exact C.bm a b
  | @done t h =>
    refine O.mpstep rfl rfl (Nat.le_refl _) rfl (Nat.le_refl _) rfl rfl rfl rfl (fun _ h => h) (fun _ h => h) ?_ (fun v hv => by cases hv)
    intro C; exact ⟨clU C.tv (C.tv t), C.cm, C.um, C.bm, C.rm.join (C.tv t), C.po, C.be⟩

theorem ord_reach {ix : Nat → Nat → Nat} {s : State} (h : Reach ix s) : Ord s := by
  induction h with
  | init => exact ord_init
  | step h st ih => exact ord_step (inv_reach h) (lin_reach h) ih st

end Scc.Haze
