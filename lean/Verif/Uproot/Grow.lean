import Verif.Uproot.Inv

/-!
# The order of the calls
-/

namespace Scc.Uproot

/-- A call takes effect: it gets a place in the list of one root. -/
structure Adds (s s' : St) (v : Nat) (e : Ev) : Prop where
  here : ∃ a b, s.seg v = a ++ b ∧ s'.seg v = a ++ e :: b ∧ ∀ e' ∈ b, ¬ s.bef e.id e'.id
  other : ∀ w, w ≠ v → s'.seg w = s.seg w

theorem Adds.mem {s s' : St} {v : Nat} {e : Ev} (A : Adds s s' v e) {w : Nat} {e' : Ev} (h : e' ∈ s'.seg w) : e' ∈ s.seg w ∨ (w = v ∧ e' = e) := by
  by_cases hw : w = v
  · obtain ⟨a, b, h1, h2, -⟩ := A.here
    rw [hw, h2] at h
    rw [hw, h1]
    rcases List.mem_append.1 h with h | h
    · exact .inl (List.mem_append.2 (.inl h))
    · rcases List.mem_cons.1 h with h | h
      · exact .inr ⟨rfl, h⟩
      · exact .inl (List.mem_append.2 (.inr h))
  · rw [A.other w hw] at h; exact .inl h

theorem Adds.old {s s' : St} {v : Nat} {e : Ev} (A : Adds s s' v e) {w : Nat} {e' : Ev} (h : e' ∈ s.seg w) : e' ∈ s'.seg w := by
  by_cases hw : w = v
  · obtain ⟨a, b, h1, h2, -⟩ := A.here
    rw [hw, h1] at h
    rw [hw, h2]
    rcases List.mem_append.1 h with h | h
    · exact List.mem_append.2 (.inl h)
    · exact List.mem_append.2 (.inr (List.mem_cons.2 (.inr h)))
  · rw [A.other w hw]; exact h

theorem Adds.new {s s' : St} {v : Nat} {e : Ev} (A : Adds s s' v e) : e ∈ s'.seg v := by
  obtain ⟨a, b, h1, h2, -⟩ := A.here
  rw [h2]; simp

/-- The lists stay in order. -/
theorem Adds.order {s s' : St} {v : Nat} {e : Ev} (A : Adds s s' v e) (I : Ids s) (O : Ord s) (hb : s'.bef = s.bef) (hf : ¬ s.fin e.id)
    (hn : ∀ w e', e' ∈ s.seg w → e'.id ≠ e.id) (hl : ∀ w e', v < w → e' ∈ s.seg w → ¬ s.bef e.id e'.id) :
    (∀ v, (s'.seg v).Pairwise fun e e' => ¬ s'.bef e.id e'.id ∧ e.id ≠ e'.id) ∧
    ∀ v w, v < w → ∀ e ∈ s'.seg v, ∀ e' ∈ s'.seg w, ¬ s'.bef e.id e'.id ∧ e.id ≠ e'.id := by
  have nb : ∀ x, ¬ s.bef x e.id := fun x h => hf (I.bef _ _ h)
  rw [hb]
  refine ⟨fun w => ?_, fun w w' hw e1 h1 e2 h2 => ?_⟩
  · by_cases hw : w = v
    · obtain ⟨a, b, g1, g2, g3⟩ := A.here
      have hp := O.seg v
      rw [g1] at hp
      rw [hw, g2]
      have hq := List.pairwise_append.1 hp
      refine List.pairwise_append.2 ⟨hq.1, List.pairwise_cons.2 ⟨fun e' he' => ⟨g3 e' he', fun h => ?_⟩, hq.2.1⟩, fun x hx y hy => ?_⟩
      · exact hn v e' (by rw [g1]; exact List.mem_append.2 (.inr he')) h.symm
      · rcases List.mem_cons.1 hy with hy | hy
        · rw [hy]; exact ⟨nb _, hn v x (by rw [g1]; exact List.mem_append.2 (.inl hx))⟩
        · exact hq.2.2 x hx y hy
    · rw [A.other w hw]; exact O.seg w
  · rcases A.mem h1 with g1 | ⟨g1, g1'⟩ <;> rcases A.mem h2 with g2 | ⟨g2, g2'⟩
    · exact O.cross w w' hw e1 g1 e2 g2
    · rw [g2']; exact ⟨nb _, hn w e1 g1⟩
    · rw [g1']; exact ⟨hl w' e2 (g1 ▸ hw) g2, fun h => hn w' e2 g2 h.symm⟩
    · omega

/-- The names. -/
theorem Adds.ids {s s' : St} {v t : Nat} {e : Ev} {p : Pc} (A : Adds s s' v e) (I : Ids s) (hb : s'.bef = s.bef) (hf : s'.fin = s.fin) (hi : s'.nid = s.nid)
    (hp : s'.pc = upd s.pc t p) (ho : (s.pc t).open = some e.id) (hr : p.id = some e.id) (hq : p.open = none) : Ids s' := by
  have hid : ∀ u, (s'.pc u).id = (s.pc u).id := by
    intro u; rw [hp]
    by_cases hu : u = t
    · rw [hu, upd_same, hr, Pc.open_id ho]
    · rw [upd_other _ _ hu]
  have hx := I.pc t e.id (Pc.open_id ho)
  refine ⟨by rw [hf, hi]; exact I.fin, by rw [hb, hf]; exact I.bef, fun u x h => ?_, fun u u' x h h' => ?_, fun w e' h => ?_, fun u x h w e' h' => ?_⟩
  · rw [hid] at h; rw [hi, hf]; exact I.pc u x h
  · rw [hid] at h h'; exact I.one u u' x h h'
  · rw [hi]
    rcases A.mem h with g | ⟨-, g⟩
    · exact I.ev w e' g
    · rw [g]; exact hx.1
  · have hu : u ≠ t := by
      intro e'; rw [hp, e', upd_same, hq] at h; cases h
    rw [hp, upd_other _ _ hu] at h
    rcases A.mem h' with g | ⟨-, g⟩
    · exact I.fresh u x h w e' g
    · rw [g]
      intro hx'
      rw [hx'] at ho
      exact hu (I.one u t x (Pc.open_id h) (Pc.open_id ho))

/-- Threads that have loaded a root. -/
theorem Adds.pend {s s' : St} {v t : Nat} {e : Ev} {p : Pc} (A : Adds s s' v e) (I : Ids s) (O : Ord s) (hb : s'.bef = s.bef) (hf : ¬ s.fin e.id)
    (hp : s'.pc = upd s.pc t p) (hq : p.open = none) (hc : ∀ w y, s'.clr w = some y → s.clr w = some y ∨ y = e.id) :
    ∀ t x k f mk hn v, s'.pc t = .at x k f mk hn v → (∀ w e, v < w → e ∈ s'.seg w → ¬ s'.bef x e.id) ∧ ∀ y, s'.clr v = some y → ¬ s'.bef x y := by
  intro u x k f mk hn w h
  have hu : u ≠ t := by
    intro e'; rw [hp, e', upd_same] at h; rw [h] at hq; cases hq
  rw [hp, upd_other _ _ hu] at h
  have hO := O.pend u x k f mk hn w h
  rw [hb]
  refine ⟨fun w' e' hw he' => ?_, fun y hy => ?_⟩
  · rcases A.mem he' with g | ⟨-, g⟩
    · exact hO.1 w' e' hw g
    · rw [g]; exact fun h => hf (I.bef _ _ h)
  · rcases hc w y hy with g | g
    · exact hO.2 y g
    · rw [g]; exact fun h => hf (I.bef _ _ h)

theorem Adds.out {s s' : St} {v t : Nat} {e : Ev} {p : Pc} (A : Adds s s' v e) (O : Out s) (hg : s'.got = s.got) (ho : (s.pc t).open = some e.id)
    (hp : s'.pc = upd s.pc t p) (hr : p = .ret e.id e.op e.res) : Out s' := by
  refine ⟨fun u x o r h => ?_, fun e' h => ?_, fun w e' h => ?_⟩
  · by_cases hu : u = t
    · rw [hp, hu, upd_same, hr] at h
      cases h
      exact ⟨v, A.new⟩
    · rw [hp, upd_other _ _ hu] at h
      obtain ⟨w, hw⟩ := O.ret u x o r h
      exact ⟨w, A.old hw⟩
  · rw [hg] at h
    obtain ⟨w, h1⟩ := O.got e' h
    exact ⟨w, A.old h1⟩
  · rw [hg, hp]
    rcases A.mem h with h | ⟨-, h⟩
    · rcases O.real w e' h with h | ⟨u, hu⟩
      · exact .inl h
      · refine .inr ⟨u, ?_⟩
        rw [upd_other _ _ fun e1 => by rw [e1] at hu; rw [hu] at ho; cases ho]; exact hu
    · rw [h, hr]; exact .inr ⟨t, upd_same _ _ _⟩

/-- An entry at the end of the list of a root, before the `clear` that took it out. -/
theorem adds_log {s s' : St} {v : Nat} {e : Ev} (hl : s'.log = upd s.log v (s.log v ++ [e])) (hc : s'.clr = s.clr)
    (hb : ∀ y, s.clr v = some y → ¬ s.bef e.id y) : Adds s s' v e where
  here := by
    refine ⟨s.log v, match s.clr v with | some x => [⟨x, .clear, none⟩] | none => [], rfl, ?_, fun e' he' => ?_⟩
    · show s'.log v ++ (match s'.clr v with | some x => [⟨x, .clear, none⟩] | none => []) = _
      rw [hl, hc, upd_same]; simp
    · cases hcl : s.clr v with
      | none => rw [hcl] at he'; cases he'
      | some y =>
        rw [hcl] at he'
        rw [List.mem_singleton.1 he']
        exact hb y hcl
  other := by
    intro w hw
    show s'.log w ++ (match s'.clr w with | some x => [⟨x, .clear, none⟩] | none => []) = _
    rw [hl, hc, upd_other _ _ hw]; rfl

theorem adds_clr {s s' : St} {x : Nat} (hl : s'.log = s.log) (hc : s'.clr = upd s.clr s.n (some x)) (h0 : s.clr s.n = none) :
    Adds s s' s.n ⟨x, .clear, none⟩ where
  here := by
    refine ⟨s.log s.n, [], ?_, ?_, fun e' he' => by cases he'⟩
    · show s.log s.n ++ (match s.clr s.n with | some x => [⟨x, .clear, none⟩] | none => []) = _
      rw [h0]
    · show s'.log s.n ++ (match s'.clr s.n with | some x => [⟨x, .clear, none⟩] | none => []) = _
      rw [hl, hc, upd_same]
  other := by
    intro w hw
    show s'.log w ++ (match s'.clr w with | some x => [⟨x, .clear, none⟩] | none => []) = _
    rw [hl, hc, upd_other _ _ hw]; rfl

theorem Ord.seg_top {s : St} (O : Ord s) {w : Nat} (h : s.n < w) : s.seg w = [] := by
  show s.log w ++ (match s.clr w with | some x => [⟨x, .clear, none⟩] | none => []) = _
  rw [O.top w h, O.clr w (Nat.le_of_lt h)]; rfl

/-- A call takes effect with root `v`. -/
theorem inv_log {s s' : St} (J : Inv s) {t v : Nat} {e : Ev} (hV : Vals s') (hl : s'.log = upd s.log v (s.log v ++ [e])) (hc : s'.clr = s.clr)
    (hbf : s'.bef = s.bef) (hg : s'.got = s.got) (hi : s'.nid = s.nid) (hn : s'.n = s.n) (hp : s'.pc = upd s.pc t (.ret e.id e.op e.res))
    (ho : (s.pc t).open = some e.id) (hv : v ≤ s.n) (hb : ∀ y, s.clr v = some y → ¬ s.bef e.id y) (hw : ∀ w e', v < w → e' ∈ s.seg w → ¬ s.bef e.id e'.id) :
    Inv s' := by
  have A := adds_log hl hc hb
  have hf : s'.fin = s.fin := by funext x; simp only [St.fin, hg]
  have hx := J.ids.pc t e.id (Pc.open_id ho)
  have hfr := J.ids.fresh t e.id ho
  have hor := A.order J.ids J.ord hbf hx.2 hfr hw
  refine ⟨hV, A.ids J.ids hbf hf hi hp ho rfl rfl, ⟨fun w hw => ?_, fun w hw => ?_, A.pend J.ids J.ord hbf hx.2 hp rfl (fun w y h => .inl (by rw [hc] at h; exact h)), hor.1, hor.2⟩,
    A.out J.out hg ho hp rfl⟩
  · rw [hn] at hw; rw [hl, upd_other _ _ (by omega)]; exact J.ord.top w hw
  · rw [hn] at hw; rw [hc]; exact J.ord.clr w hw

/-- Only a thread moves, which does not return. -/
theorem inv_pc {s s' : St} (J : Inv s) {t x : Nat} {p : Pc} (hV : Vals s') (hl : s'.log = s.log) (hc : s'.clr = s.clr)
    (hbf : s'.bef = s.bef) (hg : s'.got = s.got) (hi : s'.nid = s.nid) (hn : s'.n = s.n) (hp : s'.pc = upd s.pc t p)
    (ho : (s.pc t).open = some x) (hq : p.open = some x)
    (hat : ∀ x k f mk hn v, p = .at x k f mk hn v → (∀ w e, v < w → e ∈ s.seg w → ¬ s.bef x e.id) ∧ ∀ y, s.clr v = some y → ¬ s.bef x y) : Inv s' := by
  have hs : s'.seg = s.seg := by funext v; simp only [St.seg, hl, hc]
  have hf : s'.fin = s.fin := by funext x; simp only [St.fin, hg]
  have hid : ∀ u, (s'.pc u).id = (s.pc u).id ∧ (s'.pc u).open = (s.pc u).open := by
    intro u; rw [hp]
    by_cases hu : u = t
    · rw [hu, upd_same, Pc.open_id hq, Pc.open_id ho, hq, ho]; exact ⟨rfl, rfl⟩
    · rw [upd_other _ _ hu]; exact ⟨rfl, rfl⟩
  refine ⟨hV, ⟨by rw [hf, hi]; exact J.ids.fin, by rw [hbf, hf]; exact J.ids.bef, fun u y h => ?_, fun u u' y h h' => ?_, by rw [hs, hi]; exact J.ids.ev, fun u y h => ?_⟩,
    ⟨by rw [hn, hl]; exact J.ord.top, by rw [hn, hc]; exact J.ord.clr, fun u y k f mk hn' v h => ?_, by rw [hs, hbf]; exact J.ord.seg, by rw [hs, hbf]; exact J.ord.cross⟩,
    ⟨fun u y o r h => ?_, by rw [hg, hs]; exact J.out.got, fun v e h => ?_⟩⟩
  · rw [(hid u).1] at h; rw [hi, hf]; exact J.ids.pc u y h
  · rw [(hid u).1] at h; rw [(hid u').1] at h'; exact J.ids.one u u' y h h'
  · rw [(hid u).2] at h; rw [hs]; exact J.ids.fresh u y h
  · rw [hs, hbf, hc]
    by_cases hu : u = t
    · rw [hp, hu, upd_same] at h; exact hat _ _ _ _ _ _ h
    · rw [hp, upd_other _ _ hu] at h; exact J.ord.pend _ _ _ _ _ _ _ h
  · rw [hs]
    by_cases hu : u = t
    · rw [hp, hu, upd_same] at h; rw [h] at hq; cases hq
    · rw [hp, upd_other _ _ hu] at h; exact J.out.ret _ _ _ _ h
  · rw [hs] at h; rw [hg, hp]
    rcases J.out.real v e h with h | ⟨u, hu⟩
    · exact .inl h
    · refine .inr ⟨u, ?_⟩
      rw [upd_other _ _ fun e1 => by rw [e1] at hu; rw [hu] at ho; cases ho]; exact hu

/-- Only the root changes. -/
theorem inv_root {s s' : St} (J : Inv s) (hV : Vals s') (hl : s'.log = s.log) (hc : s'.clr = s.clr)
    (hbf : s'.bef = s.bef) (hg : s'.got = s.got) (hi : s'.nid = s.nid) (hn : s.n ≤ s'.n) (hp : s'.pc = s.pc) : Inv s' := by
  have hs : s'.seg = s.seg := by funext v; simp only [St.seg, hl, hc]
  have hf : s'.fin = s.fin := by funext x; simp only [St.fin, hg]
  refine ⟨hV, ⟨by rw [hf, hi]; exact J.ids.fin, by rw [hbf, hf]; exact J.ids.bef, by rw [hp, hi, hf]; exact J.ids.pc, by rw [hp]; exact J.ids.one, by rw [hs, hi]; exact J.ids.ev,
      by rw [hp, hs]; exact J.ids.fresh⟩,
    ⟨fun v hv => ?_, fun v hv => ?_, by rw [hp, hs, hbf, hc]; exact J.ord.pend, by rw [hs, hbf]; exact J.ord.seg, by rw [hs, hbf]; exact J.ord.cross⟩,
    ⟨by rw [hp, hs]; exact J.out.ret, by rw [hg, hs]; exact J.out.got, by rw [hg, hp, hs]; exact J.out.real⟩⟩
  · rw [hl]; exact J.ord.top v (Nat.lt_of_le_of_lt hn hv)
  · rw [hc]; exact J.ord.clr v (Nat.le_trans hn hv)

theorem Inv.step {s s' : St} (J : Inv s) (st : Step s s') : Inv s' := by
  have hV := J.vals.step st
  cases st with
  | @call t o h =>
    have hs : ({ s with pc := upd s.pc t (.go s.nid o), nid := s.nid + 1, bef := upd s.bef s.nid s.fin } : St).seg = s.seg := rfl
    have hb : ∀ x, x < s.nid → upd s.bef s.nid s.fin x = s.bef x := fun x hx => upd_other _ _ (by omega)
    have hid : ∀ u, u ≠ t → upd s.pc t (.go s.nid o) u = s.pc u := fun u hu => upd_other _ _ hu
    refine ⟨hV, ⟨fun x hx => Nat.lt_succ_of_lt (J.ids.fin x hx), fun x y hxy => ?_, fun u x hx => ?_, fun u u' x hx hx' => ?_,
        fun v e he => Nat.lt_succ_of_lt (J.ids.ev v e he), fun u x hx v e he => ?_⟩,
      ⟨J.ord.top, J.ord.clr, fun u x k f mk hn v hp => ?_, fun v => ?_, fun v w hw e he e' he' => ?_⟩,
      ⟨fun u x o' r hp => ?_, J.out.got, fun v e he => ?_⟩⟩
    · have hxy : upd s.bef s.nid s.fin x y := hxy
      by_cases e : x = s.nid
      · rw [e, upd_same] at hxy; exact hxy
      · rw [upd_other _ _ e] at hxy; exact J.ids.bef _ _ hxy
    · have hx : (upd s.pc t (.go s.nid o) u).id = some x := hx
      by_cases e : u = t
      · rw [e, upd_same] at hx; cases hx
        exact ⟨Nat.lt_succ_self _, fun h => absurd (J.ids.fin _ h) (Nat.lt_irrefl _)⟩
      · rw [hid u e] at hx
        exact ⟨Nat.lt_succ_of_lt (J.ids.pc u x hx).1, (J.ids.pc u x hx).2⟩
    · have hx : (upd s.pc t (.go s.nid o) u).id = some x := hx
      have hx' : (upd s.pc t (.go s.nid o) u').id = some x := hx'
      by_cases e : u = t <;> by_cases e' : u' = t
      · rw [e, e']
      · rw [e, upd_same] at hx; rw [hid u' e'] at hx'; cases hx
        exact absurd (J.ids.pc _ _ hx').1 (Nat.lt_irrefl _)
      · rw [e', upd_same] at hx'; rw [hid u e] at hx; cases hx'
        exact absurd (J.ids.pc _ _ hx).1 (Nat.lt_irrefl _)
      · rw [hid u e] at hx; rw [hid u' e'] at hx'; exact J.ids.one u u' x hx hx'
    · have hx : (upd s.pc t (.go s.nid o) u).open = some x := hx
      by_cases e' : u = t
      · rw [e', upd_same] at hx; cases hx
        have := J.ids.ev v e he
        omega
      · rw [hid u e'] at hx; exact J.ids.fresh u x hx v e he
    · have hp : upd s.pc t (.go s.nid o) u = _ := hp
      by_cases e : u = t
      · rw [e, upd_same] at hp; cases hp
      · rw [hid u e] at hp
        have hx := (J.ids.pc u x (by rw [hp]; rfl)).1
        have := J.ord.pend u x k f mk hn v hp
        show (∀ w e, v < w → e ∈ s.seg w → ¬ upd s.bef s.nid s.fin x e.id) ∧ ∀ y, s.clr v = some y → ¬ upd s.bef s.nid s.fin x y
        rw [hb x hx]; exact this
    · refine (J.ord.seg v).imp_of_mem fun {e e'} he _ h => ?_
      show ¬ upd s.bef s.nid s.fin e.id e'.id ∧ _
      rw [hb _ (J.ids.ev v e he)]; exact h
    · show ¬ upd s.bef s.nid s.fin e.id e'.id ∧ _
      rw [hb _ (J.ids.ev v e he)]; exact J.ord.cross v w hw e he e' he'
    · have hp : upd s.pc t (.go s.nid o) u = _ := hp
      by_cases e : u = t
      · rw [e, upd_same] at hp; cases hp
      · rw [hid u e] at hp; exact J.out.ret u x o' r hp
    · rcases J.out.real v e he with h' | ⟨u, hu⟩
      · exact .inl h'
      · refine .inr ⟨u, ?_⟩
        show upd s.pc t (.go s.nid o) u = _
        rw [hid u fun e1 => by rw [e1, h] at hu; cases hu]; exact hu
  | @load t x k f mk hn h ht =>
    refine inv_pc J (t := t) (x := x) hV rfl rfl rfl rfl rfl rfl rfl (by rw [h]; rfl) rfl fun x' k' f' mk' hn' v' hp => ?_
    cases hp
    refine ⟨fun w e hw he => ?_, fun y hy => ?_⟩
    · rw [J.ord.seg_top hw] at he; cases he
    · rw [J.ord.clr s.n (Nat.le_refl _)] at hy; cases hy
  | @null t x k f mk hn h ht hm =>
    refine inv_log J (t := t) (v := s.n) hV rfl rfl rfl rfl rfl rfl rfl (by rw [h]; rfl) (Nat.le_refl _) (fun y hy => ?_) fun w e' hw he' => ?_
    · rw [J.ord.clr s.n (Nat.le_refl _)] at hy; cases hy
    · rw [J.ord.seg_top hw] at he'; cases he'
  | create h ht hm => exact inv_root J hV rfl rfl rfl rfl rfl (Nat.le_succ _) rfl
  | @act t x k f mk hn v h hd =>
    have hp := J.ord.pend t x k f mk hn v h
    exact inv_log J (t := t) (v := v) hV rfl rfl rfl rfl rfl rfl rfl (by rw [h]; rfl) (J.vals.atT _ _ _ _ _ _ _ h).2 hp.2 hp.1
  | @retry t x k f mk hn v h =>
    exact inv_pc J (t := t) (x := x) hV rfl rfl rfl rfl rfl rfl rfl (by rw [h]; rfl) rfl fun x' k' f' mk' hn' v' hp => by cases hp
  | retire v h => exact inv_root J hV rfl rfl rfl rfl rfl (Nat.le_refl _) rfl
  | cleanup ht h => exact inv_root J hV rfl rfl rfl rfl rfl (Nat.le_succ _) rfl
  | @clear t x h ht =>
    have h0 := J.ord.clr s.n (Nat.le_refl _)
    have A : Adds s { s with n := s.n + 1, isT := upd s.isT (s.n + 1) false, clr := upd s.clr s.n (some x), pc := upd s.pc t (.ret x .clear none) } s.n ⟨x, .clear, none⟩ :=
      adds_clr rfl rfl h0
    have ho : (s.pc t).open = some x := by rw [h]; rfl
    have hx := J.ids.pc t x (Pc.open_id ho)
    have hor := A.order J.ids J.ord rfl hx.2 (J.ids.fresh t x ho) (fun w e' hw he' => by rw [J.ord.seg_top hw] at he'; cases he')
    refine ⟨hV, A.ids J.ids rfl rfl rfl rfl ho rfl rfl,
      ⟨fun w hw => J.ord.top w (Nat.lt_of_succ_lt hw), fun w hw => ?_, A.pend J.ids J.ord rfl hx.2 rfl rfl (fun w y hy => ?_), hor.1, hor.2⟩, A.out J.out rfl ho rfl rfl⟩
    · have hw : s.n + 1 ≤ w := hw
      show upd s.clr s.n (some x) w = none
      rw [upd_other _ _ (by omega)]; exact J.ord.clr w (by omega)
    · have hy : upd s.clr s.n (some x) w = some y := hy
      by_cases e : w = s.n
      · rw [e, upd_same] at hy; cases hy; exact .inr rfl
      · rw [upd_other _ _ e] at hy; exact .inl hy
  | @clear0 t x h ht =>
    refine inv_log J (t := t) (v := s.n) (e := ⟨x, .clear, none⟩) hV rfl rfl rfl rfl rfl rfl rfl (by rw [h]; rfl) (Nat.le_refl _) (fun y hy => ?_) fun w e' hw he' => ?_
    · rw [J.ord.clr s.n (Nat.le_refl _)] at hy; cases hy
    · rw [J.ord.seg_top hw] at he'; cases he'
  | @ret t x o r h =>
    have hx : (s.pc t).id = some x := by rw [h]; rfl
    have hid : ∀ u y, (upd s.pc t .idle u).id = some y → (s.pc u).id = some y ∧ u ≠ t := by
      intro u y hy
      by_cases hu : u = t
      · rw [hu, upd_same] at hy; cases hy
      · rw [upd_other _ _ hu] at hy; exact ⟨hy, hu⟩
    have hfin : ∀ y, (∃ e ∈ s.got ++ [⟨x, o, r⟩], e.id = y) → s.fin y ∨ y = x := by
      intro y ⟨e, he, hy⟩
      rcases List.mem_append.1 he with he | he
      · exact .inl ⟨e, he, hy⟩
      · rw [List.mem_singleton.1 he] at hy; exact .inr hy.symm
    have hold : ∀ y, s.fin y → ∃ e ∈ s.got ++ [⟨x, o, r⟩], e.id = y := fun y ⟨e, he, hy⟩ => ⟨e, List.mem_append.2 (.inl he), hy⟩
    refine ⟨hV, ⟨fun y hy => ?_, fun y z hyz => hold _ (J.ids.bef _ _ hyz), fun u y hy => ?_, fun u u' y hy hy' => ?_, J.ids.ev, fun u y hy => ?_⟩,
      ⟨J.ord.top, J.ord.clr, fun u y k f mk hn v hp => ?_, J.ord.seg, J.ord.cross⟩, ⟨fun u y o' r' hp => ?_, fun y hy => ?_, fun v e he => ?_⟩⟩
    · rcases hfin y hy with hy | hy
      · exact J.ids.fin y hy
      · rw [hy]; exact (J.ids.pc t x hx).1
    · have h1 := hid u y hy
      refine ⟨(J.ids.pc u y h1.1).1, fun hf => ?_⟩
      rcases hfin y hf with hf | hf
      · exact (J.ids.pc u y h1.1).2 hf
      · rw [hf] at h1; exact h1.2 (J.ids.one u t x h1.1 hx)
    · exact J.ids.one u u' y (hid u y hy).1 (hid u' y hy').1
    · have hy : (upd s.pc t .idle u).open = some y := hy
      by_cases hu : u = t
      · rw [hu, upd_same] at hy; cases hy
      · rw [upd_other _ _ hu] at hy; exact J.ids.fresh u y hy
    · have hp : upd s.pc t .idle u = _ := hp
      by_cases hu : u = t
      · rw [hu, upd_same] at hp; cases hp
      · rw [upd_other _ _ hu] at hp; exact J.ord.pend u y k f mk hn v hp
    · have hp : upd s.pc t .idle u = _ := hp
      by_cases hu : u = t
      · rw [hu, upd_same] at hp; cases hp
      · rw [upd_other _ _ hu] at hp; exact J.out.ret u y o' r' hp
    · rcases List.mem_append.1 hy with hy | hy
      · exact J.out.got y hy
      · rw [List.mem_singleton.1 hy]; exact J.out.ret t x o r h
    · rcases J.out.real v e he with h' | ⟨u, hu⟩
      · exact .inl (List.mem_append.2 (.inl h'))
      · by_cases e1 : u = t
        · rw [e1, h] at hu; cases hu
          exact .inl (List.mem_append.2 (.inr (List.mem_singleton.2 rfl)))
        · refine .inr ⟨u, ?_⟩
          show upd s.pc t .idle u = _
          rw [upd_other _ _ e1]; exact hu

theorem inv {s : St} (h : Reach s) : Inv s := by
  induction h with
  | init => exact inv_init
  | step _ st ih => exact ih.step st

end Scc.Uproot
