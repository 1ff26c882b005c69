import Verif.Mist.Frame

/-! # The histories of the cells -/

namespace Scc.Mist

open Scc.Haze

def lastv (l : List Wr) : Option Nat := l.getLast?.bind Wr.val

def MoveIn (w : Wr) : Prop := w.mv = true ∧ w.val ≠ none
def MoveOut (w : Wr) : Prop := w.mv = true ∧ w.val = none

structure Hist (ix : Nat → Nat → Nat) (s : State) (h : Nat → Nat → List Wr) : Prop where
  arr : ∀ a k w, w ∈ h a k → s.isA a = true
  ids : ∀ a k w, w ∈ h a k → Ids s a (ix a k) w.id
  f1 : ∀ (a k) (j : Nat) (w : Wr), (h a k)[j]? = some w → ¬MoveOut w → ∃ A C, s.log a = A ++ C ∧ after empty (flat s.log (a - 1) ++ A) k = w.val ∧
    ∀ e ∈ C, e.op.key = k → ∃ (i : Nat) (w' : Wr), (h a k)[i]? = some w' ∧ j < i ∧ w'.id = e.id
  f2 : ∀ a p k, s.prev a = some p → s.dead p (ix p k) = true → (∀ w ∈ h a k, ¬MoveIn w) → after empty (flat s.log p) k = none
  g2 : ∀ t a p k, s.mp t = .kl a p (ix p k) → (∀ w ∈ h a k, ¬MoveIn w) → after empty (flat s.log p) k = none
  h3 : ∀ a p k, s.prev a = some p → h a k ≠ [] → s.dead p (ix p k) = true ∨ ∃ t, s.mp t = .kl a p (ix p k)
  h4 : ∀ a e, s.isA a = true → e ∈ s.log a → ∃ w ∈ h a e.op.key, w.id = e.id
  h5 : ∀ a k, lastv (h a k) = s.val a k
  h6 : ∀ p k w, w ∈ h p k → MoveOut w → (∃ w' ∈ h (p + 1) k, w'.id = w.id) ∧ w.msg.ver (p + 1)
  h7 : ∀ a p k w, w ∈ h a k → MoveIn w → s.prev a = some p → Ids s p (ix p k) w.id

theorem hist_init (ix : Nat → Nat → Nat) : Hist ix State.init (fun _ _ => []) where
  arr := fun _ _ _ h => by cases h
  ids := fun _ _ _ h => by cases h
  f1 := fun _ _ _ _ h => by cases h
  f2 := fun _ _ _ h => by cases h
  g2 := fun _ _ _ _ h => by cases h
  h3 := fun _ _ _ h => by cases h
  h4 := fun _ _ h => by cases h
  h5 := fun _ _ => rfl
  h6 := fun _ _ _ h => by cases h
  h7 := fun _ _ _ _ h => by cases h

theorem after_flat {log log' : Nat → List Ev} {k j : Nat} (A : List Ev) (h : after empty (flat log' j) k = after empty (flat log j) k) :
    after empty (flat log' j ++ A) k = after empty (flat log j ++ A) k := by
  rw [after_append, after_append]; exact after_key A h

theorem hist_same {ix : Nat → Nat → Nat} {s s' : State} {h : Nat → Nat → List Wr} (I : Inv ix s) (L : Lin ix s) (D : Drd s) (H : Hist ix s h) (st : Haze.Step ix s s')
    (hc : ∀ t x o v, s.pc t = .crit x o v → s'.pc t = .crit x o v) (hm : ∀ t v p i, s'.mp t = .kl v p i → s.mp t = .kl v p i) : Hist ix s' h := by
  have F := frame_step I st
  have G := grow_step I st
  have Q := same_step L st hc hm
  have emp : ∀ k, h (s.n + 1) k = [] := by
    intro k
    cases e : h (s.n + 1) k with
    | nil => rfl
    | cons w l =>
      have := isA_le I (H.arr (s.n + 1) k w (by rw [e]; exact List.mem_cons_self ..))
      omega
  refine ⟨fun a k w g => G.isA a (H.arr a k w g), fun a k w g => G.ids _ _ _ (H.ids a k w g), ?_, ?_, ?_, ?_, ?_, ?_, H.h6, ?_⟩
  · intro a k j w g hmo
    obtain ⟨A, C, h1, h2, h3⟩ := H.f1 a k j w g hmo
    refine ⟨A, C, ?_, ?_, h3⟩
    · rw [Q.log a (H.arr a k w (List.mem_of_getElem? g))]; exact h1
    · rw [after_flat A (Q.aft (a - 1) k)]; exact h2
  · intro a p k hp hd hn
    rw [Q.aft p k]
    rcases F.prev a p hp with hp | ⟨h1, h2, h3⟩
    · rcases Q.dead p _ hd with hd | ⟨t, a', g⟩ | ⟨t, v, g1, g2⟩ | ⟨t, g⟩
      · exact H.f2 a p k hp hd hn
      · have hq := I.mps t; rw [g] at hq
        have e : a' = a := by have := (I.link _ _ hp).1; have := (I.link _ _ hq.1).1; omega
        exact H.g2 t a p k (e ▸ g) hn
      · rw [((mv_val I L g1).2.2.2 k rfl).2]; exact g2 k rfl
      · have := D t p g
        have h1 := (I.link _ _ hp)
        rw [← h1.1, h1.2.2] at this; cases this
    · exfalso
      rcases Q.dead p _ hd with hd | ⟨t, a', g⟩ | ⟨t, v, g1, g2⟩ | ⟨t, g⟩
      · have := (I.dead _ _ hd).2.2.2; omega
      · have hq := I.mps t; rw [g] at hq
        have := I.link _ _ hq.1; have := isA_le I this.2.2; omega
      · have hq := I.mps t; rw [g1] at hq
        have := I.link _ _ hq.1; have := isA_le I this.2.2; omega
      · have hq := I.mps t; rw [g] at hq
        have := hq.2.2.1; omega
  · intro t a p k g hn
    rw [Q.aft p k]; exact H.g2 t a p k (hm t a p _ g) hn
  · intro a p k hp hne
    rcases F.prev a p hp with hp | ⟨h1, h2, h3⟩
    · rcases H.h3 a p k hp hne with hd | ⟨t, g⟩
      · exact .inl (F.dead _ _ hd)
      · rcases Q.kl t a p _ g with g | g
        · exact .inr ⟨t, g⟩
        · exact .inl g
    · rw [h2] at hne; exact absurd (emp k) hne
  · intro a e ha he
    rcases Q.isA a ha with hA | hA
    · rw [Q.log a hA] at he; exact H.h4 a e hA he
    · have he := Q.new e (hA ▸ he)
      rw [L.blank _ (Nat.lt_succ_self _)] at he; cases he
  · intro a k; rw [Q.val]; exact H.h5 a k
  · intro a p k w hw hmi hp
    rcases F.prev a p hp with hp | ⟨h1, h2, h3⟩
    · exact G.ids _ _ _ (H.h7 a p k w hw hmi hp)
    · rw [h2, emp k] at hw; cases hw

theorem push_mem {h : Nat → Nat → List Wr} {v k0 : Nat} {w0 : Wr} {a k : Nat} {w : Wr} (hw : w ∈ push h v k0 w0 a k) : w ∈ h a k ∨ (a = v ∧ k = k0 ∧ w = w0) := by
  have hw : w ∈ upd2 h v k0 (h v k0 ++ [w0]) a k := hw
  by_cases e : a = v ∧ k = k0
  · obtain ⟨rfl, rfl⟩ := e
    rw [upd2_eq] at hw
    rcases List.mem_append.mp hw with hw | hw
    · exact .inl hw
    · exact .inr ⟨rfl, rfl, List.mem_singleton.mp hw⟩
  · rw [upd2_ne _ _ e] at hw; exact .inl hw

theorem push_get {h : Nat → Nat → List Wr} {v k0 : Nat} {w0 : Wr} {a k j : Nat} {w : Wr} (hw : (h a k)[j]? = some w) : (push h v k0 w0 a k)[j]? = some w := by
  show (upd2 h v k0 (h v k0 ++ [w0]) a k)[j]? = some w
  by_cases e : a = v ∧ k = k0
  · obtain ⟨rfl, rfl⟩ := e
    rw [upd2_eq, List.getElem?_append_left]
    · exact hw
    · exact (List.getElem?_eq_some_iff.mp hw).1
  · rw [upd2_ne _ _ e]; exact hw

theorem push_sub {h : Nat → Nat → List Wr} {v k0 : Nat} {w0 : Wr} {a k : Nat} {w : Wr} (hw : w ∈ h a k) : w ∈ push h v k0 w0 a k := by
  obtain ⟨j, hj⟩ := List.getElem?_of_mem hw
  exact List.mem_of_getElem? (push_get hj)

theorem append_get {l : List Wr} {w0 w : Wr} {j : Nat} (h : (l ++ [w0])[j]? = some w) : l[j]? = some w ∨ (j = l.length ∧ w = w0) := by
  rcases Nat.lt_trichotomy j l.length with g | g | g
  · rw [List.getElem?_append_left g] at h; exact .inl h
  · subst g; rw [List.getElem?_append_right (Nat.le_refl _)] at h; simp at h; exact .inr ⟨rfl, h.symm⟩
  · rw [List.getElem?_eq_none (by simp; omega)] at h; cases h

theorem lastv_append (l : List Wr) (w : Wr) : lastv (l ++ [w]) = w.val := by simp [lastv]

theorem flat_pred (log : Nat → List Ev) {a : Nat} (h : a ≠ 0) : flat log a = flat log (a - 1) ++ log a := by
  cases a with
  | zero => exact absurd rfl h
  | succ a => rfl

theorem arr_ne {ix : Nat → Nat → Nat} {s : State} (I : Inv ix s) {a : Nat} (h : s.isA a = true) : a ≠ 0 := by
  rintro rfl; rw [I.zero] at h; cases h

/-- Who has the lock excludes those who relocate. -/
theorem held_kl {ix : Nat → Nat → Nat} {s : State} (I : Inv ix s) {t v : Nat} {o : Op} (hh : Held ix s t o v) (u a : Nat) : s.mp u ≠ .kl a v (ix v o.key) := by
  intro hu
  have hm := I.mps u; rw [hu] at hm
  rcases hh with ⟨_, hh⟩ | ⟨_, hh⟩
  · rw [I.excl v _ (by rw [hm.2.1]; simp) t] at hh; cases hh
  · rw [hm.2.1] at hh; cases hh

/-- A call changes nothing before a bucket that has been moved or is being moved. -/
theorem aft_act {ix : Nat → Nat → Nat} {s : State} (I : Inv ix s) {t x : Nat} {o : Op} {v : Nat} (h : s.pc t = .crit x o v) {a p k : Nat} (hp : s.prev a = some p)
    (hd : s.dead p (ix p k) = true ∨ ∃ t, s.mp t = .kl a p (ix p k)) : after empty (flat (s.act ix t x o v).log p) k = after empty (flat s.log p) k := by
  have hq := I.pcs t; rw [h] at hq
  obtain ⟨hA, hg, hh⟩ := hq
  by_cases e : o.key = k
  · subst e
    have hlt : p < v := by
      obtain ⟨h1, h2, h3⟩ := I.link _ _ hp
      have h4 := isA_le I h3
      refine Classical.byContradiction fun hn => ?_
      have hv : v = p := by
        rcases crit_where I hA hh with e | e
        · omega
        · have := (I.link _ _ e).1; omega
      subst hv
      rcases hd with hd | ⟨u, hu⟩
      · rw [held_alive I hh] at hd; cases hd
      · exact held_kl I hh u a hu
    show after empty (flat (upd s.log v _) p) _ = _
    rw [flat_lt _ hlt]
  · exact aft_other s.log ⟨x, o, (o.f (s.val v o.key)).2⟩ e p

theorem hist_act {ix : Nat → Nat → Nat} {s : State} {h : Nat → Nat → List Wr} (I : Inv ix s) (L : Lin ix s) (H : Hist ix s h) {t x : Nat} {o : Op} {v : Nat} (hc : s.pc t = .crit x o v) (V : View) :
    Hist ix (s.act ix t x o v) (push h v o.key ⟨x, (o.f (s.val v o.key)).1, false, V⟩) := by
  have hq := I.pcs t; rw [hc] at hq
  obtain ⟨hA, hg, hh⟩ := hq
  have hval := act_val I L hc
  have G := grow_step I (.act hc)
  have hl : ∀ a, (s.act ix t x o v).log a = upd s.log v (s.log v ++ [⟨x, o, (o.f (s.val v o.key)).2⟩]) a := fun _ => rfl
  refine ⟨?_, ?_, ?_, ?_, ?_, ?_, ?_, ?_, ?_, ?_⟩
  · intro a k w hw
    rcases push_mem hw with g | ⟨rfl, rfl, rfl⟩
    · exact H.arr a k w g
    · exact hA
  · intro a k w hw
    rcases push_mem hw with g | ⟨rfl, rfl, rfl⟩
    · exact G.ids _ _ _ (H.ids a k w g)
    · show (_ ∨ _) ∨ (_ ∨ _)
      cases hr : o.ro with
      | false => exact .inl (.inr ⟨rfl, rfl, rfl, rfl⟩)
      | true => exact .inr (.inr ⟨rfl, rfl, rfl, rfl⟩)
  · intro a k j w hw hmo
    have hw : (upd2 h v o.key (h v o.key ++ [⟨x, (o.f (s.val v o.key)).1, false, V⟩]) a k)[j]? = some w := hw
    by_cases ek : a = v ∧ k = o.key
    · obtain ⟨rfl, rfl⟩ := ek
      rw [upd2_eq] at hw
      have h0 := arr_ne I hA
      rcases append_get hw with g | ⟨g1, g2⟩
      · obtain ⟨A, C, h1, h2, h3⟩ := H.f1 _ _ j w g hmo
        refine ⟨A, C ++ [⟨x, o, (o.f (s.val a o.key)).2⟩], ?_, ?_, ?_⟩
        · rw [hl, upd_eq, h1, List.append_assoc]
        · show after empty (flat (upd s.log a _) (a - 1) ++ A) _ = _
          rw [flat_lt _ (by omega)]; exact h2
        · intro e he hk
          rcases List.mem_append.mp he with he | he
          · obtain ⟨i, w', g1, g2, g3⟩ := h3 e he hk
            exact ⟨i, w', push_get g1, g2, g3⟩
          · refine ⟨(h a o.key).length, ⟨x, (o.f (s.val a o.key)).1, false, V⟩, ?_, (List.getElem?_eq_some_iff.mp g).1, by rw [List.mem_singleton.mp he]⟩
            show (upd2 h a o.key (h a o.key ++ [⟨x, (o.f (s.val a o.key)).1, false, V⟩]) a o.key)[(h a o.key).length]? = some ⟨x, (o.f (s.val a o.key)).1, false, V⟩
            rw [upd2_eq]; simp
      · refine ⟨s.log a ++ [⟨x, o, (o.f (s.val a o.key)).2⟩], [], ?_, ?_, by simp⟩
        · rw [hl, upd_eq, List.append_nil]
        · show after empty (flat (upd s.log a _) (a - 1) ++ _) _ = _
          rw [flat_lt _ (by omega), ← List.append_assoc, ← flat_pred s.log h0, after_append, g2]
          show upd (after empty (flat s.log a)) o.key _ o.key = _
          rw [upd_eq, hval]
    · rw [upd2_ne _ _ ek] at hw
      have ha := H.arr a k w (List.mem_of_getElem? hw)
      have h0 := arr_ne I ha
      obtain ⟨A, C, h1, h2, h3⟩ := H.f1 a k j w hw hmo
      by_cases e : o.key = k
      · subst e
        have hav : a ≠ v := fun e => ek ⟨e, rfl⟩
        have hlt : a < v := by
          refine Classical.byContradiction fun hn => ?_
          have := isA_le I ha
          rcases crit_where I hA hh with e | e
          · omega
          · have e2 : a = s.n := by have := (I.link _ _ e).1; omega
            subst e2
            rcases H.h3 _ v o.key e (List.ne_nil_of_mem (List.mem_of_getElem? hw)) with hd | ⟨u, hu⟩
            · rw [held_alive I hh] at hd; cases hd
            · exact held_kl I hh u _ hu
        refine ⟨A, C, ?_, ?_, ?_⟩
        · rw [hl, upd_ne _ _ hav]; exact h1
        · show after empty (flat (upd s.log v _) (a - 1) ++ A) _ = _
          rw [flat_lt _ (by omega)]; exact h2
        · intro e he hk
          obtain ⟨i, w', g1, g2, g3⟩ := h3 e he hk
          exact ⟨i, w', push_get g1, g2, g3⟩
      · have hpush : push h v o.key ⟨x, (o.f (s.val v o.key)).1, false, V⟩ a k = h a k := upd2_ne _ _ ek
        have haf : after empty (flat (s.act ix t x o v).log (a - 1) ++ A) k = w.val := by
          exact (after_flat A (aft_other s.log ⟨x, o, (o.f (s.val v o.key)).2⟩ e (a - 1))).trans h2
        by_cases ea : a = v
        · subst ea
          refine ⟨A, C ++ [⟨x, o, (o.f (s.val a o.key)).2⟩], ?_, haf, ?_⟩
          · rw [hl, upd_eq, h1, List.append_assoc]
          · intro e' he hk
            rw [hpush]
            rcases List.mem_append.mp he with he | he
            · exact h3 e' he hk
            · rw [List.mem_singleton.mp he] at hk; exact absurd hk e
        · refine ⟨A, C, ?_, haf, ?_⟩
          · rw [hl, upd_ne _ _ ea]; exact h1
          · rw [hpush]; exact h3
  · intro a p k hp hd hn
    rw [aft_act I hc (a := a) hp (.inl hd)]
    exact H.f2 a p k hp hd (fun w hw => hn w (push_sub hw))
  · intro u a p k hu hn
    have hm := I.mps u
    have hu : s.mp u = .kl a p (ix p k) := hu
    rw [hu] at hm
    rw [aft_act I hc (a := a) hm.1 (.inr ⟨u, hu⟩)]
    exact H.g2 u a p k hu (fun w hw => hn w (push_sub hw))
  · intro a p k hp hne
    have hp : s.prev a = some p := hp
    by_cases ek : a = v ∧ k = o.key
    · obtain ⟨rfl, rfl⟩ := ek
      have hp : s.prev a = some p := hp
      rcases hg with hg | ⟨q, hg, hd⟩
      · rw [hp] at hg; cases hg
      · rw [hp] at hg; cases hg; exact .inl hd
    · have : push h v o.key ⟨x, (o.f (s.val v o.key)).1, false, V⟩ a k = h a k := upd2_ne _ _ ek
      rw [this] at hne
      exact H.h3 a p k hp hne
  · intro a e ha he
    rw [hl] at he
    by_cases ea : a = v
    · subst ea
      rw [upd_eq] at he
      rcases List.mem_append.mp he with he | he
      · obtain ⟨w, h1, h2⟩ := H.h4 a e ha he
        exact ⟨w, push_sub h1, h2⟩
      · rw [List.mem_singleton.mp he]
        refine ⟨⟨x, (o.f (s.val a o.key)).1, false, V⟩, ?_, rfl⟩
        show _ ∈ upd2 h a o.key _ a o.key
        rw [upd2_eq]; simp
    · rw [upd_ne _ _ ea] at he
      obtain ⟨w, h1, h2⟩ := H.h4 a e ha he
      exact ⟨w, push_sub h1, h2⟩
  · intro a k
    show lastv (upd2 h v o.key (h v o.key ++ [⟨x, (o.f (s.val v o.key)).1, false, V⟩]) a k) = upd2 s.val v o.key (o.f (s.val v o.key)).1 a k
    by_cases ek : a = v ∧ k = o.key
    · obtain ⟨rfl, rfl⟩ := ek
      rw [upd2_eq, upd2_eq, lastv_append]
    · rw [upd2_ne _ _ ek, upd2_ne _ _ ek]; exact H.h5 a k
  · intro p k w hw hmo
    rcases push_mem hw with g | ⟨rfl, rfl, rfl⟩
    · obtain ⟨⟨w', h1, h2⟩, h3⟩ := H.h6 p k w g hmo
      exact ⟨⟨w', push_sub h1, h2⟩, h3⟩
    · cases hmo.1
  · intro a p k w hw hmi hp
    rcases push_mem hw with g | ⟨rfl, rfl, rfl⟩
    · exact G.ids _ _ _ (H.h7 a p k w g hmi hp)
    · cases hmi.1

theorem moveH_in {ix : Nat → Nat → Nat} {s : State} {h : Nat → Nat → List Wr} {t v p i k : Nat} (hk : ix p k = i) (hv : s.val p k ≠ none) :
    moveH ix s h t v p i v k = h v k ++ [⟨s.nid, s.val p k, true, s.tv t⟩] := by
  rw [moveH, if_pos ⟨hk, hv⟩, if_pos rfl]
theorem moveH_out {ix : Nat → Nat → Nat} {s : State} {h : Nat → Nat → List Wr} {t v p i k : Nat} (hk : ix p k = i) (hv : s.val p k ≠ none) (hne : p ≠ v) :
    moveH ix s h t v p i p k = h p k ++ [⟨s.nid, none, true, s.tv t⟩] := by
  rw [moveH, if_pos ⟨hk, hv⟩, if_neg hne, if_pos rfl]

/-- The two histories that get an entry, and all others. -/
theorem moveH_cases {ix : Nat → Nat → Nat} {s : State} {h : Nat → Nat → List Wr} {t v p i : Nat} (hne : p ≠ v) (a k : Nat) :
    (ix p k = i ∧ s.val p k ≠ none ∧ a = v ∧ moveH ix s h t v p i a k = h a k ++ [⟨s.nid, s.val p k, true, s.tv t⟩]) ∨
    (ix p k = i ∧ s.val p k ≠ none ∧ a = p ∧ moveH ix s h t v p i a k = h a k ++ [⟨s.nid, none, true, s.tv t⟩]) ∨
    (¬(ix p k = i ∧ s.val p k ≠ none ∧ (a = v ∨ a = p)) ∧ moveH ix s h t v p i a k = h a k) := by
  by_cases e : ix p k = i ∧ s.val p k ≠ none
  · by_cases ea : a = v
    · subst ea; exact .inl ⟨e.1, e.2, rfl, moveH_in e.1 e.2⟩
    · by_cases eb : a = p
      · subst eb; exact .inr (.inl ⟨e.1, e.2, rfl, moveH_out e.1 e.2 hne⟩)
      · exact .inr (.inr ⟨fun g => g.2.2.elim ea eb, by rw [moveH, if_pos e, if_neg ea, if_neg eb]⟩)
  · exact .inr (.inr ⟨fun g => e ⟨g.1, g.2.1⟩, by rw [moveH, if_neg e]⟩)

theorem moveH_get {ix : Nat → Nat → Nat} {s : State} {h : Nat → Nat → List Wr} {t v p i : Nat} (hne : p ≠ v) {a k j : Nat} {w : Wr} (hw : (h a k)[j]? = some w) :
    (moveH ix s h t v p i a k)[j]? = some w := by
  have hj := (List.getElem?_eq_some_iff.mp hw).1
  rcases moveH_cases (ix := ix) (s := s) (h := h) (t := t) (i := i) hne a k with ⟨_, _, _, e⟩ | ⟨_, _, _, e⟩ | ⟨_, e⟩
  · rw [e, List.getElem?_append_left hj]; exact hw
  · rw [e, List.getElem?_append_left hj]; exact hw
  · rw [e]; exact hw

theorem moveH_sub {ix : Nat → Nat → Nat} {s : State} {h : Nat → Nat → List Wr} {t v p i : Nat} (hne : p ≠ v) {a k : Nat} {w : Wr} (hw : w ∈ h a k) :
    w ∈ moveH ix s h t v p i a k := by
  obtain ⟨j, hj⟩ := List.getElem?_of_mem hw
  exact List.mem_of_getElem? (moveH_get hne hj)

theorem moveH_mem {ix : Nat → Nat → Nat} {s : State} {h : Nat → Nat → List Wr} {t v p i : Nat} (hne : p ≠ v) {a k : Nat} {w : Wr} (hw : w ∈ moveH ix s h t v p i a k) :
    w ∈ h a k ∨ (ix p k = i ∧ s.val p k ≠ none ∧ ((a = v ∧ w = ⟨s.nid, s.val p k, true, s.tv t⟩) ∨ (a = p ∧ w = ⟨s.nid, none, true, s.tv t⟩))) := by
  rcases moveH_cases (ix := ix) (s := s) (h := h) (t := t) (i := i) hne a k with ⟨h1, h2, h3, e⟩ | ⟨h1, h2, h3, e⟩ | ⟨_, e⟩
  · rw [e] at hw
    rcases List.mem_append.mp hw with hw | hw
    · exact .inl hw
    · exact .inr ⟨h1, h2, .inl ⟨h3, List.mem_singleton.mp hw⟩⟩
  · rw [e] at hw
    rcases List.mem_append.mp hw with hw | hw
    · exact .inl hw
    · exact .inr ⟨h1, h2, .inr ⟨h3, List.mem_singleton.mp hw⟩⟩
  · rw [e] at hw; exact .inl hw

theorem hist_move {ix : Nat → Nat → Nat} {s : State} {h : Nat → Nat → List Wr} (I : Inv ix s) (L : Lin ix s) (O : Ord s) (H : Hist ix s h) {t v p i : Nat} (hm : s.mp t = .mv v p i)
    (hw : ∀ b, Target ix v p i b → s.wl v b = none ∧ ∀ u, s.sl v b u = false) :
    Hist ix (s.move ix t v p i) (moveH ix s h t v p i) := by
  obtain ⟨hp, hvp, hwl, hval⟩ := mv_val I L hm
  have hne : p ≠ v := by omega
  have G := grow_step I (.move hm hw)
  obtain ⟨_, hAp, hAv⟩ := I.link _ _ hp
  have klmono : ∀ u a q j, s.mp u = .kl a q j → (s.move ix t v p i).mp u = .kl a q j := by
    intro u a q j g
    refine (upd_ne _ _ ?_).trans g
    rintro rfl
    rw [hm] at g; cases g
  refine ⟨?_, ?_, ?_, ?_, ?_, ?_, ?_, ?_, ?_, ?_⟩
  · intro a k w g
    rcases moveH_mem hne g with g | ⟨_, _, ⟨rfl, _⟩ | ⟨rfl, _⟩⟩
    · exact H.arr a k w g
    · exact hAv
    · exact hAp
  · intro a k w g
    rcases moveH_mem hne g with g | ⟨g1, _, ⟨rfl, rfl⟩ | ⟨rfl, rfl⟩⟩
    · exact G.ids _ _ _ (H.ids a k w g)
    · exact .inl (.inr ⟨rfl, .inr ⟨rfl, k, g1, rfl⟩⟩)
    · exact .inl (.inr ⟨rfl, .inl ⟨rfl, g1⟩⟩)
  · intro a k j w g hmo
    have old : (h a k)[j]? = some w → ∃ A C, s.log a = A ++ C ∧ after empty (flat s.log (a - 1) ++ A) k = w.val ∧
        ∀ e ∈ C, e.op.key = k → ∃ (i' : Nat) (w' : Wr), (moveH ix s h t v p i a k)[i']? = some w' ∧ j < i' ∧ w'.id = e.id := by
      intro g
      obtain ⟨A, C, h1, h2, h3⟩ := H.f1 a k j w g hmo
      refine ⟨A, C, h1, h2, fun e he hk => ?_⟩
      obtain ⟨i', w', g1, g2, g3⟩ := h3 e he hk
      exact ⟨i', w', moveH_get hne g1, g2, g3⟩
    rcases moveH_cases (ix := ix) (s := s) (h := h) (t := t) (i := i) hne a k with ⟨h1, h2, h3, e⟩ | ⟨h1, h2, h3, e⟩ | ⟨_, e⟩
    · rw [e] at g
      rcases append_get g with g | ⟨_, g⟩
      · exact old g
      · obtain ⟨hn, hv⟩ := hval k h1
        refine ⟨[], s.log a, rfl, ?_, ?_⟩
        · rw [List.append_nil, g, h3, hvp]; exact hv
        · intro e' he hk
          exfalso
          subst h3
          exact L.quiet p (hn ▸ hp) k (wl_alive I (h1 ▸ hwl)) e' (hn ▸ he) hk
    · rw [e] at g
      rcases append_get g with g | ⟨_, g⟩
      · exact old g
      · exact absurd ⟨by rw [g], by rw [g]⟩ hmo
    · rw [e] at g; exact old g
  · intro a q k hq hd hn
    exact H.f2 a q k hq hd (fun w hw => hn w (moveH_sub hne hw))
  · intro u a q k hu hn
    rcases upd_back hu with hu | ⟨e, hu⟩
    · exact H.g2 u a q k hu (fun w hw => hn w (moveH_sub hne hw))
    · cases hu
      obtain ⟨_, hv⟩ := hval k rfl
      cases e' : s.val p k with
      | none => exact hv.trans e'
      | some x =>
        refine absurd ?_ (hn ⟨s.nid, s.val p k, true, s.tv t⟩ ?_)
        · exact ⟨rfl, by rw [e']; simp⟩
        · rw [moveH_in rfl (by rw [e']; simp)]; simp
  · intro a q k hq hne'
    have hq : s.prev a = some q := hq
    have old : h a k ≠ [] → (s.move ix t v p i).dead q (ix q k) = true ∨ ∃ u, (s.move ix t v p i).mp u = .kl a q (ix q k) := by
      intro g
      rcases H.h3 a q k hq g with g | ⟨u, g⟩
      · exact .inl g
      · exact .inr ⟨u, klmono _ _ _ _ g⟩
    rcases moveH_cases (ix := ix) (s := s) (h := h) (t := t) (i := i) hne a k with ⟨h1, h2, h3, e⟩ | ⟨h1, h2, h3, e⟩ | ⟨_, e⟩
    · subst h3
      have hq : s.prev a = some q := hq
      rw [hp] at hq; cases hq
      refine .inr ⟨t, ?_⟩
      show upd s.mp t (.kl a p i) t = _
      rw [upd_eq, h1]
    · subst h3
      refine old (fun g => h2 ?_)
      rw [← H.h5, g]; rfl
    · rw [e] at hne'; exact old hne'
  · intro a e ha he
    obtain ⟨w, h1, h2⟩ := H.h4 a e ha he
    exact ⟨w, moveH_sub hne h1, h2⟩
  · intro a k
    show _ = if ix p k = i then (if a = v then (s.val p k).or (s.val v k) else if a = p then none else s.val a k) else s.val a k
    rcases moveH_cases (ix := ix) (s := s) (h := h) (t := t) (i := i) hne a k with ⟨h1, h2, h3, e⟩ | ⟨h1, h2, h3, e⟩ | ⟨hno, e⟩
    · rw [e, lastv_append, if_pos h1, if_pos h3]
      cases e' : s.val p k with
      | none => exact absurd e' h2
      | some x => rfl
    · rw [e, lastv_append, if_pos h1, if_neg (by omega), if_pos h3]
    · rw [e, H.h5]
      by_cases h1 : ix p k = i
      · rw [if_pos h1]
        by_cases h2 : s.val p k = none
        · by_cases h3 : a = v
          · rw [if_pos h3, h2, h3]; simp
          · rw [if_neg h3]
            by_cases h4 : a = p
            · rw [if_pos h4, h4, h2]
            · rw [if_neg h4]
        · rw [if_neg (fun g => hno ⟨h1, h2, .inl g⟩), if_neg (fun g => hno ⟨h1, h2, .inr g⟩)]
      · rw [if_neg h1]
  · intro q k w g hmo
    rcases moveH_mem hne g with g | ⟨g1, g2, ⟨rfl, rfl⟩ | ⟨rfl, rfl⟩⟩
    · obtain ⟨⟨w', h1, h2⟩, h3⟩ := H.h6 q k w g hmo
      exact ⟨⟨w', moveH_sub hne h1, h2⟩, h3⟩
    · exact absurd hmo.2 g2
    · rw [← hvp]
      refine ⟨⟨⟨s.nid, s.val q k, true, s.tv t⟩, ?_, rfl⟩, O.kn t v (by rw [hm]; rfl)⟩
      rw [moveH_in g1 g2]; simp
  · intro a q k w g hmi hq
    have hq : s.prev a = some q := hq
    rcases moveH_mem hne g with g | ⟨g1, g2, ⟨rfl, rfl⟩ | ⟨rfl, rfl⟩⟩
    · exact G.ids _ _ _ (H.h7 a q k w g hmi hq)
    · have hq : s.prev a = some q := hq
      rw [hp] at hq; cases hq
      exact .inl (.inr ⟨rfl, .inl ⟨rfl, g1⟩⟩)
    · exact absurd rfl hmi.2

end Scc.Mist
