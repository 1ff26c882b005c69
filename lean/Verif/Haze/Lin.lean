import Verif.Haze.Steps2

/-! # The calls in the order of the arrays are legal -/

namespace Scc.Haze

theorem after_append (m : Nat → Option Nat) (a b : List Ev) : after m (a ++ b) = after (after m a) b := by
  induction a generalizing m with
  | nil => rfl
  | cons e a ih => exact ih _

theorem legal_append (m : Nat → Option Nat) (a b : List Ev) : Legal m (a ++ b) ↔ Legal m a ∧ Legal (after m a) b := by
  induction a generalizing m with
  | nil => simp [Legal, after]
  | cons e a ih => simp only [List.cons_append, Legal, after, ih, and_assoc]

/-- What happens to one key depends on this key only. -/
theorem after_key {m m' : Nat → Option Nat} {k : Nat} (l : List Ev) (h : m k = m' k) : after m l k = after m' l k := by
  induction l generalizing m m' with
  | nil => exact h
  | cons e l ih =>
    refine ih ?_
    by_cases e' : k = e.op.key
    · subst e'; rw [upd_eq, upd_eq, h]
    · rw [upd_ne _ _ e', upd_ne _ _ e', h]

theorem after_other {m : Nat → Option Nat} {k : Nat} (l : List Ev) (h : ∀ e ∈ l, e.op.key ≠ k) : after m l k = m k := by
  induction l generalizing m with
  | nil => rfl
  | cons e l ih =>
    show after _ l k = _
    rw [ih (fun e' he => h e' (List.mem_cons_of_mem _ he)), upd_ne _ _ (fun e' => h e (List.mem_cons_self ..) e'.symm)]

theorem legal_congr {m m' : Nat → Option Nat} (l : List Ev) (h : ∀ e ∈ l, m e.op.key = m' e.op.key) (hl : Legal m l) : Legal m' l := by
  induction l generalizing m m' with
  | nil => trivial
  | cons e l ih =>
    have h0 := h e (List.mem_cons_self ..)
    refine ⟨by rw [← h0]; exact hl.1, ih ?_ hl.2⟩
    intro e' he
    by_cases e1 : e'.op.key = e.op.key
    · rw [e1, upd_eq, upd_eq, h0]
    · rw [upd_ne _ _ e1, upd_ne _ _ e1, h e' (List.mem_cons_of_mem _ he)]

theorem flat_lt {log : Nat → List Ev} {v j : Nat} (l : List Ev) (h : j < v) : flat (upd log v l) j = flat log j := by
  induction j with
  | zero => exact upd_ne _ _ (by omega)
  | succ j ih => rw [flat, flat, ih (by omega), upd_ne _ _ (by omega)]

theorem flat_split (log : Nat → List Ev) {v j : Nat} (h : v ≤ j) :
    ∃ B, flat log j = flat log v ++ B ∧ (∀ e ∈ B, ∃ w, v < w ∧ w ≤ j ∧ e ∈ log w) ∧ ∀ e, flat (upd log v (log v ++ [e])) j = flat log v ++ [e] ++ B := by
  induction j with
  | zero =>
    have : v = 0 := by omega
    subst this
    exact ⟨[], by simp, by simp, fun e => by simp [flat, upd_eq]⟩
  | succ j ih =>
    by_cases hv : v = j + 1
    · subst hv
      refine ⟨[], by simp, by simp, fun e => ?_⟩
      rw [flat, flat_lt _ (by omega), upd_eq, flat]; simp
    · obtain ⟨B, h1, h2, h3⟩ := ih (by omega)
      refine ⟨B ++ log (j + 1), by rw [flat, h1, List.append_assoc], ?_, fun e => ?_⟩
      · intro e he
        rcases List.mem_append.mp he with he | he
        · obtain ⟨w, h4, h5, h6⟩ := h2 e he
          exact ⟨w, h4, by omega, h6⟩
        · exact ⟨j + 1, by omega, by omega, he⟩
      · rw [flat, h3, upd_ne _ _ (by omega)]; simp

theorem mem_flat {log : Nat → List Ev} {j : Nat} {e : Ev} : e ∈ flat log j ↔ ∃ w, w ≤ j ∧ e ∈ log w := by
  induction j with
  | zero => exact ⟨fun h => ⟨0, Nat.le_refl _, h⟩, fun ⟨w, h1, h2⟩ => by have : w = 0 := by omega
                                                                         subst this; exact h2⟩
  | succ j ih =>
    rw [flat, List.mem_append, ih]
    constructor
    · rintro (⟨w, h1, h2⟩ | h)
      · exact ⟨w, by omega, h2⟩
      · exact ⟨j + 1, Nat.le_refl _, h⟩
    · rintro ⟨w, h1, h2⟩
      by_cases e : w = j + 1
      · exact .inr (e ▸ h2)
      · exact .inl ⟨w, by omega, h2⟩

def empty : Nat → Option Nat := fun _ => none

/-- The value of a key: in the current array, or in the one linked to it. -/
def State.cval (s : State) (k : Nat) : Option Nat := (s.val s.n k).or (match s.prev s.n with | some p => s.val p k | none => none)

structure Lin (ix : Nat → Nat → Nat) (s : State) : Prop where
  blank : ∀ v, s.n < v → s.log v = []
  legal : Legal empty (flat s.log s.n)
  cur : ∀ k, after empty (flat s.log s.n) k = s.cval k
  quiet : ∀ p, s.prev s.n = some p → ∀ k, s.dead p (ix p k) = false → ∀ e ∈ s.log s.n, e.op.key ≠ k
  nulls : ∀ j, j ≤ s.n → s.isA j = false → ∀ k, after empty (flat s.log j) k = none

theorem lin_init (ix : Nat → Nat → Nat) : Lin ix State.init := by
  refine ⟨fun _ _ => rfl, trivial, fun _ => rfl, fun p h => (by cases h), ?_⟩
  intro j hj _ k
  have : j = 0 := by have : j ≤ 0 := hj; omega
  subst this; rfl

/-- Steps that do not change the entries or the log. -/
theorem Lin.keep {ix : Nat → Nat → Nat} {s s' : State} (L : Lin ix s) (hn : s'.n = s.n) (hA : s'.isA = s.isA) (hp : s'.prev = s.prev) (hv : s'.val = s.val)
    (hl : s'.log = s.log) (hd : ∀ v b, s.dead v b = true → s'.dead v b = true) : Lin ix s' where
  blank := by rw [hn, hl]; exact L.blank
  legal := by rw [hn, hl]; exact L.legal
  cur := by rw [hn, hl]; intro k; rw [L.cur k, State.cval, State.cval, hn, hp, hv]
  quiet := by
    rw [hn, hl, hp]
    intro p hq k hdd
    refine L.quiet p hq k ?_
    cases e : s.dead p (ix p k) with
    | false => rfl
    | true => rw [hd _ _ e] at hdd; cases hdd
  nulls := by rw [hn, hl, hA]; exact L.nulls

theorem cval_val {ix : Nat → Nat → Nat} {s : State} (I : Inv ix s) {t v : Nat} {o : Op} (hA : s.isA v = true) (hg : Gate ix s v o.key) (hh : Held ix s t o v) :
    s.cval o.key = s.val v o.key ∧
      ∀ x, (upd2 s.val v o.key x s.n o.key).or (match s.prev s.n with | some p => upd2 s.val v o.key x p o.key | none => none) = x := by
  rcases crit_where I hA hh with e | e
  · subst e
    rcases hg with hg | ⟨p, hg, hd⟩
    · rw [State.cval, hg]; refine ⟨by simp, fun x => ?_⟩
      rw [upd2_eq]; simp
    · have h0 := (I.dead p _ hd).1 o.key rfl
      have hne : p ≠ s.n := by have := (I.link _ _ hg).1; omega
      rw [State.cval, hg]; simp only [h0]
      refine ⟨by simp, fun x => ?_⟩
      rw [upd2_eq, upd2_ne _ _ (fun e => hne e.1), h0]; simp
  · have hne : s.n ≠ v := by have := (I.link _ _ e).1; omega
    have h0 : s.val s.n o.key = none := by
      refine I.fresh v e o.key (held_alive I hh) (fun u hu => ?_)
      have hm := I.mps u; rw [hu] at hm
      rcases hh with ⟨_, hh⟩ | ⟨_, hh⟩
      · rw [I.excl v _ (by rw [hm.2.1]; simp) t] at hh; cases hh
      · rw [hm.2.1] at hh; cases hh
    rw [State.cval, e, h0]
    refine ⟨by simp, fun x => ?_⟩
    simp only [upd2_eq]
    rw [upd2_ne _ _ (fun e => hne e.1), h0]; simp

theorem lin_act {ix : Nat → Nat → Nat} {s : State} (I : Inv ix s) (L : Lin ix s) {t x : Nat} {o : Op} {v : Nat} (h : s.pc t = .crit x o v) : Lin ix (s.act ix t x o v) := by
  have hp := I.pcs t; rw [h] at hp
  obtain ⟨hA, hg, hh⟩ := hp
  have hvn := isA_le I hA
  obtain ⟨hc, hc'⟩ := cval_val I hA hg hh
  obtain ⟨B, hB1, hB2, hB3⟩ := flat_split s.log hvn
  -- no later call on the key
  have hBk : ∀ e ∈ B, e.op.key ≠ o.key := by
    intro e he
    obtain ⟨w, h1, h2, h3⟩ := hB2 e he
    rcases crit_where I hA hh with e' | e'
    · omega
    · have := (I.link _ _ e').1
      have hw : w = s.n := by omega
      exact L.quiet v e' o.key (held_alive I hh) e (hw ▸ h3)
  have hval : after empty (flat s.log v) o.key = s.val v o.key := by
    have h0 := L.cur o.key
    rw [hB1, after_append, after_other B hBk, hc] at h0
    exact h0
  have hflat : flat (s.act ix t x o v).log s.n = flat s.log v ++ [⟨x, o, (o.f (s.val v o.key)).2⟩] ++ B := hB3 _
  have hleg : Legal empty (flat s.log v) ∧ Legal (after empty (flat s.log v)) B := by
    have h0 := L.legal; rw [hB1, legal_append] at h0; exact h0
  refine ⟨?_, ?_, ?_, ?_, ?_⟩
  · intro a ha
    have ha : s.n < a := ha
    show upd s.log v _ a = []
    rw [upd_ne _ _ (by omega)]; exact L.blank a ha
  · show Legal empty (flat (s.act ix t x o v).log s.n)
    rw [hflat, legal_append, legal_append]
    refine ⟨⟨hleg.1, ⟨by rw [hval], trivial⟩⟩, ?_⟩
    refine legal_congr B (fun e he => ?_) hleg.2
    rw [after_append]
    show _ = upd (after empty (flat s.log v)) o.key _ e.op.key
    rw [upd_ne _ _ (hBk e he)]
  · intro k
    show after empty (flat (s.act ix t x o v).log s.n) k = (upd2 s.val v o.key _ s.n k).or (match s.prev s.n with | some p => upd2 s.val v o.key _ p k | none => none)
    rw [hflat, after_append, after_append]
    by_cases e : k = o.key
    · subst e
      rw [after_other B hBk, hc']
      show upd (after empty (flat s.log v)) o.key _ o.key = _
      rw [upd_eq, hval]
    · have hk : after (after empty (flat s.log v)) [⟨x, o, (o.f (s.val v o.key)).2⟩] k = after empty (flat s.log v) k := upd_ne _ _ e
      rw [after_key (m' := after empty (flat s.log v)) B hk, ← after_append, ← hB1, L.cur k, upd2_ne _ _ (fun e' => e e'.2)]
      show (s.val s.n k).or _ = _
      cases s.prev s.n with
      | none => rfl
      | some p => simp only; rw [upd2_ne _ _ (fun e' => e e'.2)]
  · intro p hq k hd e he
    have hq : s.prev s.n = some p := hq
    have hd : s.dead p (ix p k) = false := hd
    have he : e ∈ upd s.log v (s.log v ++ [⟨x, o, (o.f (s.val v o.key)).2⟩]) s.n := he
    by_cases e' : s.n = v
    · rw [e', upd_eq] at he
      rcases List.mem_append.mp he with he | he
      · exact L.quiet p hq k hd e (e' ▸ he)
      · have := List.mem_singleton.mp he
        subst this
        rintro rfl
        rcases hg with hg | ⟨p', hg, hdd⟩
        · rw [← e', hq] at hg; cases hg
        · rw [← e', hq] at hg; cases hg
          have hdd : s.dead p (ix p o.key) = true := hdd
          have hd : s.dead p (ix p o.key) = false := hd
          rw [hd] at hdd; cases hdd
    · rw [upd_ne _ _ e'] at he; exact L.quiet p hq k hd e he
  · intro j hj ha k
    have hj : j ≤ s.n := hj
    have ha : s.isA j = false := ha
    have hjv : j < v := by
      rcases crit_where I hA hh with e' | e'
      · refine Nat.lt_of_le_of_ne (by omega) (fun e => by rw [e, hA] at ha; cases ha)
      · obtain ⟨h1, h2, h3⟩ := I.link _ _ e'
        rcases Nat.lt_or_ge j v with h | h
        · exact h
        · rcases (by omega : j = v ∨ j = s.n) with e | e
          · rw [e, hA] at ha; cases ha
          · rw [e, h3] at ha; cases ha
    show after empty (flat (upd s.log v _) j) k = none
    rw [flat_lt _ hjv]; exact L.nulls j hj ha k

theorem lin_null {ix : Nat → Nat → Nat} {s : State} (L : Lin ix s) {t x : Nat} {o : Op} {m : Nat} (ok : m ≤ s.n) (ha : s.isA m = false) (hm : o.make = false)
    (hp : ∀ p, s.prev m ≠ some p) : Lin ix (s.actNull t x o m) := by
  have hz := L.nulls m ok ha
  have he : ∀ r B, after empty (flat s.log m ++ [⟨x, o, r⟩] ++ B) = after empty (flat s.log m ++ B) := by
    intro r B
    rw [after_append, after_append, after_append]
    congr 1
    show upd (after empty (flat s.log m)) o.key (o.f (after empty (flat s.log m) o.key)).1 = _
    funext k
    by_cases e : k = o.key
    · rw [e, upd_eq, hz, o.absent hm]
    · rw [upd_ne _ _ e]
  refine ⟨?_, ?_, ?_, ?_, ?_⟩
  · intro a ha
    have ha : s.n < a := ha
    show upd s.log m _ a = []
    rw [upd_ne _ _ (by omega)]; exact L.blank a ha
  · obtain ⟨B, hB1, hB2, hB3⟩ := flat_split s.log ok
    have hleg : Legal empty (flat s.log m) ∧ Legal (after empty (flat s.log m)) B := by
      have h0 := L.legal; rw [hB1, legal_append] at h0; exact h0
    show Legal empty (flat (upd s.log m _) s.n)
    rw [hB3, legal_append, legal_append]
    refine ⟨⟨hleg.1, ⟨by rw [hz], trivial⟩⟩, ?_⟩
    have h1 := he ((o.f none).2) []
    rw [List.append_nil, List.append_nil] at h1
    rw [h1]; exact hleg.2
  · intro k
    obtain ⟨B, hB1, hB2, hB3⟩ := flat_split s.log ok
    show after empty (flat (upd s.log m _) s.n) k = s.cval k
    rw [hB3, he, ← hB1]; exact L.cur k
  · intro p hq k hd e he
    have hq : s.prev s.n = some p := hq
    have hne : s.n ≠ m := fun e => hp p (e ▸ hq)
    have he : e ∈ upd s.log m (s.log m ++ [⟨x, o, (o.f none).2⟩]) s.n := he
    rw [upd_ne _ _ hne] at he
    exact L.quiet p hq k hd e he
  · intro j hj hA k
    show after empty (flat (upd s.log m _) j) k = none
    rcases Nat.lt_or_ge j m with h | h
    · rw [flat_lt _ h]; exact L.nulls j hj hA k
    · obtain ⟨B, hB1, hB2, hB3⟩ := flat_split s.log h
      rw [hB3, he, ← hB1]; exact L.nulls j hj hA k

theorem lin_push {ix : Nat → Nat → Nat} {s s' : State} (I : Inv ix s) (L : Lin ix s) {a : Bool} {l : Option Nat}
    (hn : s'.n = s.n + 1) (hA : s'.isA = upd s.isA (s.n + 1) a) (hp : s'.prev = upd s.prev (s.n + 1) l) (hv : s'.val = s.val) (hl : s'.log = s.log)
    (hc : ∀ k, s.cval k = (l.bind fun p => s.val p k))
    (hl' : a = false → l = none) : Lin ix s' := by
  have hb : s.log (s.n + 1) = [] := L.blank _ (Nat.lt_succ_self _)
  have hf : flat s.log (s.n + 1) = flat s.log s.n := by rw [flat, hb, List.append_nil]
  refine ⟨?_, ?_, ?_, ?_, ?_⟩
  · intro v h; rw [hl]; exact L.blank v (by omega)
  · rw [hn, hl, hf]; exact L.legal
  · intro k
    rw [hn, hl, hf, L.cur k, hc k, State.cval, hn, hp, upd_eq, hv, (I.blank (s.n + 1) (Nat.lt_succ_self _)).2.2.2.1 k]
    cases l <;> rfl
  · intro p _ k _ e he
    rw [hn, hl, hb] at he; cases he
  · intro j hj hj' k
    rw [hl]
    rw [hA] at hj'
    by_cases e : j = s.n + 1
    · rw [e, upd_eq] at hj'
      rw [e, hf, L.cur k, hc k, hl' hj']; rfl
    · rw [upd_ne _ _ e] at hj'
      exact L.nulls j (by omega) hj' k

theorem lin_move {ix : Nat → Nat → Nat} {s : State} (I : Inv ix s) (L : Lin ix s) {t v p i : Nat} (h : s.mp t = .mv v p i) : Lin ix (s.move ix t v p i) := by
  have hm := I.mps t; rw [h] at hm
  obtain ⟨hp, hwl⟩ := hm
  obtain ⟨e1, hAp, hAv⟩ := I.link v p hp
  refine ⟨L.blank, L.legal, ?_, L.quiet, L.nulls⟩
  intro k
  have h0 : after empty (flat s.log s.n) k = s.cval k := L.cur k
  show after empty (flat s.log s.n) k = _
  rw [h0]
  have hval : ∀ a k, (s.move ix t v p i).val a k = if ix p k = i then (if a = v then (s.val p k).or (s.val v k) else if a = p then none else s.val a k) else s.val a k := fun _ _ => rfl
  have hprev : (s.move ix t v p i).prev = s.prev := rfl
  have hn : (s.move ix t v p i).n = s.n := rfl
  rw [State.cval, State.cval, hprev, hn, hval]
  by_cases e : ix p k = i
  · have hv : v = s.n := mv_where (k := k) I hp (e ▸ hwl) (fun hc => by rw [h] at hc; cases hc)
    have hf : s.val s.n k = none := by
      refine I.fresh p (hv ▸ hp) k (wl_alive I (e ▸ hwl)) (fun u hu => ?_)
      have hm := I.mps u; rw [hu] at hm
      have := hm.2.1; rw [e, hwl] at this; cases this
      rw [h] at hu; cases hu
    rw [if_pos e, if_pos hv.symm, hv, hf, ← hv, hp]
    simp only
    rw [hval, if_pos e, if_neg (by omega), if_pos rfl]
    simp
  · rw [if_neg e]
    cases s.prev s.n with
    | none => rfl
    | some q => simp only; rw [hval, if_neg e]

theorem cval_link {ix : Nat → Nat → Nat} {s : State} (I : Inv ix s) (h : Link s s.n) (k : Nat) : s.cval k = s.val s.n k := by
  rw [State.cval]
  rcases h with h | h
  · rw [h]; simp
  · cases e : s.prev s.n with
    | none => simp
    | some p => simp only; rw [(I.dead p _ (I.unl _ h p e k)).1 k rfl]; simp

theorem lin_step {ix : Nat → Nat → Nat} {s s' : State} (I : Inv ix s) (L : Lin ix s) (st : Step ix s s') : Lin ix s' := by
  cases st with
  | act h => exact lin_act I L h
  | @null t x o m h ok ha hm => exact lin_null L ok.1 ha hm (fun p hp => by have := (I.link _ _ hp).2.2; rw [ha] at this; cases this)
  | @make t x o h ha =>
    refine lin_push (a := true) (l := none) I L rfl rfl rfl rfl rfl (fun k => ?_) (fun h => by cases h)
    have hq : s.prev s.n = none := by
      cases e : s.prev s.n with
      | none => rfl
      | some p => have := (I.link _ _ e).2.2; rw [ha] at this; cases this
    rw [cval_link I (.inl hq), I.nul _ ha]; rfl
  | @grow t v m h ok =>
    have hm := I.mps t; rw [h] at hm
    obtain ⟨hA, hl, hr, hv, hk⟩ := hm
    have e : m = s.n := by have := ok.1; have := ok.2 v hk; omega
    subst hv
    refine lin_push (a := true) (l := if s.isA m then some m else none) I L rfl rfl rfl rfl rfl (fun k => ?_) (fun h => by cases h)
    rw [cval_link I hl, e, hA]; rfl
  | @clear t v h =>
    have hm := I.mps t; rw [h] at hm
    obtain ⟨hA, hl, hr, hv, hw, he⟩ := hm
    subst hv
    refine lin_push (a := false) (l := none) I L rfl rfl rfl rfl rfl (fun k => ?_) (fun _ => rfl)
    rw [cval_link I hl]; exact he k
  | move h hw => exact lin_move I L h
  | @kill t v p i h =>
    refine L.keep rfl rfl rfl rfl rfl (fun a b hd => ?_)
    show upd2 s.dead p i true a b = true
    by_cases e : a = p ∧ b = i
    · rw [e.1, e.2, upd2_eq]
    · rw [upd2_ne _ _ e]; exact hd
  | @killAll t v h =>
    refine L.keep rfl rfl rfl rfl rfl (fun a b hd => ?_)
    show (if a = v then true else s.dead a b) = true
    by_cases e : a = v
    · rw [if_pos e]
    · rw [if_neg e]; exact hd
  | _ => exact L.keep rfl rfl rfl rfl rfl (fun _ _ h => h)

theorem lin_reach {ix : Nat → Nat → Nat} {s : State} (h : Reach ix s) : Lin ix s := by
  induction h with
  | init => exact lin_init ix
  | step h st ih => exact lin_step (inv_reach h) ih st

end Scc.Haze
