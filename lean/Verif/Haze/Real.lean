import Verif.Haze.Order

/-! # The order has no calls that were not made -/

namespace Scc.Haze

/-- The calls that took effect have returned, with this result, or are about to. -/
def Real (s : State) : Prop := ∀ v e, e ∈ s.log v → s.ans e.id = some (e.op, e.res) ∨ ∃ t w, s.pc t = .rel e.id e.op w e.res

theorem Real.keep {s s' : State} (R : Real s) (t : Nat) (hl : s'.log = s.log) (ha : s'.ans = s.ans) (hpc : ∀ u, u ≠ t → s'.pc u = s.pc u)
    (ht : (∀ x o w r, s.pc t ≠ .rel x o w r) ∨ s'.pc t = s.pc t) : Real s' := by
  intro v e he
  rw [hl] at he
  rw [ha]
  rcases R v e he with h | ⟨u, w, h⟩
  · exact .inl h
  · refine .inr ⟨u, w, ?_⟩
    by_cases e1 : u = t
    · rcases ht with ht | ht
      · exact absurd (e1 ▸ h) (ht _ _ _ _)
      · rw [e1, ht]; rw [e1] at h; exact h
    · rw [hpc u e1]; exact h

/-- No two calls in the lists have one name. -/
theorem Ord.same {s : State} (O : Ord s) (hb : ∀ v, s.n < v → s.log v = []) {v w : Nat} {e e' : Ev} (h : e ∈ s.log v) (h' : e' ∈ s.log w) (hi : e.id = e'.id) : e = e' := by
  have mem : ∀ {v : Nat} {e : Ev}, e ∈ s.log v → e ∈ flat s.log s.n := by
    intro v e h
    refine mem_flat.mpr ⟨v, Nat.le_of_not_lt fun hl => ?_, h⟩
    rw [hb v hl] at h; cases h
  refine Classical.byContradiction fun hne => ?_
  have key : ∀ l : List Ev, l.Pairwise (fun a b => a.id ≠ b.id) → e ∈ l → e' ∈ l → False := by
    intro l
    induction l with
    | nil => intro _ h; cases h
    | cons a l ih =>
      intro hp h1 h2
      obtain ⟨p1, p2⟩ := List.pairwise_cons.mp hp
      rcases List.mem_cons.mp h1 with h1 | h1 <;> rcases List.mem_cons.mp h2 with h2 | h2
      · exact hne (h1.trans h2.symm)
      · exact p1 _ h2 (h1 ▸ hi)
      · exact p1 _ h1 (h2 ▸ hi.symm)
      · exact ih p2 h1 h2
  exact key _ (O.order.imp fun h => h.1) (mem h) (mem h')

/-- A call returns. -/
theorem Real.ret {s s' : State} (R : Real s) (O : Ord s) (hb : ∀ v, s.n < v → s.log v = []) {t x : Nat} {o : Op} {v : Nat} {r : Option Nat} (h : s.pc t = .rel x o v r)
    (hl : s'.log = s.log) (ha : s'.ans = upd s.ans x (some (o, r))) (hpc : ∀ u, u ≠ t → s'.pc u = s.pc u) : Real s' := by
  intro w e he
  rw [hl] at he
  rw [ha]
  have hm : (⟨x, o, r⟩ : Ev) ∈ s.log v := by
    have := O.pcv t; rw [h] at this
    exact this.2.2
  by_cases hx : e.id = x
  · have := O.same hb he hm hx
    rw [this]; exact .inl (upd_eq _ _ _)
  · rcases R w e he with h1 | ⟨u, w', h1⟩
    · exact .inl (by rw [upd_ne _ _ hx]; exact h1)
    · refine .inr ⟨u, w', ?_⟩
      rw [hpc u fun e1 => by rw [e1, h] at h1; cases h1; exact hx rfl]; exact h1

theorem real_step {ix : Nat → Nat → Nat} {s s' : State} (hr : Reach ix s) (R : Real s) (st : Step ix s s') : Real s' := by
  have O := ord_reach hr
  have L := lin_reach hr
  have new : ∀ {t x : Nat} {o : Op} {r : Option Nat} {m : Nat}, pend (s.pc t) = some x → s'.log = upd s.log m (s.log m ++ [⟨x, o, r⟩]) →
      (∀ u, u ≠ t → s'.pc u = s.pc u) → (∀ y, y ≠ x → s'.ans y = s.ans y) → (s'.ans x = some (o, r) ∨ ∃ w, s'.pc t = .rel x o w r) → Real s' := by
    intro t x o r m hp hl hpc ha hx v e he
    have hpd : Pd s t x := (O.pcv t).pd hp
    have : e ∈ s.log v ∨ e = ⟨x, o, r⟩ := by
      rw [hl] at he
      by_cases e' : v = m
      · rw [e', upd_eq] at he
        rcases List.mem_append.mp he with he | he
        · exact .inl (e' ▸ he)
        · exact .inr (List.mem_singleton.mp he)
      · rw [upd_ne _ _ e'] at he; exact .inl he
    rcases this with h | h
    · rcases R v e h with h1 | ⟨u, w, h1⟩
      · exact .inl (by rw [ha _ (hpd.none v e h)]; exact h1)
      · refine .inr ⟨u, w, ?_⟩
        rw [hpc u fun e1 => by rw [e1] at h1; rw [h1] at hp; cases hp]; exact h1
    · rw [h]
      rcases hx with hx | ⟨w, hx⟩
      · exact .inl hx
      · exact .inr ⟨t, w, hx⟩
  have pcs : ∀ (t : Nat) (p : Pc) (u : Nat), u ≠ t → upd s.pc t p u = s.pc u := fun t p u hu => upd_ne _ _ hu
  cases st with
  | @call t o h => exact R.keep t rfl rfl (pcs _ _) (.inl fun _ _ _ _ => by rw [h]; exact fun h => by cases h)
  | send => exact R.keep 0 rfl rfl (fun _ _ => rfl) (.inr rfl)
  | recv h => exact R.keep 0 rfl rfl (fun _ _ => rfl) (.inr rfl)
  | @load t x o m h => exact R.keep t rfl rfl (pcs _ _) (.inl fun _ _ _ _ => by rw [h]; exact fun h => by cases h)
  | @null t x o m h => exact new (t := t) (by rw [h]; rfl) rfl (pcs _ _) (fun y hy => upd_ne _ _ hy) (.inl (upd_eq _ _ _))
  | @loadNull t x o m h => exact R.keep t rfl rfl (pcs _ _) (.inl fun _ _ _ _ => by rw [h]; exact fun h => by cases h)
  | @make t x o h => exact R.keep t rfl rfl (pcs _ _) (.inl fun _ _ _ _ => by rw [h]; exact fun h => by cases h)
  | @found t x o m h => exact R.keep t rfl rfl (pcs _ _) (.inl fun _ _ _ _ => by rw [h]; exact fun h => by cases h)
  | @direct t x o v h => exact R.keep t rfl rfl (pcs _ _) (.inl fun _ _ _ _ => by rw [h]; exact fun h => by cases h)
  | @past t x o v h => exact R.keep t rfl rfl (pcs _ _) (.inl fun _ _ _ _ => by rw [h]; exact fun h => by cases h)
  | @moved t x o v p l h => exact R.keep t rfl rfl (pcs _ _) (.inl fun _ _ _ _ => by rw [h]; exact fun h => by cases h)
  | @lock t x o v h => exact R.keep t rfl rfl (pcs _ _) (.inl fun _ _ _ _ => by rw [h]; exact fun h => by cases h)
  | @share t x o v h => exact R.keep t rfl rfl (pcs _ _) (.inl fun _ _ _ _ => by rw [h]; exact fun h => by cases h)
  | @retry t x o v l h => exact R.keep t rfl rfl (pcs _ _) (.inl fun _ _ _ _ => by rw [h]; exact fun h => by cases h)
  | @act t x o v h => exact new (t := t) (by rw [h]; rfl) rfl (pcs _ _) (fun _ _ => rfl) (.inr ⟨v, upd_eq _ _ _⟩)
  | @unlock t x o v r h hr => exact R.ret O L.blank h rfl rfl (pcs _ _)
  | @unshare t x o v r h hr => exact R.ret O L.blank h rfl rfl (pcs _ _)
  | _ => exact R.keep 0 rfl rfl (fun _ _ => rfl) (.inr rfl)

theorem real_reach {ix : Nat → Nat → Nat} {s : State} (h : Reach ix s) : Real s := by
  induction h with
  | init => intro v e he; cases he
  | step h st ih => exact real_step h ih st

end Scc.Haze
