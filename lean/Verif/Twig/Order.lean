import Verif.Twig.Spec

/-! # One after the other -/

namespace Scc.Twig

/-- Whose call it is. -/
def Label.who : Label → Option Nat
  | .saw t _ _ | .set t _ _ => some t
  | _ => none

/-- The calls of a run; those of thread `t`. -/
def calls (tr : List Label) : List Label := tr.filter (fun l => l.who.isSome)
def callsOf (t : Nat) (tr : List Label) : List Label := tr.filter (fun l => l.who == some t)

/-- The calls are made one after the other on a map with contents `m`. -/
def Serial : (Nat → Option Nat) → List Label → Prop
  | _, [] => True
  | m, .saw _ k r :: tr => m k = r ∧ Serial m tr
  | m, .set _ k v :: tr => (v = none ↔ m k ≠ none) ∧ Serial (upd m k v) tr
  | m, _ :: tr => Serial m tr

/-- The calls of a run can be put into an order in which they could have been made one after the other on a map that is
empty at first, and in which the calls of each thread are in the order in which it made them. -/
def Ordered (tr : List Label) : Prop :=
  ∃ tr', tr'.Perm (calls tr) ∧ (∀ t, callsOf t tr' = callsOf t tr) ∧ Serial (fun _ => none) tr'

/-- Once a key is there and is not removed, it is found. -/
theorem serial_some {m : Nat → Option Nat} {tr : List Label} {t k : Nat} (h : Serial m tr) (hk : m k ≠ none)
    (hn : ∀ t', Label.set t' k none ∉ tr) : Label.saw t k none ∉ tr := by
  induction tr generalizing m with
  | nil => exact List.not_mem_nil
  | cons e tr ih =>
    have hn' : ∀ t', Label.set t' k none ∉ tr := fun t' h' => hn t' (List.mem_cons_of_mem _ h')
    intro hm
    cases e with
    | saw t' d r =>
      obtain ⟨h1, h2⟩ := h
      cases List.mem_cons.mp hm with
      | inl e => cases e; exact hk h1
      | inr e => exact ih h2 hk hn' e
    | set t' d v =>
      obtain ⟨_, h2⟩ := h
      cases List.mem_cons.mp hm with
      | inl e => cases e
      | inr e =>
        refine ih h2 ?_ hn' e
        by_cases ed : k = d
        · subst ed
          show upd m k v k ≠ none
          rw [show upd m k v k = v from if_pos rfl]
          intro e2; subst e2
          exact hn t' List.mem_cons_self
        · rw [show upd m d v k = m k from if_neg ed]; exact hk
    | tau =>
      cases List.mem_cons.mp hm with
      | inl e => cases e
      | inr e => exact ih h hk hn' e
    | sync a b =>
      cases List.mem_cons.mp hm with
      | inl e => cases e
      | inr e => exact ih h hk hn' e

/-- Two threads insert a key each and then do not find the key of the other one: there is no such order. -/
theorem serial_cross {m : Nat → Option Nat} {tr : List Label} {t u a b x y : Nat} (h : Serial m tr)
    (ha : m a = none) (hb : m b = none) (hna : ∀ t', Label.set t' a none ∉ tr) (hnb : ∀ t', Label.set t' b none ∉ tr)
    (hoa : ∀ t' v, Label.set t' a v ∈ tr → t' = t) (hob : ∀ t' v, Label.set t' b v ∈ tr → t' = u)
    (h1 : callsOf t tr = [.set t a (some x), .saw t b none]) (h2 : callsOf u tr = [.set u b (some y), .saw u a none]) : False := by
  induction tr generalizing m with
  | nil => cases h1
  | cons e tr ih =>
    have hna' : ∀ t', Label.set t' a none ∉ tr := fun t' h' => hna t' (List.mem_cons_of_mem _ h')
    have hnb' : ∀ t', Label.set t' b none ∉ tr := fun t' h' => hnb t' (List.mem_cons_of_mem _ h')
    have mem2 : ∀ {t : Nat} {l : Label}, l ∈ callsOf t tr → l ∈ tr := fun h => (List.mem_filter.mp h).1
    by_cases et : e.who = some t
    · have h3 : callsOf t (e :: tr) = e :: callsOf t tr := by simp [callsOf, et]
      rw [h3] at h1
      have h4 := (List.cons.inj h1).1
      subst h4
      by_cases eu : t = u
      · subst eu
        rw [h3] at h2
        have h5 := List.cons.inj h2
        rw [(List.cons.inj h1).2] at h5
        have h6 := List.cons.inj h5.2
        have h7 : Label.saw t b none = .saw t a none := h6.1
        have h8 : b = a := by cases h7; rfl
        subst h8
        have h9 : Label.saw t b none ∈ tr := mem2 (by rw [(List.cons.inj h1).2]; exact List.mem_cons_self)
        exact serial_some h.2 (by rw [show upd m b (some x) b = some x from if_pos rfl]; intro e; cases e) hnb' h9
      · have h5 : callsOf u (.set t a (some x) :: tr) = callsOf u tr := by simp [callsOf, Label.who, eu]
        rw [h5] at h2
        have h6 : Label.saw u a none ∈ tr := mem2 (by rw [h2]; exact List.mem_cons_of_mem _ List.mem_cons_self)
        exact serial_some h.2 (by rw [show upd m a (some x) a = some x from if_pos rfl]; intro e; cases e) hna' h6
    · by_cases eu : e.who = some u
      · have h3 : callsOf u (e :: tr) = e :: callsOf u tr := by simp [callsOf, eu]
        have h4 : callsOf t (e :: tr) = callsOf t tr := by simp [callsOf, et]
        rw [h3] at h2
        rw [h4] at h1
        have h5 := (List.cons.inj h2).1
        subst h5
        have h6 : Label.saw t b none ∈ tr := mem2 (by rw [h1]; exact List.mem_cons_of_mem _ List.mem_cons_self)
        exact serial_some h.2 (by rw [show upd m b (some y) b = some y from if_pos rfl]; intro e; cases e) hnb' h6
      · have h3 : callsOf u (e :: tr) = callsOf u tr := by simp [callsOf, eu]
        have h4 : callsOf t (e :: tr) = callsOf t tr := by simp [callsOf, et]
        rw [h3] at h2
        rw [h4] at h1
        have hoa' : ∀ t' v, Label.set t' a v ∈ tr → t' = t := fun t' v h' => hoa t' v (List.mem_cons_of_mem _ h')
        have hob' : ∀ t' v, Label.set t' b v ∈ tr → t' = u := fun t' v h' => hob t' v (List.mem_cons_of_mem _ h')
        cases e with
        | saw t' d r => exact ih h.2 ha hb hna' hnb' hoa' hob' h1 h2
        | tau => exact ih h ha hb hna' hnb' hoa' hob' h1 h2
        | sync _ _ => exact ih h ha hb hna' hnb' hoa' hob' h1 h2
        | set t' d v =>
          refine ih h.2 ?_ ?_ hna' hnb' hoa' hob' h1 h2
          · by_cases ed : a = d
            · subst ed; exact absurd (congrArg some (hoa t' v List.mem_cons_self)) et
            · rw [show upd m d v a = m a from if_neg ed]; exact ha
          · by_cases ed : b = d
            · subst ed; exact absurd (congrArg some (hob t' v List.mem_cons_self)) eu
            · rw [show upd m d v b = m b from if_neg ed]; exact hb

end Scc.Twig
