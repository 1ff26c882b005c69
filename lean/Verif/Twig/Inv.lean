import Verif.Twig.Model

/-! # What holds of pointers, words and leaves, whatever the views of threads are -/

namespace Scc.Twig

@[simp] theorem upd_self {α : Type} (f : Nat → α) (i : Nat) (a : α) : upd f i a i = a := by simp [upd]

theorem upd_ne {α : Type} (f : Nat → α) {i j : Nat} (a : α) (h : j ≠ i) : upd f i a j = f j := by simp [upd, h]

/-! ## Routing -/

theorem route_mem (l : List (Nat × Nat)) (k : Nat) : route l k = 0 ∨ route l k ∈ l.map Prod.snd := by
  induction l with
  | nil => left; rfl
  | cons e r ih =>
    obtain ⟨b, q⟩ := e
    simp only [route]
    split
    · right; simp
    · cases ih with
      | inl h => left; exact h
      | inr h => right; simp only [List.map_cons, List.mem_cons]; exact .inr h

theorem route_put {l : List (Nat × Nat)} {b p k : Nat} (hd : l.Pairwise (fun x y => x.2 ≠ y.2)) (h0 : ∀ e ∈ l, e.2 ≠ 0)
    (hb : ∀ e ∈ l, e.1 ≠ b) :
    route (put b p l) k = if k ≤ b ∧ route l k = route l b then p else route l k := by
  induction l with
  | nil => simp only [put, route]; by_cases h : k ≤ b <;> simp [h]
  | cons e r ih =>
    obtain ⟨d, q⟩ := e
    have hd' := (List.pairwise_cons.mp hd)
    have ih := ih hd'.2 (fun e he => h0 e (List.mem_cons_of_mem _ he)) (fun e he => hb e (List.mem_cons_of_mem _ he))
    have hdb : d ≠ b := hb (d, q) List.mem_cons_self
    by_cases hlt : b < d
    · simp only [put, hlt, if_true, route]
      by_cases hk : k ≤ b
      · simp [hk, show k ≤ d by omega, show b ≤ d by omega]
      · simp [hk]
    · have hle : ¬ b ≤ d := by omega
      simp only [put, hlt, if_false, route, hle]
      by_cases hk : k ≤ d
      · simp only [hk, if_true]
        have hne : q ≠ route r b := by
          intro he
          cases route_mem r b with
          | inl h => exact h0 (d, q) List.mem_cons_self (he.trans h)
          | inr h =>
            obtain ⟨e, he1, he2⟩ := List.mem_map.mp h
            exact hd'.1 e he1 (by show q = e.2; rw [he2]; exact he)
        simp [hne]
      · simp only [hk, if_false]; exact ih

theorem route_cut {l : List (Nat × Nat)} {q k : Nat} (h : route l k ≠ q) : route (cut q l) k = route l k := by
  induction l with
  | nil => rfl
  | cons e r ih =>
    obtain ⟨d, p⟩ := e
    simp only [route] at h ⊢
    by_cases hk : k ≤ d
    · simp only [hk, if_true] at h ⊢
      have : cut q ((d, p) :: r) = (d, p) :: cut q r := by simp [cut, h]
      rw [this]; simp [route, hk]
    · simp only [hk, if_false] at h ⊢
      by_cases hp : p = q
      · have : cut q ((d, p) :: r) = cut q r := by simp [cut, hp]
        rw [this]; exact ih h
      · have : cut q ((d, p) :: r) = (d, p) :: cut q r := by simp [cut, hp]
        rw [this]; simp only [route, hk, if_false]; exact ih h

theorem cut_places {l : List (Nat × Nat)} {q i : Nat} (h : i ∈ (cut q l).map Prod.snd) : i ∈ l.map Prod.snd ∧ i ≠ q := by
  obtain ⟨e, he, rfl⟩ := List.mem_map.mp h
  obtain ⟨h1, h2⟩ := List.mem_filter.mp he
  exact ⟨List.mem_map.mpr ⟨e, h1, rfl⟩, by simpa using h2⟩

theorem put_mem {l : List (Nat × Nat)} {b p : Nat} {e : Nat × Nat} : e ∈ put b p l ↔ e = (b, p) ∨ e ∈ l := by
  induction l with
  | nil => simp [put]
  | cons a r ih =>
    obtain ⟨d, q⟩ := a
    simp only [put]
    split
    · simp
    · simp only [List.mem_cons, ih]
      constructor
      · rintro (h | h | h) <;> simp [h]
      · rintro (h | h | h) <;> simp [h]

theorem put_length (l : List (Nat × Nat)) (b p : Nat) : (put b p l).length = l.length + 1 := by
  induction l with
  | nil => rfl
  | cons a r ih =>
    obtain ⟨d, q⟩ := a
    simp only [put]
    split
    · simp
    · simp [ih]

theorem put_sorted {l : List (Nat × Nat)} {b p : Nat} (h : l.Pairwise (fun x y => x.1 < y.1)) (hb : ∀ e ∈ l, e.1 ≠ b) :
    (put b p l).Pairwise (fun x y => x.1 < y.1) := by
  induction l with
  | nil => simp [put]
  | cons a r ih =>
    obtain ⟨d, q⟩ := a
    have h' := List.pairwise_cons.mp h
    have hdb : d ≠ b := hb (d, q) List.mem_cons_self
    have ih := ih h'.2 (fun e he => hb e (List.mem_cons_of_mem _ he))
    simp only [put]
    split
    · rename_i hlt
      refine List.pairwise_cons.mpr ⟨?_, h⟩
      intro e he
      cases List.mem_cons.mp he with
      | inl h1 => rw [h1]; exact hlt
      | inr h1 => have h2 : d < e.1 := h'.1 e h1; show b < e.1; omega
    · rename_i hlt
      refine List.pairwise_cons.mpr ⟨?_, ih⟩
      intro e he
      cases put_mem.mp he with
      | inl h1 => rw [h1]; show d < b; omega
      | inr h1 => exact h'.1 e h1

theorem put_nodup {l : List (Nat × Nat)} {b p : Nat} (h : l.Pairwise (fun x y => x.2 ≠ y.2)) (hp : ∀ e ∈ l, e.2 ≠ p) :
    (put b p l).Pairwise (fun x y => x.2 ≠ y.2) := by
  induction l with
  | nil => simp [put]
  | cons a r ih =>
    obtain ⟨d, q⟩ := a
    have h' := List.pairwise_cons.mp h
    have ih := ih h'.2 (fun e he => hp e (List.mem_cons_of_mem _ he))
    simp only [put]
    split
    · refine List.pairwise_cons.mpr ⟨?_, h⟩
      intro e he
      exact fun h1 => hp e he h1.symm
    · refine List.pairwise_cons.mpr ⟨?_, ih⟩
      intro e he
      cases put_mem.mp he with
      | inl h1 => rw [h1]; exact hp (d, q) List.mem_cons_self
      | inr h1 => exact h'.1 e h1

theorem cut_length {l : List (Nat × Nat)} {q : Nat} (h : l.Pairwise (fun x y => x.2 ≠ y.2)) (hq : q ∈ l.map Prod.snd) :
    (cut q l).length + 1 = l.length := by
  induction l with
  | nil => simp at hq
  | cons a r ih =>
    obtain ⟨d, p⟩ := a
    have h' := List.pairwise_cons.mp h
    by_cases hp : p = q
    · have h1 : cut q ((d, p) :: r) = cut q r := by simp [cut, hp]
      have h2 : cut q r = r := by
        refine List.filter_eq_self.mpr ?_
        intro e he
        have : p ≠ e.2 := h'.1 e he
        simp only [bne_iff_ne, ne_eq]; intro h3; exact this (hp.trans h3.symm)
      rw [h1, h2]; rfl
    · have h1 : cut q ((d, p) :: r) = (d, p) :: cut q r := by simp [cut, hp]
      have h3 : q ∈ r.map Prod.snd := by
        simp only [List.map_cons, List.mem_cons] at hq
        cases hq with
        | inl h => exact absurd h.symm hp
        | inr h => exact h
      rw [h1]; simp only [List.length_cons]; have := ih h'.2 h3; omega

/-- In a sorted list the key of a slot is routed to that slot … -/
theorem route_key {l : List (Nat × Nat)} {e : Nat × Nat} (h : l.Pairwise (fun x y => x.1 < y.1)) (he : e ∈ l) :
    route l e.1 = e.2 := by
  induction l with
  | nil => simp at he
  | cons a r ih =>
    obtain ⟨d, q⟩ := a
    have h' := List.pairwise_cons.mp h
    cases List.mem_cons.mp he with
    | inl h1 => rw [h1]; simp [route]
    | inr h1 => have h2 : d < e.1 := h'.1 e h1; simp only [route, show ¬ e.1 ≤ d by omega, if_false]; exact ih h'.2 h1

/-- … and no greater key is. -/
theorem route_le {l : List (Nat × Nat)} {e : Nat × Nat} {k : Nat} (hd : l.Pairwise (fun x y => x.2 ≠ y.2))
    (h0 : ∀ e ∈ l, e.2 ≠ 0) (he : e ∈ l) (hr : route l k = e.2) : k ≤ e.1 := by
  induction l with
  | nil => simp at he
  | cons a r ih =>
    obtain ⟨d, q⟩ := a
    have hd' := List.pairwise_cons.mp hd
    simp only [route] at hr
    cases List.mem_cons.mp he with
    | inl h1 =>
      subst h1
      by_cases hk : k ≤ d
      · exact hk
      · simp only [hk, if_false] at hr
        cases route_mem r k with
        | inl h => exact absurd (hr.symm.trans h) (h0 (d, q) List.mem_cons_self)
        | inr h =>
          obtain ⟨e, he1, he2⟩ := List.mem_map.mp h
          exact absurd (show q = e.2 by rw [he2]; exact hr.symm) (hd'.1 e he1)
    | inr h1 =>
      by_cases hk : k ≤ d
      · simp only [hk, if_true] at hr
        exact absurd hr (hd'.1 e h1)
      · simp only [hk, if_false] at hr
        exact ih hd'.2 (fun e he => h0 e (List.mem_cons_of_mem _ he)) h1 hr

/-! ## The structure -/

/-- Reading word `n` of `children`, then pointer `c` at place `i`, which is leaf `x`, and validating successfully is
possible. -/
structure Path (s : State) (n i c x : Nat) : Prop where
  le : n ≤ s.mn
  lc : c ≤ s.cn i
  mc : (s.mv n).c i ≤ c
  cm : (s.cv i c).m ≤ n
  ptr : s.cp i c = some x

/-- The places that are in use. -/
def State.Kid (s : State) (i : Nat) : Prop := i = 0 ∨ i ∈ s.word.kids.map Prod.snd

structure Core (s : State) : Prop where
  stamp : ∀ n, n ≤ s.mn → (s.mw n).used + (s.mw n).kids.length + 2 * (s.mw n).gone = n
  sorted : ∀ n, n ≤ s.mn → (s.mw n).kids.Pairwise (fun x y => x.1 < y.1)
  nodup : ∀ n, n ≤ s.mn → (s.mw n).kids.Pairwise (fun x y => x.2 ≠ y.2)
  places : ∀ n, n ≤ s.mn → ∀ e ∈ (s.mw n).kids, 1 ≤ e.2 ∧ e.2 ≤ s.word.used
  far : ∀ p, s.word.used < p → s.cn p = 0 ∧ ∀ c, s.cp p c = none
  leaf : ∀ i c x, c ≤ s.cn i → s.cp i c = some x → x < s.nl
  new : ∀ x, s.nl ≤ x → s.ln x = 0 ∧ s.dead x = false
  mvc : ∀ n i, n ≤ s.mn → (s.mv n).c i ≤ s.cn i
  cvm : ∀ i c, c ≤ s.cn i → (s.cv i c).m ≤ s.mn
  kid : ∀ i, s.Kid i → ∃ x, s.cp i (s.cn i) = some x
  verb : ∀ x u k, u ≤ s.ln x → s.ver x u k ≤ s.hn k
  coh : ∀ k n c x u n' c' x' u', Path s n (s.R n k) c x → u ≤ s.ln x → Path s n' (s.R n' k) c' x' → u' ≤ s.ln x' →
    n ≤ n' → (s.R n k = s.R n' k → c ≤ c') → (x = x' → u ≤ u') → s.ver x u k ≤ s.ver x' u' k
  val : ∀ k n c x u, Path s n (s.R n k) c x → u ≤ s.ln x → (s.lw x u).has k = s.hv k (s.ver x u k)
  fresh : ∀ k x, s.cp (s.R s.mn k) (s.cn (s.R s.mn k)) = some x → s.ver x (s.ln x) k = s.hn k
  live : ∀ x i c c', s.dead x = false → c ≤ c' → c' ≤ s.cn i → s.cp i c = some x → s.cp i c' = some x
  uniq : ∀ x i j c c', c ≤ s.cn i → c' ≤ s.cn j → s.cp i c = some x → s.cp j c' = some x → i = j
  grow : ∀ x k n i c n', s.dead x = false → Path s n i c x → s.R n k = i → n ≤ n' → n' ≤ s.mn → s.R n' k = i
  inrange : ∀ x i u k, s.dead x = false → s.cp i (s.cn i) = some x → u ≤ s.ln x → (s.lw x u).has k ≠ none → s.R s.mn k = i
  block : ∀ x, s.dead x = true → (s.page x).frozen = true ∨ (s.page x).retired = true
  empty : ∀ x u k, u ≤ s.ln x → (s.lw x u).retired = true → (s.lw x u).has k = none
  retp : ∀ x u, u ≤ s.ln x → (s.lw x u).retired = true → (s.page x).retired = true

theorem Core.kidR {s : State} (_h : Core s) (k : Nat) : s.Kid (s.R s.mn k) := route_mem _ _

/-- The newest values make a path. -/
theorem Core.top {s : State} (h : Core s) {k x : Nat} (hx : s.cp (s.R s.mn k) (s.cn (s.R s.mn k)) = some x) :
    Path s s.mn (s.R s.mn k) (s.cn (s.R s.mn k)) x :=
  ⟨Nat.le_refl _, Nat.le_refl _, h.mvc _ _ (Nat.le_refl _), h.cvm _ _ (Nat.le_refl _), hx⟩

/-- A leaf that is on a path and can be changed is the newest one for its keys. -/
theorem Core.now {s : State} (h : Core s) {k n c x : Nat} (hp : Path s n (s.R n k) c x) (hd : s.dead x = false) :
    s.R s.mn k = s.R n k ∧ s.cp (s.R s.mn k) (s.cn (s.R s.mn k)) = some x := by
  have h1 := h.grow x k n _ c s.mn hd hp rfl hp.le (Nat.le_refl _)
  refine ⟨h1, ?_⟩
  rw [h1]
  exact h.live x _ c _ hd hp.lc (Nat.le_refl _) hp.ptr

theorem core_init : Core .init := by
  refine ⟨?_, ?_, ?_, ?_, ?_, ?_, ?_, ?_, ?_, ?_, ?_, ?_, ?_, ?_, ?_, ?_, ?_, ?_, ?_, ?_, ?_⟩
  · intro n h; have : n = 0 := Nat.le_zero.mp h; subst this; rfl
  · intro n _; exact List.Pairwise.nil
  · intro n _; exact List.Pairwise.nil
  · intro n _ e he; cases he
  · intro p hp; refine ⟨rfl, fun c => ?_⟩
    have : p ≠ 0 := by intro h; subst h; exact absurd hp (by decide)
    simp [State.init, this]
  · intro i c x _ h
    by_cases hi : i = 0
    · simp only [State.init, hi, if_true] at h; cases h; decide
    · simp [State.init, hi] at h
  · intro x _; exact ⟨rfl, rfl⟩
  · intro n i _; exact Nat.le_refl _
  · intro i c _; exact Nat.le_refl _
  · intro i hi
    cases hi with
    | inl h => exact ⟨0, by simp [State.init, h]⟩
    | inr h => cases h
  · intro x u k _; exact Nat.le_refl _
  · intros; exact Nat.le_refl _
  · intros; rfl
  · intros; rfl
  · intro x i c c' _ _ _ h; exact h
  · intro x i j c c' _ _ h1 h2
    by_cases hi : i = 0
    · by_cases hj : j = 0
      · rw [hi, hj]
      · simp [State.init, hj] at h2
    · simp [State.init, hi] at h1
  · intro x k n i c n' _ _ h3 _ _; exact h3
  · intro x i u k _ _ _ h; exact absurd rfl h
  · intro x h; cases h
  · intro x u k _ h; cases h
  · intro x u _ h; cases h

end Scc.Twig
