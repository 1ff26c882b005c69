import Verif.Twig.Spec
import Verif.Twig.Inv

/-! # What follows from the specification -/

namespace Scc.Twig.Reg

/-- One step forward. -/
structure Later (r r' : Reg) : Prop where
  n : ∀ k, r.n k ≤ r'.n k
  val : ∀ k j, j ≤ r.n k → r'.val k j = r.val k j
  src : ∀ k j, j ≤ r.n k → r'.src k j = r.src k j
  know : ∀ t k, r.know t k ≤ r'.know t k

theorem Later.refl (r : Reg) : Later r r :=
  ⟨fun _ => Nat.le_refl _, fun _ _ _ => rfl, fun _ _ _ => rfl, fun _ _ => Nat.le_refl _⟩

theorem Later.trans {a b c : Reg} (h : Later a b) (h' : Later b c) : Later a c :=
  ⟨fun k => Nat.le_trans (h.n k) (h'.n k), fun k j hj => (h'.val k j (Nat.le_trans hj (h.n k))).trans (h.val k j hj),
    fun k j hj => (h'.src k j (Nat.le_trans hj (h.n k))).trans (h.src k j hj), fun t k => Nat.le_trans (h.know t k) (h'.know t k)⟩

theorem know_upd {f : Nat → Nat → Nat} {t : Nat} {w : Nat → Nat} (h : ∀ d, f t d ≤ w d) (t' k : Nat) : f t' k ≤ upd f t w t' k := by
  by_cases e : t' = t
  · subst e; rw [upd_self]; exact h k
  · rw [upd_ne _ _ e]; exact Nat.le_refl _

theorem Step.later {r r' : Reg} {l : Label} (h : Step r l r') : Later r r' := by
  cases h with
  | tau h1 _ => exact ⟨fun _ => Nat.le_refl _, fun _ _ _ => rfl, fun _ _ _ => rfl, h1⟩
  | saw _ _ h3 _ _ _ => exact ⟨fun _ => Nat.le_refl _, fun _ _ _ => rfl, fun _ _ _ => rfl, know_upd h3⟩
  | @set t k v w _ h2 _ _ _ =>
    refine ⟨?_, ?_, ?_, know_upd h2⟩
    · intro d
      show r.n d ≤ upd r.n k _ d
      by_cases e : d = k
      · subst e; rw [upd_self]; omega
      · rw [upd_ne _ _ e]; exact Nat.le_refl _
    · intro d j hj
      show upd r.val k _ d j = _
      by_cases e : d = k
      · subst e; rw [upd_self, upd_ne _ _ (by omega)]
      · rw [upd_ne _ _ e]
    · intro d j hj
      show upd r.src k _ d j = _
      by_cases e : d = k
      · subst e; rw [upd_self, upd_ne _ _ (by omega)]
      · rw [upd_ne _ _ e]
  | sync => exact ⟨fun _ => Nat.le_refl _, fun _ _ _ => rfl, fun _ _ _ => rfl, know_upd (fun _ => Nat.le_max_left _ _)⟩

theorem Run.later {r r' : Reg} {tr : List Label} (h : Run r tr r') : Later r r' := by
  induction tr generalizing r with
  | nil => cases h; exact .refl _
  | cons e tr ih => obtain ⟨m, h1, h2⟩ := h; exact h1.later.trans (ih h2)

theorem Step.n {r r' : Reg} {l : Label} (h : Step r l r') (k : Nat) : r'.n k = r.n k + (vals k [l]).length := by
  cases h with
  | @set t d v w _ _ _ _ _ =>
    show upd r.n d _ k = r.n k + (if d = k then [v] else []).length
    by_cases e : k = d
    · subst e; rw [upd_self, if_pos rfl]; rfl
    · rw [upd_ne _ _ e, if_neg (fun h => e h.symm)]; rfl
  | _ => rfl

theorem Run.n {r r' : Reg} {tr : List Label} (h : Run r tr r') (k : Nat) : r'.n k = r.n k + (vals k tr).length := by
  induction tr generalizing r with
  | nil => cases h; rfl
  | cons e tr ih =>
    obtain ⟨m, h1, h2⟩ := h
    rw [ih h2, h1.n k, show e :: tr = [e] ++ tr from rfl, vals_append, List.length_append]
    omega

/-- The values from value `m` on are that one and those that were set since. -/
theorem Run.mem {r r' : Reg} {tr : List Label} (h : Run r tr r') {k j : Nat} (h1 : r.n k ≤ j) (h2 : j ≤ r'.n k) :
    r'.val k j ∈ r.val k (r.n k) :: vals k tr := by
  induction tr generalizing r with
  | nil =>
    have h : r' = r := h
    subst h
    have : j = r'.n k := by omega
    subst this
    exact List.mem_cons_self
  | cons e tr ih =>
    obtain ⟨m, h3, h4⟩ := h
    have h5 := h3.n k
    by_cases hj : m.n k ≤ j
    · have h6 := ih h4 hj
      cases h3 with
      | @set t d v w _ _ _ _ _ =>
        by_cases e : k = d
        · subst e
          simp only [upd_self] at h6
          show _ ∈ r.val k (r.n k) :: (if k = k then v :: vals k tr else vals k tr)
          rw [if_pos rfl]
          exact List.mem_cons_of_mem _ h6
        · simp only [upd_ne _ _ e] at h6
          show _ ∈ r.val k (r.n k) :: (if d = k then v :: vals k tr else vals k tr)
          rw [if_neg (fun h => e h.symm)]
          exact h6
      | tau => exact h6
      | saw => exact h6
      | sync => exact h6
    · have hj' : j = r.n k := by
        have h7 : (vals k [e]).length ≤ 1 := by
          cases e with
          | set t d v => show (if d = k then [v] else []).length ≤ 1; split <;> simp
          | _ => exact Nat.zero_le _
        omega
      subst hj'
      rw [h4.later.val k _ (by omega), h3.later.val k _ (Nat.le_refl _)]
      exact List.mem_cons_self

/-- Whoever made a value the newest one knew what those before knew. -/
structure Chain (r : Reg) : Prop where
  src : ∀ k j d, j < r.n k → r.src k j d ≤ r.src k (j + 1) d
  own : ∀ k j, j ≤ r.n k → j ≤ r.src k j k
  know : ∀ t k, r.know t k ≤ r.n k

theorem chain_init : Chain .init :=
  ⟨fun _ _ _ _ => Nat.le_refl _, fun _ _ h => h, fun _ _ => Nat.le_refl _⟩

theorem Step.chain {r r' : Reg} {l : Label} (h : Step r l r') (hc : Chain r) : Chain r' := by
  cases h with
  | tau _ h2 => exact ⟨hc.src, hc.own, h2⟩
  | @saw t k j w h1 h2 h3 h4 h5 h6 =>
    refine ⟨hc.src, hc.own, ?_⟩
    intro t' d
    show upd r.know t w t' d ≤ r.n d
    by_cases e : t' = t
    · subst e; rw [upd_self]; exact h6 d
    · rw [upd_ne _ _ e]; exact hc.know t' d
  | @set t k v w h1 h2 h3 h4 h5 =>
    refine ⟨?_, ?_, ?_⟩
    · intro a j d hj
      show upd r.src k _ a j d ≤ upd r.src k _ a (j + 1) d
      have hj : j < upd r.n k (r.n k + 1) a := hj
      by_cases e : a = k
      · subst e
        rw [upd_self] at hj ⊢
        rw [upd_ne _ _ (show j ≠ r.n a + 1 by omega)]
        by_cases e2 : j = r.n a
        · subst e2; rw [upd_self]; exact h3 d
        · rw [upd_ne _ _ (by omega)]; exact hc.src a j d (by omega)
      · rw [upd_ne _ _ e] at hj ⊢; exact hc.src a j d hj
    · intro a j hj
      show j ≤ upd r.src k _ a j a
      have hj : j ≤ upd r.n k (r.n k + 1) a := hj
      by_cases e : a = k
      · subst e
        rw [upd_self] at hj ⊢
        by_cases e2 : j = r.n a + 1
        · subst e2; rw [upd_self, h4]; exact Nat.le_refl _
        · rw [upd_ne _ _ e2]; exact hc.own a j (by omega)
      · rw [upd_ne _ _ e] at hj ⊢; exact hc.own a j hj
    · intro t' d
      show upd r.know t w t' d ≤ upd r.n k _ d
      have h7 : r.n d ≤ upd r.n k (r.n k + 1) d := by
        by_cases e : d = k
        · subst e; rw [upd_self]; omega
        · rw [upd_ne _ _ e]; exact Nat.le_refl _
      by_cases e : t' = t
      · subst e
        rw [upd_self]
        by_cases e2 : d = k
        · subst e2; rw [upd_self, h4]; exact Nat.le_refl _
        · exact Nat.le_trans (h5 d e2) h7
      · rw [upd_ne _ _ e]; exact Nat.le_trans (hc.know t' d) h7
  | @sync a b =>
    refine ⟨hc.src, hc.own, ?_⟩
    intro t' d
    show upd r.know b _ t' d ≤ r.n d
    by_cases e : t' = b
    · subst e; rw [upd_self]; exact Nat.max_le.mpr ⟨hc.know _ _, hc.know _ _⟩
    · rw [upd_ne _ _ e]; exact hc.know t' d

theorem Run.chain {r r' : Reg} {tr : List Label} (h : Run r tr r') (hc : Chain r) : Chain r' := by
  induction tr generalizing r with
  | nil => cases h; exact hc
  | cons e tr ih => obtain ⟨m, h1, h2⟩ := h; exact ih h2 (h1.chain hc)

theorem Chain.mono {r : Reg} (h : Chain r) {k i j d : Nat} (hij : i ≤ j) (hj : j ≤ r.n k) : r.src k i d ≤ r.src k j d := by
  induction j with
  | zero => have : i = 0 := by omega
            subst this; exact Nat.le_refl _
  | succ j ih =>
    by_cases e : i = j + 1
    · subst e; exact Nat.le_refl _
    · exact Nat.le_trans (ih (by omega) (by omega)) (h.src k j d (by omega))

/-! ## Inversion -/

theorem Step.saw_inv {r r' : Reg} {t k : Nat} {x : Option Nat} (h : Step r (.saw t k x) r') :
    ∃ j, r.know t k ≤ j ∧ j ≤ r.n k ∧ r.val k j = x ∧ (∀ d, r.src k j d ≤ r'.know t d) ∧ j ≤ r'.know t k := by
  cases h with
  | @saw t k j w h1 h2 h3 h4 h5 h6 =>
    refine ⟨j, h1, h2, rfl, fun d => ?_, ?_⟩
    · show _ ≤ upd r.know t w t d; rw [upd_self]; exact h4 d
    · show _ ≤ upd r.know t w t k; rw [upd_self]; exact h5

theorem Step.set_inv {r r' : Reg} {t k : Nat} {v : Option Nat} (h : Step r (.set t k v) r') :
    (v = none ↔ r.val k (r.n k) ≠ none) ∧ r'.n k = r.n k + 1 ∧ r'.val k (r'.n k) = v ∧ r'.know t k = r'.n k ∧
    r'.src k (r'.n k) = r'.know t := by
  cases h with
  | set h1 h2 h3 h4 h5 =>
    refine ⟨h1, ?_, ?_, ?_, ?_⟩ <;> simp [h4]

theorem Step.sync_inv {r r' : Reg} {a b : Nat} (h : Step r (.sync a b) r') (k : Nat) : r.know a k ≤ r'.know b k := by
  cases h with
  | sync => show _ ≤ upd r.know b _ b k; rw [upd_self]; exact Nat.le_max_right _ _

/-- All values of a key so far. -/
theorem Run.all {r : Reg} {tr : List Label} (h : Run .init tr r) {k j : Nat} (hj : j ≤ r.n k) : r.val k j ∈ hist k tr :=
  h.mem (Nat.zero_le _) hj

end Scc.Twig.Reg
