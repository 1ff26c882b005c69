import Verif.Twig.Laws
import Verif.Twig.Sched

/-!
# Fences

A sequentially consistent fence of a thread makes known to it what had been known to all threads at their fences before, and
the other way around. This is the same as to synchronise with one thread that all fences share, in both directions.
-/

namespace Scc.Twig

/-- Every call is preceded by a fence of its thread, and the thread does not synchronise with others between the fence and
the end of the call. `F` stands for what is known to fences. -/
def Fenced (F : Nat) (tr : List Label) : Prop :=
  ∀ p t, whoAt tr p = some t → ∃ i, i + 1 < p ∧ tr[i]? = some (.sync t F) ∧ tr[i + 1]? = some (.sync F t) ∧
    ∀ m, i + 1 < m → m < p → whoAt tr m ≠ some t ∧ ∀ a, tr[m]? ≠ some (.sync a t)

/-! ## Fences collect what is known -/

theorem who_sync {tr : List Label} {i a b : Nat} (h : tr[i]? = some (.sync a b)) : whoAt tr i = none := by
  unfold whoAt; rw [h]; rfl

theorem Reaches.step_back {tr : List Label} {a i0 b F i q : Nat} (h : Reaches tr a i0 b (i + 1)) (hq : i0 = q + 1)
    (hw : whoAt tr q = some a) (h1 : tr[i]? = some (.sync b F)) : Reaches tr a i0 b i := by
  cases h with
  | refl =>
    have : q = i := by omega
    subst this
    rw [who_sync h1] at hw; cases hw
  | wait h => exact h
  | sync h h2 =>
    rw [h1] at h2
    injection h2 with h2
    injection h2 with h3 h4
    subst h3
    exact h

theorem Reaches.gather {tr : List Label} {a i0 b' j b F i p q : Nat} (h : Reaches tr a i0 b' j) (hb : b' = b) (hq : i0 = q + 1)
    (hw : whoAt tr q = some a) (hj : i + 2 ≤ j) (hp : j ≤ p) (h1 : tr[i]? = some (.sync b F)) (h2 : tr[i + 1]? = some (.sync F b))
    (h3 : ∀ m, i + 1 < m → m < p → whoAt tr m ≠ some b ∧ ∀ a, tr[m]? ≠ some (.sync a b)) :
    Reaches tr a i0 b i ∨ Reaches tr a i0 F (i + 1) := by
  induction h with
  | refl =>
    subst hb; subst hq
    exfalso
    by_cases e : q = i + 1
    · subst e; rw [who_sync h2] at hw; cases hw
    · exact (h3 q (by omega) (by omega)).1 hw
  | @wait b' j h ih =>
    by_cases e : i + 2 ≤ j
    · exact ih hb e (by omega)
    · have e : j = i + 1 := by omega
      subst e; subst hb
      exact .inl (h.step_back hq hw h1)
  | @sync b'' j c h h4 ih =>
    subst hb
    by_cases e : j = i + 1
    · subst e
      rw [h2] at h4
      injection h4 with h4
      injection h4 with h5 h6
      subst h5
      exact .inr h
    · exact absurd h4 ((h3 j (by omega) (by omega)).2 b'')

/-! ## Runs, step by step -/

/-- The states of a run. -/
structure Trace (tr : List Label) (R : Nat → Reg) : Prop where
  zero : R 0 = .init
  step : ∀ i l, tr[i]? = some l → Reg.Step (R i) l (R (i + 1))

theorem trace_of_run {tr : List Label} {r r' : Reg} (h : Reg.Run r tr r') :
    ∃ R : Nat → Reg, R 0 = r ∧ ∀ i l, tr[i]? = some l → Reg.Step (R i) l (R (i + 1)) := by
  induction tr generalizing r with
  | nil => exact ⟨fun _ => r, rfl, fun i l h => by simp at h⟩
  | cons e tr ih =>
    obtain ⟨m, h1, h2⟩ := h
    obtain ⟨R, h3, h4⟩ := ih h2
    refine ⟨fun i => match i with | 0 => r | i + 1 => R i, rfl, ?_⟩
    intro i l hl
    cases i with
    | zero =>
      have : e = l := by simpa using hl
      subst this
      show Reg.Step r e (R 0)
      rw [h3]; exact h1
    | succ i => exact h4 i l (by simpa using hl)

section
variable {tr : List Label} {R : Nat → Reg}

theorem Trace.later (h : Trace tr R) {i j : Nat} (hij : i ≤ j) (hj : j ≤ tr.length) : Reg.Later (R i) (R j) := by
  induction j with
  | zero => have : i = 0 := by omega
            subst this; exact .refl _
  | succ j ih =>
    by_cases e : i = j + 1
    · subst e; exact .refl _
    · exact (ih (by omega) (by omega)).trans (h.step j _ (List.getElem?_eq_getElem (by omega))).later

theorem Trace.chain (h : Trace tr R) {i : Nat} (hi : i ≤ tr.length) : Reg.Chain (R i) := by
  induction i with
  | zero => rw [h.zero]; exact Reg.chain_init
  | succ i ih => exact (h.step i _ (List.getElem?_eq_getElem (by omega))).chain (ih (by omega))

theorem vals_one (k : Nat) (l : Label) : (vals k [l]).length ≤ 1 := by
  cases l with
  | set t d v => show (if d = k then [v] else []).length ≤ 1; split <;> simp
  | _ => exact Nat.zero_le _

theorem Trace.bound (h : Trace tr R) {i : Nat} (hi : i ≤ tr.length) (k : Nat) : (R i).n k ≤ i := by
  induction i with
  | zero => rw [h.zero]; exact Nat.le_refl _
  | succ i ih =>
    have h1 := (h.step i _ (List.getElem?_eq_getElem (by omega))).n k
    have h2 := vals_one k (tr[i]'(by omega))
    have h3 := ih (by omega)
    omega

/-- Every value was written by someone. -/
theorem Trace.writer (h : Trace tr R) {i : Nat} (hi : i ≤ tr.length) {k j : Nat} (h0 : 0 < j) (hj : j ≤ (R i).n k) :
    ∃ p t v, p < i ∧ tr[p]? = some (.set t k v) ∧ (R p).n k + 1 = j := by
  induction i with
  | zero => rw [h.zero] at hj; exact absurd (show j ≤ 0 from hj) (by omega)
  | succ i ih =>
    by_cases e : j ≤ (R i).n k
    · obtain ⟨p, t, v, h1, h2⟩ := ih (by omega) e
      exact ⟨p, t, v, by omega, h2⟩
    · have h4 := List.getElem?_eq_getElem (l := tr) (i := i) (by omega)
      have h1 := (h.step i _ h4).n k
      generalize tr[i]'(by omega) = l at h1 h4
      have h2 := vals_one k l
      have h3 : (vals k [l]).length = 1 := by omega
      cases l with
      | set t d v =>
        have h5 : (if d = k then [v] else []).length = 1 := h3
        by_cases ed : d = k
        · subst ed; exact ⟨i, t, v, Nat.lt_succ_self _, h4, by omega⟩
        · rw [if_neg ed] at h5; cases h5
      | _ => exact absurd h3 (by show ¬ 0 = 1; omega)

theorem Trace.reaches (h : Trace tr R) {a i b j : Nat} (hr : Reaches tr a i b j) (hj : j ≤ tr.length) (k : Nat) :
    (R i).know a k ≤ (R j).know b k := by
  induction hr with
  | refl => exact Nat.le_refl _
  | wait _ ih => exact Nat.le_trans (ih (by omega)) ((h.later (Nat.le_succ _) hj).know _ k)
  | sync _ h2 ih => exact Nat.le_trans (ih (by omega)) ((h.step _ _ h2).sync_inv k)

end

/-! ## Ranks -/

/-- The least number below `n` with the property, or `n`. -/
def first (f : Nat → Bool) : Nat → Nat
  | 0 => 0
  | n + 1 => if first f n < n then first f n else if f n then n else n + 1

theorem first_spec (f : Nat → Bool) (n : Nat) :
    first f n ≤ n ∧ (∀ i, i < first f n → f i = false) ∧ (first f n < n → f (first f n) = true) := by
  induction n with
  | zero => exact ⟨Nat.le_refl _, fun i h => by simp [first] at h, fun h => by simp [first] at h⟩
  | succ n ih =>
    obtain ⟨h1, h2, h3⟩ := ih
    simp only [first]
    split
    · rename_i h4; exact ⟨by omega, h2, fun _ => h3 h4⟩
    · rename_i h4
      have e : first f n = n := by omega
      rw [e] at h2
      split
      · rename_i h5; exact ⟨by omega, h2, fun _ => h5⟩
      · rename_i h5
        refine ⟨Nat.le_refl _, ?_, fun h => by omega⟩
        intro i hi
        by_cases ei : i = n
        · subst ei; simpa using h5
        · exact h2 i (by omega)

theorem lex {B a a' x x' : Nat} (h : a < a') (hx : x < B) : a * B + x < a' * B + x' := by
  have : (a + 1) * B ≤ a' * B := Nat.mul_le_mul_right _ h
  rw [Nat.add_mul, Nat.one_mul] at this
  omega

theorem lex' {B a a' x x' : Nat} (h : a ≤ a') (hx : x < x') : a * B + x < a' * B + x' := by
  have : a * B ≤ a' * B := Nat.mul_le_mul_right _ h
  omega

/-- Is it a call that changes something; its key. -/
def isSet (tr : List Label) (p : Nat) : Bool := match tr[p]? with | some (.set _ _ _) => true | _ => false
def keyAt (tr : List Label) (p : Nat) : Nat := match tr[p]? with | some (.set _ k _) => k | some (.saw _ k _) => k | _ => 0

/-- The value that the call at place `p` finds or writes is value `j` of its key. -/
def VerAt (R : Nat → Reg) (p j : Nat) : Label → Prop
  | .saw t k x => (R p).know t k ≤ j ∧ j ≤ (R p).n k ∧ (R p).val k j = x ∧ j ≤ (R (p + 1)).know t k
  | .set _ k _ => j = (R p).n k + 1
  | _ => True

theorem fenced_linear {tr : List Label} {r : Reg} {F : Nat} (hrun : Reg.Run .init tr r) (hf : Fenced F tr) : Linear tr := by
  obtain ⟨R, h0, hstep⟩ := trace_of_run hrun
  have H : Trace tr R := ⟨h0, hstep⟩
  -- the values that are found or written
  have hver : ∀ p, ∃ j, ∀ l, tr[p]? = some l → VerAt R p j l := by
    intro p
    cases e : tr[p]? with
    | none => exact ⟨0, fun l h => by cases h⟩
    | some l =>
      cases l with
      | saw t k x =>
        obtain ⟨j, h1, h2, h3, _, h4⟩ := (hstep p _ e).saw_inv
        exact ⟨j, fun l h => by cases h; exact ⟨h1, h2, h3, h4⟩⟩
      | set t k v => exact ⟨(R p).n k + 1, fun l h => by cases h; exact rfl⟩
      | tau => exact ⟨0, fun l h => by cases h; exact trivial⟩
      | sync a b => exact ⟨0, fun l h => by cases h; exact trivial⟩
  obtain ⟨ver, hver⟩ := Classical.skolem.mp hver
  -- the fences
  have hfen : ∀ p, ∃ i, ∀ t, whoAt tr p = some t → i + 1 < p ∧ tr[i]? = some (.sync t F) ∧ tr[i + 1]? = some (.sync F t) ∧
      ∀ m, i + 1 < m → m < p → whoAt tr m ≠ some t ∧ ∀ a, tr[m]? ≠ some (.sync a t) := by
    intro p
    cases e : whoAt tr p with
    | none => exact ⟨0, fun t h => by cases h⟩
    | some t =>
      obtain ⟨i, h⟩ := hf p t e
      exact ⟨i, fun t h' => by cases h'; exact h⟩
  obtain ⟨f, hfen⟩ := Classical.skolem.mp hfen
  have hcall : ∀ p, p ∈ places tr → p < tr.length ∧ ∃ l t, tr[p]? = some l ∧ l.who = some t ∧ whoAt tr p = some t := by
    intro p hp
    obtain ⟨h1, h2⟩ := List.mem_filter.mp hp
    have h1 := List.mem_range.mp h1
    refine ⟨h1, ?_⟩
    have h3 := List.getElem?_eq_getElem h1
    obtain ⟨t, ht⟩ := Option.isSome_iff_exists.mp h2
    exact ⟨_, t, h3, by unfold whoAt at ht; rw [h3] at ht; exact ht, ht⟩
  -- when values are made known
  let G := fun i k => (R i).know F k
  let pub := fun k j => first (fun i => decide (j ≤ G i k)) (tr.length + 1)
  have pub_le : ∀ i k j, j ≤ G i k → pub k j ≤ i := by
    intro i k j h
    refine Nat.le_of_not_lt (fun hl => ?_)
    have := (first_spec (fun i => decide (j ≤ G i k)) (tr.length + 1)).2.1 i hl
    simp only [decide_eq_false_iff_not] at this
    exact this h
  have pub_gt : ∀ i k j, i ≤ tr.length → G i k < j → i < pub k j := by
    intro i k j hi h
    refine Nat.lt_of_not_le (fun hl => ?_)
    have hl : first (fun i => decide (j ≤ G i k)) (tr.length + 1) ≤ i := hl
    have h1 := (first_spec (fun i => decide (j ≤ G i k)) (tr.length + 1)).2.2 (by omega)
    simp only [decide_eq_true_eq] at h1
    have h2 : G (first (fun i => decide (j ≤ G i k)) (tr.length + 1)) k ≤ G i k := (H.later hl hi).know F k
    omega
  have pub_mono : ∀ k j j', j ≤ j' → pub k j ≤ pub k j' := by
    intro k j j' h
    refine Nat.le_of_not_lt (fun hl => ?_)
    have h1 := first_spec (fun i => decide (j' ≤ G i k)) (tr.length + 1)
    have h2 := first_spec (fun i => decide (j ≤ G i k)) (tr.length + 1)
    have hl : first (fun i => decide (j' ≤ G i k)) (tr.length + 1) < first (fun i => decide (j ≤ G i k)) (tr.length + 1) := hl
    have h3 := h1.2.2 (by omega)
    have h4 := h2.2.1 _ hl
    simp only [decide_eq_true_eq, decide_eq_false_iff_not] at h3 h4
    omega
  -- what is known to the fence of a call
  have fence_le : ∀ p t, p < tr.length → whoAt tr p = some t → ∀ k, G (f p + 1) k ≤ (R p).know t k := by
    intro p t hp hw k
    obtain ⟨h1, _, h3, _⟩ := hfen p t hw
    exact Nat.le_trans ((hstep _ _ h3).sync_inv k) ((H.later (show f p + 1 + 1 ≤ p by omega) (by omega)).know t k)
  have own : ∀ p, p ∈ places tr → (isSet tr p = true → G (f p + 1) (keyAt tr p) < ver p) ∧
      (isSet tr p = false → G (f p + 1) (keyAt tr p) ≤ ver p) ∧ f p + 1 < p := by
    intro p hp
    obtain ⟨h1, l, t, h2, h3, h4⟩ := hcall p hp
    have h5 := hver p l h2
    have h6 := fence_le p t h1 h4
    have h7 := (hfen p t h4).1
    unfold isSet keyAt
    rw [h2]
    cases l with
    | saw t' k x =>
      have : t' = t := by injection h3
      subst this
      exact ⟨(fun h => by cases h), fun _ => Nat.le_trans (h6 k) h5.1, h7⟩
    | set t' k v =>
      have h5 : ver p = (R p).n k + 1 := h5
      have h8 := (H.chain (i := p) (by omega)).know t k
      have h9 := h6 k
      refine ⟨fun _ => ?_, (fun h => by cases h), h7⟩
      show G (f p + 1) k < ver p
      omega
    | tau => cases h3
    | sync a b => cases h3
  have known : ∀ p, p ∈ places tr → ∀ t, whoAt tr p = some t → ver p ≤ (R (p + 1)).know t (keyAt tr p) := by
    intro p hp t hw
    obtain ⟨h1, l, t', h2, h3, h4⟩ := hcall p hp
    have h5 := hver p l h2
    have e : t' = t := by rw [hw] at h4; injection h4 with h4; exact h4.symm
    subst e
    unfold keyAt
    rw [h2]
    cases l with
    | saw t'' k x =>
      have : t'' = t' := by injection h3
      subst this
      exact h5.2.2.2
    | set t'' k v =>
      have : t'' = t' := by injection h3
      subst this
      have h5 : ver p = (R p).n k + 1 := h5
      obtain ⟨_, i2, _, i4, _⟩ := (hstep p _ h2).set_inv
      show ver p ≤ (R (p + 1)).know t'' k
      omega
    | tau => cases h3
    | sync a b => cases h3
  have hb_pub : ∀ q p, q ∈ places tr → p ∈ places tr → Hb tr q p →
      pub (keyAt tr q) (ver q) ≤ f p + 1 ∧ f q + 1 < f p + 1 := by
    rintro q p hq hp ⟨a, b, ha, hb, hr⟩
    obtain ⟨h1, _⟩ := hcall p hp
    obtain ⟨i1, i2, i3, i4⟩ := hfen p b hb
    have hq' := (own q hq).2.2
    have hk := known q hq a ha
    cases hr.gather rfl rfl ha (show f p + 2 ≤ p by omega) (Nat.le_refl _) i2 i3 i4 with
    | inl h =>
      have h2 := h.le
      refine ⟨pub_le _ _ _ ?_, by omega⟩
      have h3 := H.reaches h (by omega) (keyAt tr q)
      have h4 := (hstep _ _ i2).sync_inv (keyAt tr q)
      show ver q ≤ (R (f p + 1)).know F (keyAt tr q)
      omega
    | inr h =>
      have h2 := h.le
      refine ⟨pub_le _ _ _ ?_, ?_⟩
      · have h3 := H.reaches h (by omega) (keyAt tr q)
        show ver q ≤ (R (f p + 1)).know F (keyAt tr q)
        omega
      · have : q ≠ f p := by
          intro e; subst e
          rw [who_sync i2] at ha; cases ha
        omega
  have bound : ∀ p, p ∈ places tr → ver p ≤ (R tr.length).n (keyAt tr p) ∧ (isSet tr p = true → 0 < ver p) := by
    intro p hp
    obtain ⟨h1, l, t, h2, h3, h4⟩ := hcall p hp
    have h5 := hver p l h2
    unfold isSet keyAt
    rw [h2]
    cases l with
    | saw t' k x =>
      refine ⟨?_, (fun h => by cases h)⟩
      exact Nat.le_trans h5.2.1 ((H.later (by omega) (Nat.le_refl _)).n k)
    | set t' k v =>
      have h5 : ver p = (R p).n k + 1 := h5
      have h6 := (hstep p _ h2).set_inv.2.1
      have h7 := (H.later (show p + 1 ≤ tr.length by omega) (Nat.le_refl _)).n k
      refine ⟨?_, fun _ => by omega⟩
      show ver p ≤ (R tr.length).n k
      omega
    | tau => cases h3
    | sync a b => cases h3
  have small : ∀ p, p ∈ places tr → ver p ≤ tr.length := fun p hp =>
    Nat.le_trans (bound p hp).1 (H.bound (Nat.le_refl _) _)
  let major := fun p => if isSet tr p then 2 * pub (keyAt tr p) (ver p) else
    if pub (keyAt tr p) (ver p) ≤ f p + 1 then 2 * (f p + 1) + 1 else 2 * pub (keyAt tr p) (ver p)
  let minor := fun p => 2 * ver p + (if isSet tr p then 0 else 1)
  have major_set : ∀ p, isSet tr p = true → major p = 2 * pub (keyAt tr p) (ver p) := fun p h => if_pos h
  have major_get : ∀ p, isSet tr p = false → major p = if pub (keyAt tr p) (ver p) ≤ f p + 1 then 2 * (f p + 1) + 1 else
      2 * pub (keyAt tr p) (ver p) := fun p h => if_neg (by rw [h]; intro e; cases e)
  have minor_set : ∀ p, isSet tr p = true → minor p = 2 * ver p := fun p h => by show 2 * ver p + _ = _; rw [if_pos h]; rfl
  have minor_get : ∀ p, isSet tr p = false → minor p = 2 * ver p + 1 := fun p h => by
    show 2 * ver p + _ = _; rw [if_neg (by rw [h]; intro e; cases e)]
  have minor_lt : ∀ p, p ∈ places tr → minor p < 2 * tr.length + 2 := by
    intro p hp
    have h1 := small p hp
    show 2 * ver p + _ < _
    split <;> omega
  have setAt : ∀ p, p ∈ places tr → isSet tr p = true → p < tr.length ∧ ∃ t v, tr[p]? = some (.set t (keyAt tr p) v) ∧
      ver p = (R p).n (keyAt tr p) + 1 := by
    intro p hp hs
    obtain ⟨h1, l, t, h2, h3, h4⟩ := hcall p hp
    have h5 := hver p l h2
    refine ⟨h1, ?_⟩
    unfold isSet at hs
    unfold keyAt
    rw [h2] at hs ⊢
    cases l with
    | set t' k v => exact ⟨t', v, rfl, h5⟩
    | _ => cases hs
  refine linear_of_rank (val := (R tr.length).val) (set := isSet tr) (key := keyAt tr) (ver := ver) (n := (R tr.length).n)
    (rank := fun p => major p * (2 * tr.length + 2) + minor p) ?_ ?_ bound ?_ ?_ ?_ ?_ ?_ ?_
  · intro k
    rw [(H.later (Nat.zero_le _) (Nat.le_refl _)).val k 0 (Nat.zero_le _), h0]
    rfl
  · intro p hp
    obtain ⟨h1, l, t, h2, h3, h4⟩ := hcall p hp
    have h5 := hver p l h2
    refine ⟨l, h2, ?_⟩
    cases l with
    | saw t' k x =>
      refine ⟨by unfold isSet; rw [h2], by unfold keyAt; rw [h2], ?_⟩
      rw [(H.later (show p ≤ tr.length by omega) (Nat.le_refl _)).val k _ h5.2.1]
      exact h5.2.2.1.symm
    | set t' k v =>
      have h5 : ver p = (R p).n k + 1 := h5
      obtain ⟨i1, i2, i3, _⟩ := (hstep p _ h2).set_inv
      have h6 := (H.later (show p + 1 ≤ tr.length by omega) (Nat.le_refl _))
      refine ⟨by unfold isSet; rw [h2], by unfold keyAt; rw [h2], ?_, ?_⟩
      · rw [h5, ← i2, h6.val k _ (Nat.le_refl _), i3]
      · intro j hj
        have ej : j = (R p).n k := by omega
        subst ej
        rw [(H.later (show p ≤ tr.length by omega) (Nat.le_refl _)).val k _ (Nat.le_refl _)]
        exact i1
    | tau => cases h3
    | sync a b => cases h3
  · intro k j hj hn
    obtain ⟨p, t, v, h1, h2, h3⟩ := H.writer (Nat.le_refl _) hj hn
    refine ⟨p, ?_, by unfold isSet; rw [h2], by unfold keyAt; rw [h2], ?_⟩
    · refine List.mem_filter.mpr ⟨List.mem_range.mpr h1, ?_⟩
      unfold whoAt; rw [h2]; rfl
    · have h4 : ver p = (R p).n k + 1 := hver p _ h2
      omega
  · intro p q hp hq sp sq hk hv
    obtain ⟨p1, t, v, p2, p3⟩ := setAt p hp sp
    obtain ⟨q1, t', v', q2, q3⟩ := setAt q hq sq
    have i2 := (hstep p _ p2).set_inv.2.1
    have j2 := (hstep q _ q2).set_inv.2.1
    rw [hk] at p3 i2
    refine Nat.le_antisymm (Nat.le_of_not_lt (fun hl => ?_)) (Nat.le_of_not_lt (fun hl => ?_))
    · have := (H.later (show q + 1 ≤ p by omega) (by omega)).n (keyAt tr q)
      omega
    · have := (H.later (show p + 1 ≤ q by omega) (by omega)).n (keyAt tr q)
      omega
  · intro p q hp hq hk sp sq hv
    refine lex' ?_ ?_
    · rw [major_set p sp, major_set q sq, hk]
      have := pub_mono (keyAt tr q) _ _ (Nat.le_of_lt hv)
      omega
    · rw [minor_set p sp, minor_set q sq]; omega
  · intro p q hp hq hk sp sq hv
    have h1 := pub_mono (keyAt tr q) _ _ hv
    rw [← hk] at h1
    have h2 := major_set p sp
    have h3 := major_get q sq
    rw [← hk] at h3
    have h4 := minor_set p sp
    have h5 := minor_get q sq
    refine lex' ?_ (by omega)
    rw [h2, h3]
    split <;> omega
  · intro p q hp hq hk sp sq hv
    have h1 := pub_mono (keyAt tr q) _ _ (Nat.le_of_lt hv)
    have h2 := major_get p sp
    have h3 := major_set q sq
    have h4 := minor_get p sp
    have h5 := minor_set q sq
    obtain ⟨_, o2, o3⟩ := own p hp
    have h6 := pub_gt (f p + 1) (keyAt tr p) (ver q) (by have := (hcall p hp).1; omega) (by have := o2 sp; omega)
    rw [hk] at h2 h6
    refine lex' ?_ (by omega)
    rw [h2, h3]
    split <;> omega
  · intro p q hp hq hb
    obtain ⟨h1, h2⟩ := hb_pub p q hp hq hb
    refine lex ?_ (minor_lt p hp)
    obtain ⟨o1, o2, o3⟩ := own q hq
    have hl := (hcall q hq).1
    have hlow : major p ≤ 2 * (f q + 1) := by
      cases hs : isSet tr p with
      | true => rw [major_set p hs]; omega
      | false => rw [major_get p hs]; split <;> omega
    have hhigh : 2 * (f q + 1) < major q := by
      cases hs : isSet tr q with
      | true =>
        have := pub_gt (f q + 1) (keyAt tr q) (ver q) (by omega) (o1 hs)
        rw [major_set q hs]; omega
      | false =>
        rw [major_get q hs]
        split <;> omega
    omega

end Scc.Twig
