import Verif.Twig.Order
import Verif.Twig.Inv

/-! # Orders of calls -/

namespace Scc.Twig

/-- Whose call is at place `p` of the run. -/
def whoAt (tr : List Label) (p : Nat) : Option Nat := (tr[p]?).bind Label.who

/-- The places of the calls. -/
def places (tr : List Label) : List Nat := (List.range tr.length).filter (fun p => (whoAt tr p).isSome)

/-- What thread `a` did before step `i` is known to thread `b` before step `j`: they are the same thread, or there was a
chain of synchronisations. -/
inductive Reaches (tr : List Label) : Nat → Nat → Nat → Nat → Prop
  | refl {a i : Nat} : Reaches tr a i a i
  | wait {a i b j : Nat} : Reaches tr a i b j → Reaches tr a i b (j + 1)
  | sync {a i b j c : Nat} : Reaches tr a i b j → tr[j]? = some (.sync b c) → Reaches tr a i c (j + 1)

/-- The call at place `p` is made after the one at place `q` has ended, by the same thread or by one that knows of it. -/
def Hb (tr : List Label) (q p : Nat) : Prop :=
  ∃ a b, whoAt tr q = some a ∧ whoAt tr p = some b ∧ Reaches tr a (q + 1) b p

/-- The calls of a run can be put into an order in which they could have been made one after the other on a map that is
empty at first, and in which no call comes before one that had ended, to the knowledge of the thread, when it was made. -/
def Linear (tr : List Label) : Prop :=
  ∃ ps : List Nat, ps.Perm (places tr) ∧ ps.Pairwise (fun q p => ¬ Hb tr p q) ∧ Serial (fun _ => none) (ps.filterMap (tr[·]?))

theorem Reaches.le {tr : List Label} {a i b j : Nat} (h : Reaches tr a i b j) : i ≤ j := by
  induction h with
  | refl => exact Nat.le_refl _
  | wait _ ih => omega
  | sync _ _ ih => omega

theorem Reaches.later {tr : List Label} {a i b j m : Nat} (h : Reaches tr a i b j) (hm : j ≤ m) : Reaches tr a i b m := by
  induction m with
  | zero => have : j = 0 := by omega
            subst this; exact h
  | succ m ih =>
    by_cases e : j = m + 1
    · subst e; exact h
    · exact .wait (ih (by omega))

theorem hb_own {tr : List Label} {q p t : Nat} (hq : whoAt tr q = some t) (hp : whoAt tr p = some t) (h : q < p) : Hb tr q p :=
  ⟨t, t, hq, hp, Reaches.refl.later h⟩

/-! ## The calls of one thread stay in order -/

theorem filterMap_range (tr : List Label) : (List.range tr.length).filterMap (tr[·]?) = tr := by
  induction tr with
  | nil => rfl
  | cons e tr ih =>
    rw [List.length_cons, List.range_succ_eq_map, List.filterMap_cons]
    show e :: _ = _
    rw [List.filterMap_map]
    exact congrArg (e :: ·) ih

theorem filter_filterMap (tr : List Label) (f : Label → Bool) (ps : List Nat) :
    (ps.filterMap (tr[·]?)).filter f = (ps.filter (fun p => (tr[p]?).any f)).filterMap (tr[·]?) := by
  induction ps with
  | nil => rfl
  | cons p ps ih =>
    rw [List.filterMap_cons, List.filter_cons]
    cases h : tr[p]? with
    | none => simpa [h] using ih
    | some l =>
      by_cases hf : f l
      · simp [hf, h, ih]
      · simp [hf, ih]

theorem Linear.ordered {tr : List Label} (h : Linear tr) : Ordered tr := by
  obtain ⟨ps, h1, h2, h3⟩ := h
  refine ⟨_, ?_, ?_, h3⟩
  · have h4 : calls tr = (places tr).filterMap (tr[·]?) := by
      rw [calls, ← congrArg (List.filter _) (filterMap_range tr), filter_filterMap]
      congr 1
      refine List.filter_congr (fun p _ => ?_)
      show (tr[p]?).any _ = ((tr[p]?).bind Label.who).isSome
      cases tr[p]? <;> rfl
    rw [h4]
    exact h1.filterMap _
  · intro t
    have h5 : callsOf t tr = ((places tr).filter (fun p => whoAt tr p == some t)).filterMap (tr[·]?) := by
      rw [callsOf, ← congrArg (List.filter _) (filterMap_range tr), filter_filterMap]
      congr 1
      rw [places, List.filter_filter]
      refine List.filter_congr (fun p _ => ?_)
      show (tr[p]?).any _ = (_ == some t && ((tr[p]?).bind Label.who).isSome)
      unfold whoAt
      cases tr[p]? with
      | none => rfl
      | some l =>
        show (l.who == some t) = (l.who == some t && l.who.isSome)
        cases l.who <;> simp
    have h6 : callsOf t (ps.filterMap (tr[·]?)) = (ps.filter (fun p => whoAt tr p == some t)).filterMap (tr[·]?) := by
      rw [callsOf, filter_filterMap]
      congr 1
      refine List.filter_congr (fun p _ => ?_)
      show (tr[p]?).any _ = _
      unfold whoAt
      cases tr[p]? with
      | none => rfl
      | some l => rfl
    rw [h5, h6]
    congr 1
    refine List.Perm.eq_of_pairwise (le := fun a b => a ≤ b) (fun a b _ _ => Nat.le_antisymm) ?_ ?_ (h1.filter _)
    · have h7 := h2.filter (fun p => whoAt tr p == some t)
      refine (List.pairwise_iff_forall_sublist.mpr ?_)
      intro a b hs
      have h8 := (List.pairwise_iff_forall_sublist.mp h7) hs
      have ha : whoAt tr a = some t := by
        have := (List.mem_filter.mp (hs.subset List.mem_cons_self)).2
        simpa using this
      have hb : whoAt tr b = some t := by
        have := (List.mem_filter.mp (hs.subset (List.mem_cons_of_mem _ List.mem_cons_self))).2
        simpa using this
      exact Nat.le_of_not_lt (fun hl => h8 (hb_own hb ha hl))
    · exact ((List.pairwise_lt_range.filter _).filter _).imp Nat.le_of_lt

/-! ## Sorted calls act one after the other -/

/-- The changes of each key come in the order of its values, and each value is found after it was written and before the
next one is. -/
def Legal (set : Nat → Bool) (key ver : Nat → Nat) : (Nat → Nat) → List Nat → Prop
  | _, [] => True
  | c, p :: ps => if set p then ver p = c (key p) + 1 ∧ Legal set key ver (upd c (key p) (ver p)) ps
      else ver p = c (key p) ∧ Legal set key ver c ps

theorem legal_sorted {set : Nat → Bool} {key ver : Nat → Nat} {n : Nat → Nat} {ps : List Nat} {c : Nat → Nat}
    (hord : ps.Pairwise (fun q p => key p = key q → (set p = true → set q = true → ver q < ver p) ∧
      (set p = true → set q = false → ver q < ver p) ∧ (set p = false → set q = true → ver q ≤ ver p)))
    (hin : ∀ p, p ∈ ps → ver p ≤ n (key p) ∧ c (key p) ≤ ver p ∧ (set p = true → c (key p) < ver p))
    (hall : ∀ k j, c k < j → j ≤ n k → ∃ p, p ∈ ps ∧ set p = true ∧ key p = k ∧ ver p = j) : Legal set key ver c ps := by
  induction ps generalizing c with
  | nil => trivial
  | cons p ps ih =>
    obtain ⟨h1, h2⟩ := List.pairwise_cons.mp hord
    obtain ⟨i1, i2, i3⟩ := hin p List.mem_cons_self
    show if _ then _ else _
    split
    · rename_i hs
      have i4 := i3 hs
      refine ⟨?_, ih h2 ?_ ?_⟩
      · obtain ⟨q, q1, q2, q3, q4⟩ := hall (key p) (c (key p) + 1) (Nat.lt_succ_self _) (by omega)
        cases List.mem_cons.mp q1 with
        | inl e => subst e; exact q4
        | inr e => have := (h1 q e q3).1 q2 hs; omega
      · intro q hq
        obtain ⟨j1, j2, j3⟩ := hin q (List.mem_cons_of_mem _ hq)
        by_cases e : key q = key p
        · rw [e, upd_self]
          have := h1 q hq e
          refine ⟨e ▸ j1, ?_, fun hs' => this.1 hs' hs⟩
          cases hs' : set q with
          | true => exact Nat.le_of_lt (this.1 hs' hs)
          | false => exact this.2.2 hs' hs
        · rw [upd_ne _ _ e]; exact ⟨j1, j2, j3⟩
      · intro k j hj hn
        have : c k < j := by
          by_cases e : k = key p
          · subst e; rw [upd_self] at hj; omega
          · rw [upd_ne _ _ e] at hj; exact hj
        obtain ⟨q, q1, q2, q3, q4⟩ := hall k j this hn
        cases List.mem_cons.mp q1 with
        | inl e =>
          subst e; subst q3; rw [upd_self] at hj; omega
        | inr e => exact ⟨q, e, q2, q3, q4⟩
    · rename_i hs
      have hs : set p = false := by simpa using hs
      refine ⟨?_, ih h2 (fun q hq => hin q (List.mem_cons_of_mem _ hq)) ?_⟩
      · by_cases e : ver p = c (key p)
        · exact e
        · obtain ⟨q, q1, q2, q3, q4⟩ := hall (key p) (ver p) (by omega) i1
          cases List.mem_cons.mp q1 with
          | inl e => subst e; rw [hs] at q2; cases q2
          | inr e => have := (h1 q e q3).2.1 q2 hs; omega
      · intro k j hj hn
        obtain ⟨q, q1, q2, q3, q4⟩ := hall k j hj hn
        cases List.mem_cons.mp q1 with
        | inl e => subst e; rw [hs] at q2; cases q2
        | inr e => exact ⟨q, e, q2, q3, q4⟩

/-- A call on `key p` that finds or writes the value `ver p` of the key. -/
def Fits (val : Nat → Nat → Option Nat) (set : Nat → Bool) (key ver : Nat → Nat) (p : Nat) : Label → Prop
  | .saw _ k x => set p = false ∧ key p = k ∧ x = val k (ver p)
  | .set _ k v => set p = true ∧ key p = k ∧ v = val k (ver p) ∧ ∀ j, ver p = j + 1 → (v = none ↔ val k j ≠ none)
  | _ => False

theorem legal_serial {tr : List Label} {val : Nat → Nat → Option Nat} {set : Nat → Bool} {key ver : Nat → Nat} {ps : List Nat}
    {c : Nat → Nat} (hl : Legal set key ver c ps) (hf : ∀ p, p ∈ ps → ∃ l, tr[p]? = some l ∧ Fits val set key ver p l) :
    Serial (fun k => val k (c k)) (ps.filterMap (tr[·]?)) := by
  induction ps generalizing c with
  | nil => trivial
  | cons p ps ih =>
    obtain ⟨l, h1, h2⟩ := hf p List.mem_cons_self
    have hf' := fun q hq => hf q (List.mem_cons_of_mem _ hq)
    rw [List.filterMap_cons, h1]
    cases l with
    | tau => exact h2.elim
    | sync a b => exact h2.elim
    | saw t k x =>
      obtain ⟨e1, e2, e3⟩ := h2
      have hl : if _ then _ else _ := hl
      rw [if_neg (by rw [e1]; intro e; cases e)] at hl
      refine ⟨?_, ih hl.2 hf'⟩
      rw [e3, hl.1, e2]
    | set t k v =>
      obtain ⟨e1, e2, e3, e4⟩ := h2
      have hl : if _ then _ else _ := hl
      rw [if_pos e1] at hl
      refine ⟨?_, ?_⟩
      · rw [e2] at hl; exact e4 _ hl.1
      · have h3 := ih hl.2 hf'
        have h4 : (fun d => val d (upd c (key p) (ver p) d)) = upd (fun d => val d (c d)) k v := by
          funext d
          by_cases e : d = k
          · subst e; rw [e2, upd_self, upd_self, e3]
          · rw [e2, upd_ne _ _ e, upd_ne _ _ e]
        rw [h4] at h3
        exact h3

/-- The same from ranks. -/
theorem linear_of_rank {tr : List Label} {val : Nat → Nat → Option Nat} {set : Nat → Bool} {key ver n rank : Nat → Nat}
    (hval : ∀ k, val k 0 = none) (hf : ∀ p, p ∈ places tr → ∃ l, tr[p]? = some l ∧ Fits val set key ver p l)
    (hin : ∀ p, p ∈ places tr → ver p ≤ n (key p) ∧ (set p = true → 0 < ver p))
    (hall : ∀ k j, 0 < j → j ≤ n k → ∃ p, p ∈ places tr ∧ set p = true ∧ key p = k ∧ ver p = j)
    (hone : ∀ p q, p ∈ places tr → q ∈ places tr → set p = true → set q = true → key p = key q → ver p = ver q → p = q)
    (hss : ∀ p q, p ∈ places tr → q ∈ places tr → key p = key q → set p = true → set q = true → ver p < ver q → rank p < rank q)
    (hsr : ∀ p q, p ∈ places tr → q ∈ places tr → key p = key q → set p = true → set q = false → ver p ≤ ver q → rank p < rank q)
    (hrs : ∀ p q, p ∈ places tr → q ∈ places tr → key p = key q → set p = false → set q = true → ver p < ver q → rank p < rank q)
    (hhb : ∀ p q, p ∈ places tr → q ∈ places tr → Hb tr p q → rank p < rank q) : Linear tr := by
  let le := fun a b => decide (rank a ≤ rank b)
  have hperm : ((places tr).mergeSort le).Perm (places tr) := List.mergeSort_perm _ _
  have hmem : ∀ p, p ∈ (places tr).mergeSort le → p ∈ places tr := fun p h => hperm.mem_iff.mp h
  have hnd : ((places tr).mergeSort le).Nodup := hperm.nodup_iff.mpr (List.nodup_range.filter _)
  have hsorted : ((places tr).mergeSort le).Pairwise (fun a b => rank a ≤ rank b) := by
    refine (List.pairwise_mergeSort (le := le) ?_ ?_ _).imp (fun h => by simpa [le] using h)
    · intro a b c h1 h2
      simp only [le, decide_eq_true_eq] at h1 h2 ⊢
      omega
    · intro a b
      simp only [le, Bool.or_eq_true, decide_eq_true_eq]
      omega
  refine ⟨_, hperm, ?_, ?_⟩
  · refine List.pairwise_iff_forall_sublist.mpr ?_
    intro a b hs hb
    have h1 := List.pairwise_iff_forall_sublist.mp hsorted hs
    have h2 := hhb b a (hmem b (hs.subset (List.mem_cons_of_mem _ List.mem_cons_self))) (hmem a (hs.subset List.mem_cons_self)) hb
    omega
  · have h0 : (fun _ => none : Nat → Option Nat) = fun k => val k 0 := by funext k; rw [hval]
    rw [h0]
    refine legal_serial (c := fun _ => 0) (set := set) (key := key) (ver := ver) (legal_sorted (n := n) ?_ ?_ ?_)
      (fun p hp => hf p (hmem p hp))
    · refine List.pairwise_iff_forall_sublist.mpr ?_
      intro a b hs hk
      have h1 := List.pairwise_iff_forall_sublist.mp hsorted hs
      have ha := hmem a (hs.subset List.mem_cons_self)
      have hb := hmem b (hs.subset (List.mem_cons_of_mem _ List.mem_cons_self))
      have hne : a ≠ b := List.pairwise_iff_forall_sublist.mp hnd hs
      refine ⟨fun s1 s2 => ?_, fun s1 s2 => ?_, fun s1 s2 => ?_⟩
      · refine Nat.lt_of_not_le (fun hl => ?_)
        by_cases e : ver b = ver a
        · exact hne (hone a b ha hb s2 s1 hk.symm e.symm)
        · have := hss b a hb ha hk s1 s2 (by omega)
          omega
      · refine Nat.lt_of_not_le (fun hl => ?_)
        have := hsr b a hb ha hk s1 s2 hl
        omega
      · refine Nat.le_of_not_lt (fun hl => ?_)
        have := hrs b a hb ha hk s1 s2 hl
        omega
    · intro p hp
      obtain ⟨i1, i2⟩ := hin p (hmem p hp)
      exact ⟨i1, Nat.zero_le _, i2⟩
    · intro k j hj hn
      obtain ⟨p, p1, p2⟩ := hall k j hj hn
      exact ⟨p, hperm.mem_iff.mpr p1, p2⟩

end Scc.Twig
