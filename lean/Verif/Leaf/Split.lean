import Verif.Leaf.Seq

/-!
# Range removal and distribution of the entries of a leaf
-/

set_option linter.unusedSimpArgs false
set_option linter.unusedSectionVars false
set_option linter.unusedVariables false

namespace Scc.Leaf

open Spec (SLeaf Sorted)

variable {K V : Type} [KeyOrd K]

theorem removeIf_entry (l : Leaf K V) (k : K) (c : V → Bool) : (l.removeIf k c).1.entry = l.entry := by
  unfold Leaf.removeIf
  split
  · rfl
  · repeat' (first | rfl | split)

theorem removeIf_frozen {l : Leaf K V} (h : frozen l.w = true) (k : K) (c : V → Bool) :
    (l.removeIf k c).1 = l := by
  unfold Leaf.removeIf
  rw [if_pos h]

theorem removeRange_rel {l : Leaf K V} {s : SLeaf K V} (r : Rel l s) (contains : K → Bool) :
    Rel (l.removeRange contains) (s.removeRange contains) := by
  unfold SLeaf.removeRange
  by_cases hf : s.frozen = true
  · rw [if_pos hf]
    have hl : frozen l.w = true := by rw [← r.frz]; exact hf
    have : l.removeRange contains = l := by
      unfold Leaf.removeRange
      refine loop_ind ?_ (fun _ (m : Leaf K V) => m = l) rfl ?_
      · intro m i; rw [if_neg (by omega)]
      · intro n m _ hm
        subst hm
        split
        · split
          · split
            · exact removeIf_frozen hl _ _
            · rfl
          · rfl
        · rfl
    rw [this]; exact r
  · rw [if_neg hf]
    have hf' : s.frozen = false := by simpa using hf
    have key : ∃ s', Rel (l.removeRange contains) s' ∧ s'.frozen = false ∧ s'.used = s.used ∧
        (s'.retired = (s.retired || (s'.xs.isEmpty && !s.xs.isEmpty))) ∧
        (l.removeRange contains).entry = l.entry ∧
        ∀ e, e ∈ s'.xs ↔ ∃ i, i < numEntries ∧ Ranked l.w i ∧ l.entry i = some e ∧
          (contains e.1 = true → numEntries ≤ i) := by
      unfold Leaf.removeRange
      refine loop_ind (w := l.w) (s := l) ?_ (fun n (m : Leaf K V) => ∃ s', Rel m s' ∧
        s'.frozen = false ∧ s'.used = s.used ∧
        (s'.retired = (s.retired || (s'.xs.isEmpty && !s.xs.isEmpty))) ∧
        m.entry = l.entry ∧
        ∀ e, e ∈ s'.xs ↔ ∃ i, i < numEntries ∧ Ranked l.w i ∧ l.entry i = some e ∧
          (contains e.1 = true → n ≤ i)) ?_ ?_
      · intro m i; rw [if_neg (by omega)]
      · refine ⟨s, r, hf', rfl, ?_, rfl, ?_⟩
        · cases s.retired <;> cases s.xs.isEmpty <;> rfl
        · intro e
          rw [r.mem]
          constructor
          · rintro ⟨i, a, b, c⟩; exact ⟨i, a, b, c, fun _ => Nat.zero_le _⟩
          · rintro ⟨i, a, b, c, _⟩; exact ⟨i, a, b, c⟩
      · rintro n m hn ⟨s', r', f', u', t', e', m'⟩
        -- nothing to do at slot `n`
        have skip : (∀ e, Ranked l.w n → l.entry n = some e → contains e.1 = false) →
            ∃ s', Rel m s' ∧ s'.frozen = false ∧ s'.used = s.used ∧
            (s'.retired = (s.retired || (s'.xs.isEmpty && !s.xs.isEmpty))) ∧
            m.entry = l.entry ∧
            ∀ e, e ∈ s'.xs ↔ ∃ i, i < numEntries ∧ Ranked l.w i ∧ l.entry i = some e ∧
              (contains e.1 = true → n + 1 ≤ i) := by
          intro hskip
          refine ⟨s', r', f', u', t', e', ?_⟩
          intro e
          rw [m']
          constructor
          · rintro ⟨i, a, b, c, d⟩
            refine ⟨i, a, b, c, ?_⟩
            intro hc
            rcases Nat.lt_or_eq_of_le (d hc) with h | h
            · exact h
            · subst h; rw [hskip e b c] at hc; cases hc
          · rintro ⟨i, a, b, c, d⟩; exact ⟨i, a, b, c, fun hc => by have := d hc; omega⟩
        by_cases hr : rank l.w n ≠ 0 ∧ rank l.w n ≠ removed
        · rw [if_pos hr]
          have hrk : Ranked l.w n := ⟨by omega, by have := rank_lt l.w n; unfold removed at *; omega⟩
          obtain ⟨e0, he0⟩ := r.ok.ord.init n hn hrk
          rw [show m.entry n = some e0 by rw [e']; exact he0]
          simp only []
          by_cases hc : contains e0.1 = true
          · rw [if_pos hc]
            have hin : e0 ∈ s'.xs := (m' e0).2 ⟨n, hn, hrk, he0, fun _ => Nat.le_refl _⟩
            have hx := (removeIf_rel r' e0.1 (fun _ => true)).1
            have hg := (get_iff r'.sorted).2 ⟨hin, rfl⟩
            have hsx : ∃ e, e ∈ s.xs := ⟨e0, (r.mem _).2 ⟨n, hn, hrk, he0⟩⟩
            have hse : s.xs.isEmpty = false := by
              obtain ⟨e, he⟩ := hsx
              cases h : s.xs with
              | nil => rw [h] at he; cases he
              | cons => rfl
            have hse' : s'.xs.isEmpty = false := by
              cases h : s'.xs with
              | nil => rw [h] at hin; cases hin
              | cons => rfl
            unfold SLeaf.removeIf at hx
            simp only [f', Bool.false_eq_true, if_false, hg, Bool.not_true] at hx
            have hmem : ∀ e, e ∈ Spec.del s'.xs e0.1 ↔ ∃ i, i < numEntries ∧ Ranked l.w i ∧
                l.entry i = some e ∧ (contains e.1 = true → n + 1 ≤ i) := by
              intro e
              rw [mem_del, m']
              constructor
              · rintro ⟨⟨i, a, b, c, d⟩, hk⟩
                refine ⟨i, a, b, c, ?_⟩
                intro hce
                rcases Nat.lt_or_eq_of_le (d hce) with h | h
                · exact h
                · subst h; rw [he0] at c; cases c; exact absurd rfl hk
              · rintro ⟨i, a, b, c, d⟩
                refine ⟨⟨i, a, b, c, fun hce => by have := d hce; omega⟩, ?_⟩
                intro hk
                have hin' := r.ok.ord.key_inj a hn b hrk c he0 hk
                have := d (by rw [hk]; exact hc)
                omega
            by_cases hd : (Spec.del s'.xs e0.1).isEmpty = true
            · rw [if_pos hd] at hx
              refine ⟨_, hx, by first | rfl | exact f', u', ?_, ?_, ?_⟩
              · simp [hse]
              · rw [removeIf_entry]; exact e'
              · intro e
                rw [← hmem, List.isEmpty_iff.1 hd]
            · rw [if_neg hd] at hx
              refine ⟨_, hx, by first | rfl | exact f', u', ?_, ?_, hmem⟩
              · show s'.retired = _
                rw [t', hse']
                simp only [Bool.not_eq_true] at hd
                rw [hd]
              · rw [removeIf_entry]; exact e'
          · rw [if_neg hc]
            apply skip
            intro e _ he
            rw [he0] at he; cases he; simpa using hc
        · rw [if_neg hr]
          apply skip
          intro e hrk
          exfalso; apply hr
          have := hrk.1; have := hrk.2; omega
    obtain ⟨s', r', f', u', t', e', m'⟩ := key
    have hxs : s'.xs = s.xs.filter (fun e => !contains e.1) := by
      refine sorted_ext r'.sorted (sorted_filter r.sorted _) ?_
      intro e
      rw [m', List.mem_filter, r.mem]
      constructor
      · rintro ⟨i, a, b, c, d⟩
        refine ⟨⟨i, a, b, c⟩, ?_⟩
        cases hc : contains e.1 with
        | false => rfl
        | true => have := d hc; omega
      · rintro ⟨⟨i, a, b, c⟩, d⟩
        refine ⟨i, a, b, c, ?_⟩
        intro hc; simp [hc] at d
    have : s' = { s with
        xs := s.xs.filter (fun e => !contains e.1)
        retired := s.retired || ((s.xs.filter (fun e => !contains e.1)).isEmpty && !s.xs.isEmpty) } := by
      cases s'; cases s
      simp only [SLeaf.mk.injEq] at *
      subst hxs
      exact ⟨rfl, u', by rw [f', hf'], t'⟩
    simp only []
    rw [← this]; exact r'

/-! ## Distribution -/

theorem optimalBoundary_range (w : Word) : 1 ≤ optimalBoundary w ∧ optimalBoundary w ≤ 13 := by
  unfold optimalBoundary
  simp only [numEntries]
  omega

/-- The leaf `l` holds `xs` in its first slots, in order. -/
structure Packed (l : Leaf K V) (xs : List (K × V)) : Prop where
  len : xs.length ≤ numEntries
  rank : ∀ j, j < numEntries → rank l.w j = if j < xs.length then j + 1 else 0
  entry : ∀ j, j < xs.length → l.entry j = xs[j]?
  frz : frozen l.w = false
  ret : retired l.w = false

theorem packed_new : Packed (Leaf.new : Leaf K V) [] := by
  refine ⟨Nat.zero_le _, ?_, ?_, ?_, ?_⟩
  · intro j _; simp [Leaf.new]
  · intro j hj; cases hj
  · show frozen 0#64 = false; decide
  · show retired 0#64 = false; decide

theorem Packed.push {l : Leaf K V} {xs : List (K × V)} (p : Packed l xs) (hlen : xs.length < numEntries)
    (k : K) (v : V) : Packed (l.insertUnchecked k v xs.length) (xs ++ [(k, v)]) := by
  have hb : xs.length + 1 < 16 := by unfold numEntries at hlen; omega
  refine ⟨by simp; omega, ?_, ?_, ?_, ?_⟩
  · intro j hj
    show Scc.Leaf.rank (augment l.w xs.length (xs.length + 1)) j = _
    by_cases e : j = xs.length
    · subst e
      rw [rank_augment_self _ (by unfold numEntries at hj; omega) (by omega)]; simp
    · rw [rank_augment_ne _ (by omega) e, p.rank j hj]
      simp only [List.length_append, List.length_cons, List.length_nil]
      by_cases h : j < xs.length
      · rw [if_pos h, if_pos (by omega)]
      · rw [if_neg h, if_neg (by omega)]
  · intro j hj
    simp only [List.length_append, List.length_cons, List.length_nil] at hj
    show (l.write xs.length k v).entry j = _
    by_cases e : j = xs.length
    · subst e; simp [Leaf.write]
    · have h : j < xs.length := by omega
      rw [List.getElem?_append_left h, ← p.entry j h]
      simp [Leaf.write, e]
  · show frozen (augment l.w xs.length (xs.length + 1)) = false
    rw [frozen_augment _ hlen (by omega), p.frz]
  · show retired (augment l.w xs.length (xs.length + 1)) = false
    rw [retired_augment _ hlen (by omega), p.ret]

theorem cnt_mono {p q : Nat → Bool} (h : ∀ i, i < numEntries → p i = true → q i = true) :
    cnt p ≤ cnt q := by
  unfold cnt
  have : (List.range numEntries).filter p = ((List.range numEntries).filter q).filter p := by
    rw [List.filter_filter]
    apply List.filter_congr
    intro i hi
    have := h i (List.mem_range.1 hi)
    cases hp : p i with
    | false => simp
    | true => simp [this hp]
  rw [this]
  exact List.length_filter_le _ _

theorem cnt_prefix (n : Nat) (h : n ≤ 14) : cnt (fun i => decide (i < n)) = n := by
  unfold cnt
  rcases n with _|_|_|_|_|_|_|_|_|_|_|_|_|_|_|n
  all_goals first | decide | omega

theorem Packed.rel {l : Leaf K V} {xs : List (K × V)} (p : Packed l xs) (hs : Sorted xs) :
    Rel l (SLeaf.packed xs) := by
  have hlen := p.len
  have hrk : ∀ j, j < numEntries → (Ranked l.w j ↔ j < xs.length) := by
    intro j hj
    unfold Ranked
    rw [p.rank j hj]
    unfold numEntries at *
    unfold removed
    by_cases h : j < xs.length
    · rw [if_pos h]; constructor <;> intro _ <;> omega
    · rw [if_neg h]; omega
  have hent : ∀ j, j < xs.length → ∃ e, l.entry j = some e ∧ xs[j]? = some e := by
    intro j hj
    exact ⟨xs[j], by rw [p.entry j hj, List.getElem?_eq_getElem hj], List.getElem?_eq_getElem hj⟩
  have hused : used l.w = xs.length := by
    have : used l.w = cnt (fun i => decide (i < xs.length)) := by
      apply cnt_congr
      intro j hj
      rw [p.rank j hj]
      by_cases h : j < xs.length
      · rw [if_pos h]; simp [h]
      · rw [if_neg h]; simp [h]
    rw [this, cnt_prefix _ p.len]
  refine ⟨⟨⟨?_, ?_, ?_⟩, ?_, ?_, ?_⟩, hs, ?_, hused.symm, p.frz.symm, p.ret.symm⟩
  · intro j hj hr
    obtain ⟨e, he, _⟩ := hent j ((hrk j hj).1 hr)
    exact ⟨e, he⟩
  · intro i j hi hj hri hrj he
    rw [p.rank i hi, p.rank j hj, if_pos ((hrk i hi).1 hri), if_pos ((hrk j hj).1 hrj)] at he
    omega
  · intro i j a b hi hj hri hrj hlt ha hb
    rw [p.rank i hi, p.rank j hj, if_pos ((hrk i hi).1 hri), if_pos ((hrk j hj).1 hrj)] at hlt
    have h1 := (hrk i hi).1 hri
    have h2 := (hrk j hj).1 hrj
    rw [p.entry i h1, List.getElem?_eq_getElem h1] at ha
    rw [p.entry j h2, List.getElem?_eq_getElem h2] at hb
    cases ha; cases hb
    exact List.pairwise_iff_getElem.1 hs i j h1 h2 (by omega)
  · intro j hj hr
    have h1 := (hrk j hj).1 hr
    have hset : settled l.w (fun _ => false) = xs.length := by
      rw [← hused]
      apply cnt_congr
      intro i _; simp
    rw [p.rank j hj, if_pos h1, hset]
    omega
  · intro j hj; cases hj
  · intro h; rw [p.ret] at h; cases h
  · intro e
    show e ∈ xs ↔ _
    constructor
    · intro he
      obtain ⟨j, hj, h⟩ := List.getElem_of_mem he
      have hj' : j < numEntries := by omega
      refine ⟨j, hj', (hrk j hj').2 hj, ?_⟩
      rw [p.entry j hj, List.getElem?_eq_getElem hj, h]
    · rintro ⟨j, hj, hr, h⟩
      have h1 := (hrk j hj).1 hr
      rw [p.entry j h1, List.getElem?_eq_getElem h1] at h
      cases h
      exact List.getElem_mem h1

theorem distribute_spec (b : Nat) (hb : b ≤ numEntries) :
    ∀ (es done : List (K × V)) (lo : Leaf K V) (hi : Option (Leaf K V)),
      (done ++ es).length ≤ numEntries → Packed lo (done.take b) →
      (match hi with | none => done.length ≤ b | some h => b < done.length ∧ Packed h (done.drop b)) →
      Packed (distribute b done.length es lo hi).1 ((done ++ es).take b) ∧
      match (distribute b done.length es lo hi).2 with
      | none => (done ++ es).length ≤ b
      | some h => b < (done ++ es).length ∧ Packed h ((done ++ es).drop b) := by
  intro es
  induction es with
  | nil =>
    intro done lo hi _ hlo hhi
    simp only [List.append_nil, distribute]
    exact ⟨hlo, hhi⟩
  | cons e es ih =>
    intro done lo hi hlen hlo hhi
    obtain ⟨k, v⟩ := e
    have hsplit : done ++ (k, v) :: es = (done ++ [(k, v)]) ++ es := by simp
    have hl2 : (done ++ [(k, v)]).length = done.length + 1 := by simp
    rw [hsplit]
    rw [hsplit] at hlen
    have hdl : done.length < numEntries := by
      simp only [List.length_append, List.length_cons, List.length_nil] at hlen; omega
    unfold distribute
    by_cases h : done.length < b
    · rw [if_pos h]
      rw [← hl2]
      apply ih
      · exact hlen
      · rw [List.take_of_length_le (by omega)] at hlo ⊢
        exact hlo.push hdl k v
      · cases hi with
        | none => simp only []; omega
        | some x => simp only [] at hhi; omega
    · rw [if_neg h]
      rw [← hl2]
      apply ih
      · exact hlen
      · rw [List.take_append_of_le_length (by omega)]; exact hlo
      · simp only []
        refine ⟨by omega, ?_⟩
        rw [List.drop_append_of_le_length (by omega)]
        have hdd : done.length - b = (done.drop b).length := by simp
        rw [hdd]
        cases hi with
        | none =>
          simp only [] at hhi
          have : done.drop b = [] := by rw [List.drop_eq_nil_iff]; exact hhi
          rw [this]
          exact packed_new.push (by show 0 < 14; omega) k v
        | some x =>
          simp only [] at hhi
          exact hhi.2.push (by simp; omega) k v

/-- A sorted list of entries of a leaf has at most `num_entries` of them. -/
theorem Rel.length_le {l : Leaf K V} {s : SLeaf K V} (r : Rel l s) : s.xs.length ≤ s.used := by
  have hmem := r.mem
  rw [r.used]
  -- each entry has its own slot
  have : ∀ (xs : List (K × V)), Sorted xs → (∀ e ∈ xs, Holds l e) →
      ∀ f : Nat → Bool, (∀ i, i < numEntries → (f i = true ↔ rank l.w i ≠ 0 ∧
        ∃ e, e ∈ xs ∧ l.entry i = some e ∧ Ranked l.w i)) → xs.length ≤ cnt f := by
    intro xs
    induction xs with
    | nil => intro _ _ _ _; exact Nat.zero_le _
    | cons a xs ih =>
      intro hs hh f hf
      obtain ⟨i, hi, hr, he⟩ := hh a (List.mem_cons_self ..)
      have h1 := ih (sorted_tail hs) (fun e h => hh e (List.mem_cons_of_mem _ h))
        (fun j => f j && (j != i)) (by
          intro j hj
          simp only [Bool.and_eq_true, hf j hj, bne_iff_ne, ne_eq]
          constructor
          · rintro ⟨⟨h1, e, h2, h3, h4⟩, h5⟩
            refine ⟨h1, e, ?_, h3, h4⟩
            rcases List.mem_cons.1 h2 with h6 | h6
            · subst h6
              exact absurd (r.ok.ord.key_inj hj hi h4 hr h3 he rfl) h5
            · exact h6
          · rintro ⟨h1, e, h2, h3, h4⟩
            refine ⟨⟨h1, e, List.mem_cons_of_mem _ h2, h3, h4⟩, ?_⟩
            intro hji; subst hji
            rw [he] at h3; cases h3
            exact KeyOrd.irrefl _ (sorted_head hs a h2))
      have h2 := cnt_add (p := fun j => f j && (j != i)) (q := f) hi (by simp) (by
        rw [hf i hi]
        have := hr.1
        exact ⟨by omega, a, List.mem_cons_self .., he, hr⟩) (by
        intro j _ hji; simp [hji])
      simp only [List.length_cons]
      omega
  have h1 := this s.xs r.sorted (fun e he => (hmem e).1 he)
    (fun i => decide (rank l.w i ≠ 0 ∧ Ranked l.w i)) (by
      intro i hi
      rw [decide_eq_true_eq]
      constructor
      · rintro ⟨h1, h2⟩
        obtain ⟨e, he⟩ := r.ok.ord.init i hi h2
        exact ⟨h1, e, (hmem e).2 ⟨i, hi, h2, he⟩, he, h2⟩
      · rintro ⟨h1, e, _, _, h2⟩; exact ⟨h1, h2⟩)
  refine Nat.le_trans h1 ?_
  apply cnt_mono
  intro i _ h
  have := (of_decide_eq_true h).1
  simpa using this

theorem used_le (w : Word) : used w ≤ numEntries := by
  exact cnt_le _

theorem distribute_rel {l : Leaf K V} {s : SLeaf K V} (r : Rel l s) (b : Nat) (hb : b ≤ numEntries) :
    Rel (distribute b 0 l.toList Leaf.new none).1 (SLeaf.packed (s.xs.take b)) ∧
    match (distribute b 0 l.toList Leaf.new none).2 with
    | none => s.xs.length ≤ b
    | some h => b < s.xs.length ∧ Rel h (SLeaf.packed (s.xs.drop b)) := by
  have hle : s.xs.length ≤ numEntries := by
    have := r.length_le; have := used_le l.w; have := r.used; omega
  have := distribute_spec b hb s.xs [] (Leaf.new : Leaf K V) none (by simpa using hle)
    (by rw [List.take_nil]; exact packed_new) (Nat.zero_le _)
  simp only [List.nil_append, List.length_nil] at this
  rw [toList_rel r]
  refine ⟨this.1.rel (List.Pairwise.sublist (List.take_sublist _ _) r.sorted), ?_⟩
  have h2 := this.2
  split
  · rename_i h; rw [h] at h2; exact h2
  · rename_i h; rw [h] at h2
    exact ⟨h2.1, h2.2.rel (List.Pairwise.sublist (List.drop_sublist _ _) r.sorted)⟩

end Scc.Leaf
