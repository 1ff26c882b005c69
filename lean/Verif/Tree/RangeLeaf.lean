import Verif.Tree.Index

/-!
# Removal of a range: bounds, links, leaf nodes
-/

set_option linter.unusedSimpArgs false
set_option linter.unusedSectionVars false
set_option linter.unusedVariables false

namespace Scc.Tree

open Scc.Leaf Scc.Leaf.Spec

variable {K V C : Type} [KeyOrd K]

/-! ## Bounds -/

/-- `k` is not excluded by the lower bound. -/
def inLo (a : Bd K) (k : K) : Bool :=
  match a with
  | .incl s => cmp s k != .gt
  | .excl s => cmp s k == .lt
  | .unb => true

/-- `k` is not excluded by the upper bound. -/
def inHi (b : Bd K) (k : K) : Bool :=
  match b with
  | .incl e => cmp e k != .lt
  | .excl e => cmp e k == .gt
  | .unb => true

theorem contains_eq (a b : Bd K) (k : K) : contains a b k = (inLo a k && inHi b k) := rfl

theorem inLo_up {a : Bd K} {k k' : K} (h : inLo a k = true) (hk : ¬ KeyOrd.lt k' k) : inLo a k' = true := by
  cases a with
  | unb => rfl
  | incl s =>
    simp only [inLo, bne_iff_ne, ne_eq, cmp_gt] at h ⊢
    exact le_trans' h hk
  | excl s =>
    simp only [inLo, beq_iff_eq, cmp_lt] at h ⊢
    exact lt_of_lt_of_le h hk

theorem inHi_down {b : Bd K} {k k' : K} (h : inHi b k = true) (hk : ¬ KeyOrd.lt k k') : inHi b k' = true := by
  cases b with
  | unb => rfl
  | incl s =>
    simp only [inHi, bne_iff_ne, ne_eq, cmp_lt] at h ⊢
    exact fun h' => h (lt_of_lt_of_le h' hk)
  | excl s =>
    simp only [inHi, beq_iff_eq, cmp_gt] at h ⊢
    exact lt_of_le_of_lt hk h

/-- Outcomes of the state machine. -/
theorem next_cases (st : RS) (a b : Bd K) (su : Bool) (k : K) (hst : st ≠ .maybeAbove) :
    (st.next a b su k = .below ∧ st = .below ∧ inLo a k = false) ∨
    (st.next a b su k = .maybeBelow ∧ st = .below ∧ su = false ∧ contains a b k = true) ∨
    (st.next a b su k = .fully ∧ (st ≠ .below ∨ su = true) ∧ contains a b k = true) ∨
    (st.next a b su k = .maybeAbove ∧ contains a b k = false ∧ (st = .below → inLo a k = true)) := by
  unfold RS.next
  by_cases hc : contains a b k = true
  · rw [if_pos hc]
    cases st with
    | below => cases su <;> simp [hc]
    | maybeBelow => simp [hc]
    | fully => simp [hc]
    | maybeAbove => exact absurd rfl hst
  · rw [if_neg hc]
    have hc' : contains a b k = false := by simpa using hc
    cases st with
    | below =>
      cases a with
      | incl s =>
        by_cases h : cmp s k = .gt
        · simp [h, inLo, hc']
        · simp [h, inLo, hc']
      | excl s =>
        by_cases h : cmp s k = .lt
        · simp [h, inLo, hc']
        · simp [h, inLo, hc']
      | unb => simp [inLo, hc']
    | maybeBelow => simp [hc']
    | fully => simp [hc']
    | maybeAbove => exact absurd rfl hst

/-- What a removal of the range leaves. -/
def keep (a b : Bd K) (xs : List (K × V)) : List (K × V) := xs.filter (fun e => !contains a b e.1)

theorem keep_append (a b : Bd K) (xs ys : List (K × V)) : keep a b (xs ++ ys) = keep a b xs ++ keep a b ys :=
  List.filter_append ..

theorem keep_none {a b : Bd K} {xs : List (K × V)} (h : ∀ e ∈ xs, contains a b e.1 = true) : keep a b xs = [] :=
  List.filter_eq_nil_iff.2 (fun e he => by simp [h e he])

theorem keep_all {a b : Bd K} {xs : List (K × V)} (h : ∀ e ∈ xs, contains a b e.1 = false) : keep a b xs = xs :=
  List.filter_eq_self.2 (fun e he => by simp [h e he])

/-! ## Links -/

/-- Leaves at the start of the list may be left out. -/
theorem Linked.drop {H : Hp K V} {D L : List Nat} (h : Linked H (D ++ L)) : Linked H L := by
  induction D with
  | nil => exact h
  | cons a D ih =>
    apply ih
    obtain ⟨G, g, hl⟩ := h
    obtain ⟨X, Y, h1, h2, h3, h4⟩ := live_split (pre := []) hl
    subst h1
    refine ⟨Y, ⟨?_, ?_, ?_, g.clean, g.unl⟩, h3⟩
    · exact (List.nodup_cons.1 (List.nodup_append.1 g.nodup).2.1).2
    · intro i hi; exact g.lt i (by simp [hi])
    · exact ((chainTo_append.1 g.chain).2).2

/-- A leaf is linked to a later one; what is between them is left out. -/
theorem Linked.cut {H : Hp K V} {pre D L : List Nat} {l : Nat} (h : Linked H (pre ++ l :: (D ++ L)))
    (hne : L ≠ []) : Linked (H.setLink l L.head?) (pre ++ l :: L) := by
  cases L with
  | nil => exact absurd rfl hne
  | cons x L =>
    obtain ⟨G, g, hl⟩ := h
    obtain ⟨X, Y, h1, h2, h3, h4⟩ := live_split hl
    obtain ⟨Y1, Y2, h5, h6, h7, h8⟩ := live_split h3
    subst h1 h5
    have hnd := g.nodup
    rw [List.nodup_append, List.nodup_cons, List.nodup_append, List.nodup_cons] at hnd
    obtain ⟨n1, ⟨n2, n3, ⟨n4, n5⟩, n6⟩, n7⟩ := hnd
    have hx : ∀ i ∈ X, i ≠ l := fun i hi => n7 i hi l (List.mem_cons_self ..)
    have hxx : x ≠ l := fun e => n2 (by simp [e])
    have hy : ∀ i ∈ Y2, i ≠ l := fun i hi e => n2 (by rw [← e]; simp [hi])
    have hll : l < H.fresh := g.lt l (by simp)
    have hlive : ∀ Z : List Nat, live (H.setLink l (some x)) Z = live H Z := by
      intro Z
      unfold live
      apply List.filter_congr
      intro i _
      simp only [Hp.setLink]
      split
      · rename_i e; subst e; rw [h4]
      · rfl
    refine ⟨X ++ l :: x :: Y2, ⟨?_, ?_, ?_, ?_, ?_⟩, ?_⟩
    · rw [List.nodup_append, List.nodup_cons, List.nodup_cons]
      refine ⟨n1, ⟨?_, n4, n5⟩, ?_⟩
      · intro hm
        rcases List.mem_cons.1 hm with e | e
        · exact hxx e.symm
        · exact hy l e rfl
      · intro i hi j hj
        apply n7 i hi j
        rcases List.mem_cons.1 hj with e | e
        · simp [e]
        · rcases List.mem_cons.1 e with e | e
          · simp [e]
          · simp [e]
    · intro i hi
      show i < H.fresh
      apply g.lt i
      simp only [List.mem_append, List.mem_cons] at hi ⊢
      rcases hi with hi | hi | hi | hi
      · exact .inl hi
      · exact .inr (.inl hi)
      · exact .inr (.inr (.inr (.inl hi)))
      · exact .inr (.inr (.inr (.inr hi)))
    · have hc := chainTo_append.1 g.chain
      have hc2 := (chainTo_append.1 hc.2.2).2
      rw [chainTo_append]
      refine ⟨(chainTo_congr ?_).2 hc.1, ?_, (chainTo_congr ?_).2 hc2⟩
      · intro i hi; simp [Hp.setLink, hx i hi]
      · simp [Hp.setLink]
      · intro i hi
        rcases List.mem_cons.1 hi with e | e
        · subst e; simp [Hp.setLink, hxx]
        · simp [Hp.setLink, hy i e]
    · intro i hi
      have : i ≠ l := by have : H.fresh ≤ i := hi; omega
      simp only [Hp.setLink, if_neg this]
      exact g.clean i hi
    · intro i hi
      have : i ≠ l := by have : H.fresh ≤ i := hi; omega
      simp only [Hp.setLink, if_neg this]
      exact g.unl i hi
    · show live (H.setLink l (some x)) _ = _
      rw [hlive]
      unfold live at h2 h7 ⊢
      rw [List.filter_append, List.filter_cons, List.filter_cons, h2, h7]
      simp [h4, h8]

/-- The leaves `I` become `I'`, and whatever was between them and the leaf `ll` is left out. -/
structure Cut (H H' : Hp K V) (ll : Option Nat) (I I' : List Nat) : Prop where
  fresh : H'.fresh = H.fresh
  frame : ∀ i, i < H.fresh → i ∉ I → H'.leaf i = H.leaf i
  sub : ∀ i ∈ I', i ∈ I
  nodup : I'.Nodup
  link : ∀ pre D post, pre.getLast? = ll → Linked H (pre ++ (D ++ I ++ post)) → Linked H' (pre ++ (I' ++ post))

theorem Eff.cut_none {H H' : Hp K V} {I I' : List Nat} (e : Eff H H' I I') (hf : H'.fresh = H.fresh)
    (hl : ∀ i ∈ I, i < H.fresh) : Cut H H' none I I' := by
  refine ⟨hf, e.frame, ?_, e.nodup, ?_⟩
  · intro i hi
    rcases e.sub i hi with h | h
    · exact h
    · have := e.lt i hi; omega
  · intro pre D post hp h
    have hpre : pre = [] := List.getLast?_eq_none_iff.1 hp
    subst hpre
    have := (e.link D post (by simpa using h))
    rw [List.append_assoc] at this
    exact this.drop

theorem Eff.cut_some {H H' : Hp K V} {I I' : List Nat} (e : Eff H H' I I') (hf : H'.fresh = H.fresh)
    (hl : ∀ i ∈ I, i < H.fresh) {l : Nat} (hne : I' ≠ []) : Cut H (H'.setLink l I'.head?) (some l) I I' := by
  refine ⟨hf, e.frame, ?_, e.nodup, ?_⟩
  · intro i hi
    rcases e.sub i hi with h | h
    · exact h
    · have := e.lt i hi; omega
  · intro pre D post hp h
    obtain ⟨P, hP⟩ := List.getLast?_eq_some_iff.1 hp
    subst hP
    have := (e.link (P ++ [l] ++ D) post (by simpa using h))
    have h2 : Linked H' (P ++ l :: (D ++ (I' ++ post))) := by simpa using this
    have h3 := h2.cut (by simp [hne])
    have : (I' ++ post).head? = I'.head? := by
      cases I' with
      | nil => exact absurd rfl hne
      | cons x I' => rfl
    rw [this] at h3
    simpa using h3

/-! ## Leaf nodes -/

theorem keyed_nil : keyed ([] : List (K × C)) = [] := rfl
theorem keyed_cons (e : K × C) (R : List (K × C)) : keyed (e :: R) = (some e.1, e.2) :: keyed R := rfl
theorem keyed_append (A B : List (K × C)) : keyed (A ++ B) = keyed A ++ keyed B := List.map_append ..

/-- Every key above `lo` satisfies the lower bound of the range. -/
def Ready (a : Bd K) (lo : Option K) : Prop := ∀ k, gtLo lo k → inLo a k = true

theorem ready_some {a : Bd K} {k : K} (h : inLo a k = true) : Ready a (some k) :=
  fun _ hk => inLo_up h (lt_asymm' hk)

/-- Entries of a tree that ends at a key in the range and whose lower boundary is. -/
theorem all_in {H : Hp K V} {h : Nat} {a b : Bd K} {lo : Option K} {k : K} {c : Tr K h}
    (hw : WF H h lo (some k) c) (hr : Ready a lo) (hk : inHi b k = true) :
    ∀ e ∈ cont H h c, contains a b e.1 = true := by
  intro e he
  have hb := wf_bnd H h _ _ _ hw e he
  rw [contains_eq, hr _ hb.1, inHi_down hk hb.2]; rfl

/-- Entries after a key that is beyond the range. -/
theorem after_out {H : Hp K V} {h : Nat} {a b : Bd K} {hi : Option K} {k : K} {E : List (Option K × Tr K h)}
    (hc : Cov (WF H h) hi (some k) E) (hk : inHi b k = false) :
    ∀ e ∈ contE H h E, contains a b e.1 = false := by
  intro e he
  have hb := (cov_bnd (wf_bnd H h) hc e he).1
  rw [contains_eq]
  have : inHi b e.1 = false := by
    cases hx : inHi b e.1 with
    | false => rfl
    | true => rw [inHi_down hx (lt_asymm' hb)] at hk; cases hk
  rw [this, Bool.and_false]

/-- Entries up to a key that is before the range. -/
theorem before_out {H : Hp K V} {h : Nat} {a b : Bd K} {lo : Option K} {k : K} {c : Tr K h}
    (hw : WF H h lo (some k) c) (hk : inLo a k = false) :
    ∀ e ∈ cont H h c, contains a b e.1 = false := by
  intro e he
  have hb := (wf_bnd H h _ _ _ hw e he).2
  rw [contains_eq]
  have : inLo a e.1 = false := by
    cases hx : inLo a e.1 with
    | false => rfl
    | true => rw [inLo_up hx hb] at hk; cases hk
  rw [this, Bool.false_and]

theorem contE_keyed_cons (H : Hp K V) (e : K × Nat) (R : List (K × Nat)) :
    contE H 0 (keyed (e :: R) : List (Option K × Tr K 0)) =
      (H.leaf e.2).toList ++ contE H 0 (keyed R : List (Option K × Tr K 0)) := by
  show cont H 0 (K := K) e.2 ++ contE H 0 (keyed R : List (Option K × Tr K 0)) = _
  rw [cont_zero]

theorem rangeLeaves_spec (a b : Bd K) (su : Bool) (u : Nat) (hi : Option K) : ∀ (R D : List (K × Nat)) (st : RS)
    (n : Nd K Nat) (H : Hp K V) (c : Nat) (fv : Option Nat) (lo : Option K), st ≠ .maybeAbove →
    WL n.kids → frozen n.kids.w = false → ents n = keyed D ++ (keyed R ++ [(none, u)]) →
    (R.map (·.2) ++ [u]).Nodup → (∀ i ∈ R.map (·.2) ++ [u], i < H.fresh) →
    Cov (WF H 0) hi lo (keyed R ++ [(none, u)]) → (st ≠ .below ∨ su = true → Ready a lo) →
    ∃ R' n' H' c' fv', rangeLeaves a b su R st n H c fv = (n', H', c', fv') ∧
      WL n'.kids ∧ frozen n'.kids.w = false ∧ ents n' = keyed D ++ (keyed R' ++ [(none, u)]) ∧
      n'.ub = n.ub ∧ n'.dead = n.dead ∧ H'.fresh = H.fresh ∧
      Eff H H' (R.map (·.2)) (R'.map (·.2)) ∧ Cov (WF H' 0) hi lo (keyed R' ++ [(none, u)]) ∧
      contE H' 0 (keyed R' : List (Option K × Tr K 0)) = keep a b (contE H 0 (keyed R : List (Option K × Tr K 0))) ∧
      fv' = fv.or (R'.map (·.2)).head? := by
  intro R
  induction R with
  | nil =>
    intro D st n H c fv lo hst w hf hE hnd hlt hcov hr
    refine ⟨[], n, H, c, fv, rfl, w, hf, hE, rfl, rfl, rfl, Eff.refl (by simp) (by simp), hcov, rfl, ?_⟩
    simp
  | cons e R ih =>
    intro D st n H c fv lo hst w hf hE hnd hlt hcov hr
    obtain ⟨k, i⟩ := e
    rw [keyed_cons, List.cons_append] at hE hcov
    rw [List.map_cons, List.cons_append] at hnd hlt
    simp only [] at hE hcov hnd hlt
    have hnd' := List.nodup_cons.1 hnd
    have hi' : i < H.fresh := hlt i (List.mem_cons_self ..)
    have hlt' : ∀ j ∈ R.map (·.2) ++ [u], j < H.fresh := fun j hj => hlt j (List.mem_cons_of_mem _ hj)
    have hndR : (i :: R.map (·.2)).Nodup := by
      rw [← List.cons_append] at hnd
      exact (List.nodup_append.1 hnd).1
    have hltR : ∀ j ∈ i :: R.map (·.2), j < H.fresh := by
      intro j hj
      apply hlt
      rcases List.mem_cons.1 hj with h | h
      · simp [h]
      · exact List.mem_cons_of_mem _ (List.mem_append.2 (.inl h))
    obtain ⟨hwi, ⟨hgk, hlk⟩, hrest⟩ := hcov
    obtain ⟨wl, fl, bl⟩ := hwi
    obtain ⟨x1, x2, x3⟩ := wl.removeRange fl (contains a b)
    -- the filtered leaf
    have hl1 : (H.setLeaf i ((H.leaf i).removeRange (contains a b))).leaf i =
        (H.leaf i).removeRange (contains a b) := by simp [Hp.setLeaf]
    have hlo1 : ∀ j, j ≠ i → (H.setLeaf i ((H.leaf i).removeRange (contains a b))).leaf j = H.leaf j := by
      intro j hj; simp [Hp.setLeaf, hj]
    have hwf1 : WF (H.setLeaf i ((H.leaf i).removeRange (contains a b))) 0 lo (some k) i := by
      refine ⟨by rw [hl1]; exact x1, by rw [hl1]; exact x3, ?_⟩
      rw [hl1, x2]
      intro e he
      exact bl e (List.mem_filter.1 he).1
    have hrest1 : Cov (WF (H.setLeaf i ((H.leaf i).removeRange (contains a b))) 0) hi (some k)
        (keyed R ++ [(none, u)]) := by
      refine cov_frame 0 hrest ?_
      intro j hj
      apply hlo1
      intro e; subst e
      apply hnd'.1
      rw [leavesE_append, leavesE_keyed] at hj
      exact hj
    have heff1 : Eff H (H.setLeaf i ((H.leaf i).removeRange (contains a b))) (i :: R.map (·.2)) (i :: R.map (·.2)) :=
      Eff.setLeaf hndR hltR (List.mem_cons_self ..) _
    have hcR1 : contE (H.setLeaf i ((H.leaf i).removeRange (contains a b))) 0 (keyed R : List (Option K × Tr K 0)) =
        contE H 0 (keyed R : List (Option K × Tr K 0)) := by
      refine contE_frame 0 _ ?_
      intro j hj
      apply hlo1
      intro e; subst e
      apply hnd'.1
      rw [leavesE_keyed] at hj
      exact List.mem_append.2 (.inl hj)
    -- a leaf that stays, and the loop goes on
    have go : ∀ (st' : RS), st' ≠ .maybeAbove → (st' ≠ .below ∨ su = true → Ready a (some k)) →
        ∃ R' n' H' c' fv', rangeLeaves a b su R st' n (H.setLeaf i ((H.leaf i).removeRange (contains a b))) (c + 1)
          (fv.or (some i)) = (n', H', c', fv') ∧
        WL n'.kids ∧ frozen n'.kids.w = false ∧ ents n' = keyed D ++ (keyed R' ++ [(none, u)]) ∧
        n'.ub = n.ub ∧ n'.dead = n.dead ∧ H'.fresh = H.fresh ∧
        Eff H H' (i :: R.map (·.2)) (R'.map (·.2)) ∧ Cov (WF H' 0) hi lo (keyed R' ++ [(none, u)]) ∧
        contE H' 0 (keyed R' : List (Option K × Tr K 0)) =
          keep a b (contE H 0 (keyed ((k, i) :: R) : List (Option K × Tr K 0))) ∧
        fv' = fv.or (R'.map (·.2)).head? := by
      intro st' h1 h2
      obtain ⟨R', n', H', c', fv', r1, r2, r3, r4, r5, r6, r7, r8, r9, r10, r11⟩ :=
        ih (D ++ [(k, i)]) st' n (H.setLeaf i ((H.leaf i).removeRange (contains a b))) (c + 1) (fv.or (some i))
          (some k) h1 w hf (by rw [hE, keyed_append, List.append_assoc]; rfl) hnd'.2 hlt' hrest1 h2
      have hfr : H'.leaf i = (H.setLeaf i ((H.leaf i).removeRange (contains a b))).leaf i := by
        apply r8.frame i hi'
        intro h; exact (List.nodup_cons.1 hndR).1 h
      refine ⟨(k, i) :: R', n', H', c', fv', r1, r2, r3, ?_, r5, r6, r7, ?_, ?_, ?_, ?_⟩
      · rw [r4, keyed_append, List.append_assoc]; rfl
      · have := r8.embed (X := [i]) (Y := []) (by simpa using hndR) (fun j hj => hltR j (by simpa using hj))
        exact heff1.trans (by simpa using this)
      · refine ⟨wf_frame 0 i ?_ _ _ hwf1, ⟨hgk, hlk⟩, r9⟩
        intro j hj
        rw [List.mem_singleton.1 hj]; exact hfr
      · rw [contE_keyed_cons, contE_keyed_cons, keep_append, r10, hcR1, hfr, hl1, x2]
        rfl
      · rw [r11]; cases fv <;> simp
    rw [rangeLeaves]
    rcases next_cases st a b su k hst with ⟨h1, h2, h3⟩ | ⟨h1, h2, h3, h4⟩ | ⟨h1, h2, h3⟩ | ⟨h1, h2, h3⟩
    · rw [h1]
      refine go .below (by simp) ?_
      intro h4
      rcases h4 with h4 | h4
      · exact absurd rfl h4
      · rw [hr (.inr h4) k hgk] at h3; cases h3
    · rw [h1]
      refine go .maybeBelow (by simp) (fun _ => ready_some ?_)
      rw [contains_eq, Bool.and_eq_true] at h4
      exact h4.1
    · rw [h1]
      have hrdy := hr h2
      have h3' := h3
      rw [contains_eq, Bool.and_eq_true] at h3'
      obtain ⟨e1, e2, e3⟩ := ents_remove w hf (A := keyed D) (B := keyed R ++ [(none, u)]) (k := k) (c := i) hE
        (allSome_keyed D)
      have hrest2 : Cov (WF (H.deleteSelf i) 0) hi (some k) (keyed R ++ [(none, u)]) :=
        cov_frame 0 hrest (fun j hj => rfl)
      obtain ⟨R', n', H', c', fv', r1, r2, r3, r4, r5, r6, r7, r8, r9, r10, r11⟩ :=
        ih D .fully { n with kids := (n.kids.removeIf k (fun _ => true)).1 } (H.deleteSelf i) c fv (some k)
          (by simp) e2 e3 e1 hnd'.2 hlt' hrest2 (fun _ => ready_some h3'.1)
      refine ⟨R', n', H', c', fv', r1, r2, r3, r4, r5, r6, r7, ?_, ?_, ?_, r11⟩
      · have hd := (Eff.delete hi').embed (X := []) (Y := R.map (·.2)) (by simpa using hndR) (by simpa using hltR)
        exact Eff.trans (by simpa using hd) r8
      · exact cov_mono (wf_mono H' 0) (leLo_of_gt hgk) (leUp_refl _) r9
      · have hin : ∀ e ∈ (H.leaf i).toList, contains a b e.1 = true := by
          have := all_in (h := 0) (a := a) (b := b) (c := i) ⟨wl, fl, bl⟩ hrdy h3'.2
          rw [cont_zero] at this; exact this
        rw [contE_keyed_cons, keep_append, keep_none hin, List.nil_append, r10]
        rfl
    · rw [h1]
      have hkh : inHi b k = false := by
        have hin : inLo a k = true := by
          by_cases hb : st = .below
          · exact h3 hb
          · exact hr (.inl hb) k hgk
        rw [contains_eq, hin, Bool.true_and] at h2
        exact h2
      refine ⟨(k, i) :: R, n, _, _, _, rfl, w, hf, hE, rfl, rfl, rfl, heff1, ?_, ?_, ?_⟩
      · exact ⟨hwf1, ⟨hgk, hlk⟩, hrest1⟩
      · rw [contE_keyed_cons, contE_keyed_cons, keep_append, hcR1, hl1, x2]
        have := after_out (h := 0) (a := a) (b := b) hrest hkh
        rw [contE_append] at this
        rw [keep_all (fun e he => this e (List.mem_append.2 (.inl he)))]
        rfl
      · cases fv <;> simp

/-- The leaf `ll`, if any, is linked to `p`. -/
def linkTo (H : Hp K V) (ll p : Option Nat) : Hp K V :=
  match ll with
  | some l => H.setLink l p
  | none => H

/-- The part of `remove_range` of a leaf node before the leaf below is linked. -/
theorem rangeLeafNode_base {H : Hp K V} {lo hi : Option K} {n : Nd K Nat} {a b : Bd K} {su : Bool}
    (ll : Option Nat) (hw : WF H 1 lo hi n)
    (hnd : (leaves 1 (n : Tr K 1)).Nodup) (hlt : ∀ i ∈ leaves 1 (n : Tr K 1), i < H.fresh)
    (hr : su = true → Ready a lo) :
    ∃ n' H1 c, (rangeLeafNode a b su ll n H = (n', linkTo H1 ll (leaves 1 (n' : Tr K 1)).head?, c, (leaves 1 (n' : Tr K 1)).getLast?)) ∧
      WF H1 1 lo hi n' ∧ cont H1 1 (n' : Tr K 1) = keep a b (cont H 1 (n : Tr K 1)) ∧ H1.fresh = H.fresh ∧
      Eff H H1 (leaves 1 (n : Tr K 1)) (leaves 1 (n' : Tr K 1)) := by
  obtain ⟨w, hf, hd, hu, hcov⟩ := hw
  obtain ⟨u, hu⟩ := Option.isSome_iff_exists.1 hu
  have hE : ents n = keyed n.kids.toList ++ [(none, u)] := by unfold ents; rw [hu]; rfl
  have hls : leaves 1 (n : Tr K 1) = n.kids.toList.map (·.2) ++ [u] := by
    rw [leaves_succ, hE, leavesE_append, leavesE_keyed]; rfl
  rw [hls] at hnd hlt
  rw [hE] at hcov
  obtain ⟨R', n', H', c', fv', r1, r2, r3, r4, r5, r6, r7, r8, r9, r10, r11⟩ :=
    rangeLeaves_spec a b su u hi n.kids.toList [] .below n H 1 none lo (by simp) w hf hE hnd hlt hcov
      (fun h => hr (h.resolve_left (by simp)))
  have r4' : ents n' = keyed R' ++ [(none, u)] := r4
  have hls' : leaves 1 (n' : Tr K 1) = R'.map (·.2) ++ [u] := by
    rw [leaves_succ, r4', leavesE_append, leavesE_keyed]; rfl
  have hwf : WF H' 1 lo hi n' := ⟨r2, r3, by rw [r6]; exact hd, by rw [r5, hu]; rfl, by rw [r4']; exact r9⟩
  have heff : Eff H H' (leaves 1 (n : Tr K 1)) (leaves 1 (n' : Tr K 1)) := by
    rw [hls, hls']
    have := r8.embed (X := []) (Y := [u]) (by simpa using hnd) (by simpa using hlt)
    simpa using this
  obtain ⟨wu, fu, bu⟩ := (cov_focus.1 r9).2.2.1
  obtain ⟨x1, x2, x3⟩ := wu.removeRange fu (contains a b)
  obtain ⟨s1, s2, s3⟩ := leaf_set (hi := hi) hwf heff.nodup heff.lt (A := keyed R') (s := none) (id := u) (B := [])
    r4' x1 x3 (by rw [x2]; intro e he; exact bu e (List.mem_filter.1 he).1)
  refine ⟨n', _, c', ?_, s1, ?_, r7, heff.trans s3⟩
  · unfold rangeLeafNode
    simp only [r1, r5, hu]
    rw [hls', List.getLast?_append]
    have : (R'.map (·.2) ++ [u]).head? = fv'.or (some u) := by
      rw [r11, List.head?_append]; simp
    rw [this]
    cases ll <;> rfl
  · rw [s2, r10, x2]
    have h1 : contE H' 0 ([] : List (Option K × Tr K 0)) = [] := rfl
    rw [h1, List.append_nil, cont_succ, hE, contE_append, keep_append]
    congr 1
    show _ = keep a b (cont H 0 (K := K) u ++ [])
    rw [cont_zero, List.append_nil]
    have : H'.leaf u = H.leaf u := by
      refine r8.frame u (hlt u (by simp)) ?_
      intro hm
      exact (List.nodup_append.1 hnd).2.2 u hm u (by simp) rfl
    rw [this]; rfl

end Scc.Tree
