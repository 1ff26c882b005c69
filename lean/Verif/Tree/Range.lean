import Verif.Tree.RangeLeaf

/-!
# Removal of a range: internal nodes and the index
-/

set_option linter.unusedSimpArgs false
set_option linter.unusedSectionVars false
set_option linter.unusedVariables false

namespace Scc.Tree

open Scc.Leaf Scc.Leaf.Spec

variable {K V C : Type} [KeyOrd K]

theorem ents_child {n : Nd K C} (w : WL n.kids) {A B : List (Option K × C)} {s : Option K} {c : C}
    (h : ents n = A ++ (s, c) :: B) (hA : AllSome A) : n.child s = some c := by
  rcases ents_split h hA with ⟨k, A', B', rfl, h1, h2, h3⟩ | ⟨rfl, h1, h2, h3⟩
  · unfold Nd.child
    simp only []
    have hs := w.sorted
    rw [w.search]
    have : get n.kids.toList k = some (k, c) := by
      rw [get_iff hs, h1]
      exact ⟨by simp, rfl⟩
    rw [this]; rfl
  · exact h1

theorem endLo_le {P : Option K → Option K → C → Prop} {hi lo : Option K} {A : List (Option K × C)}
    (hA : AllSome A) (h : Cov P hi lo A) : leLo lo (endLo lo A) := fun _ hk => (cov_allLt hA h hk).2

theorem ready_endLo {P : Option K → Option K → C → Prop} {hi lo : Option K} {A : List (Option K × C)} {a : Bd K}
    (hA : AllSome A) (h : Cov P hi lo A) (hr : Ready a lo) : Ready a (endLo lo A) :=
  fun k hk => hr k (endLo_le hA h k hk)

/-! ## The loop over the children -/

theorem kids_ready (a b : Bd K) (su up : Bool) (T : List (Option K × C)) : ∀ (R D : List (K × C)) (st : RS)
    (n : Nd K C) (c : Nat) (lb ub : Option K), st ≠ .maybeAbove → (st ≠ .below ∨ su = true) →
    WL n.kids → frozen n.kids.w = false → ents n = keyed D ++ (keyed R ++ T) →
    (∀ e ∈ R, inLo a e.1 = true) →
    ∃ F R2 n' c' st', R = F ++ R2 ∧ (∀ e ∈ F, contains a b e.1 = true) ∧ WL n'.kids ∧ frozen n'.kids.w = false ∧
      n'.ub = n.ub ∧ n'.dead = n.dead ∧
      ((R2 = [] ∧ st' ≠ .maybeAbove ∧ (st ≠ .below → st' ≠ .below) ∧ ents n' = keyed D ++ T ∧
        rangeKids a b su up R st n c lb ub = (st', n', c', lb, ub)) ∨
      (∃ k x R3, R2 = (k, x) :: R3 ∧ inHi b k = false ∧ (up = false → ents n' = keyed D ++ (keyed R2 ++ T) ∧
        rangeKids a b su up R st n c lb ub = (.maybeAbove, n', c', lb, some k)))) := by
  intro R
  induction R with
  | nil =>
    intro D st n c lb ub hst hs w hf hE hin
    exact ⟨[], [], n, c, st, rfl, fun _ h => (by cases h), w, hf, rfl, rfl, .inl ⟨rfl, hst, fun h => h, hE, rfl⟩⟩
  | cons e R ih =>
    intro D st n c lb ub hst hs w hf hE hin
    obtain ⟨k, x⟩ := e
    have hk := hin (k, x) (List.mem_cons_self ..)
    simp only [] at hk
    rw [rangeKids]
    rcases next_cases st a b su k hst with ⟨h1, h2, h3⟩ | ⟨h1, h2, h3, h4⟩ | ⟨h1, h2, h3⟩ | ⟨h1, h2, h3⟩
    · rw [hk] at h3; cases h3
    · rw [h2, h3] at hs; simp at hs
    · rw [h1]
      simp only []
      obtain ⟨e1, e2, e3⟩ := ents_remove w hf (A := keyed D) (B := keyed R ++ T) (k := k) (c := x) hE (allSome_keyed D)
      obtain ⟨F, R2, n', c', st', r1, r2, r3, r4, r5, r6, r7⟩ :=
        ih D .fully { n with kids := (n.kids.removeIf k (fun _ => true)).1 } c lb ub (by simp) (.inl (by simp))
          e2 e3 e1 (fun e he => hin e (List.mem_cons_of_mem _ he))
      refine ⟨(k, x) :: F, R2, n', c', st', by rw [r1]; rfl, ?_, r3, r4, r5, r6, ?_⟩
      · intro e he
        rcases List.mem_cons.1 he with he | he
        · subst he; exact h3
        · exact r2 e he
      · rcases r7 with ⟨q1, q2, q3, q4, q5⟩ | q
        · exact .inl ⟨q1, q2, fun _ => q3 (by simp), q4, q5⟩
        · exact .inr q
    · rw [h1]
      simp only []
      have hh : inHi b k = false := by
        rw [contains_eq, hk, Bool.true_and] at h2; exact h2
      refine ⟨[], (k, x) :: R, n, c + 1, st, rfl, fun _ h => (by cases h), w, hf, rfl, rfl,
        .inr ⟨k, x, R, rfl, hh, ?_⟩⟩
      intro hu
      refine ⟨hE, ?_⟩
      rw [hu]; rfl

theorem kids_below (a b : Bd K) (up : Bool) : ∀ (R : List (K × C)) (n : Nd K C) (c : Nat),
    ∃ A R1, R = A ++ R1 ∧ (∀ e ∈ A, inLo a e.1 = false) ∧
      ((R1 = [] ∧ ∃ c', rangeKids a b false up R .below n c none none = (.below, n, c', none, none)) ∨
      (∃ k x R2, R1 = (k, x) :: R2 ∧ contains a b k = true ∧ ∃ c', rangeKids a b false up R .below n c none none =
        rangeKids a b false up R2 .maybeBelow n c' (some k) none) ∨
      (∃ k x R2, R1 = (k, x) :: R2 ∧ inLo a k = true ∧ inHi b k = false ∧ (up = false → ∃ c',
        rangeKids a b false up R .below n c none none = (.maybeAbove, n, c', none, some k)))) := by
  intro R
  induction R with
  | nil =>
    intro n c
    exact ⟨[], [], rfl, fun _ h => (by cases h), .inl ⟨rfl, c, rfl⟩⟩
  | cons e R ih =>
    intro n c
    obtain ⟨k, x⟩ := e
    rw [rangeKids]
    rcases next_cases .below a b false k (by simp) with ⟨h1, h2, h3⟩ | ⟨h1, h2, h3, h4⟩ | ⟨h1, h2, h3⟩ | ⟨h1, h2, h3⟩
    · rw [h1]
      simp only []
      obtain ⟨A, R1, r1, r2, r3⟩ := ih n (c + 1)
      refine ⟨(k, x) :: A, R1, by rw [r1]; rfl, ?_, r3⟩
      intro e he
      rcases List.mem_cons.1 he with he | he
      · subst he; exact h3
      · exact r2 e he
    · rw [h1]
      exact ⟨[], (k, x) :: R, rfl, fun _ h => (by cases h), .inr (.inl ⟨k, x, R, rfl, h4, _, rfl⟩)⟩
    · simp at h2
    · rw [h1]
      have hk := h3 rfl
      refine ⟨[], (k, x) :: R, rfl, fun _ h => (by cases h), .inr (.inr ⟨k, x, R, rfl, hk, ?_, ?_⟩)⟩
      · rw [contains_eq, hk, Bool.true_and] at h2; exact h2
      · intro hu; rw [hu]; exact ⟨_, rfl⟩

/-! ## What is kept -/

theorem keep_below {H : Hp K V} {h : Nat} {a b : Bd K} {hi : Option K} : ∀ {A : List (K × Tr K h)} {lo : Option K},
    Cov (WF H h) hi lo (keyed A) → (∀ e ∈ A, inLo a e.1 = false) →
    keep a b (contE H h (keyed A)) = contE H h (keyed A) := by
  intro A
  induction A with
  | nil => intro _ _ _; rfl
  | cons e A ih =>
    intro lo hc hA
    rw [keyed_cons, contE_cons, keep_append]
    rw [keyed_cons] at hc
    rw [keep_all (before_out hc.1 (hA e (List.mem_cons_self ..))),
      ih hc.2.2 (fun x hx => hA x (List.mem_cons_of_mem _ hx))]

theorem keep_inside {H : Hp K V} {h : Nat} {a b : Bd K} {hi : Option K} : ∀ {F : List (K × Tr K h)} {lo : Option K},
    Cov (WF H h) hi lo (keyed F) → Ready a lo → (∀ e ∈ F, contains a b e.1 = true) →
    keep a b (contE H h (keyed F)) = [] := by
  intro F
  induction F with
  | nil => intro _ _ _ _; rfl
  | cons e F ih =>
    intro lo hc hr hF
    have he := hF e (List.mem_cons_self ..)
    rw [contains_eq, Bool.and_eq_true] at he
    rw [keyed_cons, contE_cons, keep_append]
    rw [keyed_cons] at hc
    rw [keep_none (all_in hc.1 hr he.2), ih hc.2.2 (ready_some he.1) (fun x hx => hF x (List.mem_cons_of_mem _ hx))]
    rfl

/-! ## The three modes -/

/-- Every key of the node satisfies the lower bound: leaves in the range are dropped from `ll` on. -/
def ModeU (V : Type) (a b : Bd K) (h : Nat) : Prop :=
  ∀ (H : Hp K V) (lo hi : Option K) (ll : Option Nat) (n : Tr K (h + 1)), WF H (h + 1) lo hi n →
    (leaves (h + 1) n).Nodup → (∀ i ∈ leaves (h + 1) n, i < H.fresh) → Ready a lo →
    let r := rangeTr a b h true ll false n H
    WF r.2.1 (h + 1) lo hi r.1 ∧ cont r.2.1 (h + 1) r.1 = keep a b (cont H (h + 1) n) ∧
      Cut H r.2.1 ll (leaves (h + 1) n) (leaves (h + 1) r.1)

/-- Every key of the node satisfies the upper bound: leaves behind those that stay are to be dropped. -/
def ModeL (V : Type) (a b : Bd K) (h : Nat) : Prop :=
  ∀ (H : Hp K V) (lo hi : Option K) (n : Tr K (h + 1)), WF H (h + 1) lo hi n →
    (leaves (h + 1) n).Nodup → (∀ i ∈ leaves (h + 1) n, i < H.fresh) → (∀ k, leHi hi k → inHi b k = true) →
    let r := rangeTr a b h false none true n H
    WF r.2.1 (h + 1) lo hi r.1 ∧ cont r.2.1 (h + 1) r.1 = keep a b (cont H (h + 1) n) ∧
      r.2.2.2 = (leaves (h + 1) r.1).getLast? ∧ r.2.1.fresh = H.fresh ∧
      ∃ D, Eff H r.2.1 (leaves (h + 1) n) (leaves (h + 1) r.1 ++ D)

/-- Nothing is known about the node. -/
def ModeP (V : Type) (a b : Bd K) (h : Nat) : Prop :=
  ∀ (H : Hp K V) (lo hi : Option K) (n : Tr K (h + 1)), WF H (h + 1) lo hi n →
    (leaves (h + 1) n).Nodup → (∀ i ∈ leaves (h + 1) n, i < H.fresh) →
    let r := rangeTr a b h false none false n H
    WF r.2.1 (h + 1) lo hi r.1 ∧ cont r.2.1 (h + 1) r.1 = keep a b (cont H (h + 1) n) ∧
      r.2.1.fresh = H.fresh ∧ Eff H r.2.1 (leaves (h + 1) n) (leaves (h + 1) r.1)

theorem modeU_zero (a b : Bd K) : ModeU V a b 0 := by
  intro H lo hi ll n hw hnd hlt hr
  obtain ⟨n', H1, c, h1, h2, h3, h4, h5⟩ := rangeLeafNode_base (a := a) (b := b) ll hw hnd hlt (fun _ => hr)
  show WF _ _ _ _ _ ∧ _
  rw [show rangeTr a b 0 true ll false n H = _ from h1]
  simp only []
  cases ll with
  | none => exact ⟨h2, h3, h5.cut_none h4 hlt⟩
  | some l =>
    refine ⟨wf_frame 1 n' (fun _ _ => rfl) lo hi h2, ?_, h5.cut_some h4 hlt (leaves_ne_nil 1 lo hi _ h2)⟩
    rw [← h3]
    exact cont_frame (H := H1) 1 n' (fun _ _ => rfl)

theorem modeL_zero (a b : Bd K) : ModeL V a b 0 := by
  intro H lo hi n hw hnd hlt hr
  obtain ⟨n', H1, c, h1, h2, h3, h4, h5⟩ :=
    rangeLeafNode_base (a := a) (b := b) (su := false) none hw hnd hlt (fun h => (by cases h))
  show WF _ _ _ _ _ ∧ _
  rw [show rangeTr a b 0 false none true n H = _ from h1]
  exact ⟨h2, h3, rfl, h4, [], by rw [List.append_nil]; exact h5⟩

theorem modeP_zero (a b : Bd K) : ModeP V a b 0 := by
  intro H lo hi n hw hnd hlt
  obtain ⟨n', H1, c, h1, h2, h3, h4, h5⟩ :=
    rangeLeafNode_base (a := a) (b := b) (su := false) none hw hnd hlt (fun h => (by cases h))
  show WF _ _ _ _ _ ∧ _
  rw [show rangeTr a b 0 false none false n H = _ from h1]
  exact ⟨h2, h3, h4, h5⟩

theorem leavesE_focus {h : Nat} (A B : List (Option K × Tr K h)) (s : Option K) (c : Tr K h) :
    leavesE h (A ++ (s, c) :: B) = leavesE h A ++ leaves h c ++ leavesE h B := by
  rw [leavesE_append, leavesE_cons, List.append_assoc]

theorem contE_focus {h : Nat} (H : Hp K V) (A B : List (Option K × Tr K h)) (s : Option K) (c : Tr K h) :
    contE H h (A ++ (s, c) :: B) = contE H h A ++ cont H h c ++ contE H h B := by
  rw [contE_append, contE_cons, List.append_assoc]

theorem nodup_mid {A B C : List Nat} (h : (A ++ B ++ C).Nodup) : B.Nodup :=
  (List.nodup_append.1 (List.nodup_append.1 h).1).2.1

/-- `ModeU`: the children before `(s, c)` are dropped, `c` is treated. -/
theorem modeU_finish {a b : Bd K} {h : Nat} {H H' : Hp K V} {lo hi : Option K} {ll : Option Nat}
    {n n1 : Tr K (h + 2)} (hw : WF H (h + 2) lo hi n) (hnd : (leaves (h + 2) n).Nodup)
    (hlt : ∀ i ∈ leaves (h + 2) n, i < H.fresh) (hr : Ready a lo)
    {F : List (K × Tr K (h + 1))} {B : List (Option K × Tr K (h + 1))} {s : Option K} {c c' : Tr K (h + 1)}
    (hE : ents n = keyed F ++ (s, c) :: B) (hF : ∀ e ∈ F, contains a b e.1 = true)
    (hs : ∀ k, s = some k → inHi b k = false)
    (w1 : WL n1.kids) (f1 : frozen n1.kids.w = false) (u1 : n1.ub = n.ub) (d1 : n1.dead = n.dead)
    (hE1 : ents n1 = (s, c) :: B)
    (hc' : WF H' (h + 1) (endLo lo (keyed F)) (s.or hi) c') (hcc : cont H' (h + 1) c' = keep a b (cont H (h + 1) c))
    (hcut : Cut H H' ll (leaves (h + 1) c) (leaves (h + 1) c')) :
    WF H' (h + 2) lo hi (n1.set s c') ∧ cont H' (h + 2) (n1.set s c') = keep a b (cont H (h + 2) n) ∧
      Cut H H' ll (leaves (h + 2) n) (leaves (h + 2) (n1.set s c')) := by
  obtain ⟨w, hf, hdd, hu, hcov⟩ := hw
  rw [leaves_succ (h + 1) n, hE, leavesE_focus] at hnd hlt
  rw [hE] at hcov
  obtain ⟨c1, c2, c3, c4, c5⟩ := cov_focus.1 hcov
  obtain ⟨s1, s2, s3, s4, s5⟩ := ents_set w1 (A := []) hE1 (fun _ h => (by cases h)) c'
  have hle := endLo_le c1 c2
  have hnd' := List.nodup_append.1 hnd
  have fB : ∀ i ∈ leavesE (h + 1) B, H'.leaf i = H.leaf i := by
    intro i hi
    refine hcut.frame i (hlt i (List.mem_append.2 (.inr hi))) ?_
    intro hm
    exact hnd'.2.2 i (List.mem_append.2 (.inr hm)) i hi rfl
  have hkB : keep a b (contE H (h + 1) B) = contE H (h + 1) B := by
    cases s with
    | none =>
      have : B = [] := c4
      rw [this]; rfl
    | some k => exact keep_all (after_out c5 (hs k rfl))
  have hcov' : Cov (WF H' (h + 1)) hi lo ((s, c') :: B) := by
    refine ⟨wf_mono H' (h + 1) _ _ _ _ _ hle (leUp_refl _) hc', ?_, cov_frame (h + 1) c5 fB⟩
    cases s with
    | none => exact c4
    | some k => exact ⟨hle k c4.1, c4.2⟩
  have hls : leaves (h + 2) (n1.set s c') = leaves (h + 1) c' ++ leavesE (h + 1) B := by
    have := leaves_succ (h + 1) (n1.set s c')
    rw [s1, List.nil_append, leavesE_cons] at this
    exact this
  refine ⟨⟨s2, by rw [s3]; exact f1, by rw [s4, d1]; exact hdd, s5 (by rw [u1]; exact hu), by rw [s1]; exact hcov'⟩,
    ?_, ?_⟩
  · have h1 := cont_succ H' (h + 1) (n1.set s c')
    rw [s1, List.nil_append, contE_cons, hcc, contE_frame (h + 1) B fB] at h1
    refine h1.trans ?_
    rw [cont_succ H (h + 1) n, hE, contE_focus, keep_append, keep_append, keep_inside c2 hr hF, hkB]
    rfl
  · rw [hls, leaves_succ (h + 1) n, hE, leavesE_focus]
    refine ⟨hcut.fresh, ?_, ?_, ?_, ?_⟩
    · intro i hi hn
      refine hcut.frame i hi (fun hm => hn ?_)
      exact List.mem_append.2 (.inl (List.mem_append.2 (.inr hm)))
    · intro i hi
      rcases List.mem_append.1 hi with hi | hi
      · exact List.mem_append.2 (.inl (List.mem_append.2 (.inr (hcut.sub i hi))))
      · exact List.mem_append.2 (.inr hi)
    · rw [List.nodup_append]
      refine ⟨hcut.nodup, hnd'.2.1, ?_⟩
      intro x hx y hy
      exact hnd'.2.2 x (List.mem_append.2 (.inr (hcut.sub x hx))) y hy
    · intro pre D post hp hl
      have := hcut.link pre (D ++ leavesE (h + 1) (keyed F)) (leavesE (h + 1) B ++ post) hp
        (by simpa only [List.append_assoc] using hl)
      simpa only [List.append_assoc] using this

theorem modeU_succ (a b : Bd K) (h : Nat) (ih : ModeU V a b h) : ModeU V a b (h + 1) := by
  intro H lo hi ll n hw hnd hlt hr
  have hw0 := hw
  obtain ⟨w, hf, hdd, hu, hcov⟩ := hw
  obtain ⟨u, hu⟩ := Option.isSome_iff_exists.1 hu
  have hE : ents n = keyed n.kids.toList ++ [(none, u)] := by unfold ents; rw [hu]; rfl
  have hin : ∀ e ∈ n.kids.toList, inLo a e.1 = true := by
    intro e he
    have hm : (some e.1, e.2) ∈ ents n := by
      rw [hE]; exact List.mem_append.2 (.inl (List.mem_map.2 ⟨e, he, rfl⟩))
    exact hr _ (cov_gt hcov hm).1
  obtain ⟨F, R2, n1, c', st', r1, r2, r3, r4, r5, r6, r7⟩ :=
    kids_ready a b true false [(none, u)] n.kids.toList [] .below n 1 none none (by simp) (.inr rfl) w hf hE hin
  -- the recursive call
  have fin : ∀ (s : Option K) (c : Tr K (h + 1)) (B : List (Option K × Tr K (h + 1))),
      ents n = keyed F ++ (s, c) :: B → ents n1 = (s, c) :: B → (∀ k, s = some k → inHi b k = false) →
      let x := rangeTr a b h true ll false c H
      WF x.2.1 (h + 2) lo hi (n1.set s x.1) ∧ cont x.2.1 (h + 2) (n1.set s x.1) = keep a b (cont H (h + 2) n) ∧
      Cut H x.2.1 ll (leaves (h + 2) n) (leaves (h + 2) (n1.set s x.1)) := by
    intro s c B e1 e2 hs
    have hcov' := hcov
    rw [e1] at hcov'
    have hnd' := hnd
    have hlt' := hlt
    rw [leaves_succ (h + 1) n, e1, leavesE_focus] at hnd' hlt'
    obtain ⟨c1, c2, c3, c4, c5⟩ := cov_focus.1 hcov'
    obtain ⟨x1, x2, x3⟩ := ih H _ _ ll c c3 (nodup_mid hnd')
      (fun i hi => hlt' i (List.mem_append.2 (.inl (List.mem_append.2 (.inr hi))))) (ready_endLo c1 c2 hr)
    exact modeU_finish hw0 hnd hlt hr e1 r2 hs r3 r4 r5 r6 e2 x1 x2 x3
  show WF _ _ _ _ _ ∧ _
  rw [show rangeTr a b (h + 1) true ll false n H = rangeNode (rangeTr a b h) a b true ll false n H from rfl]
  unfold rangeNode
  rcases r7 with ⟨q1, q2, q3, q4, q5⟩ | ⟨k, x, R3, q1, q2, q3⟩
  · have e2 : ents n1 = [(none, u)] := q4
    have e1 : ents n = keyed F ++ [(none, u)] := by rw [hE, r1, q1, List.append_nil]
    have hfin := fin none u [] e1 e2 (fun k h => (by cases h))
    have hub : n1.ub = some u := by rw [r5]; exact hu
    simp only [q5]
    cases ll with
    | none =>
      cases st' <;> first | exact absurd rfl q2 | (simp [Nd.child, hub]; exact hfin)
    | some l =>
      cases st' <;> first | exact absurd rfl q2 | (simp [Nd.child, hub]; exact hfin)
  · obtain ⟨q4, q5⟩ := q3 rfl
    have e2 : ents n1 = (some k, x) :: (keyed R3 ++ [(none, u)]) := by rw [q4, q1]; rfl
    have e1 : ents n = keyed F ++ (some k, x) :: (keyed R3 ++ [(none, u)]) := by
      rw [hE, r1, q1, keyed_append, List.append_assoc]; rfl
    have hfin := fin (some k) x _ e1 e2 (fun k' h => (by cases h; exact q2))
    have hch : n1.child (some k) = some x := ents_child r3 (A := []) e2 (fun _ h => (by cases h))
    simp only [q5]
    cases ll with
    | none => simp [hch]; exact hfin
    | some l => simp [hch]; exact hfin

/-! ### The lower border -/

theorem leHi_child {P : Option K → Option K → C → Prop} {hi lo : Option K} {A B : List (Option K × C)}
    {s : Option K} {c : C} (h : Cov P hi lo (A ++ (s, c) :: B)) (k : K) (hk : leHi (s.or hi) k) : leHi hi k := by
  cases s with
  | none => exact hk
  | some j => exact ltHi_le (ltHi_of_le (cov_focus.1 h).2.2.2.1.2 hk)

theorem Eff.sub' {H H' : Hp K V} {I I' : List Nat} (e : Eff H H' I I') (hf : H'.fresh = H.fresh) : ∀ i ∈ I', i ∈ I := by
  intro i hi
  rcases e.sub i hi with h | h
  · exact h
  · have := e.lt i hi; omega

/-- `ModeL`: the children `A` stay, `c` is treated and becomes the last, those behind it are dropped. -/
theorem modeL_finish {a b : Bd K} {h : Nat} {H H' : Hp K V} {lo hi : Option K}
    {n n1 : Tr K (h + 2)} (hw : WF H (h + 2) lo hi n) (hnd : (leaves (h + 2) n).Nodup)
    (hlt : ∀ i ∈ leaves (h + 2) n, i < H.fresh)
    {A : List (K × Tr K (h + 1))} {B : List (Option K × Tr K (h + 1))} {s : Option K} {c c' : Tr K (h + 1)}
    (hE : ents n = keyed A ++ (s, c) :: B) (hA : ∀ e ∈ A, inLo a e.1 = false)
    (hB : keep a b (contE H (h + 1) B) = [])
    (w1 : WL n1.kids) (f1 : frozen n1.kids.w = false) (d1 : n1.dead = n.dead)
    (hE1 : ents n1 = keyed A ++ [(none, c)]) (u1 : n1.ub.isSome = true)
    (hc' : WF H' (h + 1) (endLo lo (keyed A)) (s.or hi) c') (hcc : cont H' (h + 1) c' = keep a b (cont H (h + 1) c))
    {D : List Nat} (he : Eff H H' (leaves (h + 1) c) (leaves (h + 1) c' ++ D)) :
    WF H' (h + 2) lo hi (n1.set none c') ∧ cont H' (h + 2) (n1.set none c') = keep a b (cont H (h + 2) n) ∧
      (leaves (h + 1) c').getLast? = (leaves (h + 2) (n1.set none c')).getLast? ∧
      ∃ D, Eff H H' (leaves (h + 2) n) (leaves (h + 2) (n1.set none c') ++ D) := by
  obtain ⟨w, hf, hdd, hu, hcov⟩ := hw
  rw [leaves_succ (h + 1) n, hE] at hnd hlt
  rw [hE] at hcov
  obtain ⟨fA, fB⟩ := frame_sides hnd hlt he
  have hhi := leHi_child hcov
  obtain ⟨c1, c2, c3, c4, c5⟩ := cov_focus.1 hcov
  obtain ⟨s1, s2, s3, s4, s5⟩ := ents_set w1 hE1 (allSome_keyed A) c'
  have hup : leUp (s.or hi) hi := by
    cases s with
    | none => exact leUp_refl _
    | some k => exact leUp_of_lt c4.2
  have hcov' : Cov (WF H' (h + 1)) hi lo (keyed A ++ [(none, c')]) :=
    cov_focus.2 ⟨c1, cov_frame (h + 1) c2 fA, wf_mono H' (h + 1) _ _ _ _ _ (leLo_refl _) hup hc', rfl, trivial⟩
  have hls : leaves (h + 2) (n1.set none c') = leavesE (h + 1) (keyed A) ++ leaves (h + 1) c' := by
    have := leaves_succ (h + 1) (n1.set none c')
    rw [s1, leavesE_append, leavesE_cons, leavesE_nil, List.append_nil] at this
    exact this
  refine ⟨⟨s2, by rw [s3]; exact f1, by rw [s4, d1]; exact hdd, s5 u1, by rw [s1]; exact hcov'⟩, ?_, ?_, ?_⟩
  · have h1 := cont_succ H' (h + 1) (n1.set none c')
    rw [s1, contE_focus, hcc, contE_frame (h + 1) (keyed A) fA] at h1
    refine h1.trans ?_
    rw [cont_succ H (h + 1) n, hE, contE_focus, keep_append, keep_append, keep_below c2 hA, hB]
    rfl
  · rw [hls, List.getLast?_append]
    have hne := leaves_ne_nil (h + 1) _ _ _ hc'
    cases hg : (leaves (h + 1) c').getLast? with
    | none => exact absurd (List.getLast?_eq_none_iff.1 hg) hne
    | some x => rfl
  · refine ⟨D ++ leavesE (h + 1) B, ?_⟩
    rw [hls, leaves_succ (h + 1) n, hE, leavesE_focus]
    rw [leavesE_focus] at hnd hlt
    have := he.embed hnd hlt
    simpa only [List.append_assoc] using this

theorem modeL_succ (a b : Bd K) (h : Nat) (ih : ModeL V a b h) : ModeL V a b (h + 1) := by
  intro H lo hi n hw hnd hlt hb
  have hw0 := hw
  obtain ⟨w, hf, hdd, hu, hcov⟩ := hw
  obtain ⟨u, hu⟩ := Option.isSome_iff_exists.1 hu
  have hE : ents n = keyed n.kids.toList ++ [(none, u)] := by unfold ents; rw [hu]; rfl
  have hin : ∀ k x, (k, x) ∈ n.kids.toList → inHi b k = true := by
    intro k x he
    have hm : (some k, x) ∈ ents n := by
      rw [hE]; exact List.mem_append.2 (.inl (List.mem_map.2 ⟨_, he, rfl⟩))
    exact hb _ (ltHi_le (cov_gt hcov hm).2)
  have fin : ∀ (n1 : Tr K (h + 2)) (A : List (K × Tr K (h + 1))) (s : Option K) (c : Tr K (h + 1))
      (B : List (Option K × Tr K (h + 1))), ents n = keyed A ++ (s, c) :: B → (∀ e ∈ A, inLo a e.1 = false) →
      keep a b (contE H (h + 1) B) = [] → WL n1.kids → frozen n1.kids.w = false → n1.dead = n.dead →
      ents n1 = keyed A ++ [(none, c)] → n1.ub.isSome = true →
      let x := rangeTr a b h false none true c H
      WF x.2.1 (h + 2) lo hi (n1.set none x.1) ∧ cont x.2.1 (h + 2) (n1.set none x.1) = keep a b (cont H (h + 2) n) ∧
      x.2.2.2 = (leaves (h + 2) (n1.set none x.1)).getLast? ∧ x.2.1.fresh = H.fresh ∧
      ∃ D, Eff H x.2.1 (leaves (h + 2) n) (leaves (h + 2) (n1.set none x.1) ++ D) := by
    intro n1 A s c B e1 hA hB w1 f1 d1 e2 u1
    have hcov' := hcov
    rw [e1] at hcov'
    have hnd' := hnd
    have hlt' := hlt
    rw [leaves_succ (h + 1) n, e1, leavesE_focus] at hnd' hlt'
    have hhi := leHi_child hcov'
    obtain ⟨c1, c2, c3, c4, c5⟩ := cov_focus.1 hcov'
    obtain ⟨x1, x2, x3, x4, D, x5⟩ := ih H _ _ c c3 (nodup_mid hnd')
      (fun i hi => hlt' i (List.mem_append.2 (.inl (List.mem_append.2 (.inr hi))))) (fun k hk => hb k (hhi k hk))
    obtain ⟨y1, y2, y3, y4⟩ := modeL_finish hw0 hnd hlt e1 hA hB w1 f1 d1 e2 u1 x1 x2 x5
    exact ⟨y1, y2, x3.trans y3, x4, y4⟩
  show WF _ _ _ _ _ ∧ _
  rw [show rangeTr a b (h + 1) false none true n H = rangeNode (rangeTr a b h) a b false none true n H from rfl]
  unfold rangeNode
  obtain ⟨A, R1, r1, r2, r3⟩ := kids_below a b true n.kids.toList n 1
  rcases r3 with ⟨q1, c', q2⟩ | ⟨k, x, R2, q1, q2, c', q3⟩ | ⟨k, x, R2, q1, q2, q3, _⟩
  · have e1 : ents n = keyed A ++ [(none, u)] := by rw [hE, r1, q1, List.append_nil]
    have hfin := fin n A none u [] e1 r2 rfl w hf rfl e1 (by rw [hu]; rfl)
    simp [q2, hu]
    exact hfin
  · have e1 : ents n = keyed A ++ (some k, x) :: (keyed R2 ++ [(none, u)]) := by
      rw [hE, r1, q1, keyed_append, List.append_assoc]; rfl
    have e1' : ents n = keyed (A ++ [(k, x)]) ++ (keyed R2 ++ [(none, u)]) := by
      rw [e1, keyed_append, List.append_assoc]; rfl
    have hk := q2
    rw [contains_eq, Bool.and_eq_true] at hk
    have hcov' := hcov
    rw [e1] at hcov'
    obtain ⟨c1, c2, c3, c4, c5⟩ := cov_focus.1 hcov'
    have hinR : ∀ e ∈ R2, inLo a e.1 = true := by
      intro e he
      have hm : (some e.1, e.2) ∈ keyed R2 ++ [(none, u)] :=
        List.mem_append.2 (.inl (List.mem_map.2 ⟨e, he, rfl⟩))
      exact ready_some hk.1 _ (cov_gt c5 hm).1
    obtain ⟨F, R3, n1, c'', st', p1, p2, p3, p4, p5, p6, p7⟩ :=
      kids_ready a b false true [(none, u)] R2 (A ++ [(k, x)]) .maybeBelow n c' (some k) none (by simp)
        (.inl (by simp)) w hf e1' hinR
    rcases p7 with ⟨t1, t2, t3, t4, t5⟩ | ⟨k3, x3, R4, t1, t2, _⟩
    · have t3 := t3 (by simp)
      have e2 : ents n1 = keyed A ++ (some k, x) :: [(none, u)] := by
        rw [t4, keyed_append, List.append_assoc]; rfl
      have hch := ents_child p3 e2 (allSome_keyed A)
      obtain ⟨m1, m2, m3⟩ := ents_remove p3 p4 e2 (allSome_keyed A)
      have hB : keep a b (contE H (h + 1) (keyed R2 ++ [(none, u)])) = [] := by
        refine keep_none ?_
        intro e he
        have hbn := cov_bnd (wf_bnd H (h + 1)) c5 e he
        rw [contains_eq, Bool.and_eq_true]
        exact ⟨ready_some hk.1 _ hbn.1, hb _ hbn.2⟩
      have e3 : ents (⟨(n1.kids.removeIf k (fun _ => true)).1, some x, n1.dead⟩ : Tr K (h + 2)) =
          keyed A ++ [(none, x)] := by
        unfold ents at m1 ⊢
        simp only [] at m1 ⊢
        rw [p5, hu] at m1
        have := List.append_inj_left' m1 rfl
        rw [this]; rfl
      have hfin := fin ⟨(n1.kids.removeIf k (fun _ => true)).1, some x, n1.dead⟩ A (some k) x _ e1 r2 hB m2 m3 p6 e3 rfl
      simp [q3, t5, t3, hch]
      exact hfin
    · have : inHi b k3 = true := hin k3 x3 (by rw [r1, q1, p1, t1]; simp)
      rw [this] at t2; cases t2
  · have : inHi b k = true := hin k x (by rw [r1, q1]; simp)
    rw [this] at q3; cases q3

/-! ### Both borders -/

theorem modeP_succ (a b : Bd K) (h : Nat) (ihU : ModeU V a b h) (ihL : ModeL V a b h) (ihP : ModeP V a b h) :
    ModeP V a b (h + 1) := by
  intro H lo hi n hw hnd hlt
  obtain ⟨w, hf, hdd, hu, hcov⟩ := hw
  obtain ⟨u, hu⟩ := Option.isSome_iff_exists.1 hu
  have hE : ents n = keyed n.kids.toList ++ [(none, u)] := by unfold ents; rw [hu]; rfl
  have hE' : leaves (h + 2) n = leavesE (h + 1) (ents n) := leaves_succ (h + 1) n
  -- one child is treated
  have fin : ∀ (A : List (K × Tr K (h + 1))) (s : Option K) (c : Tr K (h + 1))
      (B : List (Option K × Tr K (h + 1))), ents n = keyed A ++ (s, c) :: B → (∀ e ∈ A, inLo a e.1 = false) →
      (∀ k, s = some k → inHi b k = false) →
      let x := rangeTr a b h false none false c H
      WF x.2.1 (h + 2) lo hi (n.set s x.1) ∧ cont x.2.1 (h + 2) (n.set s x.1) = keep a b (cont H (h + 2) n) ∧
      x.2.1.fresh = H.fresh ∧ Eff H x.2.1 (leaves (h + 2) n) (leaves (h + 2) (n.set s x.1)) := by
    intro A s c B e1 hA hs
    intro x
    have hcov' := hcov
    rw [e1] at hcov'
    have hnd' := hnd
    have hlt' := hlt
    rw [leaves_succ (h + 1) n, e1] at hnd' hlt'
    obtain ⟨c1, c2, c3, c4, c5⟩ := cov_focus.1 hcov'
    obtain ⟨x1, x2, x3, x4⟩ := ihP H _ _ c c3 (by have := hnd'; rw [leavesE_focus] at this; exact nodup_mid this)
      (fun i hi => hlt' i (by rw [leavesE_focus]; exact List.mem_append.2 (.inl (List.mem_append.2 (.inr hi)))))
    obtain ⟨y1, y2, y3⟩ := cov_replace hcov' hnd' hlt' x4 x1
    obtain ⟨s1, s2, s3, s4, s5⟩ := ents_set w e1 (allSome_keyed A) x.1
    have hkB : keep a b (contE H (h + 1) B) = contE H (h + 1) B := by
      cases s with
      | none =>
        have : B = [] := c4
        rw [this]; rfl
      | some k => exact keep_all (after_out c5 (hs k rfl))
    refine ⟨⟨s2, by rw [s3]; exact hf, by rw [s4]; exact hdd, s5 (by rw [hu]; rfl), by rw [s1]; exact y1⟩, ?_, x3, ?_⟩
    · have h1 := cont_succ x.2.1 (h + 1) (n.set s x.1)
      rw [s1] at h1
      refine (h1.trans y2).trans ?_
      rw [cont_succ H (h + 1) n, e1, contE_focus, keep_append, keep_append, keep_below c2 hA, hkB]
      show _ ++ cont x.2.1 (h + 1) x.1 ++ _ = _
      rw [x2]
    · have h1 := leaves_succ (h + 1) (n.set s x.1)
      rw [s1] at h1
      rw [show leaves (h + 2) (n.set s x.1) = _ from h1, hE', e1]
      exact y3
  -- two children are treated, those in between are dropped
  have fin2 : ∀ (n1 : Tr K (h + 2)) (A F : List (K × Tr K (h + 1))) (k : K) (s : Option K) (x c : Tr K (h + 1))
      (B : List (Option K × Tr K (h + 1))), ents n = keyed A ++ (some k, x) :: (keyed F ++ (s, c) :: B) →
      (∀ e ∈ A, inLo a e.1 = false) → contains a b k = true → (∀ e ∈ F, contains a b e.1 = true) →
      (∀ k, s = some k → inHi b k = false) → WL n1.kids → frozen n1.kids.w = false → n1.ub = n.ub →
      n1.dead = n.dead → ents n1 = keyed A ++ (some k, x) :: (s, c) :: B →
      let p := rangeTr a b h false none true x H
      let q := rangeTr a b h true p.2.2.2 false c p.2.1
      WF q.2.1 (h + 2) lo hi ((n1.set (some k) p.1).set s q.1) ∧
      cont q.2.1 (h + 2) ((n1.set (some k) p.1).set s q.1) = keep a b (cont H (h + 2) n) ∧
      q.2.1.fresh = H.fresh ∧ Eff H q.2.1 (leaves (h + 2) n) (leaves (h + 2) ((n1.set (some k) p.1).set s q.1)) := by
    intro n1 A F k s x c B e1 hA hk hF hs w1 f1 u1 d1 e2
    intro p q
    have hk' := hk
    rw [contains_eq, Bool.and_eq_true] at hk'
    have hcov' := hcov
    rw [e1] at hcov'
    have hnd' := hnd
    have hlt' := hlt
    rw [leaves_succ (h + 1) n, e1] at hnd' hlt'
    obtain ⟨c1, c2, c3, c4, c5⟩ := cov_focus.1 hcov'
    obtain ⟨g1, g2, g3, g4, g5⟩ := cov_focus.1 c5
    have hndx : (leaves (h + 1) x).Nodup := by
      have := hnd'
      rw [leavesE_focus] at this
      exact nodup_mid this
    obtain ⟨p1, p2, p3, p4, D, p5⟩ := ihL H _ _ x c3 hndx
      (fun i hi => hlt' i (by rw [leavesE_focus]; exact List.mem_append.2 (.inl (List.mem_append.2 (.inr hi)))))
      (fun j hj => inHi_down hk'.2 hj)
    obtain ⟨fA, fR⟩ := frame_sides hnd' hlt' p5
    rw [leavesE_focus] at hnd' hlt' fR
    rw [leavesE_focus] at hnd' hlt'
    have hndc : (leaves (h + 1) c).Nodup := by
      have := (List.nodup_append.1 hnd').2.1
      exact nodup_mid this
    have hltc : ∀ i ∈ leaves (h + 1) c, i < H.fresh := fun i hi => hlt' i (by simp [hi])
    have fc : ∀ i ∈ leaves (h + 1) c, p.2.1.leaf i = H.leaf i := fun i hi => fR i (by simp [hi])
    have fF : ∀ i ∈ leavesE (h + 1) (keyed F), p.2.1.leaf i = H.leaf i := fun i hi => fR i (by simp [hi])
    have fB : ∀ i ∈ leavesE (h + 1) B, p.2.1.leaf i = H.leaf i := fun i hi => fR i (by simp [hi])
    obtain ⟨q1, q2, q3⟩ := ihU p.2.1 _ _ p.2.2.2 c (wf_frame (h + 1) c fc _ _ g3) hndc
      (fun i hi => by rw [p4]; exact hltc i hi) (ready_endLo g1 g2 (ready_some hk'.1))
    have psub := p5.sub' p4
    have qsub := q3.sub
    -- disjointness of the parts
    have dj := List.nodup_append.1 hnd'
    have dj1 := List.nodup_append.1 dj.1
    have dj2 := List.nodup_append.1 dj.2.1
    have dj3 := List.nodup_append.1 dj2.1
    have fr2 : ∀ i, i < H.fresh → i ∉ leaves (h + 1) c → q.2.1.leaf i = p.2.1.leaf i :=
      fun i h1 h2 => q3.frame i (by rw [p4]; exact h1) h2
    have fA2 : ∀ i ∈ leavesE (h + 1) (keyed A), q.2.1.leaf i = H.leaf i := by
      intro i hi
      rw [fr2 i (hlt' i (by simp [hi])) (fun hc => dj.2.2 i (by simp [hi]) i (by simp [hc]) rfl), fA i hi]
    have fB2 : ∀ i ∈ leavesE (h + 1) B, q.2.1.leaf i = H.leaf i := by
      intro i hi
      rw [fr2 i (hlt' i (by simp [hi])) (fun hc => dj2.2.2 i (by simp [hc]) i hi rfl), fB i hi]
    have fx2 : ∀ i ∈ leaves (h + 1) p.1, q.2.1.leaf i = p.2.1.leaf i := by
      intro i hi
      have hi' := psub i (List.mem_append.2 (.inl hi))
      exact fr2 i (hlt' i (by simp [hi'])) (fun hc => dj.2.2 i (by simp [hi']) i (by simp [hc]) rfl)
    obtain ⟨s1, s2, s3, s4, s5⟩ := ents_set w1 e2 (allSome_keyed A) p.1
    have hAS : AllSome (keyed A ++ [(some k, p.1)]) := by
      intro e he
      rcases List.mem_append.1 he with he | he
      · exact allSome_keyed A e he
      · rw [List.mem_singleton.1 he]; rfl
    have s1' : ents (n1.set (some k) p.1) = (keyed A ++ [(some k, p.1)]) ++ (s, c) :: B := by
      rw [s1]; simp
    obtain ⟨t1, t2, t3, t4, t5⟩ := ents_set s2 s1' hAS q.1
    have t1' : ents ((n1.set (some k) p.1).set s q.1) = keyed A ++ (some k, p.1) :: ((s, q.1) :: B) := by
      rw [t1]; simp
    have hkB : keep a b (contE H (h + 1) B) = contE H (h + 1) B := by
      cases s with
      | none =>
        have : B = [] := g4
        rw [this]; rfl
      | some k => exact keep_all (after_out g5 (hs k rfl))
    have hle := endLo_le g1 g2
    refine ⟨⟨t2, by rw [t3, s3]; exact f1, by rw [t4, s4, d1]; exact hdd, t5 (s5 (by rw [u1, hu]; rfl)), ?_⟩, ?_, ?_, ?_⟩
    · rw [t1']
      refine cov_focus.2 ⟨c1, cov_frame (h + 1) c2 fA2, wf_frame (h + 1) p.1 fx2 _ _ p1, c4, ?_, ?_, ?_⟩
      · exact wf_mono q.2.1 (h + 1) _ _ _ _ _ hle (leUp_refl _) q1
      · cases s with
        | none => exact g4
        | some j => exact ⟨hle j g4.1, g4.2⟩
      · exact cov_frame (h + 1) g5 fB2
    · have h1 := cont_succ q.2.1 (h + 1) ((n1.set (some k) p.1).set s q.1)
      rw [t1', contE_focus, contE_cons, contE_frame (h + 1) (keyed A) fA2, contE_frame (h + 1) B fB2,
        cont_frame (h + 1) p.1 fx2] at h1
      refine h1.trans ?_
      rw [cont_succ H (h + 1) n, e1, contE_focus, contE_focus]
      simp only [keep_append]
      rw [keep_below c2 hA, hkB, keep_inside g2 (ready_some hk'.1) hF]
      rw [show cont q.2.1 (h + 1) q.1 = _ from q2, show cont p.2.1 (h + 1) p.1 = _ from p2,
        cont_frame (h + 1) c fc]
      simp only [List.nil_append]
    · rw [q3.fresh]; exact p4
    · have h1 := leaves_succ (h + 1) ((n1.set (some k) p.1).set s q.1)
      rw [t1', leavesE_focus, leavesE_cons] at h1
      rw [show leaves (h + 2) ((n1.set (some k) p.1).set s q.1) = _ from h1, hE', e1, leavesE_focus, leavesE_focus]
      have hsub : ∀ i ∈ leavesE (h + 1) (keyed A) ++ leaves (h + 1) p.1 ++ (leaves (h + 1) q.1 ++ leavesE (h + 1) B),
          i ∈ leavesE (h + 1) (keyed A) ++ leaves (h + 1) x ++ (leavesE (h + 1) (keyed F) ++ leaves (h + 1) c ++ leavesE (h + 1) B) := by
        intro i hi
        simp only [List.mem_append] at hi ⊢
        rcases hi with (hi | hi) | hi | hi
        · exact .inl (.inl hi)
        · exact .inl (.inr (psub i (List.mem_append.2 (.inl hi))))
        · exact .inr (.inl (.inr (qsub i hi)))
        · exact .inr (.inr hi)
      refine ⟨Nat.le_of_eq (by rw [q3.fresh]; exact p4.symm), ?_, fun i hi => .inl (hsub i hi), ?_, ?_, ?_⟩
      · intro i hi hn
        simp only [List.mem_append, not_or] at hn
        rw [fr2 i hi hn.2.1.2, p5.frame i hi hn.1.2]
      · intro i hi
        rw [q3.fresh]
        show i < p.2.1.fresh
        rw [p4]
        exact hlt' i (hsub i hi)
      · have pn := (List.nodup_append.1 p5.nodup).1
        rw [List.nodup_append, List.nodup_append, List.nodup_append]
        refine ⟨⟨dj1.1, pn, ?_⟩, ⟨q3.nodup, dj2.2.1, ?_⟩, ?_⟩
        · intro i hi j hj
          exact dj1.2.2 i hi j (psub j (List.mem_append.2 (.inl hj)))
        · intro i hi j hj
          exact dj2.2.2 i (List.mem_append.2 (.inr (qsub i hi))) j hj
        · intro i hi j hj
          refine dj.2.2 i ?_ j ?_
          · rcases List.mem_append.1 hi with hi | hi
            · exact List.mem_append.2 (.inl hi)
            · exact List.mem_append.2 (.inr (psub i (List.mem_append.2 (.inl hi))))
          · rcases List.mem_append.1 hj with hj | hj
            · exact List.mem_append.2 (.inl (List.mem_append.2 (.inr (qsub j hj))))
            · exact List.mem_append.2 (.inr hj)
      · intro pre post hl
        have l1 := p5.link (pre ++ leavesE (h + 1) (keyed A))
          (leavesE (h + 1) (keyed F) ++ leaves (h + 1) c ++ leavesE (h + 1) B ++ post)
          (by simpa only [List.append_assoc] using hl)
        have hlast : (pre ++ leavesE (h + 1) (keyed A) ++ leaves (h + 1) p.1).getLast? = p.2.2.2 := by
          rw [show p.2.2.2 = _ from p3, List.getLast?_append]
          have hne := leaves_ne_nil (h + 1) _ _ _ p1
          cases hg : (leaves (h + 1) p.1).getLast? with
          | none => exact absurd (List.getLast?_eq_none_iff.1 hg) hne
          | some x => rfl
        have l2 := q3.link (pre ++ leavesE (h + 1) (keyed A) ++ leaves (h + 1) p.1)
          (D ++ leavesE (h + 1) (keyed F)) (leavesE (h + 1) B ++ post) hlast
          (by simpa only [List.append_assoc] using l1)
        simpa only [List.append_assoc] using l2
  show WF _ _ _ _ _ ∧ _
  rw [show rangeTr a b (h + 1) false none false n H = rangeNode (rangeTr a b h) a b false none false n H from rfl]
  unfold rangeNode
  obtain ⟨A, R1, r1, r2, r3⟩ := kids_below a b false n.kids.toList n 1
  rcases r3 with ⟨q1, c', q2⟩ | ⟨k, x, R2, q1, q2, c', q3⟩ | ⟨k, x, R2, q1, q2, q3, q4⟩
  · have e1 : ents n = keyed A ++ [(none, u)] := by rw [hE, r1, q1, List.append_nil]
    have hfin := fin A none u [] e1 r2 (fun k h => (by cases h))
    simp [q2, hu, Nd.child]
    exact hfin
  · have e1 : ents n = keyed A ++ (some k, x) :: (keyed R2 ++ [(none, u)]) := by
      rw [hE, r1, q1, keyed_append, List.append_assoc]; rfl
    have e1' : ents n = keyed (A ++ [(k, x)]) ++ (keyed R2 ++ [(none, u)]) := by
      rw [e1, keyed_append, List.append_assoc]; rfl
    have hk := q2
    rw [contains_eq, Bool.and_eq_true] at hk
    have hcov' := hcov
    rw [e1] at hcov'
    obtain ⟨c1, c2, c3, c4, c5⟩ := cov_focus.1 hcov'
    have hinR : ∀ e ∈ R2, inLo a e.1 = true := by
      intro e he
      have hm : (some e.1, e.2) ∈ keyed R2 ++ [(none, u)] :=
        List.mem_append.2 (.inl (List.mem_map.2 ⟨e, he, rfl⟩))
      exact ready_some hk.1 _ (cov_gt c5 hm).1
    obtain ⟨F, R3, n1, c'', st', p1, p2, p3, p4, p5, p6, p7⟩ :=
      kids_ready a b false false [(none, u)] R2 (A ++ [(k, x)]) .maybeBelow n c' (some k) none (by simp)
        (.inl (by simp)) w hf e1' hinR
    have hub : n1.ub = some u := by rw [p5]; exact hu
    rcases p7 with ⟨t1, t2, t3, t4, t5⟩ | ⟨k3, x3, R4, t1, t2, t3⟩
    · have t3 := t3 (by simp)
      have e2 : ents n1 = keyed A ++ (some k, x) :: (none, u) :: [] := by
        rw [t4, keyed_append, List.append_assoc]; rfl
      have e1 : ents n = keyed A ++ (some k, x) :: (keyed F ++ (none, u) :: []) := by
        rw [e1, p1, t1, List.append_nil]
      have hch := ents_child p3 e2 (allSome_keyed A)
      have hfin := fin2 n1 A F k none x u [] e1 r2 q2 p2 (fun k h => (by cases h)) p3 p4 p5 p6 e2
      have hch' : n1.child none = some u := hub
      cases st' with
      | below => exact absurd rfl t3
      | maybeAbove => exact absurd rfl t2
      | maybeBelow => simp [q3, t5, hch, hch']; exact hfin
      | fully => simp [q3, t5, hch, hch']; exact hfin
    · obtain ⟨t4, t5⟩ := t3 rfl
      have e2 : ents n1 = keyed A ++ (some k, x) :: (some k3, x3) :: (keyed R4 ++ [(none, u)]) := by
        rw [t4, t1, keyed_append, List.append_assoc]; rfl
      have e1 : ents n = keyed A ++ (some k, x) :: (keyed F ++ (some k3, x3) :: (keyed R4 ++ [(none, u)])) := by
        rw [e1, p1, t1, keyed_append, List.append_assoc]; rfl
      have hch := ents_child p3 e2 (allSome_keyed A)
      have e2' : ents n1 = keyed (A ++ [(k, x)]) ++ (some k3, x3) :: (keyed R4 ++ [(none, u)]) := by
        rw [e2, keyed_append, List.append_assoc]; rfl
      have hch' := ents_child p3 e2' (allSome_keyed _)
      have hfin := fin2 n1 A F k (some k3) x x3 _ e1 r2 q2 p2 (fun k h => (by cases h; exact t2)) p3 p4 p5 p6 e2
      simp [q3, t5, hch, hch']
      exact hfin
  · obtain ⟨c', q5⟩ := q4 rfl
    have e1 : ents n = keyed A ++ (some k, x) :: (keyed R2 ++ [(none, u)]) := by
      rw [hE, r1, q1, keyed_append, List.append_assoc]; rfl
    have hch := ents_child w e1 (allSome_keyed A)
    have hfin := fin A (some k) x _ e1 r2 (fun k' h => (by cases h; exact q3))
    simp [q5, hch]
    exact hfin

theorem modes (V : Type) (a b : Bd K) (h : Nat) : ModeU V a b h ∧ ModeL V a b h ∧ ModeP V a b h := by
  induction h with
  | zero => exact ⟨modeU_zero a b, modeL_zero a b, modeP_zero a b⟩
  | succ h ih => exact ⟨modeU_succ a b h ih.1, modeL_succ a b h ih.2.1, modeP_succ a b h ih.1 ih.2.1 ih.2.2⟩

/-! ## The index -/

theorem Ix.removeRange_spec {x : Ix K V} (hx : x.Inv) (a b : Bd K) :
    (x.removeRange a b).Inv ∧ (x.removeRange a b).toList = keep a b x.toList := by
  obtain ⟨root, H⟩ := x
  unfold Ix.removeRange
  cases root with
  | none => exact ⟨hx, rfl⟩
  | some r =>
    obtain ⟨h, n⟩ := r
    obtain ⟨hw, hl⟩ : WF H (h + 1) none none n ∧ Linked H (leaves (h + 1) n) := hx
    have key : let r := rangeTr a b h a.isUnb none false n H
        WF r.2.1 (h + 1) none none r.1 ∧ cont r.2.1 (h + 1) r.1 = keep a b (cont H (h + 1) n) ∧
        Linked r.2.1 (leaves (h + 1) r.1) := by
      cases ha : a.isUnb with
      | true =>
        have hr : Ready a none := by
          intro k _
          cases a <;> first | rfl | simp [Bd.isUnb] at ha
        obtain ⟨y1, y2, y3⟩ := (modes V a b h).1 H none none none n hw hl.nodup hl.lt hr
        refine ⟨y1, y2, ?_⟩
        have := y3.link [] [] [] rfl (by simpa using hl)
        simpa using this
      | false =>
        obtain ⟨y1, y2, y3, y4⟩ := (modes V a b h).2.2 H none none n hw hl.nodup hl.lt
        exact ⟨y1, y2, y4.linked hl⟩
    obtain ⟨y1, y2, y3⟩ := key
    simp only []
    split
    · obtain ⟨z1, z2⟩ := cleanup_ix y1 y3
      exact ⟨z1, z2.trans y2⟩
    · exact ⟨⟨y1, y3⟩, y2⟩

end Scc.Tree
