import Verif.Tree.Iter

/-!
# Range iterators
-/

set_option linter.unusedSimpArgs false
set_option linter.unusedSectionVars false
set_option linter.unusedVariables false

namespace Scc.Tree

open Scc.Leaf Scc.Leaf.Spec

variable {K V C : Type} [KeyOrd K]

theorem skipLower_eq (a : Bd K) (k : K) : skipLower a k = !inLo a k := by
  cases a with
  | unb => rfl
  | incl s => simp [skipLower, inLo]; cases cmp s k <;> rfl
  | excl s => simp [skipLower, inLo]; cases cmp s k <;> rfl

theorem passUpper_eq (b : Bd K) (k : K) : passUpper b k = inHi b k := by
  cases b <;> rfl

/-- With the test of the upper bound off, the whole leaf is within the upper bound. -/
theorem checkUpper_off {H : Hp K V} {b : Bd K} {i : Nat} (w : WL (H.leaf i)) (h : checkUpper H b i = false) :
    ∀ e ∈ (H.leaf i).toList, inHi b e.1 = true := by
  intro e he
  have hm := w.maxEntry
  cases hl : (H.leaf i).toList.getLast? with
  | none => rw [List.getLast?_eq_none_iff.1 hl] at he; cases he
  | some m =>
    rw [hl] at hm
    have hle : ¬ KeyOrd.lt m.1 e.1 := ((sorted_getLast w.sorted).1 hl).2 e he
    have hb : inHi b m.1 = true := by
      cases b with
      | unb => rfl
      | incl k =>
        simp only [checkUpper, hm, Option.any_some] at h
        simp only [inHi, bne_iff_ne, ne_eq]
        intro hc; rw [hc] at h; cases h
      | excl k =>
        simp only [checkUpper, hm, Option.any_some] at h
        simp only [inHi]
        simpa using h
    exact inHi_down hb hle

/-- The scanner points to an entry of its leaf. -/
theorem On.mem {H : Hp K V} {L : List Nat} {s : Scn} {e : K × V} {R : List (K × V)} (c : Chain H L)
    (h : On H L s e R) : e ∈ (H.leaf s.leaf).toList ∧ WL (H.leaf s.leaf) := by
  obtain ⟨pre, post, Q, p, hg, hR⟩ := h
  have w : WL (H.leaf s.leaf) := c.wl _ (by rw [p.split]; simp)
  refine ⟨?_, w⟩
  rcases p.here with ⟨i, hi, ha, hQ⟩ | ⟨hi, hQ⟩
  · unfold Scn.get at hg
    rw [hi] at hg
    simp only [] at hg
    by_cases hlt : i ≥ numEntries
    · rw [if_pos hlt] at hg; cases hg
    · rw [if_neg hlt] at hg
      rcases ha with ha | ⟨h1, h2⟩
      · omega
      · rw [p.word] at h2
        exact (w.rel.mem e).2 ⟨i, h1, h2, hg⟩
  · unfold Scn.get at hg
    rw [hi] at hg; cases hg

/-! ## Where a scan starts -/

theorem maxLess_on {H : Hp K V} {L : List Nat} (c : Chain H L) {i : Nat} (hi : i ∈ L) {k : K} {s : Scn}
    (h : Scn.maxLess H i k = some s) : ∃ e R, On H L s e R ∧ KeyOrd.lt e.1 k := by
  have w := c.wl i hi
  unfold Scn.maxLess at h
  simp only [] at h
  obtain ⟨hb, b⟩ := maxLess_inv (w := (H.leaf i).w) w.rel.ok.ord k
  rcases b.lo_spec with ⟨h1, h2⟩ | ⟨h1, h2, h3, e, h4, h5⟩
  · rw [if_pos h2] at h; cases h
  · rw [if_neg (by omega)] at h
    cases h
    obtain ⟨pre, post, hL⟩ := List.append_of_mem hi
    refine ⟨e, _, ⟨pre, post, _, ⟨hL, rfl, .inl ⟨_, rfl, .inr ⟨h1, h2⟩, rfl⟩⟩, ?_, rfl⟩, h5⟩
    unfold Scn.get
    simp only []
    rw [if_neg (by omega)]
    exact h4

theorem below_child {n : Nd K C} (w : WL n.kids) {k : K} {c : C} (h : below n.kids k = some c) :
    ∃ j, (j, c) ∈ n.kids.toList := by
  unfold below at h
  obtain ⟨hb, b⟩ := maxLess_inv (w := n.kids.w) w.rel.ok.ord k
  rcases b.lo_spec with ⟨h1, h2⟩ | ⟨h1, h2, h3, e, h4, h5⟩
  · rw [if_pos h2] at h; cases h
  · rw [if_neg (by omega), h4] at h
    simp at h
    refine ⟨e.1, ?_⟩
    rw [← h]
    exact (w.rel.mem e).2 ⟨_, h1, h2, h4⟩

theorem fallback_on {H : Hp K V} {L : List Nat} (c : Chain H L) {i : Nat} (hi : i ∈ L) {k : K} {s : Scn}
    (h : fallback H k (some (Scn.new H i)) = some s) : ∃ e R, On H L s e R ∧ ¬ KeyOrd.lt k e.1 := by
  obtain ⟨pre, post, hL⟩ := List.append_of_mem hi
  have hp : Pos H L (Scn.new H i) pre post (H.leaf i).toList := by rw [hL]; exact Pos.new
  unfold fallback at h
  rw [Option.bind_some] at h
  rcases hp.settle c with ⟨_, h2⟩ | ⟨s', e, R, _, h2, h3⟩
  · rw [h2] at h; cases h
  · rw [h2] at h
    simp only [] at h
    have hg : s'.get H = some e := by
      obtain ⟨_, _, _, _, hg, _⟩ := h3
      exact hg
    rw [hg] at h
    simp only [] at h
    split at h
    · cases h
    · rename_i hc
      cases h
      exact ⟨e, R, h3, fun hlt => hc (cmp_lt.2 hlt)⟩

theorem kid_leaves {h : Nat} {n : Tr K (h + 1)} {j : K} {c : Tr K h} (hm : (j, c) ∈ n.kids.toList) :
    ∀ i ∈ leaves h c, i ∈ leaves (h + 1) n := by
  intro i hi
  rw [leaves]
  exact List.mem_append.2 (.inl (List.mem_flatMap.2 ⟨_, hm, hi⟩))

theorem kid_wf {H : Hp K V} {h : Nat} {lo hi : Option K} {n : Tr K (h + 1)} (hw : WF H (h + 1) lo hi n)
    {j : K} {c : Tr K h} (hm : (j, c) ∈ n.kids.toList) : ∃ lo' hi', WF H h lo' hi' c := by
  obtain ⟨w, hf, hd, hu, hcov⟩ := hw
  have he : (some j, c) ∈ ents n := by
    unfold ents
    exact List.mem_append.2 (.inl (List.mem_map.2 ⟨_, hm, rfl⟩))
  obtain ⟨A, B, hAB⟩ := List.append_of_mem he
  rw [hAB] at hcov
  exact ⟨_, _, (cov_focus.1 hcov).2.2.1⟩

theorem maxLe_on {H : Hp K V} {L : List Nat} (c : Chain H L) (k : K) (h : Nat) :
    ∀ (lo hi : Option K) (n : Tr K (h + 1)) (s : Scn), WF H (h + 1) lo hi n → (∀ i ∈ leaves (h + 1) n, i ∈ L) →
    maxLe H k h n = some s → ∃ e R, On H L s e R ∧ ¬ KeyOrd.lt k e.1 := by
  induction h with
  | zero =>
    intro lo hi n s hw hL hm
    unfold maxLe at hm
    obtain ⟨i, r, h1, h2⟩ := minTr_spec H 0 _ _ n hw
    cases hb : (below n.kids k).bind (fun i => Scn.maxLess H i k) with
    | some s' =>
      rw [hb] at hm
      cases hm
      obtain ⟨j, hj, hs⟩ := Option.bind_eq_some_iff.1 hb
      obtain ⟨key, hkey⟩ := below_child hw.1 hj
      obtain ⟨e, R, ho, hlt⟩ := maxLess_on c (hL j (kid_leaves (h := 0) hkey j (List.mem_singleton.2 rfl))) hs
      exact ⟨e, R, ho, lt_asymm' hlt⟩
    | none =>
      rw [hb] at hm
      simp only [] at hm
      rw [h2] at hm
      exact fallback_on c (hL i (by rw [h1]; exact List.mem_cons_self ..)) hm
  | succ h ih =>
    intro lo hi n s hw hL hm
    unfold maxLe at hm
    obtain ⟨i, r, h1, h2⟩ := minTr_spec H (h + 1) _ _ n hw
    cases hb : (below n.kids k : Option (Tr K (h + 1))).bind (fun c => maxLe H k h c) with
    | some s' =>
      rw [hb] at hm
      cases hm
      obtain ⟨d, hd, hs⟩ := Option.bind_eq_some_iff.1 hb
      obtain ⟨key, hkey⟩ := below_child hw.1 hd
      obtain ⟨lo', hi', hwd⟩ := kid_wf (h := h + 1) hw hkey
      exact ih _ _ d s hwd (fun i hi => hL i (kid_leaves (h := h + 1) hkey i hi)) hs
    | none =>
      rw [hb] at hm
      simp only [] at hm
      rw [h2] at hm
      exact fallback_on c (hL i (by rw [h1]; exact List.mem_cons_self ..)) hm

theorem not_inLo_lt {a : Bd K} {k j : K} (ha : a.key = some k) (h : KeyOrd.lt j k) : inLo a j = false := by
  cases a with
  | unb => cases ha
  | incl s => cases ha; simp [inLo, cmp_gt.2 h]
  | excl s => cases ha; simp [inLo, cmp_gt.2 h]

/-- A scan starts at an entry before which there is nothing within the lower bound. -/
theorem startScan_spec {H : Hp K V} {h : Nat} {n : Tr K (h + 1)} (hx : Ix.Inv (⟨some ⟨h, n⟩, H⟩ : Ix K V)) (a : Bd K) :
    (entries H (leaves (h + 1) n) = [] ∧ Ix.startScan ⟨some ⟨h, n⟩, H⟩ a = none) ∨
    (∃ s e R P, Ix.startScan ⟨some ⟨h, n⟩, H⟩ a = some s ∧ On H (leaves (h + 1) n) s e R ∧
      entries H (leaves (h + 1) n) = P ++ e :: R ∧ ∀ x ∈ P, inLo a x.1 = false) := by
  have c := Ix.Inv.chain hx
  unfold Ix.startScan
  simp only []
  cases hb : a.key.bind (fun k => maxLe H k h n) with
  | some s =>
    right
    simp only []
    obtain ⟨k, hk, hm⟩ := Option.bind_eq_some_iff.1 hb
    obtain ⟨e, R, ho, hle⟩ := maxLe_on c k h _ _ n s hx.1 (fun _ h => h) hm
    obtain ⟨P, hP⟩ := ho.split c
    refine ⟨s, e, R, P, rfl, ho, hP, ?_⟩
    intro x hxP
    have hs := c.sorted
    rw [hP] at hs
    have hlt := (sorted_split hs).1 x hxP
    refine not_inLo_lt hk ?_
    rcases KeyOrd.tri e.1 k with h1 | h1 | h1
    · exact KeyOrd.trans _ _ _ hlt h1
    · rw [← h1]; exact hlt
    · exact absurd h1 hle
  | none =>
    simp only []
    obtain ⟨i, r, h1, h2⟩ := minTr_spec H h _ _ n hx.1
    rw [h2, Option.bind_some]
    have hp : Pos H (leaves (h + 1) n) (Scn.new H i) [] r (H.leaf i).toList := by
      rw [h1]; exact Pos.new (pre := [])
    rcases hp.settle c with ⟨h3, h4⟩ | ⟨s', e, R, h3, h4, h5⟩
    · left
      rw [h1, entries_cons]
      exact ⟨h3, h4⟩
    · right
      refine ⟨s', e, R, [], h4, h5, ?_, fun _ h => (by cases h)⟩
      rw [h1, entries_cons]; exact h3

/-! ## Range -/

/-- State of a `Range` on its way: the scanner points to an entry after which `R` comes; with the tests off
they would all succeed. -/
def RngAt (H : Hp K V) (L : List Nat) (a b : Bd K) (r : Rng) (R : List (K × V)) : Prop :=
  ∃ s e, r.scn = some s ∧ On H L s e R ∧ (r.cl = false → ∀ x ∈ R, inLo a x.1 = true) ∧
    (r.cu = false → ∀ x ∈ (H.leaf s.leaf).toList, inHi b x.1 = true)

/-- What `next_unbounded` does on the way. -/
theorem nextUnb_some {h : Nat} {n : Tr K (h + 1)} {H : Hp K V} (hx : Ix.Inv (⟨some ⟨h, n⟩, H⟩ : Ix K V))
    {a b : Bd K} {r : Rng} {R : List (K × V)} (hr : RngAt H (leaves (h + 1) n) a b r R) :
    (R = [] ∧ (Ix.nextUnb ⟨some ⟨h, n⟩, H⟩ H a b r).2 = none) ∨
    (∃ r' e R', R = e :: R' ∧ Ix.nextUnb ⟨some ⟨h, n⟩, H⟩ H a b r = (r', some e) ∧ r'.cl = r.cl ∧
      RngAt H (leaves (h + 1) n) a b r' R' ∧ (r'.cu = false → inHi b e.1 = true)) := by
  have c := Ix.Inv.chain hx
  obtain ⟨s, e0, hs, ho, hcl, hcu⟩ := hr
  have hlt := ho.lt c
  obtain ⟨pre, post, Q, p, hg, rfl⟩ := ho
  unfold Ix.nextUnb
  rw [hs]
  simp only []
  rcases p.step c with ⟨h1, h2, h3⟩ | ⟨e, Q', h1, h2, h3⟩
  · rw [h1, h2, List.nil_append]
    simp only []
    rw [h2, List.nil_append] at hcl hlt
    rcases h3.jump c ((s.get H).map (fun e => e.1)) (by
      intro k h x hx
      rw [hg] at h
      cases h
      exact hlt x hx) with ⟨h4, h5⟩ | ⟨s', e, R, h4, h5, h6, h7⟩
    · rw [h5]; exact .inl ⟨h4, rfl⟩
    · rw [h5]
      simp only []
      have hg' : s'.get H = some e := by
        obtain ⟨_, _, _, _, hg, _⟩ := h6
        exact hg
      rw [hg']
      obtain ⟨hm, w⟩ := h6.mem c
      refine .inr ⟨_, e, R, h4, rfl, rfl, ⟨s', e, rfl, h6, ?_, ?_⟩, ?_⟩
      · intro h x hx
        exact hcl h x (by rw [h4]; exact List.mem_cons_of_mem _ hx)
      · intro h
        exact checkUpper_off w h
      · intro h
        exact checkUpper_off w h e hm
  · rw [h1]
    have ho' : On H (leaves (h + 1) n) s.step e (Q' ++ entries H post) := ⟨pre, post, Q', h3, h1, rfl⟩
    obtain ⟨hm, w⟩ := ho'.mem c
    rw [step_leaf] at hm
    refine .inr ⟨_, e, Q' ++ entries H post, by rw [h2]; rfl, rfl, rfl, ⟨s.step, e, rfl, ho', ?_, ?_⟩, ?_⟩
    · intro h x hx
      exact hcl h x (by rw [h2]; exact List.mem_cons_of_mem _ hx)
    · intro h
      rw [step_leaf]; exact hcu h
    · intro h; exact hcu h e hm

theorem contains_false_hi {a b : Bd K} {k : K} (h : inHi b k = false) : contains a b k = false := by
  rw [contains_eq, h, Bool.and_false]

theorem contains_false_lo {a b : Bd K} {k : K} (h : inLo a k = false) : contains a b k = false := by
  rw [contains_eq, h, Bool.false_and]

/-- The rest of the body of `Range::next`, after an entry has been taken. -/
theorem range_body {h : Nat} {n : Tr K (h + 1)} {H : Hp K V} (hx : Ix.Inv (⟨some ⟨h, n⟩, H⟩ : Ix K V))
    {a b : Bd K} (f : Nat) {r r' : Rng} {e : K × V} {R : List (K × V)}
    (hn : Ix.nextUnb ⟨some ⟨h, n⟩, H⟩ H a b r = (r', some e)) (hr : RngAt H (leaves (h + 1) n) a b r' R)
    (hlo : r'.cl = false → inLo a e.1 = true) (hhi : r'.cu = false → inHi b e.1 = true)
    (hlt : ∀ x ∈ R, KeyOrd.lt e.1 x.1)
    (ih : ((R.filter (fun x => contains a b x.1) = [] ∧ (Ix.rangeNext ⟨some ⟨h, n⟩, H⟩ H a b f r').2 = some none) ∨
      (∃ r2 e2 R2, (Ix.rangeNext ⟨some ⟨h, n⟩, H⟩ H a b f r') = (r2, some (some e2)) ∧
        RngAt H (leaves (h + 1) n) a b r2 R2 ∧
        R.filter (fun x => contains a b x.1) = e2 :: R2.filter (fun x => contains a b x.1)))) :
    ((e :: R).filter (fun x => contains a b x.1) = [] ∧
      (Ix.rangeNext ⟨some ⟨h, n⟩, H⟩ H a b (f + 1) r).2 = some none) ∨
    (∃ r2 e2 R2, (Ix.rangeNext ⟨some ⟨h, n⟩, H⟩ H a b (f + 1) r) = (r2, some (some e2)) ∧
      RngAt H (leaves (h + 1) n) a b r2 R2 ∧
      (e :: R).filter (fun x => contains a b x.1) = e2 :: R2.filter (fun x => contains a b x.1)) := by
  unfold Ix.rangeNext
  rw [hn]
  simp only [skipLower_eq, passUpper_eq]
  by_cases h1 : (r'.cl && !inLo a e.1) = true
  · rw [if_pos h1]
    have hf : inLo a e.1 = false := by
      rw [Bool.and_eq_true] at h1; simpa using h1.2
    rw [List.filter_cons, if_neg (by rw [contains_false_lo hf]; simp)]
    exact ih
  · rw [if_neg h1]
    have hin : inLo a e.1 = true := by
      cases hcl : r'.cl with
      | false => exact hlo hcl
      | true => rw [hcl] at h1; simpa using h1
    by_cases h2 : (r'.cu && !inHi b e.1) = true
    · rw [if_pos h2]
      left
      refine ⟨?_, rfl⟩
      have hf : inHi b e.1 = false := by
        rw [Bool.and_eq_true] at h2; simpa using h2.2
      rw [List.filter_eq_nil_iff]
      intro x hx
      rcases List.mem_cons.1 hx with hx | hx
      · subst hx; rw [contains_false_hi hf]; simp
      · rw [contains_false_hi (k := x.1)]
        · simp
        · cases hh : inHi b x.1 with
          | false => rfl
          | true => rw [inHi_down hh (lt_asymm' (hlt x hx))] at hf; cases hf
    · rw [if_neg h2]
      right
      have hh : inHi b e.1 = true := by
        cases hcu : r'.cu with
        | false => exact hhi hcu
        | true => rw [hcu] at h2; simpa using h2
      obtain ⟨s, e', k1, k2, k3, k4⟩ := hr
      refine ⟨_, e, R, rfl, ⟨s, e', k1, k2, ?_, k4⟩, ?_⟩
      · intro _ x hx
        exact inLo_up hin (lt_asymm' (hlt x hx))
      · rw [List.filter_cons, if_pos]
        rw [contains_eq, hin, hh]; rfl

theorem rangeNext_some {h : Nat} {n : Tr K (h + 1)} {H : Hp K V} (hx : Ix.Inv (⟨some ⟨h, n⟩, H⟩ : Ix K V))
    {a b : Bd K} : ∀ (R : List (K × V)) (f : Nat) (r : Rng), R.length < f →
    RngAt H (leaves (h + 1) n) a b r R →
    ((R.filter (fun x => contains a b x.1) = [] ∧ (Ix.rangeNext ⟨some ⟨h, n⟩, H⟩ H a b f r).2 = some none) ∨
      (∃ r2 e2 R2, (Ix.rangeNext ⟨some ⟨h, n⟩, H⟩ H a b f r) = (r2, some (some e2)) ∧
        RngAt H (leaves (h + 1) n) a b r2 R2 ∧
        R.filter (fun x => contains a b x.1) = e2 :: R2.filter (fun x => contains a b x.1))) := by
  intro R
  induction R with
  | nil =>
    intro f r hf hr
    cases f with
    | zero => cases hf
    | succ f =>
      rcases nextUnb_some hx hr with ⟨_, h2⟩ | ⟨_, _, _, h1, _⟩
      · left
        refine ⟨rfl, ?_⟩
        unfold Ix.rangeNext
        rcases hq : Ix.nextUnb ⟨some ⟨h, n⟩, H⟩ H a b r with ⟨r', o⟩
        rw [hq] at h2
        simp only [] at h2
        subst h2
        rfl
      · cases h1
  | cons e R ih =>
    intro f r hf hr
    cases f with
    | zero => cases hf
    | succ f =>
      have c := Ix.Inv.chain hx
      have hsort : ∀ x ∈ R, KeyOrd.lt e.1 x.1 := by
        obtain ⟨s, e0, _, ho, _, _⟩ := hr
        obtain ⟨P, hP⟩ := ho.split c
        have hs := c.sorted
        rw [hP] at hs
        have := (List.pairwise_append.1 hs).2.1
        exact sorted_head (sorted_tail this)
      have hin : r.cl = false → inLo a e.1 = true := by
        obtain ⟨s, e0, _, _, hcl, _⟩ := hr
        intro h; exact hcl h e (List.mem_cons_self ..)
      rcases nextUnb_some hx hr with ⟨h1, _⟩ | ⟨r', e', R', h1, h2, h3, h4, h5⟩
      · cases h1
      · cases h1
        exact range_body hx f h2 h4 (by rw [h3]; exact hin) h5 hsort (ih f r' (by simp at hf; omega) h4)

/-- The first call. -/
theorem rangeNext_first {h : Nat} {n : Tr K (h + 1)} {H : Hp K V} (hx : Ix.Inv (⟨some ⟨h, n⟩, H⟩ : Ix K V))
    {a b : Bd K} {f : Nat} (hf : (entries H (leaves (h + 1) n)).length < f) :
    (((entries H (leaves (h + 1) n)).filter (fun x => contains a b x.1) = [] ∧
        (Ix.rangeNext ⟨some ⟨h, n⟩, H⟩ H a b f Rng.new).2 = some none) ∨
      (∃ r2 e2 R2, (Ix.rangeNext ⟨some ⟨h, n⟩, H⟩ H a b f Rng.new) = (r2, some (some e2)) ∧
        RngAt H (leaves (h + 1) n) a b r2 R2 ∧
        (entries H (leaves (h + 1) n)).filter (fun x => contains a b x.1) =
          e2 :: R2.filter (fun x => contains a b x.1))) := by
  have c := Ix.Inv.chain hx
  cases f with
  | zero => cases hf
  | succ f =>
    rcases startScan_spec hx a with ⟨h1, h2⟩ | ⟨s, e, R, P, h1, h2, h3, h4⟩
    · left
      refine ⟨by rw [h1]; rfl, ?_⟩
      unfold Ix.rangeNext
      have hq : Ix.nextUnb ⟨some ⟨h, n⟩, H⟩ H a b Rng.new =
          ({ Rng.new with cl := if a.isUnb then false else true }, none) := by
        unfold Ix.nextUnb
        simp only [Rng.new]
        rw [h2]; rfl
      rw [hq]
    · have hg : s.get H = some e := by
        obtain ⟨_, _, _, _, hg, _⟩ := h2
        exact hg
      have hq : Ix.nextUnb ⟨some ⟨h, n⟩, H⟩ H a b Rng.new =
          ({ scn := some s, cl := if a.isUnb then false else true, cu := checkUpper H b s.leaf }, some e) := by
        unfold Ix.nextUnb
        simp only [Rng.new]
        rw [h1]
        simp only []
        rw [hg]; rfl
      have hunb : (if a.isUnb then false else true) = false → ∀ k, inLo a k = true := by
        intro h k
        cases a <;> first | rfl | simp [Bd.isUnb] at h
      obtain ⟨hm, w⟩ := h2.mem c
      have hr : RngAt H (leaves (h + 1) n) a b
          { scn := some s, cl := if a.isUnb then false else true, cu := checkUpper H b s.leaf } R :=
        ⟨s, e, rfl, h2, fun h x _ => hunb h x.1, fun h => checkUpper_off w h⟩
      have hfl : (entries H (leaves (h + 1) n)).filter (fun x => contains a b x.1) =
          (e :: R).filter (fun x => contains a b x.1) := by
        rw [h3, List.filter_append]
        have : P.filter (fun x => contains a b x.1) = [] := by
          rw [List.filter_eq_nil_iff]
          intro x hx
          rw [contains_false_lo (h4 x hx)]; simp
        rw [this, List.nil_append]
      rw [hfl]
      have hlen : R.length < f := by
        rw [h3] at hf; simp at hf; omega
      exact range_body hx f hq hr (fun h => hunb h e.1) (fun h => checkUpper_off w h e hm) (h2.lt c)
        (rangeNext_some hx R f _ hlen hr)

theorem RngAt.len {H : Hp K V} {L : List Nat} {a b : Bd K} {r : Rng} {R : List (K × V)} (c : Chain H L)
    (h : RngAt H L a b r R) : R.length < (entries H L).length := by
  obtain ⟨s, e, _, ho, _, _⟩ := h
  obtain ⟨P, hP⟩ := ho.split c
  rw [hP]; simp; omega

theorem rangeCalls_some {h : Nat} {n : Tr K (h + 1)} {H : Hp K V} (hx : Ix.Inv (⟨some ⟨h, n⟩, H⟩ : Ix K V))
    {a b : Bd K} {f : Nat} (hf : (entries H (leaves (h + 1) n)).length < f) :
    ∀ (F : List (K × V)) (r : Rng) (R : List (K × V)),
    R.filter (fun x => contains a b x.1) = F → RngAt H (leaves (h + 1) n) a b r R →
    Ix.rangeCalls ⟨some ⟨h, n⟩, H⟩ a b f (F.length + 1) r = F.map (fun e => some (some e)) ++ [some none] := by
  intro F
  have c := Ix.Inv.chain hx
  induction F with
  | nil =>
    intro r R hF hr
    have hl := hr.len c
    rcases rangeNext_some hx R f r (by omega) hr with ⟨h1, h2⟩ | ⟨r2, e2, R2, h1, h2, h3⟩
    · show [(Ix.rangeNext ⟨some ⟨h, n⟩, H⟩ H a b f r).2] = _
      rw [h2]; rfl
    · rw [hF] at h3; cases h3
  | cons e F ih =>
    intro r R hF hr
    have hl := hr.len c
    rcases rangeNext_some hx R f r (by omega) hr with ⟨h1, h2⟩ | ⟨r2, e2, R2, h1, h2, h3⟩
    · rw [hF] at h1; cases h1
    · rw [hF] at h3
      injection h3 with h4 h5
      subst h4
      have := ih r2 R2 h5.symm h2
      show (Ix.rangeNext ⟨some ⟨h, n⟩, H⟩ H a b f r).2 :: Ix.rangeCalls ⟨some ⟨h, n⟩, H⟩ a b f (F.length + 1)
        (Ix.rangeNext ⟨some ⟨h, n⟩, H⟩ H a b f r).1 = _
      rw [h1, this]; rfl

/-- All calls of `Range::next` up to the first `None`. -/
theorem rangeCalls_spec {x : Ix K V} (hx : x.Inv) (a b : Bd K) {f : Nat} (hf : x.toList.length < f) :
    x.rangeCalls a b f ((x.toList.filter (fun e => contains a b e.1)).length + 1) Rng.new =
      (x.toList.filter (fun e => contains a b e.1)).map (fun e => some (some e)) ++ [some none] := by
  obtain ⟨root, H⟩ := x
  cases root with
  | none =>
    cases f with
    | zero => cases hf
    | succ f => rfl
  | some r =>
    obtain ⟨h, n⟩ := r
    have hf' : (entries H (leaves (h + 1) n)).length < f := hf
    show Ix.rangeCalls ⟨some ⟨h, n⟩, H⟩ a b f
      (((entries H (leaves (h + 1) n)).filter (fun e => contains a b e.1)).length + 1) Rng.new =
      ((entries H (leaves (h + 1) n)).filter (fun e => contains a b e.1)).map (fun e => some (some e)) ++ [some none]
    rcases rangeNext_first (a := a) (b := b) hx hf' with ⟨h1, h2⟩ | ⟨r2, e2, R2, h1, h2, h3⟩
    · rw [h1]
      show [(Ix.rangeNext ⟨some ⟨h, n⟩, H⟩ H a b f Rng.new).2] = _
      rw [h2]; rfl
    · rw [h3]
      have := rangeCalls_some hx hf' _ r2 R2 rfl h2
      show (Ix.rangeNext ⟨some ⟨h, n⟩, H⟩ H a b f Rng.new).2 :: Ix.rangeCalls ⟨some ⟨h, n⟩, H⟩ a b f
        ((R2.filter (fun x => contains a b x.1)).length + 1) (Ix.rangeNext ⟨some ⟨h, n⟩, H⟩ H a b f Rng.new).1 = _
      rw [h1, this]; rfl

end Scc.Tree
