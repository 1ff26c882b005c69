import Verif.Tree.Link

/-!
# Insertion into a tree
-/

set_option linter.unusedSimpArgs false
set_option linter.unusedSectionVars false
set_option linter.unusedVariables false

namespace Scc.Tree

open Scc.Leaf Scc.Leaf.Spec

variable {K V C : Type} [KeyOrd K]

/-! ## Replacing one child by one or two -/

theorem Eff.congr {H H' H'' : Hp K V} {I I' : List Nat} (e : Eff H H' I I') (h1 : H''.next = H'.next)
    (h2 : H''.del = H'.del) (h3 : H''.fresh = H'.fresh)
    (h4 : ∀ i, i < H.fresh → i ∉ I → H''.leaf i = H.leaf i) : Eff H H'' I I' := by
  refine ⟨by rw [h3]; exact e.fresh, h4, e.sub, by rw [h3]; exact e.lt, e.nodup, ?_⟩
  intro pre post h
  obtain ⟨G, g, hl⟩ := e.link pre post h
  refine ⟨G, ⟨g.nodup, by rw [h3]; exact g.lt, ?_, by rw [h2, h3]; exact g.clean, by rw [h1, h3]; exact g.unl⟩, ?_⟩
  · exact (chainTo_congr (H := H') (H' := H'') (fun i _ => by rw [h1])).2 g.chain
  · unfold live at hl ⊢; rw [h2]; exact hl

section Replace

variable {h : Nat} {H H' : Hp K V} {hi lo : Option K} {A B : List (Option K × Tr K h)} {s : Option K}
  {c : Tr K h}

/-- Leaves of the other children are not touched. -/
theorem frame_sides {I' : List Nat} (hnd : (leavesE h (A ++ (s, c) :: B)).Nodup)
    (hlt : ∀ i ∈ leavesE h (A ++ (s, c) :: B), i < H.fresh) (e : Eff H H' (leaves h c) I') :
    (∀ i ∈ leavesE h A, H'.leaf i = H.leaf i) ∧ (∀ i ∈ leavesE h B, H'.leaf i = H.leaf i) := by
  rw [leavesE_append, leavesE_cons] at hnd hlt
  rw [List.nodup_append, List.nodup_append] at hnd
  constructor
  · intro i hi
    refine e.frame i (hlt i (by simp [hi])) ?_
    intro hc
    exact hnd.2.2 i hi i (by simp [hc]) rfl
  · intro i hi
    refine e.frame i (hlt i (by simp [hi])) ?_
    intro hc
    exact hnd.2.1.2.2 i hc i hi rfl

theorem cov_replace (hcov : Cov (WF H h) hi lo (A ++ (s, c) :: B))
    (hnd : (leavesE h (A ++ (s, c) :: B)).Nodup)
    (hlt : ∀ i ∈ leavesE h (A ++ (s, c) :: B), i < H.fresh) {c' : Tr K h}
    (e : Eff H H' (leaves h c) (leaves h c')) (hw : WF H' h (endLo lo A) (s.or hi) c') :
    Cov (WF H' h) hi lo (A ++ (s, c') :: B) ∧
    contE H' h (A ++ (s, c') :: B) = contE H h A ++ cont H' h c' ++ contE H h B ∧
    Eff H H' (leavesE h (A ++ (s, c) :: B)) (leavesE h (A ++ (s, c') :: B)) := by
  obtain ⟨fA, fB⟩ := frame_sides hnd hlt e
  obtain ⟨h1, h2, h3, h4, h5⟩ := cov_focus.1 hcov
  refine ⟨cov_focus.2 ⟨h1, cov_frame h h2 fA, hw, h4, cov_frame h h5 fB⟩, ?_, ?_⟩
  · rw [contE_append, contE_cons, contE_frame h A fA, contE_frame h B fB, List.append_assoc]
  · have := e.embed (X := leavesE h A) (Y := leavesE h B) (by simpa using hnd) (by simpa using hlt)
    simpa using this

theorem cov_split2 (hcov : Cov (WF H h) hi lo (A ++ (s, c) :: B))
    (hnd : (leavesE h (A ++ (s, c) :: B)).Nodup)
    (hlt : ∀ i ∈ leavesE h (A ++ (s, c) :: B), i < H.fresh) {l m : Tr K h} {mid : K}
    (e : Eff H H' (leaves h c) (leaves h l ++ leaves h m)) (hl : WF H' h (endLo lo A) (some mid) l)
    (hm : WF H' h (some mid) (s.or hi) m) (g1 : gtLo (endLo lo A) mid) (g2 : ltHi (s.or hi) mid) :
    Cov (WF H' h) hi lo (A ++ (some mid, l) :: (s, m) :: B) ∧
    contE H' h (A ++ (some mid, l) :: (s, m) :: B) =
      contE H h A ++ (cont H' h l ++ cont H' h m) ++ contE H h B ∧
    Eff H H' (leavesE h (A ++ (s, c) :: B)) (leavesE h (A ++ (some mid, l) :: (s, m) :: B)) := by
  obtain ⟨fA, fB⟩ := frame_sides hnd hlt e
  obtain ⟨h1, h2, h3, h4, h5⟩ := cov_focus.1 hcov
  have hmid : ltHi hi mid := by
    cases s with
    | none => exact g2
    | some k => exact ltHi_of_le h4.2 (lt_asymm' g2)
  refine ⟨cov_focus.2 ⟨h1, cov_frame h h2 fA, hl, ⟨g1, hmid⟩, hm, ?_, cov_frame h h5 fB⟩, ?_, ?_⟩
  · cases s with
    | none => exact h4
    | some k => exact ⟨g2, h4.2⟩
  · rw [contE_append, contE_cons, contE_cons, contE_frame h A fA, contE_frame h B fB]
    simp only [List.append_assoc]
  · have := e.embed (X := leavesE h A) (Y := leavesE h B) (by simpa using hnd) (by simpa using hlt)
    simpa using this

/-- Everything on the sides is below or above the key. -/
theorem sides_lt (hcov : Cov (WF H h) hi lo (A ++ (s, c) :: B)) {k : K} (hlo : gtLo lo k) (hhi : leHi hi k)
    (hat : At (A ++ (s, c) :: B) k A s c B) :
    (∀ a ∈ contE H h A, KeyOrd.lt a.1 k) ∧ (∀ b ∈ contE H h B, KeyOrd.lt k b.1) ∧
    gtLo (endLo lo A) k ∧ leHi (s.or hi) k := by
  obtain ⟨h1, h2, h3, h4, h5⟩ := cov_focus.1 hcov
  have g := endLo_gt hat.before hlo
  have u : leHi (s.or hi) k := by
    cases s with
    | none => exact hhi
    | some x => exact hat.here
  refine ⟨cov_before (wf_bnd H h) h1 h2 g, cov_after (wf_bnd H h) ?_ h5 u, g, u⟩
  intro hs; subst hs; exact h4

end Replace

/-! ## Room for a key -/

/-- The leaf responsible for `k` has a free slot. -/
def Room (H : Hp K V) : (h : Nat) → Tr K h → K → Prop
  | 0, i, _ => retired (H.leaf i).w = false ∧ used (H.leaf i).w < 14
  | h + 1, n, k => ∃ A s c B, At (ents (C := Tr K h) n) k A s c B ∧ Room H h c k

def RoomE (H : Hp K V) (h : Nat) (E : List (Option K × Tr K h)) (k : K) : Prop :=
  ∃ A s c B, At E k A s c B ∧ Room H h c k

theorem roomE_split2 {H : Hp K V} {h : Nat} {E A B : List (Option K × Tr K h)} {s : Option K} {c l m : Tr K h}
    {k mid : K} (hat : At E k A s c B) (h1 : ¬ KeyOrd.lt mid k → Room H h l k)
    (h2 : KeyOrd.lt mid k → Room H h m k) : RoomE H h (A ++ (some mid, l) :: (s, m) :: B) k := by
  by_cases hk : KeyOrd.lt mid k
  · refine ⟨A ++ [(some mid, l)], s, m, B, ⟨by simp, ?_, hat.here⟩, h2 hk⟩
    intro e he
    rcases List.mem_append.1 he with he | he
    · exact hat.before e he
    · simp at he; subst he; exact ⟨mid, rfl, hk⟩
  · exact ⟨A, some mid, l, (s, m) :: B, ⟨rfl, hat.before, hk⟩, h1 hk⟩

/-! ## Filling two nodes -/

def keyed (xs : List (K × C)) : List (Option K × C) := xs.map (fun e => (some e.1, e.2))

theorem allSome_keyed (xs : List (K × C)) : AllSome (keyed xs) := by
  intro e he
  obtain ⟨x, _, rfl⟩ := List.mem_map.1 he
  rfl

theorem keyed_of_allSome {E : List (Option K × C)} (h : AllSome E) : ∃ xs, E = keyed xs := by
  induction E with
  | nil => exact ⟨[], rfl⟩
  | cons e E ih =>
    obtain ⟨xs, rfl⟩ := ih (fun e he => h e (List.mem_cons_of_mem _ he))
    obtain ⟨k, hk⟩ := Option.isSome_iff_exists.1 (h e (List.mem_cons_self ..))
    refine ⟨(k, e.2) :: xs, ?_⟩
    obtain ⟨a, b⟩ := e
    simp only at hk; subst hk
    rfl

theorem sorted_of_cov {P : Option K → Option K → C → Prop} {hi lo : Option K} {xs : List (K × C)}
    (h : Cov P hi lo (keyed xs)) : Sorted xs := by
  induction xs generalizing lo with
  | nil => exact List.Pairwise.nil
  | cons x xs ih =>
    have h2 := h.2.2
    refine List.pairwise_cons.2 ⟨?_, ih h2⟩
    intro y hy
    exact (cov_gt h2 (x := y.1) (c := y.2) (List.mem_map.2 ⟨y, hy, rfl⟩)).1

theorem fill_lo {b : Nat} {mid : K} {c : C} {T : List (Option K × C)} {hi : Nd K C} {m : Option K} :
    ∀ (D : List (K × C)) (pre : List (K × C)) (lo : Nd K C), Packed lo.kids pre →
      pre.length + D.length + 1 = b → pre.length + D.length ≤ numEntries →
      ∃ kids, Packed kids (pre ++ D) ∧
        fill b pre.length (keyed D ++ (some mid, c) :: T) lo hi m =
          fill b b T { lo with kids := kids, ub := some c } hi (some mid) := by
  intro D
  induction D with
  | nil =>
    intro pre lo hp hb _
    simp at hb
    refine ⟨lo.kids, by simpa using hp, ?_⟩
    show fill b pre.length ((some mid, c) :: T) lo hi m = _
    rw [fill]
    rw [if_neg (by omega), if_pos hb, hb]
  | cons d D ih =>
    intro pre lo hp hb hn
    simp at hb hn
    show ∃ kids, _ ∧ fill b pre.length ((some d.1, d.2) :: (keyed D ++ (some mid, c) :: T)) lo hi m = _
    rw [fill]
    rw [if_pos (by omega)]
    have hp' := hp.push (by omega) d.1 d.2
    obtain ⟨kids, h1, h2⟩ := ih (pre ++ [d]) { lo with kids := lo.kids.insertUnchecked d.1 d.2 pre.length } hp'
      (by simp; omega) (by simp; omega)
    refine ⟨kids, by simpa using h1, ?_⟩
    simp only [List.length_append, List.length_cons, List.length_nil] at h2
    exact h2

theorem fill_hi {b : Nat} {u : C} {lo : Nd K C} {m : Option K} :
    ∀ (R : List (K × C)) (pre : List (K × C)) (hi : Nd K C), Packed hi.kids pre →
      pre.length + R.length ≤ numEntries →
      ∃ kids, Packed kids (pre ++ R) ∧
        fill b (b + pre.length) (keyed R ++ [(none, u)]) lo hi m =
          some (lo, { hi with kids := kids, ub := some u }, m) := by
  intro R
  induction R with
  | nil =>
    intro pre hi hp _
    refine ⟨hi.kids, by simpa using hp, ?_⟩
    show fill b (b + pre.length) [(none, u)] lo hi m = _
    rw [fill]
    rw [if_neg (by omega), if_neg (by omega)]
    rfl
  | cons d D ih =>
    intro pre hi hp hn
    simp at hn
    show ∃ kids, _ ∧ fill b (b + pre.length) ((some d.1, d.2) :: (keyed D ++ [(none, u)])) lo hi m = _
    rw [fill]
    rw [if_neg (by omega), if_neg (by omega)]
    have hp' := hp.push (by omega) d.1 d.2
    obtain ⟨kids, h1, h2⟩ := ih (pre ++ [d]) { hi with kids := hi.kids.insertUnchecked d.1 d.2 pre.length } hp'
      (by simp; omega)
    refine ⟨kids, by simpa using h1, ?_⟩
    simp only [List.length_append, List.length_cons, List.length_nil] at h2
    have e : b + pre.length - b = pre.length := by omega
    simp only [e]
    exact h2

/-- The two nodes built from a list of children. -/
theorem splitNd_spec {H : Hp K V} {h : Nat} {lo hi : Option K} {n : Nd K (Tr K h)} {p : SplitOp K (Tr K h)}
    {k : K} {F : List (Option K × Tr K h)} {u : Tr K h} (he : entryArray n p = F ++ [(none, u)])
    (h1 : 1 ≤ F.length) (h2 : F.length ≤ 15) (hc : Cov (WF H h) hi lo (F ++ [(none, u)]))
    (hr : RoomE H h (F ++ [(none, u)]) k) :
    ∃ (l m : Nd K (Tr K h)) (mid : K), splitNd n p = some (l, m, some mid) ∧
      WF H (h + 1) lo (some mid) l ∧ WF H (h + 1) (some mid) hi m ∧ gtLo lo mid ∧ ltHi hi mid ∧
      leaves (h + 1) l ++ leaves (h + 1) m = leavesE h (F ++ [(none, u)]) ∧
      (¬ KeyOrd.lt mid k → Room H (h + 1) l k) ∧ (KeyOrd.lt mid k → Room H (h + 1) m k) := by
  have hb := optimalBoundary_range n.kids.w
  generalize hbb : min (optimalBoundary n.kids.w) (F.length + 1 - 1) = b
  have hb1 : 1 ≤ b := by omega
  have hb2 : b ≤ 13 := by omega
  have hb3 : b ≤ F.length := by omega
  -- the child that becomes the unbounded one of the low-key node
  have hF : F = F.take (b - 1) ++ F.drop (b - 1) := (List.take_append_drop ..).symm
  have hlen : (F.take (b - 1)).length = b - 1 := by rw [List.length_take]; omega
  have hlen2 : (F.drop (b - 1)).length = F.length - (b - 1) := List.length_drop ..
  generalize F.take (b - 1) = D at hF hlen
  generalize F.drop (b - 1) = R at hF hlen2
  cases R with
  | nil => simp at hlen2; omega
  | cons e R =>
    obtain ⟨s, c⟩ := e
    simp at hlen2
    rw [hF] at hc
    rw [List.append_assoc, List.cons_append] at hc
    have hall := cov_allSome (A := D ++ (s, c) :: R) (e := (none, u)) (B := []) (by simpa using hc)
    obtain ⟨D', rfl⟩ := keyed_of_allSome (E := D) (fun e he => hall e (by simp [he]))
    obtain ⟨R', rfl⟩ := keyed_of_allSome (E := R) (fun e he => hall e (by simp [he]))
    obtain ⟨mid, hmid⟩ := Option.isSome_iff_exists.1 (hall (s, c) (by simp))
    simp only at hmid; subst hmid
    have hlD : D'.length = b - 1 := by simpa [keyed] using hlen
    have hlR : R'.length + 1 = F.length - (b - 1) := by simpa [keyed] using hlen2
    have hfl : F.length = D'.length + R'.length + 1 := by omega
    obtain ⟨kl, pl, fl⟩ := fill_lo (b := b) (mid := mid) (c := c) (T := keyed R' ++ [(none, u)])
      (hi := Nd.new) (m := none) D' [] (Nd.new : Nd K (Tr K h)) packed_new (by simp; omega)
      (by simp [numEntries]; omega)
    obtain ⟨kh, ph, fh⟩ := fill_hi (b := b) (u := u) (lo := ⟨kl, some c, false⟩)
      (m := some mid) R' [] (Nd.new : Nd K (Tr K h)) packed_new (by simp [numEntries]; omega)
    obtain ⟨c1, c2, c3, ⟨c4, c4'⟩, c5⟩ := cov_focus.1 hc
    have hcR := (cov_append (allSome_keyed R')).1 c5
    rw [List.nil_append] at pl ph
    obtain ⟨wl1, wl2, _, wl4, _⟩ := wl_of_rel (pl.rel (sorted_of_cov c2))
    obtain ⟨wh1, wh2, _, wh4, _⟩ := wl_of_rel (ph.rel (sorted_of_cov hcR.1))
    have el : ents (⟨kl, some c, false⟩ : Nd K (Tr K h)) = keyed D' ++ [(none, c)] := by
      unfold ents; simp only []; rw [wl2]; rfl
    have eh : ents (⟨kh, some u, false⟩ : Nd K (Tr K h)) = keyed R' ++ [(none, u)] := by
      unfold ents; simp only []; rw [wh2]; rfl
    have g := (cov_allLt c1 c2 c4)
    refine ⟨⟨kl, some c, false⟩, ⟨kh, some u, false⟩, mid, ?_, ?_, ?_,
      g.2, c4', ?_, ?_, ?_⟩
    · unfold splitNd
      simp only []
      rw [he, List.length_append, List.length_singleton, hbb, hF, List.append_assoc, List.cons_append]
      exact fl.trans fh
    · refine ⟨wl1, wl4, rfl, rfl, ?_⟩
      rw [el, cov_focus]
      refine ⟨c1, ?_, c3, rfl, trivial⟩
      -- the keys of the low-key node are less than the middle key
      have : ∀ (E : List (Option K × Tr K h)) (lo : Option K), AllLt E mid → Cov (WF H h) hi lo E →
          Cov (WF H h) (some mid) lo E := by
        intro E
        induction E with
        | nil => intro _ _ _; trivial
        | cons e E ih =>
          intro lo hlt hE
          obtain ⟨s, x⟩ := e
          obtain ⟨y, hy, hlt'⟩ := hlt _ (List.mem_cons_self ..)
          simp only at hy; subst hy
          exact ⟨hE.1, ⟨hE.2.1.1, hlt'⟩, ih _ (fun e he => hlt e (List.mem_cons_of_mem _ he)) hE.2.2⟩
      exact this _ _ g.1 c2
    · exact ⟨wh1, wh4, rfl, rfl, by rw [eh]; exact c5⟩
    · rw [leaves_succ, leaves_succ, el, eh, hF]
      simp
    · intro hk
      obtain ⟨A, s, x, B, hat, hroom⟩ := hr
      -- the child found is in the low-key node
      show ∃ A s c B, At _ k A s c B ∧ Room H h c k
      have hE : F ++ [(none, u)] = keyed D' ++ (some mid, c) :: (keyed R' ++ [(none, u)]) := by
        rw [hF]; simp
      have hmidk : leHi (some mid) k := hk
      have heq := hat.eq
      rw [hE] at heq
      rcases List.append_eq_append_iff.1 heq with ⟨as, e1, e2⟩ | ⟨bs, e1, e2⟩
      · cases as with
        | nil =>
          simp at e2 e1
          obtain ⟨⟨e3, e4⟩, e5⟩ := e2
          subst e3 e4
          refine ⟨keyed D', none, c, [], ⟨el, ?_, trivial⟩, hroom⟩
          rw [← e1]; exact hat.before
        | cons a as =>
          simp at e2
          obtain ⟨e3, e4⟩ := e2
          obtain ⟨y, hy, hlt⟩ := hat.before a (by rw [e1]; simp)
          rw [← e3] at hy; cases hy
          exact absurd hlt hk
      · cases bs with
        | nil =>
          simp at e2 e1
          obtain ⟨⟨e3, e4⟩, e5⟩ := e2
          subst e3 e4
          refine ⟨keyed D', none, x, [], ⟨el, ?_, trivial⟩, hroom⟩
          rw [e1]; exact hat.before
        | cons a as =>
          simp at e2
          obtain ⟨e3, e4⟩ := e2
          subst e3
          exact ⟨A, s, x, as ++ [(none, c)], ⟨by rw [el, e1]; simp, hat.before, hat.here⟩, hroom⟩
    · intro hk
      obtain ⟨A, s, x, B, hat, hroom⟩ := hr
      show ∃ A s c B, At _ k A s c B ∧ Room H h c k
      have hE : F ++ [(none, u)] = keyed D' ++ (some mid, c) :: (keyed R' ++ [(none, u)]) := by
        rw [hF]; simp
      have heq := hat.eq
      rw [hE] at heq
      have hDk : AllLt (keyed D' ++ [(some mid, c)]) k := by
        intro e he
        rcases List.mem_append.1 he with he | he
        · obtain ⟨y, hy, hlt⟩ := g.1 e he
          exact ⟨y, hy, KeyOrd.trans _ _ _ hlt hk⟩
        · simp at he; subst he; exact ⟨mid, rfl, hk⟩
      have heq' : (keyed D' ++ [(some mid, c)]) ++ (keyed R' ++ [(none, u)]) = A ++ (s, x) :: B := by
        rw [← heq]; simp
      rcases List.append_eq_append_iff.1 heq' with ⟨as, e1, e2⟩ | ⟨bs, e1, e2⟩
      · refine ⟨as, s, x, B, ⟨by rw [eh, e2], ?_, hat.here⟩, hroom⟩
        intro e he
        exact hat.before e (by rw [e1]; simp [he])
      · cases bs with
        | nil =>
          simp at e2
          exact ⟨[], s, x, B, ⟨by rw [eh]; simpa using e2.symm, fun e he => (by cases he), hat.here⟩, hroom⟩
        | cons b bs =>
          simp at e2
          obtain ⟨e3, e4⟩ := e2
          subst e3
          obtain ⟨y, hy, hlt⟩ := hDk (s, x) (by rw [e1]; simp)
          simp only at hy; subst hy
          exact absurd hlt hat.here

end Scc.Tree
