import Verif.Tree.Insert

/-!
# Insertion into a tree, from leaf nodes to the root
-/

set_option linter.unusedSimpArgs false
set_option linter.unusedSectionVars false
set_option linter.unusedVariables false

namespace Scc.Tree

open Scc.Leaf Scc.Leaf.Spec

variable {K V C : Type} [KeyOrd K]

/-- The insertion is over. -/
structure Done (H : Hp K V) (lo hi : Option K) (k : K) (v : V) (h : Nat) (n n' : Tr K (h + 1)) (H' : Hp K V)
    (o : Out K (Tr K h)) : Prop where
  wf : WF H' (h + 1) lo hi n'
  eff : Eff H H' (leaves (h + 1) n) (leaves (h + 1) n')
  res : (get (cont H (h + 1) n) k = none ∧ o = .success ∧ cont H' (h + 1) n' = put (cont H (h + 1) n) k v) ∨
    ((get (cont H (h + 1) n) k).isSome = true ∧ o = .duplicate ∧ cont H' (h + 1) n' = cont H (h + 1) n)

/-- The node has no room for another child; a split is prepared. -/
structure Full (H : Hp K V) (lo hi : Option K) (k : K) (h : Nat) (n n' : Tr K (h + 1)) (H' : Hp K V)
    (p : SplitOp K (Tr K h)) (F : List (Option K × Tr K h)) (u : Tr K h) : Prop where
  arr : entryArray n' p = F ++ [(none, u)]
  len1 : 1 ≤ F.length
  len2 : F.length ≤ 15
  cov : Cov (WF (commit H' p.leaves) h) hi lo (F ++ [(none, u)])
  cont : contE (commit H' p.leaves) h (F ++ [(none, u)]) = cont H (h + 1) n
  eff : Eff H (commit H' p.leaves) (leaves (h + 1) n) (leavesE h (F ++ [(none, u)]))
  room : RoomE (commit H' p.leaves) h (F ++ [(none, u)]) k

/-- A leaf in use that holds `xs` and nothing that is removed. -/
structure LeafIs (l : Leaf K V) (xs : List (K × V)) : Prop where
  wl : WL l
  eq : l.toList = xs
  used : used l.w = xs.length
  frz : frozen l.w = false
  ret : retired l.w = false

theorem LeafIs.refreeze {l : Leaf K V} {xs : List (K × V)} (h : LeafIs l xs) :
    LeafIs l.freezeLeaf.1.thawLeaf.1 xs := by
  obtain ⟨a1, a2, a3, a4⟩ := h.wl.freeze
  obtain ⟨b1, b2, b3, b4, b5⟩ := a1.thaw
  exact ⟨b1, by rw [b2, a2, h.eq], by rw [b3, a3, h.used], b4, by rw [b5, a4, h.ret]⟩

theorem setLeaf_self (H : Hp K V) (i : Nat) : H.setLeaf i (H.leaf i) = H := by
  unfold Hp.setLeaf
  have : (fun j => if j = i then H.leaf i else H.leaf j) = H.leaf := by
    funext j; split
    · rename_i e; rw [e]
    · rfl
  rw [this]

/-- The two halves of a sorted list as leaves. -/
theorem halves {H H' : Hp K V} {id lo' hi' : Nat} {lo hi : Option K} {b : Nat}
    (hw : WF H 0 lo hi id) (h1 : 1 ≤ b) (h2 : b ≤ 13) (h3 : b < (H.leaf id).toList.length)
    (hl : LeafIs (H'.leaf lo') ((H.leaf id).toList.take b)) (hm : LeafIs (H'.leaf hi') ((H.leaf id).toList.drop b))
    {e : K × V} (he : ((H.leaf id).toList.take b).getLast? = some e) (k : K) :
    WF H' 0 lo (some e.1) lo' ∧ WF H' 0 (some e.1) hi hi' ∧ gtLo lo e.1 ∧ ltHi hi e.1 ∧
    cont H' 0 lo' ++ cont H' 0 hi' = cont H 0 id ∧ Room H' 0 lo' k ∧ Room H' 0 hi' k := by
  obtain ⟨w, hf, hb⟩ := hw
  have hs := w.sorted
  have hlen := w.len14
  have htd : (H.leaf id).toList = (H.leaf id).toList.take b ++ (H.leaf id).toList.drop b :=
    (List.take_append_drop ..).symm
  have hsT : Sorted ((H.leaf id).toList.take b) := by
    unfold Sorted at hs ⊢; rw [htd, List.pairwise_append] at hs; exact hs.1
  have hsplit : ∀ x ∈ (H.leaf id).toList.take b, ∀ y ∈ (H.leaf id).toList.drop b, KeyOrd.lt x.1 y.1 := by
    unfold Sorted at hs; rw [htd, List.pairwise_append] at hs; exact hs.2.2
  have hmax := (sorted_getLast hsT).1 he
  have hmem : e ∈ (H.leaf id).toList := List.mem_of_mem_take hmax.1
  have hne : (H.leaf id).toList.drop b ≠ [] := by
    intro h
    have := List.length_drop (l := (H.leaf id).toList) (i := b)
    rw [h] at this; simp at this; omega
  obtain ⟨y, hy⟩ := List.exists_mem_of_ne_nil _ hne
  have hlt := hsplit e hmax.1 y hy
  refine ⟨⟨hl.wl, hl.frz, ?_⟩, ⟨hm.wl, hm.frz, ?_⟩, (hb e hmem).1, ?_, ?_, ⟨hl.ret, ?_⟩, ⟨hm.ret, ?_⟩⟩
  · intro x hx
    rw [hl.eq] at hx
    exact ⟨(hb x (List.mem_of_mem_take hx)).1, hmax.2 x hx⟩
  · intro x hx
    rw [hm.eq] at hx
    exact ⟨hsplit e hmax.1 x hx, (hb x (List.mem_of_mem_drop hx)).2⟩
  · have := (hb y (List.mem_of_mem_drop hy)).2
    cases hi with
    | none => trivial
    | some z => exact lt_of_lt_of_le hlt this
  · rw [cont_zero, cont_zero, cont_zero, hl.eq, hm.eq, List.take_append_drop]
  · rw [hl.used, List.length_take]; omega
  · rw [hm.used, List.length_drop]; omega

theorem cov_true {P : Option K → Option K → C → Prop} {hi lo : Option K} {A B : List (Option K × C)}
    {s : Option K} {c : C} (h : Cov P hi lo (A ++ (s, c) :: B)) (c' : C) :
    Cov (fun _ _ _ => True) hi lo (A ++ (s, c') :: B) := by
  have h' : Cov (fun _ _ _ => True) hi lo (A ++ (s, c) :: B) := cov_imp h (fun _ _ _ _ _ => trivial)
  rw [cov_focus] at h' ⊢
  exact h'

theorem length_snoc {n : Nd K C} {A B : List (Option K × C)} {s : Option K} {c : C} (w : WL n.kids)
    (hu : n.ub.isSome = true) (h : ents n = A ++ (s, c) :: B) (hA : AllSome A) (m : K) (x y : C) :
    ∃ F u, A ++ (some m, x) :: (s, y) :: B = F ++ [(none, u)] ∧ 1 ≤ F.length ∧ F.length ≤ 15 := by
  obtain ⟨u, hu⟩ := Option.isSome_iff_exists.1 hu
  have hl := ents_length w
  rw [h] at hl
  simp at hl
  rcases ents_split h hA with ⟨k, A', B', rfl, e1, e2, e3⟩ | ⟨rfl, e1, e2, e3⟩
  · refine ⟨A ++ (some m, x) :: (some k, y) :: B'.map (fun e => (some e.1, e.2)), u, ?_, ?_, ?_⟩
    · rw [e3, hu]; simp
    · simp; omega
    · rw [e3, hu] at hl; simp at hl ⊢; omega
  · refine ⟨A ++ [(some m, x)], y, by rw [e2]; simp, by simp, ?_⟩
    rw [e2] at hl; simp at hl ⊢; omega

theorem splitLeaf_spec {H : Hp K V} {lo hi : Option K} {n : Nd K Nat} {k : K}
    (hw : WF H 1 lo hi n) (hnd : (leaves 1 (n : Tr K 1)).Nodup) (hlt : ∀ i ∈ leaves 1 (n : Tr K 1), i < H.fresh)
    {A B : List (Option K × Nat)} {s : Option K} {id : Nat} (hat : At (ents n) k A s id B) :
    (∃ n' H', splitLeaf n H s id = (n', H', none) ∧ WF H' 1 lo hi n' ∧
      cont H' 1 (n' : Tr K 1) = cont H 1 (n : Tr K 1) ∧
      Eff H H' (leaves 1 (n : Tr K 1)) (leaves 1 (n' : Tr K 1)) ∧ Room H' 1 n' k) ∨
    (∃ H' p F u, splitLeaf n H s id = (n, H', some (.full p)) ∧ Full H lo hi k 0 n n H' p F u) := by
  obtain ⟨w, hf, hd, hu, hcov⟩ := hw
  have hE := hat.eq
  have hA := hat.before.some
  rw [leaves_succ, hE] at hnd hlt
  have hcov0 := hcov
  rw [hE] at hcov0
  obtain ⟨c1, c2, cw, c4, c5⟩ := cov_focus.1 hcov0
  have hid : id < H.fresh := hlt id (List.mem_flatMap.2 ⟨(s, id), by simp, List.mem_singleton.2 rfl⟩)
  have hcw := cw
  obtain ⟨wid, fid, bid⟩ := cw
  obtain ⟨b, hb1, hb2, ⟨p1, p2, p3, p4, p5⟩, hq⟩ := wid.distribute
  unfold splitLeaf
  rw [if_neg (by rw [hd]; simp)]
  simp only []
  generalize hdd : (H.leaf id).freezeAndDistribute = d at *
  obtain ⟨x, low, hopt⟩ := d
  cases hopt with
  | none =>
    left
    simp only [] at p1 p2 p3 p4 p5 hq ⊢
    refine ⟨_, _, rfl, ?_⟩
    have hle : (H.leaf id).toList.take b = (H.leaf id).toList := List.take_of_length_le hq
    rw [hle] at p2 p3
    have e := Eff.replace1 hid low x
    generalize hH' : (((H.setLeaf id x).alloc low).pushBack id H.fresh).deleteSelf id = H' at e
    have hlo : H'.leaf H.fresh = low := by
      rw [← hH']; simp [Hp.deleteSelf, Hp.pushBack, Hp.alloc, Hp.setLeaf]
    have hwl : WF H' 0 (endLo lo A) (s.or hi) H.fresh := by
      refine ⟨by rw [hlo]; exact p1, by rw [hlo]; exact p4, ?_⟩
      rw [hlo, p2]; exact bid
    obtain ⟨r1, r2, r3⟩ := cov_replace (h := 0) hcov0 hnd hlt (c' := H.fresh) e hwl
    obtain ⟨s1, s2, s3, s4, s5⟩ := ents_set w hE hA H.fresh
    refine ⟨⟨s2, by rw [s3]; exact hf, by rw [s4]; exact hd, s5 hu, by rw [s1]; exact r1⟩, ?_, ?_, ?_⟩
    · rw [cont_succ, cont_succ, s1, hE, r2, contE_append, contE_cons, cont_zero, cont_zero, hlo, p2,
        List.append_assoc]
    · rw [leaves_succ, leaves_succ, s1, hE]; exact r3
    · refine ⟨A, s, H.fresh, B, ⟨s1, hat.before, hat.here⟩, ?_, ?_⟩
      · rw [hlo]; exact p5
      · rw [hlo, p3]; omega
  | some hl =>
    simp only [] at p1 p2 p3 p4 p5 hq ⊢
    obtain ⟨q1, q2, q3, q4, q5, q6⟩ := hq
    have isl : LeafIs low ((H.leaf id).toList.take b) := ⟨p1, p2, p3, p4, p5⟩
    have ish : LeafIs hl ((H.leaf id).toList.drop b) := ⟨q2, q3, q4, q5, q6⟩
    have e := Eff.replace2 hid low hl x
    generalize hH2 : ((((H.setLeaf id x).alloc low).alloc hl).pushBack id (H.fresh + 1)).pushBack id H.fresh = H2 at *
    have hf2 : H2.fresh = H.fresh + 2 := by rw [← hH2]; rfl
    have l2lo : H2.leaf H.fresh = low := by
      rw [← hH2]; simp [Hp.pushBack, Hp.alloc, Hp.setLeaf]
    have l2hi : H2.leaf (H.fresh + 1) = hl := by
      rw [← hH2]; simp [Hp.pushBack, Hp.alloc, Hp.setLeaf]
    have l2 : ∀ i, i < H.fresh → i ≠ id → H2.leaf i = H.leaf i := by
      intro i h1 h2
      have h3 : i ≠ H.fresh := by omega
      have h4 : i ≠ H.fresh + 1 := by omega
      rw [← hH2]; simp [Hp.pushBack, Hp.alloc, Hp.setLeaf, h2, h3, h4]
    rw [l2lo]
    have hne1 : id ≠ H.fresh := by omega
    have hmx : low.freezeLeaf.1.maxEntry = ((H.leaf id).toList.take b).getLast? := by
      obtain ⟨a1, a2, _⟩ := p1.freeze
      rw [a1.maxEntry, a2, p2]
    have hnonempty : (H.leaf id).toList.take b ≠ [] := by
      intro h
      have := List.length_take (l := (H.leaf id).toList) (i := b)
      rw [h] at this; simp at this; omega
    obtain ⟨em, hem⟩ : ∃ em, ((H.leaf id).toList.take b).getLast? = some em := by
      cases hg : ((H.leaf id).toList.take b).getLast? with
      | none => exact absurd (List.getLast?_eq_none_iff.1 hg) hnonempty
      | some em => exact ⟨em, rfl⟩
    have hmx' : ((H2.setLeaf H.fresh low.freezeLeaf.1).leaf H.fresh).maxEntry = some em := by
      have : (H2.setLeaf H.fresh low.freezeLeaf.1).leaf H.fresh = low.freezeLeaf.1 := by simp [Hp.setLeaf]
      rw [this, hmx, hem]
    rw [hmx']
    simp only []
    -- what holds in any heap with the two leaves in place
    have common : ∀ H' : Hp K V, H'.next = (H2.deleteSelf id).next → H'.del = (H2.deleteSelf id).del →
        H'.fresh = (H2.deleteSelf id).fresh → LeafIs (H'.leaf H.fresh) ((H.leaf id).toList.take b) →
        LeafIs (H'.leaf (H.fresh + 1)) ((H.leaf id).toList.drop b) →
        (∀ i, i < H.fresh → i ≠ id → H'.leaf i = H.leaf i) →
        Cov (WF H' 0) hi lo (A ++ (some em.1, H.fresh) :: (s, H.fresh + 1) :: B) ∧
        contE H' 0 (A ++ (some em.1, H.fresh) :: (s, H.fresh + 1) :: B) = cont H 1 (n : Tr K 1) ∧
        Eff H H' (leaves 1 (n : Tr K 1)) (leavesE 0 (A ++ (some em.1, H.fresh) :: (s, H.fresh + 1) :: B)) ∧
        RoomE H' 0 (A ++ (some em.1, H.fresh) :: (s, H.fresh + 1) :: B) k ∧
        gtLo (endLo lo A) em.1 ∧ ltHi (s.or hi) em.1 := by
      intro H' g1 g2 g3 g4 g5 g6
      obtain ⟨a1, a2, a3, a4, a5, a6, a7⟩ := halves hcw hb1 hb2 q1 g4 g5 hem k
      have e' : Eff H H' [id] [H.fresh, H.fresh + 1] :=
        e.congr g1 g2 g3 (fun i h1 h2 => g6 i h1 (by simpa using h2))
      obtain ⟨r1, r2, r3⟩ := cov_split2 (h := 0) hcov0 hnd hlt (l := H.fresh) (m := H.fresh + 1) (mid := em.1)
        e' a1 a2 a3 a4
      refine ⟨r1, ?_, ?_, roomE_split2 (h := 0) hat (fun _ => a6) (fun _ => a7), a3, a4⟩
      · rw [r2, a5, cont_succ, hE, contE_append, contE_cons, List.append_assoc]
      · rw [leaves_succ, hE]; exact r3
    have heq4 : ∀ l, ((H2.setLeaf H.fresh l).deleteSelf id).leaf H.fresh = l := by
      intro l; simp [Hp.deleteSelf, Hp.setLeaf]
    -- bounds of the middle key
    have hbm := common (((H2.setLeaf H.fresh low.freezeLeaf.1).deleteSelf id).setLeaf H.fresh
      low.freezeLeaf.1.thawLeaf.1) rfl rfl rfl (by
        have : (((H2.setLeaf H.fresh low.freezeLeaf.1).deleteSelf id).setLeaf H.fresh
          low.freezeLeaf.1.thawLeaf.1).leaf H.fresh = low.freezeLeaf.1.thawLeaf.1 := by simp [Hp.setLeaf]
        rw [this]; exact isl.refreeze) (by
        have : (((H2.setLeaf H.fresh low.freezeLeaf.1).deleteSelf id).setLeaf H.fresh
          low.freezeLeaf.1.thawLeaf.1).leaf (H.fresh + 1) = H2.leaf (H.fresh + 1) := by
          simp [Hp.setLeaf, Hp.deleteSelf]
        rw [this, l2hi]; exact ish) (by
        intro i h1 h2
        have : i ≠ H.fresh := by omega
        simp only [Hp.setLeaf, Hp.deleteSelf, if_neg this]
        exact l2 i h1 h2)
    obtain ⟨m1, m2, m3, m4, m5, m6⟩ := hbm
    have m7 : ltHi s em.1 := by
      cases s with
      | none => trivial
      | some z => exact m6
    have hfull : ∀ H' : Hp K V, H' = (H2.setLeaf H.fresh low.freezeLeaf.1).setLeaf (H.fresh + 1)
          ((H2.setLeaf H.fresh low.freezeLeaf.1).leaf (H.fresh + 1)).freezeLeaf.1 →
        ∃ F u, Full H lo hi k 0 n n H' ⟨s, em.1, H.fresh, H.fresh + 1, id, H.fresh, H.fresh + 1⟩ F u := by
      intro H' hH'
      obtain ⟨F, u, f1, f2, f3⟩ := length_snoc w hu hE hA em.1 H.fresh (H.fresh + 1)
      have hhi : (H2.setLeaf H.fresh low.freezeLeaf.1).leaf (H.fresh + 1) = hl := by
        rw [← l2hi]; simp [Hp.setLeaf]
      rw [hhi] at hH'
      subst hH'
      obtain ⟨z1, z2, z3, z4, _⟩ := common (commit ((H2.setLeaf H.fresh low.freezeLeaf.1).setLeaf (H.fresh + 1)
        hl.freezeLeaf.1) (id, H.fresh, H.fresh + 1)) rfl rfl rfl (by
          have : (commit ((H2.setLeaf H.fresh low.freezeLeaf.1).setLeaf (H.fresh + 1)
            hl.freezeLeaf.1) (id, H.fresh, H.fresh + 1)).leaf H.fresh = low.freezeLeaf.1.thawLeaf.1 := by
            simp [commit, Hp.setLeaf, Hp.deleteSelf]
          rw [this]; exact isl.refreeze) (by
          have : (commit ((H2.setLeaf H.fresh low.freezeLeaf.1).setLeaf (H.fresh + 1)
            hl.freezeLeaf.1) (id, H.fresh, H.fresh + 1)).leaf (H.fresh + 1) = hl.freezeLeaf.1.thawLeaf.1 := by
            simp [commit, Hp.setLeaf, Hp.deleteSelf]
          rw [this]; exact ish.refreeze) (by
          intro i h1 h2
          have h3 : i ≠ H.fresh := by omega
          have h4 : i ≠ H.fresh + 1 := by omega
          simp only [commit, Hp.setLeaf, Hp.deleteSelf, if_neg h3, if_neg h4]
          exact l2 i h1 h2)
      rw [f1] at z1 z2 z3 z4
      exact ⟨F, u, ⟨by rw [entryArray_eq w _ hE hA]; exact f1, f2, f3, z1, z2, z3, z4⟩⟩
    rcases ents_insert w hf hE (cov_true hcov0 id) m5 m7 H.fresh with ⟨kids, i1, i2, i3, i4⟩ | i1 | i1
    · left
      rw [i1]
      simp only []
      refine ⟨_, _, rfl, ?_⟩
      rw [heq4]
      have hA' : AllSome (A ++ [(some em.1, H.fresh)]) := by
        intro x hx
        rcases List.mem_append.1 hx with hx | hx
        · exact hA x hx
        · simp at hx; subst hx; rfl
      obtain ⟨s1, s2, s3, s4, s5⟩ := ents_set (n := { n with kids := kids }) i2
        (A := A ++ [(some em.1, H.fresh)]) (B := B) (s := s) (c := id) (by rw [i4]; simp) hA' (H.fresh + 1)
      rw [List.append_assoc, List.singleton_append] at s1
      refine ⟨⟨s2, by rw [s3]; exact i3, by rw [s4]; exact hd, s5 hu, by rw [s1]; exact m1⟩, ?_, ?_, ?_⟩
      · rw [cont_succ, s1, m2]
      · have hls := leaves_succ 0 ({ n with kids := kids }.set s (H.fresh + 1) : Nd K Nat)
        rw [s1] at hls
        exact hls ▸ m3
      · obtain ⟨A', s', c', B', y1, y2⟩ := m4
        exact ⟨A', s', c', B', by rw [s1]; exact y1, y2⟩
    · right
      rw [i1]
      simp only []
      obtain ⟨F, u, hfu⟩ := hfull _ rfl
      exact ⟨_, _, F, u, rfl, hfu⟩
    · right
      rw [i1]
      simp only []
      obtain ⟨F, u, hfu⟩ := hfull _ rfl
      exact ⟨_, _, F, u, rfl, hfu⟩

/-- The result of an insertion with enough rounds: it is over, or a split is prepared and the key is new. -/
def InsOk (H : Hp K V) (lo hi : Option K) (k : K) (v : V) (h : Nat) (n : Tr K (h + 1))
    (r : Tr K (h + 1) × Hp K V × Out K (Tr K h)) : Prop :=
  Done H lo hi k v h n r.1 r.2.1 r.2.2 ∨
    ∃ p F u, r.2.2 = .full p ∧ Full H lo hi k h n r.1 r.2.1 p F u

/-- A round of the leaf node that ends in the leaf. -/
theorem leaf_done {H : Hp K V} {lo hi : Option K} {n : Nd K Nat} {k : K} {v : V}
    (hw : WF H 1 lo hi n) (hlo : gtLo lo k) (hhi : leHi hi k)
    (hnd : (leaves 1 (n : Tr K 1)).Nodup) (hlt : ∀ i ∈ leaves 1 (n : Tr K 1), i < H.fresh)
    {A B : List (Option K × Nat)} {s : Option K} {id : Nat} (hat : At (ents n) k A s id B) {l : Leaf K V}
    (wl : WL l) (fl : frozen l.w = false) {o : Out K Nat}
    (hr : (get (H.leaf id).toList k = none ∧ o = .success ∧ l.toList = put (H.leaf id).toList k v) ∨
      ((get (H.leaf id).toList k).isSome = true ∧ o = .duplicate ∧ l.toList = (H.leaf id).toList)) :
    Done H lo hi k v 0 n n (H.setLeaf id l) o := by
  obtain ⟨w, hf, hd, hu, hcov⟩ := hw
  have hE := hat.eq
  rw [leaves_succ, hE] at hnd hlt
  have hcov0 := hcov
  rw [hE] at hcov0
  obtain ⟨c1, c2, cw, c4, c5⟩ := cov_focus.1 hcov0
  have hid : id < H.fresh := hlt id (List.mem_flatMap.2 ⟨(s, id), by simp, List.mem_singleton.2 rfl⟩)
  obtain ⟨g1, g2, g3, g4⟩ := sides_lt (h := 0) hcov0 hlo hhi (by rw [← hE]; exact hat)
  have hl : (H.setLeaf id l).leaf id = l := by simp [Hp.setLeaf]
  have e : Eff H (H.setLeaf id l) [id] [id] :=
    Eff.setLeaf (by simp) (by intro i hi; simp at hi; omega) (by simp) l
  have hwl : WF (H.setLeaf id l) 0 (endLo lo A) (s.or hi) id := by
    refine ⟨by rw [hl]; exact wl, by rw [hl]; exact fl, ?_⟩
    rw [hl]
    rcases hr with ⟨h1, _, h2⟩ | ⟨_, _, h2⟩
    · rw [h2]
      intro e he
      rcases (mem_put (get_none h1)).1 he with he | he
      · exact cw.2.2 e he
      · subst he; exact ⟨g3, g4⟩
    · rw [h2]; exact cw.2.2
  obtain ⟨r1, r2, r3⟩ := cov_replace (h := 0) hcov0 hnd hlt (c' := id) e hwl
  have hcont : cont H 1 (n : Tr K 1) = contE H 0 A ++ (H.leaf id).toList ++ contE H 0 B := by
    rw [cont_succ, hE, contE_append, contE_cons, cont_zero, List.append_assoc]
  refine ⟨⟨w, hf, hd, hu, by rw [hE]; exact r1⟩, by rw [leaves_succ, hE]; exact r3, ?_⟩
  rw [hcont, get_mid g1 g2, put_mid v g1 g2]
  have hcont' : cont (H.setLeaf id l) 1 (n : Tr K 1) = contE H 0 A ++ l.toList ++ contE H 0 B := by
    rw [cont_succ, hE, r2, cont_zero, hl]
  rw [hcont']
  rcases hr with ⟨h1, h2, h3⟩ | ⟨h1, h2, h3⟩
  · exact .inl ⟨h1, h2, by rw [h3]⟩
  · exact .inr ⟨h1, h2, by rw [h3]⟩

theorem insLeafNode_room {H : Hp K V} {lo hi : Option K} {n : Nd K Nat} {k : K} {v : V} {f : Nat}
    (hw : WF H 1 lo hi n) (hlo : gtLo lo k) (hhi : leHi hi k)
    (hnd : (leaves 1 (n : Tr K 1)).Nodup) (hlt : ∀ i ∈ leaves 1 (n : Tr K 1), i < H.fresh)
    (hroom : Room H 1 (n : Tr K 1) k) (f : Nat) :
    Done H lo hi k v 0 n (insLeafNode k v (f + 1) n H).1 (insLeafNode k v (f + 1) n H).2.1
      (insLeafNode k v (f + 1) n H).2.2 := by
  obtain ⟨A, s, id, B, hat, hret, hused⟩ := hroom
  have hloc := hat.locate hw.1 hw.2.2.2.1
  have hcov := hw.2.2.2.2
  rw [hat.eq] at hcov
  obtain ⟨wid, fid, bid⟩ := (cov_focus.1 hcov).2.2.1
  rw [insLeafNode]
  simp only [hloc]
  rcases wid.insert fid k v with ⟨h1, _⟩ | ⟨_, h1, l', h2, h3, h4, h5, _⟩ | ⟨_, h1, _, l', h2, h3, h4, h5, _⟩ |
    ⟨_, _, h1, _⟩
  · rw [hret] at h1; cases h1
  · rw [h2]
    exact leaf_done hw hlo hhi hnd hlt hat h3 h5 (.inr ⟨h1, rfl, h4⟩)
  · rw [h2]
    exact leaf_done hw hlo hhi hnd hlt hat h3 h5 (.inl ⟨h1, rfl, h4⟩)
  · exact absurd hused h1

theorem Done.after {H H1 H' : Hp K V} {lo hi : Option K} {k : K} {v : V} {h : Nat} {n n1 n' : Tr K (h + 1)}
    {o : Out K (Tr K h)} (hc : cont H1 (h + 1) n1 = cont H (h + 1) n)
    (e : Eff H H1 (leaves (h + 1) n) (leaves (h + 1) n1)) (d : Done H1 lo hi k v h n1 n' H' o) :
    Done H lo hi k v h n n' H' o :=
  ⟨d.wf, e.trans d.eff, by rw [← hc]; exact d.res⟩

theorem insLeafNode_spec {H : Hp K V} {lo hi : Option K} {n : Nd K Nat} {k : K} {v : V}
    (hw : WF H 1 lo hi n) (hlo : gtLo lo k) (hhi : leHi hi k)
    (hnd : (leaves 1 (n : Tr K 1)).Nodup) (hlt : ∀ i ∈ leaves 1 (n : Tr K 1), i < H.fresh) (f : Nat) :
    InsOk H lo hi k v 0 n (insLeafNode k v (f + 2) n H) := by
  obtain ⟨A, s, id, B, hat, hloc⟩ := locate_at hw.1 hw.2.2.2.1 k
  have hcov := hw.2.2.2.2
  rw [hat.eq] at hcov
  obtain ⟨wid, fid, bid⟩ := (cov_focus.1 hcov).2.2.1
  rw [insLeafNode]
  simp only [hloc]
  have split : InsOk H lo hi k v 0 n (match splitLeaf n (H.setLeaf id (H.leaf id)) s id with
      | (n', H', none) => insLeafNode k v (f + 1) n' H'
      | (n', H', some o) => (n', H', o)) := by
    rw [setLeaf_self]
    rcases splitLeaf_spec hw hnd hlt hat with ⟨n', H', h1, h2, h3, h4, h5⟩ | ⟨H', p, F, u, h1, h2⟩
    · rw [h1]
      left
      exact (insLeafNode_room (f := f) h2 hlo hhi h4.nodup h4.lt h5 f).after h3 h4
    · rw [h1]
      exact .inr ⟨p, F, u, rfl, h2⟩
  rcases wid.insert fid k v with ⟨h1, h2⟩ | ⟨_, h1, l', h2, h3, h4, h5, _⟩ | ⟨_, h1, _, l', h2, h3, h4, h5, _⟩ |
    ⟨_, h1, _, h2⟩
  · rw [h2]; exact split
  · rw [h2]
    exact .inl (leaf_done hw hlo hhi hnd hlt hat h3 h5 (.inr ⟨h1, rfl, h4⟩))
  · rw [h2]
    exact .inl (leaf_done hw hlo hhi hnd hlt hat h3 h5 (.inl ⟨h1, rfl, h4⟩))
  · rw [h2]; exact split

/-- The child is done, and so is the node. -/
theorem node_done {H H' : Hp K V} {lo hi : Option K} {h : Nat} {n : Tr K (h + 2)} {k : K} {v : V}
    (hw : WF H (h + 2) lo hi n) (hlo : gtLo lo k) (hhi : leHi hi k)
    (hnd : (leaves (h + 2) n).Nodup) (hlt : ∀ i ∈ leaves (h + 2) n, i < H.fresh)
    {A B : List (Option K × Tr K (h + 1))} {s : Option K} {c c' : Tr K (h + 1)} (hat : At (ents n) k A s c B)
    {o : Out K (Tr K h)} (hd : Done H (endLo lo A) (s.or hi) k v h c c' H' o) {o' : Out K (Tr K (h + 1))}
    (ho : (o = .success → o' = .success) ∧ (o = .duplicate → o' = .duplicate)) :
    Done H lo hi k v (h + 1) n (n.set s c') H' o' := by
  obtain ⟨w, hf, hdd, hu, hcov⟩ := hw
  have hE := hat.eq
  have hA := hat.before.some
  rw [leaves_succ, hE] at hnd hlt
  rw [hE] at hcov
  obtain ⟨g1, g2, g3, g4⟩ := sides_lt hcov hlo hhi (by rw [← hE]; exact hat)
  obtain ⟨r1, r2, r3⟩ := cov_replace hcov hnd hlt hd.eff hd.wf
  obtain ⟨s1, s2, s3, s4, s5⟩ := ents_set w hE hA c'
  refine ⟨⟨s2, by rw [s3]; exact hf, by rw [s4]; exact hdd, s5 hu, by rw [s1]; exact r1⟩, ?_, ?_⟩
  · rw [leaves_succ, leaves_succ (h + 1) (n.set s c'), s1, hE]; exact r3
  · have hcont : cont H (h + 2) n = contE H (h + 1) A ++ cont H (h + 1) c ++ contE H (h + 1) B := by
      rw [cont_succ, hE, contE_append, contE_cons, List.append_assoc]
    have hcont' : cont H' (h + 2) (n.set s c') =
        contE H (h + 1) A ++ cont H' (h + 1) c' ++ contE H (h + 1) B := by
      rw [cont_succ (H := H') (h + 1) (n.set s c'), s1, r2]
    rw [hcont, hcont', get_mid g1 g2, put_mid v g1 g2]
    rcases hd.res with ⟨h1, h2, h3⟩ | ⟨h1, h2, h3⟩
    · exact .inl ⟨h1, ho.1 h2, by rw [h3]⟩
    · exact .inr ⟨h1, ho.2 h2, by rw [h3]⟩

/-- The child is full: it is split, or the node is full as well. -/
theorem splitNode_spec {H H' : Hp K V} {lo hi : Option K} {h : Nat} {n : Tr K (h + 2)} {k : K}
    (hw : WF H (h + 2) lo hi n)
    (hnd : (leaves (h + 2) n).Nodup) (hlt : ∀ i ∈ leaves (h + 2) n, i < H.fresh)
    {A B : List (Option K × Tr K (h + 1))} {s : Option K} {c c' : Tr K (h + 1)} (hat : At (ents n) k A s c B)
    {p : SplitOp K (Tr K h)} {F : List (Option K × Tr K h)} {u : Tr K h}
    (hfu : Full H (endLo lo A) (s.or hi) k h c c' H' p F u) :
    (∃ n'', splitNode (n.set s c') H' s c' p = (n'', commit H' p.leaves, none) ∧
      WF (commit H' p.leaves) (h + 2) lo hi n'' ∧
      cont (commit H' p.leaves) (h + 2) n'' = cont H (h + 2) n ∧
      Eff H (commit H' p.leaves) (leaves (h + 2) n) (leaves (h + 2) n'') ∧
      Room (commit H' p.leaves) (h + 2) n'' k) ∨
    (∃ p' F' u', splitNode (n.set s c') H' s c' p = (n.set s c', H', some (.full p')) ∧
      Full H lo hi k (h + 1) n (n.set s c') H' p' F' u') := by
  obtain ⟨w, hf, hdd, hu, hcov⟩ := hw
  have hE := hat.eq
  have hA := hat.before.some
  rw [leaves_succ, hE] at hnd hlt
  rw [hE] at hcov
  obtain ⟨l, m, mid, t1, t2, t3, t4, t5, t6, t7, t8⟩ :=
    splitNd_spec hfu.arr hfu.len1 hfu.len2 hfu.cov hfu.room
  obtain ⟨s1, s2, s3, s4, s5⟩ := ents_set w hE hA c'
  have e : Eff H (commit H' p.leaves) (leaves (h + 1) c) (leaves (h + 1) l ++ leaves (h + 1) m) := by
    rw [t6]; exact hfu.eff
  obtain ⟨r1, r2, r3⟩ := cov_split2 hcov hnd hlt e t2 t3 t4 t5
  have hcm : cont (commit H' p.leaves) (h + 1) l ++ cont (commit H' p.leaves) (h + 1) m = cont H (h + 1) c := by
    rw [← hfu.cont, contE_eq, ← t6, List.flatMap_append]; rfl
  have r2' : contE (commit H' p.leaves) (h + 1) (A ++ (some mid, l) :: (s, m) :: B) = cont H (h + 2) n := by
    rw [r2, hcm, cont_succ H (h + 1) n, hE, contE_append, contE_cons, List.append_assoc]
  have r3' : Eff H (commit H' p.leaves) (leaves (h + 2) n)
      (leavesE (h + 1) (A ++ (some mid, l) :: (s, m) :: B)) := by
    rw [leaves_succ, hE]; exact r3
  have hroom := roomE_split2 (H := commit H' p.leaves) hat t7 t8
  have t5' : ltHi s mid := by
    cases s with
    | none => trivial
    | some z => exact t5
  have hfull : ∃ F' u', Full H lo hi k (h + 1) n (n.set s c') H' ⟨s, mid, l, m, p.leaves⟩ F' u' := by
    obtain ⟨F', u', f1, f2, f3⟩ := length_snoc s2 (s5 hu) s1 hA mid l m
    rw [f1] at r1 r2' r3' hroom
    exact ⟨F', u', by rw [entryArray_eq s2 _ s1 hA]; exact f1, f2, f3, r1, r2', r3', hroom⟩
  unfold splitNode
  rw [t1]
  simp only []
  rcases ents_insert s2 (by rw [s3]; exact hf) s1 (cov_true hcov c') t4 t5' l with
    ⟨kids, i1, i2, i3, i4⟩ | i1 | i1
  · left
    rw [i1]
    refine ⟨_, rfl, ?_⟩
    have hA' : AllSome (A ++ [(some mid, l)]) := by
      intro x hx
      rcases List.mem_append.1 hx with hx | hx
      · exact hA x hx
      · simp at hx; subst hx; rfl
    obtain ⟨v1, v2, v3, v4, v5⟩ := ents_set (n := { n.set s c' with kids := kids }) i2
      (A := A ++ [(some mid, l)]) (B := B) (s := s) (c := c') (by rw [i4]; simp) hA' m
    rw [List.append_assoc, List.singleton_append] at v1
    refine ⟨⟨v2, by rw [v3]; exact i3, by rw [v4]; exact s4.trans hdd, v5 (s5 hu), by rw [v1]; exact r1⟩,
      ?_, ?_, ?_⟩
    · have hcs := cont_succ (commit H' p.leaves) (h + 1) (({ n.set s c' with kids := kids } : Nd K (Tr K (h + 1))).set s m)
      rw [v1, r2'] at hcs
      exact hcs
    · have hls := leaves_succ (h + 1) (({ n.set s c' with kids := kids } : Nd K (Tr K (h + 1))).set s m)
      rw [v1] at hls
      exact hls ▸ r3'
    · obtain ⟨A', s', c', B', y1, y2⟩ := hroom
      exact ⟨A', s', c', B', by rw [v1]; exact y1, y2⟩
  · right
    rw [i1]
    obtain ⟨F', u', hfu'⟩ := hfull
    exact ⟨_, F', u', rfl, hfu'⟩
  · right
    rw [i1]
    obtain ⟨F', u', hfu'⟩ := hfull
    exact ⟨_, F', u', rfl, hfu'⟩

/-- Insertion into a node of any height. -/
theorem insTr_spec (k : K) (v : V) (f : Nat) (h : Nat) : ∀ (H : Hp K V) (lo hi : Option K) (n : Tr K (h + 1)),
    WF H (h + 1) lo hi n → gtLo lo k → leHi hi k → (leaves (h + 1) n).Nodup →
    (∀ i ∈ leaves (h + 1) n, i < H.fresh) →
    InsOk H lo hi k v h n (insTr (f + 2) k v h n H) ∧
    (Room H (h + 1) n k → Done H lo hi k v h n (insTr (f + 2) k v h n H).1 (insTr (f + 2) k v h n H).2.1
      (insTr (f + 2) k v h n H).2.2) := by
  induction h with
  | zero =>
    intro H lo hi n hw hlo hhi hnd hlt
    exact ⟨insLeafNode_spec hw hlo hhi hnd hlt f, fun hr => insLeafNode_room (f := f + 1) hw hlo hhi hnd hlt hr (f + 1)⟩
  | succ h ih =>
    -- a round that finds room
    have round : ∀ (g : Nat) (H : Hp K V) (lo hi : Option K) (n : Tr K (h + 2)),
        WF H (h + 2) lo hi n → gtLo lo k → leHi hi k → (leaves (h + 2) n).Nodup →
        (∀ i ∈ leaves (h + 2) n, i < H.fresh) → Room H (h + 2) n k →
        Done H lo hi k v (h + 1) n (insNode (insTr (f + 2) k v h) k (g + 1) n H).1
          (insNode (insTr (f + 2) k v h) k (g + 1) n H).2.1 (insNode (insTr (f + 2) k v h) k (g + 1) n H).2.2 := by
      intro g H lo hi n hw hlo hhi hnd hlt hroom
      obtain ⟨A, s, c, B, hat, hr⟩ := hroom
      have hloc := hat.locate hw.1 hw.2.2.2.1
      have hcov := hw.2.2.2.2
      have hnd' := hnd
      have hlt' := hlt
      rw [leaves_succ, hat.eq] at hnd' hlt'
      rw [leavesE_append, leavesE_cons] at hnd' hlt'
      rw [hat.eq] at hcov
      obtain ⟨g1, g2, g3, g4⟩ := sides_lt hcov hlo hhi (by rw [← hat.eq]; exact hat)
      have hcw := (cov_focus.1 hcov).2.2.1
      have hnd2 : (leaves (h + 1) c).Nodup := (List.nodup_append.1 (List.nodup_append.1 hnd').2.1).1
      have hlt2 : ∀ i ∈ leaves (h + 1) c, i < H.fresh := fun i hi => hlt' i (by simp [hi])
      have hdone := (ih H _ _ c hcw g3 g4 hnd2 hlt2).2 hr
      rw [insNode]
      simp only [hloc]
      rcases hx : insTr (f + 2) k v h c H with ⟨c', H', o⟩
      rw [hx] at hdone
      simp only [] at hdone
      rcases hdone.res with ⟨_, ho, _⟩ | ⟨_, ho, _⟩
      · subst ho
        exact node_done hw hlo hhi hnd hlt hat hdone ⟨fun _ => rfl, fun h => (by cases h)⟩
      · subst ho
        exact node_done hw hlo hhi hnd hlt hat hdone ⟨fun h => (by cases h), fun _ => rfl⟩
    intro H lo hi n hw hlo hhi hnd hlt
    refine ⟨?_, fun hr => round (f + 1) H lo hi n hw hlo hhi hnd hlt hr⟩
    obtain ⟨A, s, c, B, hat, hloc⟩ := locate_at hw.1 hw.2.2.2.1 k
    have hcov := hw.2.2.2.2
    have hnd' := hnd
    have hlt' := hlt
    rw [leaves_succ, hat.eq] at hnd' hlt'
    rw [leavesE_append, leavesE_cons] at hnd' hlt'
    rw [hat.eq] at hcov
    obtain ⟨g1, g2, g3, g4⟩ := sides_lt hcov hlo hhi (by rw [← hat.eq]; exact hat)
    have hcw := (cov_focus.1 hcov).2.2.1
    have hnd2 : (leaves (h + 1) c).Nodup := (List.nodup_append.1 (List.nodup_append.1 hnd').2.1).1
    have hlt2 : ∀ i ∈ leaves (h + 1) c, i < H.fresh := fun i hi => hlt' i (by simp [hi])
    have hins := (ih H _ _ c hcw g3 g4 hnd2 hlt2).1
    show InsOk H lo hi k v (h + 1) n (insNode (insTr (f + 2) k v h) k (f + 2) n H)
    rw [insNode]
    simp only [hloc]
    rcases hx : insTr (f + 2) k v h c H with ⟨c', H', o⟩
    rw [hx] at hins
    rcases hins with hdone | ⟨p, F, u, hp, hfu⟩
    · simp only [] at hdone
      left
      rcases hdone.res with ⟨_, ho, _⟩ | ⟨_, ho, _⟩
      · subst ho
        exact node_done hw hlo hhi hnd hlt hat hdone ⟨fun _ => rfl, fun h => (by cases h)⟩
      · subst ho
        exact node_done hw hlo hhi hnd hlt hat hdone ⟨fun h => (by cases h), fun _ => rfl⟩
    · simp only [] at hp hfu
      subst hp
      simp only []
      rcases splitNode_spec hw hnd hlt hat hfu with ⟨n'', h1, h2, h3, h4, h5⟩ | ⟨p', F', u', h1, h2⟩
      · rw [h1]
        left
        exact (round f _ _ _ n'' h2 hlo hhi h4.nodup h4.lt h5).after h3 h4
      · rw [h1]
        exact .inr ⟨p', F', u', rfl, h2⟩

end Scc.Tree
