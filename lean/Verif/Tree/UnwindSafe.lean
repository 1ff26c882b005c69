import Verif.Tree.Unwind
import Verif.Tree.Props

/-!
# What panics in user code do not break

A call that is left by a panic at one of the places of `Verif/Tree/Unwind.lean`, other than those of `late`,
leaves a tree at rest with the same entries.
-/

set_option linter.unusedSimpArgs false
set_option linter.unusedSectionVars false
set_option linter.unusedVariables false

namespace Scc.Tree

open Scc.Leaf Scc.Leaf.Spec Spec

variable {K V C : Type} [KeyOrd K]

/-! ## Leaves -/

/-- Nobody waits for reserved slots any more. -/
theorem _root_.Scc.Leaf.Ok.abandon {l : Leaf K V} {P : Nat → Bool} (o : Ok l P) : Ok l (fun _ => false) := by
  refine ⟨o.ord, ?_, fun _ h => (by cases h), o.ret⟩
  intro i hi hr
  refine Nat.le_trans (o.bound i hi hr) (cnt_mono ?_)
  intro j hj
  simp only [Bool.and_eq_true, Bool.not_false, and_true]
  exact fun h => h.1

theorem WL.burn {l : Leaf K V} (w : WL l) (k : K) (v : V) :
    WL (l.burn k v) ∧ (l.burn k v).toList = l.toList ∧ frozen (l.burn k v).w = frozen l.w ∧
    Scc.Leaf.retired (l.burn k v).w = Scc.Leaf.retired l.w := by
  unfold Leaf.burn
  split
  · exact ⟨w, rfl, rfl, rfl⟩
  · split
    · exact ⟨w, rfl, rfl, rfl⟩
    · split
      · rename_i i hs
        obtain ⟨hi, h0⟩ := freeSlot_some hs
        obtain ⟨o1, hR⟩ := w.rel.ok.reserve hi h0
        have o2 := (o1.write (i := i) (by simp) k v).abandon
        have h16 : removed < 16 := by decide
        have hmem : ∀ e, e ∈ l.toList ↔ Scc.Leaf.Holds (({ l with w := augment l.w i removed } : Leaf K V).write i k v) e := by
          intro e
          rw [w.rel.mem e]
          constructor
          · rintro ⟨j, hj, hr, he⟩
            refine ⟨j, hj, (hR j hj).2 hr, ?_⟩
            have : j ≠ i := by intro e; subst e; have := hr.1; omega
            simp only [Leaf.write, if_neg this]; exact he
          · rintro ⟨j, hj, hr, he⟩
            have hr' := (hR j hj).1 hr
            refine ⟨j, hj, hr', ?_⟩
            have : j ≠ i := by intro e; subst e; have := hr'.1; omega
            simp only [Leaf.write, if_neg this] at he; exact he
        have r : Rel (({ l with w := augment l.w i removed } : Leaf K V).write i k v)
            { xs := l.toList, used := Scc.Leaf.used (augment l.w i removed), frozen := frozen l.w,
              retired := Scc.Leaf.retired l.w } :=
          ⟨o2, w.rel.sorted, hmem, rfl, (frozen_augment _ hi h16).symm, (retired_augment _ hi h16).symm⟩
        obtain ⟨a, b, _, c, d⟩ := wl_of_rel r
        exact ⟨a, b, c, d⟩
      · exact ⟨w, rfl, rfl, rfl⟩

/-! ## Nodes -/

theorem kept_refl {H : Hp K V} {lo hi : Option K} {h : Nat} {n : Tr K (h + 1)} (hw : WF H (h + 1) lo hi n)
    (hnd : (leaves (h + 1) n).Nodup) (hlt : ∀ i ∈ leaves (h + 1) n, i < H.fresh) :
    Kept H lo hi h n n H (cont H (h + 1) n) := ⟨hw, rfl, Eff.refl hnd hlt⟩

theorem kept_after {H H1 H2 : Hp K V} {lo hi : Option K} {h : Nat} {n n1 n2 : Tr K (h + 1)}
    (hc : cont H1 (h + 1) n1 = cont H (h + 1) n) (e : Eff H H1 (leaves (h + 1) n) (leaves (h + 1) n1))
    (d : Kept H1 lo hi h n1 n2 H2 (cont H1 (h + 1) n1)) : Kept H lo hi h n n2 H2 (cont H (h + 1) n) :=
  ⟨d.wf, by rw [d.cont, hc], e.trans d.eff⟩

/-- The entries of one leaf of a leaf node stay as they are. -/
theorem leaf_same {H H' : Hp K V} {lo hi : Option K} {n : Nd K Nat}
    (hw : WF H 1 lo hi n)
    (hnd : (leaves 1 (n : Tr K 1)).Nodup) (hlt : ∀ i ∈ leaves 1 (n : Tr K 1), i < H.fresh)
    {A B : List (Option K × Nat)} {s : Option K} {id : Nat} (hE : ents n = A ++ (s, id) :: B)
    (e : Eff H H' [id] [id]) (wl : WL (H'.leaf id)) (fl : frozen (H'.leaf id).w = false)
    (hl : (H'.leaf id).toList = (H.leaf id).toList) :
    Kept H lo hi 0 (n : Tr K 1) (n : Tr K 1) H' (cont H 1 (n : Tr K 1)) := by
  obtain ⟨w, hf, hd, hu, hcov⟩ := hw
  rw [leaves_succ, hE] at hnd hlt
  have hcov0 := hcov
  rw [hE] at hcov0
  have hwl : WF H' 0 (endLo lo A) (s.or hi) id :=
    ⟨wl, fl, by rw [hl]; exact (cov_focus.1 hcov0).2.2.1.2.2⟩
  obtain ⟨r1, r2, r3⟩ := cov_replace (h := 0) hcov0 hnd hlt (c' := id) e hwl
  refine ⟨⟨w, hf, hd, hu, by rw [hE]; exact r1⟩, ?_, by rw [leaves_succ, hE]; exact r3⟩
  rw [cont_succ, cont_succ, hE, r2, contE_append, contE_cons, cont_zero, cont_zero, hl, List.append_assoc]

/-- The entries of one child stay as they are. -/
theorem node_same {H H' : Hp K V} {lo hi : Option K} {h : Nat} {n : Tr K (h + 2)}
    (hw : WF H (h + 2) lo hi n)
    (hnd : (leaves (h + 2) n).Nodup) (hlt : ∀ i ∈ leaves (h + 2) n, i < H.fresh)
    {A B : List (Option K × Tr K (h + 1))} {s : Option K} {c c' : Tr K (h + 1)}
    (hE : ents n = A ++ (s, c) :: B) (hA : AllSome A)
    (hd : Kept H (endLo lo A) (s.or hi) h c c' H' (cont H (h + 1) c)) :
    Kept H lo hi (h + 1) n (n.set s c') H' (cont H (h + 2) n) := by
  obtain ⟨w, hf, hdd, hu, hcov⟩ := hw
  rw [leaves_succ, hE] at hnd hlt
  rw [hE] at hcov
  obtain ⟨r1, r2, r3⟩ := cov_replace hcov hnd hlt hd.eff hd.wf
  obtain ⟨s1, s2, s3, s4, s5⟩ := ents_set w hE hA c'
  refine ⟨⟨s2, by rw [s3]; exact hf, by rw [s4]; exact hdd, s5 hu, by rw [s1]; exact r1⟩, ?_, ?_⟩
  · rw [cont_succ (H := H') (h + 1) (n.set s c'), s1, r2, hd.cont, cont_succ H (h + 1) n, hE, contE_append,
      contE_cons, List.append_assoc]
  · rw [leaves_succ, leaves_succ (h + 1) (n.set s c'), s1, hE]; exact r3

/-- A slot of the array of children is lost. -/
theorem Kept.burn {H H' : Hp K V} {lo hi : Option K} {h : Nat} {n n' : Tr K (h + 1)} {xs : List (K × V)}
    (d : Kept H lo hi h n n' H' xs) (k : K) (c : Tr K h) :
    Kept H lo hi h n ({ n' with kids := n'.kids.burn k c } : Nd K (Tr K h)) H' xs := by
  obtain ⟨⟨w, hf, hd, hu, hcov⟩, hc, he⟩ := d
  obtain ⟨b1, b2, b3, b4⟩ := w.burn k c
  have hE : ents ({ n' with kids := n'.kids.burn k c } : Nd K (Tr K h)) = ents (n' : Nd K (Tr K h)) := by
    unfold ents; simp only []; rw [b2]
  have hL : leaves (h + 1) ({ n' with kids := n'.kids.burn k c } : Nd K (Tr K h)) = leaves (h + 1) n' := by
    rw [leaves_succ, leaves_succ h n', hE]
  refine ⟨⟨b1, by rw [b3]; exact hf, hd, hu, by rw [hE]; exact hcov⟩, ?_, by rw [hL]; exact he⟩
  rw [← hc]; unfold Scc.Tree.cont; rw [hL]

/-! ## Rolling a split back -/

theorem live_congr {H H' : Hp K V} {G : List Nat} (h : ∀ i ∈ G, H'.del i = H.del i) : live H' G = live H G := by
  unfold live
  apply List.filter_congr
  intro i hi; rw [h i hi]

/-- Two new leaves are linked behind the leaf `a` and deleted again. -/
theorem Eff.rolled {H H' : Hp K V} {a : Nat} (ha : a < H.fresh) (l m x : Leaf K V)
    (hn : H'.next = (((((H.setLeaf a x).alloc l).alloc m).pushBack a (H.fresh + 1)).pushBack a H.fresh).next)
    (hd : H'.del = (((((((H.setLeaf a x).alloc l).alloc m).pushBack a (H.fresh + 1)).pushBack a H.fresh).deleteSelf
      (H.fresh + 1)).deleteSelf H.fresh).del)
    (hfr : H'.fresh = H.fresh + 2) (hl : ∀ i, i < H.fresh → i ≠ a → H'.leaf i = H.leaf i) :
    Eff H H' [a] [a] := by
  refine ⟨by omega, fun i h1 h2 => hl i h1 (by simpa using h2), fun i h => .inl h, fun i h => ?_, by simp, ?_⟩
  · simp at h; omega
  · rintro pre post ⟨G, g, h⟩
    rw [List.append_assoc] at h
    obtain ⟨X, Y, h1, h2, h3, h4⟩ := live_split h
    subst h1
    have g1 := ((g.setLeaf a x).alloc l).alloc m
    have hnot : H.fresh ∉ X ++ a :: Y := fun h => Nat.lt_irrefl _ (g.lt _ h)
    have hnot1 : H.fresh + 1 ∉ X ++ a :: Y := fun h => by have := g.lt _ h; omega
    have g2 := g1.push (b := H.fresh + 1) (Nat.lt_succ_self _) hnot1 h4
    have g3 := g2.push (b := H.fresh) (show H.fresh < H.fresh + 1 + 1 by omega) (by
      intro h
      simp only [List.mem_append, List.mem_cons] at h hnot
      rcases h with h | h | h | h
      · exact hnot (.inl h)
      · exact hnot (.inr (.inl h))
      · omega
      · exact hnot (.inr (.inr h))) h4
    have g4 := (g3.delete (a := H.fresh + 1) (show H.fresh + 1 < H.fresh + 1 + 1 by omega)).delete
      (a := H.fresh) (show H.fresh < H.fresh + 1 + 1 by omega)
    have g5 : LinkG H' (X ++ a :: H.fresh :: (H.fresh + 1) :: Y) := by
      obtain ⟨q1, q2, q3, q4, q5⟩ := g4
      refine ⟨q1, ?_, ?_, ?_, ?_⟩
      · intro i hi; rw [hfr]; exact q2 i hi
      · exact (chainTo_congr (fun i _ => by rw [hn]; rfl)).2 q3
      · intro i hi; rw [hd]; exact q4 i (by rw [hfr] at hi; exact hi)
      · intro i hi; rw [hn]; exact q5 i (by rw [hfr] at hi; exact hi)
    refine ⟨_, g5, ?_⟩
    have hdel : ∀ i, i ∈ X ++ a :: Y → H'.del i = H.del i := by
      intro i hi
      have := g.lt i hi
      have e1 : i ≠ H.fresh := by omega
      have e2 : i ≠ H.fresh + 1 := by omega
      rw [hd]
      simp [Hp.deleteSelf, Hp.pushBack, Hp.alloc, Hp.setLeaf, e1, e2]
    have d1 : H'.del H.fresh = true := by rw [hd]; simp [Hp.deleteSelf]
    have d2 : H'.del (H.fresh + 1) = true := by rw [hd]; simp [Hp.deleteSelf]
    have hX : live H' X = live H X := live_congr (fun i hi => hdel i (by simp [hi]))
    have hY : live H' Y = live H Y := live_congr (fun i hi => hdel i (by simp [hi]))
    have hda : H'.del a = false := by rw [hdel a (by simp)]; exact h4
    unfold live at *
    rw [List.filter_append, List.filter_cons, List.filter_cons, List.filter_cons]
    simp only [hda, d1, d2, Bool.not_false, Bool.not_true, if_true, if_neg (show ¬ (false = true) by simp)]
    rw [hX, hY, h2, h3]; simp

/-- A split of a leaf that waits for the node above is undone. -/
theorem splitLeaf_rollback {H H' : Hp K V} {lo hi : Option K} {n n' : Nd K Nat}
    (hw : WF H 1 lo hi n) (hnd : (leaves 1 (n : Tr K 1)).Nodup) (hlt : ∀ i ∈ leaves 1 (n : Tr K 1), i < H.fresh)
    {A B : List (Option K × Nat)} {s : Option K} {id : Nat} (hE : ents n = A ++ (s, id) :: B)
    {p : SplitOp K Nat} (hs : splitLeaf n H s id = (n', H', some (.full p))) :
    Kept H lo hi 0 (n : Tr K 1) (n' : Tr K 1) (rollback H' p.leaves) (cont H 1 (n : Tr K 1)) := by
  have hcov := hw.2.2.2.2
  rw [hE] at hcov
  obtain ⟨wid, fid, bid⟩ := (cov_focus.1 hcov).2.2.1
  have hid : id < H.fresh := by
    apply hlt; rw [leaves_succ, hE]
    exact List.mem_flatMap.2 ⟨(s, id), by simp, List.mem_singleton.2 rfl⟩
  have main : ∀ low high : Leaf K V, ∀ q : SplitOp K Nat, q.leaves = (id, H.fresh, H.fresh + 1) →
      ∀ H2, H2 = ((((H.setLeaf id (H.leaf id).freezeAndDistribute.1).alloc low).alloc high).pushBack id
        (H.fresh + 1)).pushBack id H.fresh → ∀ a b,
      Kept H lo hi 0 (n : Tr K 1) (n : Tr K 1)
        (rollback ((H2.setLeaf H.fresh a).setLeaf (H.fresh + 1) b) q.leaves) (cont H 1 (n : Tr K 1)) := by
    intro low high q hq H2 h2 a b
    rw [hq]
    have hleaf : (rollback ((H2.setLeaf H.fresh a).setLeaf (H.fresh + 1) b) (id, H.fresh, H.fresh + 1)).leaf id =
        (H.leaf id).freezeAndDistribute.1.thawLeaf.1 := by
      have e1 : id ≠ H.fresh := by omega
      have e2 : id ≠ H.fresh + 1 := by omega
      subst h2
      simp [rollback, Hp.setLeaf, Hp.deleteSelf, Hp.pushBack, Hp.alloc, e1, e2]
    have wf1 : WL (H.leaf id).freezeAndDistribute.1 ∧
        (H.leaf id).freezeAndDistribute.1.toList = (H.leaf id).toList := by
      obtain ⟨a, b, c, _, e⟩ := wl_of_rel (freeze_rel wid.rel)
      exact ⟨a, b⟩
    obtain ⟨t1, t2, _, t3, _⟩ := wf1.1.thaw
    refine leaf_same hw hnd hlt hE ?_ (by rw [hleaf]; exact t1) (by rw [hleaf]; exact t3)
      (by rw [hleaf, t2, wf1.2])
    refine Eff.rolled hid low high (H.leaf id).freezeAndDistribute.1 ?_ ?_ ?_ ?_
    · subst h2; rfl
    · subst h2; rfl
    · subst h2; rfl
    · intro i h1 h3
      have e1 : i ≠ H.fresh := by omega
      have e2 : i ≠ H.fresh + 1 := by omega
      subst h2
      simp [rollback, Hp.setLeaf, Hp.deleteSelf, Hp.pushBack, Hp.alloc, e1, e2, h3]
  unfold splitLeaf at hs
  rw [if_neg (by rw [hw.2.2.1]; simp)] at hs
  simp only [] at hs
  split at hs
  · split at hs
    · simp at hs
    · split at hs
      · simp at hs
      · simp only [Prod.mk.injEq, Option.some.injEq, Out.full.injEq] at hs
        obtain ⟨rfl, rfl, rfl⟩ := hs
        exact main _ _ _ rfl _ rfl _ _
      · simp only [Prod.mk.injEq, Option.some.injEq, Out.full.injEq] at hs
        obtain ⟨rfl, rfl, rfl⟩ := hs
        exact main _ _ _ rfl _ rfl _ _
      · simp at hs
      · simp at hs
  · simp at hs

theorem splitNode_leaves {n n' : Nd K (Nd K C)} {H H' : Hp K V} {s : Option K} {c : Nd K C} {p : SplitOp K C}
    {q : SplitOp K (Nd K C)} (h : splitNode n H s c p = (n', H', some (.full q))) : q.leaves = p.leaves := by
  unfold splitNode at h
  split at h
  · split at h
    · simp at h
    · simp only [Prod.mk.injEq, Option.some.injEq, Out.full.injEq] at h
      obtain ⟨_, _, rfl⟩ := h; rfl
    · simp only [Prod.mk.injEq, Option.some.injEq, Out.full.injEq] at h
      obtain ⟨_, _, rfl⟩ := h; rfl
    · simp at h
    · simp at h
  · simp at h

/-- What is known about the child that a key leads to. -/
theorem child_of {H : Hp K V} {lo hi : Option K} {h : Nat} {n : Tr K (h + 2)} {k : K}
    (hw : WF H (h + 2) lo hi n) (hlo : gtLo lo k) (hhi : leHi hi k) (hnd : (leaves (h + 2) n).Nodup)
    (hlt : ∀ i ∈ leaves (h + 2) n, i < H.fresh) {A B : List (Option K × Tr K (h + 1))} {s : Option K}
    {c : Tr K (h + 1)} (hat : At (ents n) k A s c B) :
    WF H (h + 1) (endLo lo A) (s.or hi) c ∧ gtLo (endLo lo A) k ∧ leHi (s.or hi) k ∧
    (leaves (h + 1) c).Nodup ∧ ∀ i ∈ leaves (h + 1) c, i < H.fresh := by
  have hcov := hw.2.2.2.2
  rw [leaves_succ, hat.eq] at hnd hlt
  rw [leavesE_append, leavesE_cons] at hnd hlt
  rw [hat.eq] at hcov
  obtain ⟨g1, g2, g3, g4⟩ := sides_lt hcov hlo hhi (by rw [← hat.eq]; exact hat)
  exact ⟨(cov_focus.1 hcov).2.2.1, g3, g4, (List.nodup_append.1 (List.nodup_append.1 hnd).2.1).1,
    fun i hi => hlt i (by simp [hi])⟩

/-- A round of an internal node that finds room. -/
theorem insNode_room {k : K} {v : V} {f g h : Nat} {H : Hp K V} {lo hi : Option K} {n : Tr K (h + 2)}
    (hw : WF H (h + 2) lo hi n) (hlo : gtLo lo k) (hhi : leHi hi k) (hnd : (leaves (h + 2) n).Nodup)
    (hlt : ∀ i ∈ leaves (h + 2) n, i < H.fresh) (hroom : Room H (h + 2) n k) :
    Done H lo hi k v (h + 1) n (insNode (insTr (f + 2) k v h) k (g + 1) n H).1
      (insNode (insTr (f + 2) k v h) k (g + 1) n H).2.1 (insNode (insTr (f + 2) k v h) k (g + 1) n H).2.2 := by
  obtain ⟨A, s, c, B, hat, hr⟩ := hroom
  have hloc := hat.locate hw.1 hw.2.2.2.1
  obtain ⟨hcw, g3, g4, hnd2, hlt2⟩ := child_of hw hlo hhi hnd hlt hat
  have hdone := (insTr_spec k v f h H _ _ c hcw g3 g4 hnd2 hlt2).2 hr
  rw [insNode]
  simp only [hloc]
  rcases hx : insTr (f + 2) k v h c H with ⟨c', H', o⟩
  rw [hx] at hdone
  simp only [] at hdone
  rcases hdone.res with ⟨_, ho, _⟩ | ⟨_, ho, _⟩
  · subst ho
    exact node_done hw hlo hhi hnd hlt hat hdone ⟨fun _ => rfl, fun h => (by cases h)⟩
  · subst ho
    exact node_done hw hlo hhi hnd hlt hat hdone ⟨fun h => (by cases h), fun _ => rfl⟩

theorem Done.not_full {H H' : Hp K V} {lo hi : Option K} {k : K} {v : V} {h : Nat} {n n' : Tr K (h + 1)}
    {p : SplitOp K (Tr K h)} (d : Done H lo hi k v h n n' H' (.full p)) : False := by
  rcases d.res with ⟨_, h, _⟩ | ⟨_, h, _⟩ <;> cases h

/-- An insertion that finds a node without room is undone. -/
theorem insTr_rollback (k : K) (v : V) (f : Nat) (h : Nat) : ∀ (H : Hp K V) (lo hi : Option K) (n : Tr K (h + 1)),
    WF H (h + 1) lo hi n → gtLo lo k → leHi hi k → (leaves (h + 1) n).Nodup →
    (∀ i ∈ leaves (h + 1) n, i < H.fresh) → ∀ n' H' p, insTr (f + 2) k v h n H = (n', H', .full p) →
    Kept H lo hi h n n' (rollback H' p.leaves) (cont H (h + 1) n) := by
  induction h with
  | zero =>
    intro H lo hi n hw hlo hhi hnd hlt n' H' p hr
    obtain ⟨A, s, id, B, hat, hloc⟩ := locate_at hw.1 hw.2.2.2.1 k
    have hcov := hw.2.2.2.2
    rw [hat.eq] at hcov
    obtain ⟨wid, fid, bid⟩ := (cov_focus.1 hcov).2.2.1
    have hr : insLeafNode k v (f + 2) n H = (n', H', .full p) := hr
    rw [insLeafNode] at hr
    simp only [hloc] at hr
    have split : (match splitLeaf n (H.setLeaf id (H.leaf id)) s id with
      | (n', H', none) => insLeafNode k v (f + 1) n' H'
      | (n', H', some o) => (n', H', o)) = (n', H', .full p) →
        Kept H lo hi 0 n n' (rollback H' p.leaves) (cont H 1 n) := by
      rw [setLeaf_self]
      intro hr
      rcases hs : splitLeaf n H s id with ⟨n1, H1, o⟩
      rw [hs] at hr
      cases o with
      | none =>
        exfalso
        simp only [] at hr
        rcases splitLeaf_spec hw hnd hlt hat with ⟨n2, H2, h1, h2, h3, h4, h5⟩ | ⟨H2, q, F, u, h1, h2⟩
        · rw [hs] at h1
          simp only [Prod.mk.injEq, and_true] at h1
          obtain ⟨rfl, rfl⟩ := h1
          have := insLeafNode_room (f := f) (v := v) h2 hlo hhi h4.nodup h4.lt h5 f
          rw [hr] at this
          exact this.not_full
        · rw [hs] at h1; simp at h1
      | some o =>
        simp only [Prod.mk.injEq] at hr
        obtain ⟨rfl, rfl, rfl⟩ := hr
        exact splitLeaf_rollback hw hnd hlt hat.eq hs
    rcases wid.insert fid k v with ⟨h1, h2⟩ | ⟨_, h1, l', h2, _⟩ | ⟨_, h1, _, l', h2, _⟩ | ⟨_, h1, _, h2⟩
    · rw [h2] at hr; exact split hr
    · rw [h2] at hr; simp at hr
    · rw [h2] at hr; simp at hr
    · rw [h2] at hr; exact split hr
  | succ h ih =>
    intro H lo hi n hw hlo hhi hnd hlt n' H' p hr
    obtain ⟨A, s, c, B, hat, hloc⟩ := locate_at hw.1 hw.2.2.2.1 k
    obtain ⟨hcw, g3, g4, hnd2, hlt2⟩ := child_of hw hlo hhi hnd hlt hat
    have hins := (insTr_spec k v f h H _ _ c hcw g3 g4 hnd2 hlt2).1
    have hr : insNode (insTr (f + 2) k v h) k (f + 2) n H = (n', H', .full p) := hr
    rw [insNode] at hr
    simp only [hloc] at hr
    rcases hx : insTr (f + 2) k v h c H with ⟨c', H1, o⟩
    rw [hx] at hins hr
    rcases hins with hdone | ⟨q, F, u, hp, hfu⟩
    · simp only [] at hdone
      rcases hdone.res with ⟨_, ho, _⟩ | ⟨_, ho, _⟩ <;> · subst ho; simp at hr
    · simp only [] at hp hfu
      subst hp
      simp only [] at hr
      rcases splitNode_spec hw hnd hlt hat hfu with ⟨n'', h1, h2, h3, h4, h5⟩ | ⟨p', F', u', h1, h2⟩
      · exfalso
        rw [h1] at hr
        simp only [] at hr
        have := insNode_room (v := v) (f := f) (g := f) h2 hlo hhi h4.nodup h4.lt h5
        rw [hr] at this
        exact this.not_full
      · rw [h1] at hr
        simp only [Prod.mk.injEq, Out.full.injEq] at hr
        obtain ⟨rfl, rfl, rfl⟩ := hr
        rw [splitNode_leaves h1]
        exact node_same hw hnd hlt hat.eq hat.before.some (ih H _ _ c hcw g3 g4 hnd2 hlt2 _ _ _ hx)

/-! ## Insertion left by a panic -/

theorem unwLeafNode_kept {k : K} {v : V} {n n' : Nd K Nat} {H H' : Hp K V} (hu : UnwLeafNode false k v n H n' H') :
    ∀ {lo hi : Option K}, WF H 1 lo hi n → (leaves 1 (n : Tr K 1)).Nodup →
    (∀ i ∈ leaves 1 (n : Tr K 1), i < H.fresh) →
    Kept H lo hi 0 (n : Tr K 1) (n' : Tr K 1) H' (cont H 1 (n : Tr K 1)) := by
  induction hu with
  | before n H => intro lo hi hw hnd hlt; exact kept_refl hw hnd hlt
  | @compare n H s id hl =>
    intro lo hi hw hnd hlt
    obtain ⟨A, s', id', B, hat, hloc⟩ := locate_at hw.1 hw.2.2.2.1 k
    rw [hl] at hloc
    simp only [Prod.mk.injEq, Option.some.injEq] at hloc
    obtain ⟨rfl, rfl⟩ := hloc
    have hcov := hw.2.2.2.2
    rw [hat.eq] at hcov
    obtain ⟨wid, fid, bid⟩ := (cov_focus.1 hcov).2.2.1
    have hid : id < H.fresh := by
      apply hlt; rw [leaves_succ, hat.eq]
      exact List.mem_flatMap.2 ⟨(s, id), by simp, List.mem_singleton.2 rfl⟩
    obtain ⟨b1, b2, b3, b4⟩ := wid.burn k v
    have hl : (H.setLeaf id ((H.leaf id).burn k v)).leaf id = (H.leaf id).burn k v := by simp [Hp.setLeaf]
    exact leaf_same hw hnd hlt hat.eq (Eff.setLeaf (by simp) (by intro i hi; simp at hi; omega) (by simp) _)
      (by rw [hl]; exact b1) (by rw [hl, b3]; exact fid) (by rw [hl, b2])
  | @distribute n H s id hl hi hd =>
    intro lo hi hw hnd hlt
    obtain ⟨A, s', id', B, hat, hloc⟩ := locate_at hw.1 hw.2.2.2.1 k
    rw [hl] at hloc
    simp only [Prod.mk.injEq, Option.some.injEq] at hloc
    obtain ⟨rfl, rfl⟩ := hloc
    have hcov := hw.2.2.2.2
    rw [hat.eq] at hcov
    obtain ⟨wid, fid, bid⟩ := (cov_focus.1 hcov).2.2.1
    have hid : id < H.fresh := by
      apply hlt; rw [leaves_succ, hat.eq]
      exact List.mem_flatMap.2 ⟨(s, id), by simp, List.mem_singleton.2 rfl⟩
    have wf1 : WL (H.leaf id).freezeAndDistribute.1 ∧
        (H.leaf id).freezeAndDistribute.1.toList = (H.leaf id).toList := by
      obtain ⟨a, b, c, _, e⟩ := wl_of_rel (freeze_rel wid.rel)
      exact ⟨a, b⟩
    obtain ⟨t1, t2, _, t3, _⟩ := wf1.1.thaw
    have hl : (exitSplitLeaf (H.setLeaf id (H.leaf id).freezeAndDistribute.1) id).leaf id =
        (H.leaf id).freezeAndDistribute.1.thawLeaf.1 := by simp [exitSplitLeaf, Hp.setLeaf]
    refine leaf_same hw hnd hlt hat.eq ?_ (by rw [hl]; exact t1) (by rw [hl]; exact t3) (by rw [hl, t2, wf1.2])
    exact (Eff.setLeaf (by simp) (by intro i hi; simp at hi; omega) (by simp) _).after (by simp) _
  | clone hlate => cases hlate
  | cloneCompare hlate => cases hlate
  | @again n H s id n1 H1 n2 H2 hl hi hs _ ih =>
    intro lo hi hw hnd hlt
    obtain ⟨A, s', id', B, hat, hloc⟩ := locate_at hw.1 hw.2.2.2.1 k
    rw [hl] at hloc
    simp only [Prod.mk.injEq, Option.some.injEq] at hloc
    obtain ⟨rfl, rfl⟩ := hloc
    rcases splitLeaf_spec hw hnd hlt hat with ⟨n2, H2, h1, h2, h3, h4, h5⟩ | ⟨H2, q, F, u, h1, h2⟩
    · rw [hs] at h1
      simp only [Prod.mk.injEq, and_true] at h1
      obtain ⟨rfl, rfl⟩ := h1
      exact kept_after h3 h4 (ih h2 h4.nodup h4.lt)
    · rw [hs] at h1; simp at h1

theorem unwTr_kept (k : K) (v : V) (f : Nat) (h : Nat) : ∀ {n n' : Tr K (h + 1)} {H H' : Hp K V},
    UnwTr false (f + 2) k v h n H n' H' → ∀ {lo hi : Option K}, WF H (h + 1) lo hi n → gtLo lo k → leHi hi k →
    (leaves (h + 1) n).Nodup → (∀ i ∈ leaves (h + 1) n, i < H.fresh) →
    Kept H lo hi h n n' H' (cont H (h + 1) n) := by
  induction h with
  | zero =>
    intro n n' H H' hu lo hi hw _ _ hnd hlt
    exact unwLeafNode_kept hu hw hnd hlt
  | succ h ih =>
    intro n n' H H' hu0
    have hu : UnwNode (insTr (f + 2) k v h) (UnwTr false (f + 2) k v h) k n H n' H' := hu0
    clear hu0
    induction hu with
    | before n H => intro lo hi hw _ _ hnd hlt; exact kept_refl hw hnd hlt
    | @child n H s c c' H' hl hu =>
      intro lo hi hw hlo hhi hnd hlt
      obtain ⟨A, s', c0, B, hat, hloc⟩ := locate_at hw.1 hw.2.2.2.1 k
      rw [hl] at hloc
      simp only [Prod.mk.injEq, Option.some.injEq] at hloc
      obtain ⟨rfl, rfl⟩ := hloc
      obtain ⟨hcw, g3, g4, hnd2, hlt2⟩ := child_of hw hlo hhi hnd hlt hat
      exact node_same hw hnd hlt hat.eq hat.before.some (ih hu hcw g3 g4 hnd2 hlt2)
    | @split n H s c c' H' p hl hf =>
      intro lo hi hw hlo hhi hnd hlt
      obtain ⟨A, s', c0, B, hat, hloc⟩ := locate_at hw.1 hw.2.2.2.1 k
      rw [hl] at hloc
      simp only [Prod.mk.injEq, Option.some.injEq] at hloc
      obtain ⟨rfl, rfl⟩ := hloc
      obtain ⟨hcw, g3, g4, hnd2, hlt2⟩ := child_of hw hlo hhi hnd hlt hat
      exact node_same hw hnd hlt hat.eq hat.before.some
        (insTr_rollback k v f h _ _ _ _ hcw g3 g4 hnd2 hlt2 _ _ _ hf)
    | @splitCompare n H s c c' H' p lo1 hi1 mid hl hf hs =>
      intro lo hi hw hlo hhi hnd hlt
      obtain ⟨A, s', c0, B, hat, hloc⟩ := locate_at hw.1 hw.2.2.2.1 k
      rw [hl] at hloc
      simp only [Prod.mk.injEq, Option.some.injEq] at hloc
      obtain ⟨rfl, rfl⟩ := hloc
      obtain ⟨hcw, g3, g4, hnd2, hlt2⟩ := child_of hw hlo hhi hnd hlt hat
      exact (node_same hw hnd hlt hat.eq hat.before.some
        (insTr_rollback k v f h _ _ _ _ hcw g3 g4 hnd2 hlt2 _ _ _ hf)).burn _ _
    | @again n H s c c' H' p n1 H1 n2 H2 hl hf hs _ ih2 =>
      intro lo hi hw hlo hhi hnd hlt
      obtain ⟨A, s', c0, B, hat, hloc⟩ := locate_at hw.1 hw.2.2.2.1 k
      rw [hl] at hloc
      simp only [Prod.mk.injEq, Option.some.injEq] at hloc
      obtain ⟨rfl, rfl⟩ := hloc
      obtain ⟨hcw, g3, g4, hnd2, hlt2⟩ := child_of hw hlo hhi hnd hlt hat
      have hins := (insTr_spec k v f h H _ _ c hcw g3 g4 hnd2 hlt2).1
      rw [hf] at hins
      rcases hins with hdone | ⟨q, F, u, hp, hfu⟩
      · exact hdone.not_full.elim
      · simp only [Out.full.injEq] at hp hfu
        subst hp
        rcases splitNode_spec hw hnd hlt hat hfu with ⟨n'', h1, h2, h3, h4, h5⟩ | ⟨p', F', u', h1, h2⟩
        · rw [hs] at h1
          simp only [Prod.mk.injEq, and_true] at h1
          obtain ⟨rfl, rfl⟩ := h1
          exact kept_after h3 h4 (ih2 h2 hlo hhi h4.nodup h4.lt)
        · rw [hs] at h1; simp at h1

/-- A tree at rest with the same entries. -/
structure SameIx (x y : Ix K V) : Prop where
  inv : y.Inv
  eq : y.toList = x.toList

theorem Kept.ix {H H' : Hp K V} {h : Nat} {n n' : Tr K (h + 1)}
    (d : Kept H none none h n n' H' (Tree.cont H (h + 1) n)) (hl : Linked H (leaves (h + 1) n)) :
    SameIx { root := some ⟨h, n⟩, hp := H } { root := some ⟨h, n'⟩, hp := H' } :=
  ⟨⟨d.wf, d.eff.linked hl⟩, d.cont⟩

theorem unwInsert_same {k : K} {v : V} {f : Nat} {x y : Ix K V} (hu : UnwInsert false (f + 2) k v x y) :
    x.Inv → SameIx x y := by
  induction hu with
  | tree hu =>
    rintro ⟨hw, hl⟩
    have hl : Linked _ (leaves _ _) := hl
    exact (unwTr_kept k v f _ hu hw trivial trivial hl.nodup hl.lt).ix hl
  | root hi =>
    rintro ⟨hw, hl⟩
    have hl : Linked _ (leaves _ _) := hl
    exact (insTr_rollback k v f _ _ _ _ _ hw trivial trivial hl.nodup hl.lt _ _ _ hi).ix hl
  | @again h n H n' H' p y z hi hs _ ih =>
    rintro ⟨hw, hl⟩
    have hw : WF H (h + 1) none none n := hw
    have hl : Linked H (leaves (h + 1) n) := hl
    have hins := (insTr_spec k v f h H none none n hw trivial trivial hl.nodup hl.lt).1
    rw [hi] at hins
    rcases hins with hd | ⟨q, F, u, hp, hfu⟩
    · exact hd.not_full.elim
    · simp only [Out.full.injEq] at hp hfu
      subst hp
      obtain ⟨r, H2, s1, s2, s3, s4, s5⟩ := splitRoot_spec hw hl.nodup hl.lt hfu
      rw [hs] at s1
      simp only [Option.some.injEq] at s1
      subst s1
      obtain ⟨a, b⟩ := ih ⟨s2, s4.linked hl⟩
      exact ⟨a, b.trans s3⟩

/-! ## Removal left by a panic -/

theorem unwRemTr_kept (k : K) (cond : V → Bool) (h : Nat) : ∀ {n n' : Tr K (h + 1)} {H H' : Hp K V},
    UnwRemTr false k cond h n H n' H' → ∀ {lo hi : Option K}, WF H (h + 1) lo hi n → gtLo lo k → leHi hi k →
    (leaves (h + 1) n).Nodup → (∀ i ∈ leaves (h + 1) n, i < H.fresh) →
    Kept H lo hi h n n' H' (cont H (h + 1) n) := by
  induction h with
  | zero =>
    intro n n' H H' hu lo hi hw _ _ hnd hlt
    have hu : UnwRemLeafNode false k cond n H n' H' := hu
    cases hu with
    | before => exact kept_refl hw hnd hlt
    | coalesce hlate => cases hlate
  | succ h ih =>
    intro n n' H H' hu lo hi hw hlo hhi hnd hlt
    have hu : UnwRemNode (UnwRemTr false k cond h) k n H n' H' := hu
    cases hu with
    | before => exact kept_refl hw hnd hlt
    | child hl hu =>
      rename_i s c c'
      obtain ⟨A, s', c0, B, hat, hloc⟩ := locate_at hw.1 hw.2.2.2.1 k
      rw [hl] at hloc
      simp only [Prod.mk.injEq, Option.some.injEq] at hloc
      obtain ⟨rfl, rfl⟩ := hloc
      obtain ⟨hcw, g3, g4, hnd2, hlt2⟩ := child_of hw hlo hhi hnd hlt hat
      exact node_same hw hnd hlt hat.eq hat.before.some (ih hu hcw g3 g4 hnd2 hlt2)

theorem unwRemove_same {k : K} {cond : V → Bool} {x y : Ix K V} (hu : UnwRemove false k cond x y) (hx : x.Inv) :
    SameIx x y := by
  cases hu with
  | tree hu =>
    obtain ⟨hw, hl⟩ := hx
    have hl : Linked _ (leaves _ _) := hl
    exact (unwRemTr_kept k cond _ hu hw trivial trivial hl.nodup hl.lt).ix hl

theorem unwCleanup_holds {k : K} {cond : V → Bool} {x y : Ix K V} {m : Map K V} (hu : UnwCleanup k cond x y)
    (hx : Holds x m) : Holds y (Spec.step m (.removeIf k cond)).1 := by
  cases hu with
  | @tree h n H n' H' r hr hc =>
    have hres := removeIf_holds hx (f := 1) (Nat.le_refl _) k cond
    obtain ⟨⟨hw, hl⟩, henum⟩ := hx
    have hw : WF H (h + 1) none none n := hw
    have hl : Linked H (leaves (h + 1) n) := hl
    have hrem := remTr_spec k cond h H none none n hw trivial trivial hl.nodup hl.lt
    rw [hr] at hrem
    rcases hrem with ⟨h1, h2, h3⟩ | ⟨h1, ⟨h2, h3⟩ | ⟨h2, h3, h4, h5⟩⟩
    · simp only [] at h1; subst h1; rcases hc with h | h <;> cases h
    · simp only [] at h2 h3
      refine ⟨⟨h3.wf, h3.eff.linked hl⟩, ?_⟩
      have hy : Ix.toList ({ root := some ⟨h, n'⟩, hp := H' } : Ix K V) = del (cont H (h + 1) n) k := h3.cont
      rw [hy]
      have hs := Ix.removeIf_spec (x := { root := some ⟨h, n⟩, hp := H }) ⟨hw, hl⟩ k cond 0
      rcases hs.2 with ⟨_, _, h6⟩ | ⟨h6, _⟩
      · have := hres.1.enum
        rw [h6] at this
        exact this
      · obtain ⟨e, h7, h8⟩ := h1
        rw [h6 e h7] at h8; cases h8
    · simp only [] at h2; subst h2; rcases hc with h | h <;> cases h

/-! ## C50 -/

theorem hist_holds {f : Nat} (hf : 2 ≤ f) {x : Ix K V} {m : Map K V} (h : Hist false f x m) : Holds x m := by
  obtain ⟨f, rfl⟩ : ∃ g, f = g + 2 := ⟨f - 2, by omega⟩
  induction h with
  | new => exact holds_new
  | call _ o ih => exact (call_holds ih hf o).1
  | insert _ hu ih => obtain ⟨a, b⟩ := unwInsert_same hu ih.inv; exact ⟨a, by rw [b]; exact ih.enum⟩
  | remove _ hu ih => obtain ⟨a, b⟩ := unwRemove_same hu ih.inv; exact ⟨a, by rw [b]; exact ih.enum⟩
  | cleanup _ hu ih => exact unwCleanup_holds hu ih

/-- After any history of calls, some of which end with a panic, all further calls return what the map
returns. Panics at the places of `late` are not covered: there the statement is wrong
(`c50_insert_violated`, `c50_remove_violated`). -/
theorem c50_calls_partial {f : Nat} (hf : 2 ≤ f) {x : Ix K V} {m : Map K V} (h : Hist false f x m)
    (os : List (TOp K V)) : (x.calls f os).2 = (Spec.calls m os).2.map some :=
  (calls_holds hf os (hist_holds hf h)).2

/-- After any such history, `iter()` yields all entries of the map in strictly ascending order and then
`None`. -/
theorem c50_iter_partial {f : Nat} (hf : 2 ≤ f) {x : Ix K V} {m : Map K V} (h : Hist false f x m) :
    ∃ xs, Enumerates m xs ∧ x.iterCalls (xs.length + 1) none = xs.map some ++ [none] := by
  have h := hist_holds hf h
  exact ⟨_, h.enum, iterCalls_spec h.inv 0 _ none (iterAt_new _)⟩

end Scc.Tree
