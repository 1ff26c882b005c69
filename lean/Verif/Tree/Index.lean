import Verif.Tree.Remove

/-!
# The index: insertion, removal, lookup
-/

set_option linter.unusedSimpArgs false
set_option linter.unusedSectionVars false
set_option linter.unusedVariables false

namespace Scc.Tree

open Scc.Leaf Scc.Leaf.Spec

variable {K V C : Type} [KeyOrd K]

/-- A tree at rest. -/
def Ix.Inv (x : Ix K V) : Prop :=
  match x.root with
  | none => Linked x.hp []
  | some ⟨h, n⟩ => WF x.hp (h + 1) none none n ∧ Linked x.hp (leaves (h + 1) n)

/-- All entries in order. -/
def Ix.toList (x : Ix K V) : List (K × V) :=
  match x.root with
  | none => []
  | some ⟨h, n⟩ => cont x.hp (h + 1) n

theorem frozen_new : frozen (Leaf.new : Leaf K V).w = false := by show frozen 0#64 = false; decide
theorem retired_new : retired (Leaf.new : Leaf K V).w = false := by show retired 0#64 = false; decide
theorem used_new : used (Leaf.new : Leaf K V).w < 14 := by show used 0#64 < 14; decide

theorem linked_init : Linked (Hp.init : Hp K V) [] :=
  ⟨[], ⟨List.nodup_nil, fun _ h => (by cases h), trivial, fun _ _ => rfl, fun _ _ => rfl⟩, rfl⟩

theorem inv_new : (Ix.new : Ix K V).Inv := linked_init

theorem Ix.Inv.sorted {x : Ix K V} (h : x.Inv) : Sorted x.toList := by
  unfold Ix.toList
  unfold Ix.Inv at h
  cases hr : x.root with
  | none => exact List.Pairwise.nil
  | some r =>
    obtain ⟨d, n⟩ := r
    simp only [hr] at h ⊢
    exact wf_sorted x.hp (d + 1) none none n h.1

theorem Eff.linked {H H' : Hp K V} {I I' : List Nat} (e : Eff H H' I I') (h : Linked H I) : Linked H' I' := by
  have := e.link [] [] (by simpa using h)
  simpa using this

/-! ## Lookup -/

theorem findTr_spec (H : Hp K V) (k : K) (h : Nat) : ∀ (lo hi : Option K) (n : Tr K h), WF H h lo hi n →
    gtLo lo k → leHi hi k → findTr H k h n = get (cont H h n) k := by
  induction h with
  | zero =>
    intro lo hi n hw _ _
    rw [cont_zero]
    exact hw.1.search k
  | succ h ih =>
    intro lo hi n hw hlo hhi
    obtain ⟨A, s, c, B, hat, hloc⟩ := locate_at hw.1 hw.2.2.2.1 k
    have hcov := hw.2.2.2.2
    rw [hat.eq] at hcov
    obtain ⟨g1, g2, g3, g4⟩ := sides_lt hcov hlo hhi (by rw [← hat.eq]; exact hat)
    have hcont : cont H (h + 1) n = contE H h A ++ cont H h c ++ contE H h B := by
      rw [cont_succ H h n, hat.eq, contE_append, contE_cons, List.append_assoc]
    rw [hcont, get_mid g1 g2, findTr]
    simp only [hloc]
    exact ih _ _ c (cov_focus.1 hcov).2.2.1 g3 g4

theorem Ix.peek_spec {x : Ix K V} (hx : x.Inv) (k : K) : x.peek k = get x.toList k := by
  unfold Ix.peek Ix.toList
  unfold Ix.Inv at hx
  cases hr : x.root with
  | none => rfl
  | some r =>
    obtain ⟨d, n⟩ := r
    simp only [hr] at hx ⊢
    exact findTr_spec x.hp k (d + 1) none none n hx.1 trivial trivial

/-! ## Insertion -/

/-- The split of the root succeeds, and then there is room. -/
theorem splitRoot_spec {H H' : Hp K V} {k : K} {h : Nat} {n n' : Tr K (h + 1)} {p : SplitOp K (Tr K h)}
    {F : List (Option K × Tr K h)} {u : Tr K h} (hw : WF H (h + 1) none none n)
    (hnd : (leaves (h + 1) n).Nodup) (hlt : ∀ i ∈ leaves (h + 1) n, i < H.fresh)
    (hfu : Full H none none k h n n' H' p F u) :
    ∃ r H2, splitRoot H' h n' p = some { root := some ⟨h + 1, r⟩, hp := H2 } ∧
      WF H2 (h + 2) none none r ∧ cont H2 (h + 2) r = cont H (h + 1) n ∧
      Eff H H2 (leaves (h + 1) n) (leaves (h + 2) r) ∧ Room H2 (h + 2) r k := by
  have hE : ents (⟨Leaf.new, some n, false⟩ : Nd K (Tr K (h + 1))) = [(none, n)] := by
    unfold ents; simp only []; rw [toList_new]; rfl
  have hL : leaves (h + 2) (⟨Leaf.new, some n, false⟩ : Tr K (h + 2)) = leaves (h + 1) n := by
    have := leaves_succ (h + 1) (⟨Leaf.new, some n, false⟩ : Nd K (Tr K (h + 1)))
    rw [hE, leavesE_cons, leavesE_nil, List.append_nil] at this
    exact this
  have hC : cont H (h + 2) (⟨Leaf.new, some n, false⟩ : Tr K (h + 2)) = cont H (h + 1) n := by
    unfold cont; rw [hL]
  have hW : WF H (h + 2) none none (⟨Leaf.new, some n, false⟩ : Tr K (h + 2)) :=
    ⟨wl_new, frozen_new, rfl, rfl, by rw [hE]; exact ⟨hw, rfl, trivial⟩⟩
  have hat : At (ents (⟨Leaf.new, some n, false⟩ : Nd K (Tr K (h + 1)))) k [] none n [] :=
    ⟨hE, fun _ h => (by cases h), trivial⟩
  unfold splitRoot
  rcases splitNode_spec hW (by rw [hL]; exact hnd) (by rw [hL]; exact hlt) hat hfu with
    ⟨n'', h1, h2, h3, h4, h5⟩ | ⟨p', F', u', h1, h2⟩
  · have h1' : splitNode (⟨Leaf.new, some n', false⟩ : Nd K (Tr K (h + 1))) H' none n' p =
      (n'', commit H' p.leaves, none) := h1
    refine ⟨n'', commit H' p.leaves, ?_, h2, h3.trans hC, hL ▸ h4, h5⟩
    show (match splitNode (⟨Leaf.new, some n', false⟩ : Nd K (Tr K (h + 1))) H' none n' p with
      | (r, H', none) => some ({ root := some ⟨h + 1, r⟩, hp := H' } : Ix K V)
      | (_, _, some _) => none) = _
    rw [h1']
  · exfalso
    have h1' : splitNode (⟨Leaf.new, some n', false⟩ : Nd K (Tr K (h + 1))) H' none n' p =
      ((⟨Leaf.new, some n', false⟩ : Nd K (Tr K (h + 1))), H', some (.full p')) := h1
    obtain ⟨l, m, mid, t1, t2⟩ := splitNd_spec hfu.arr hfu.len1 hfu.len2 hfu.cov hfu.room
    unfold splitNode at h1'
    rw [t1] at h1'
    simp only [] at h1'
    rcases (wl_new (K := K) (V := Tr K (h + 1))).insert frozen_new mid l with
      ⟨h3, _⟩ | ⟨_, h3, _⟩ | ⟨_, _, _, l', h3, _⟩ | ⟨_, _, h3, _⟩
    · exact absurd h3 (by rw [retired_new]; simp)
    · rw [toList_new] at h3; exact absurd h3 (by simp [Spec.get])
    · rw [h3] at h1'
      simp only [] at h1'
      have := congrArg (fun t => t.2.2) h1'
      simp at this
    · exact absurd used_new h3

/-- Results and new contents of an insertion. -/
def InsDone (x y : Ix K V) (k : K) (v : V) (r : Option Bool) : Prop :=
  y.Inv ∧ ((Spec.get x.toList k = none ∧ r = some true ∧ y.toList = put x.toList k v) ∨
    ((Spec.get x.toList k).isSome = true ∧ r = some false ∧ y.toList = x.toList))

theorem Done.ix {H H' : Hp K V} {k : K} {v : V} {h : Nat} {n n' : Tr K (h + 1)} {o : Out K (Tr K h)}
    (d : Done H none none k v h n n' H' o) (hl : Linked H (leaves (h + 1) n)) {b : Bool}
    (hb : (o = .success → b = true) ∧ (o = .duplicate → b = false)) :
    InsDone { root := some ⟨h, n⟩, hp := H } { root := some ⟨h, n'⟩, hp := H' } k v (some b) := by
  refine ⟨⟨d.wf, d.eff.linked hl⟩, ?_⟩
  rcases d.res with ⟨h1, h2, h3⟩ | ⟨h1, h2, h3⟩
  · exact .inl ⟨h1, by rw [hb.1 h2], h3⟩
  · exact .inr ⟨h1, by rw [hb.2 h2], h3⟩

theorem linked_first {H : Hp K V} (h : Linked H []) (l : Leaf K V) :
    Linked ((H.alloc Leaf.new).setLeaf H.fresh l) [H.fresh] := by
  obtain ⟨G, g, _⟩ := h
  refine ⟨[H.fresh], LinkG.setLeaf (H := H.alloc Leaf.new) ⟨by simp, ?_, ?_, ?_, ?_⟩ _ l, ?_⟩
  · intro i hi
    rw [List.mem_singleton.1 hi]
    exact Nat.lt_succ_self _
  · exact ⟨g.unl _ (Nat.le_refl _), trivial⟩
  · intro i hi; exact g.clean i (Nat.le_of_succ_le hi)
  · intro i hi; exact g.unl i (Nat.le_of_succ_le hi)
  · unfold live
    rw [List.filter_cons]
    have : ((H.alloc Leaf.new).setLeaf H.fresh l).del H.fresh = false := g.clean _ (Nat.le_refl _)
    simp [this]

/-- Insertion on a tree at rest, with at least two rounds for every loop. -/
theorem Ix.insert_spec {x : Ix K V} (hx : x.Inv) (k : K) (v : V) (f : Nat) :
    InsDone x (x.insert (f + 2) k v).1 k v (x.insert (f + 2) k v).2 := by
  obtain ⟨root, H⟩ := x
  unfold Ix.insert
  rw [Ix.insertLoop]
  cases root with
  | none =>
    have hl : Linked H [] := hx
    rw [Ix.insertLoop]
    simp only [insTr]
    rw [insLeafNode]
    have hloc : (Nd.new : Nd K Nat).locate k = (none, none) := by
      unfold Nd.locate
      have := (wl_new (K := K) (V := Nat)).mge k
      rw [toList_new] at this
      show (match (Leaf.new : Leaf K Nat).minGreaterEqual k with
        | some (ck, c) => (some ck, some c)
        | none => (none, none)) = _
      rw [this]; rfl
    have hleaf : (H.alloc Leaf.new).leaf H.fresh = Leaf.new := by simp [Hp.alloc, Hp.setLeaf]
    simp only [hloc]
    rw [if_neg (show ¬ ((Nd.new : Nd K Nat).dead = true) by simp [Nd.new])]
    simp only [hleaf]
    rcases (wl_new (K := K) (V := V)).insert frozen_new k v with
      ⟨h3, _⟩ | ⟨_, h3, _⟩ | ⟨_, _, _, l', h3, h4, h5, h6, _⟩ | ⟨_, _, h3, _⟩
    · exact absurd h3 (by rw [retired_new]; simp)
    · rw [toList_new] at h3; exact absurd h3 (by simp [Spec.get])
    · rw [h3]
      simp only []
      have hE : ents (⟨Leaf.new, some H.fresh, false⟩ : Nd K (Tr K 0)) = [(none, H.fresh)] := by
        unfold ents; simp only []; rw [toList_new]; rfl
      have hL : leaves 1 (⟨Leaf.new, some H.fresh, false⟩ : Tr K 1) = [H.fresh] := by
        have := leaves_succ 0 (⟨Leaf.new, some H.fresh, false⟩ : Nd K (Tr K 0))
        rw [hE] at this
        exact this
      have hlf : ((H.alloc Leaf.new).setLeaf H.fresh l').leaf H.fresh = l' := by simp [Hp.setLeaf]
      refine ⟨⟨⟨wl_new, frozen_new, rfl, rfl, ?_⟩, ?_⟩, .inl ⟨rfl, rfl, ?_⟩⟩
      · show Cov _ _ _ (ents (⟨Leaf.new, some H.fresh, false⟩ : Nd K (Tr K 0)))
        rw [hE]
        exact ⟨⟨by rw [hlf]; exact h4, by rw [hlf]; exact h6, fun _ _ => ⟨trivial, trivial⟩⟩, rfl, trivial⟩
      · show Linked _ (leaves 1 (⟨Leaf.new, some H.fresh, false⟩ : Tr K 1))
        rw [hL]; exact linked_first hl l'
      · show cont _ 1 (⟨Leaf.new, some H.fresh, false⟩ : Tr K 1) = _
        unfold cont
        rw [hL, List.flatMap_cons, hlf, h5, toList_new]; rfl
    · exact absurd used_new h3
  | some r =>
    obtain ⟨h, n⟩ := r
    obtain ⟨hw, hl⟩ := hx
    have hw : WF H (h + 1) none none n := hw
    have hl : Linked H (leaves (h + 1) n) := hl
    have hins := (insTr_spec k v f h H none none n hw trivial trivial hl.nodup hl.lt).1
    rcases hr : insTr (f + 2) k v h n H with ⟨n', H', o⟩
    rw [hr] at hins
    rcases hins with hd | ⟨p, F, u, hp, hfu⟩
    · simp only [] at hd
      simp only [hr]
      rcases hd.res with ⟨_, ho, _⟩ | ⟨_, ho, _⟩
      · subst ho
        exact hd.ix hl ⟨fun _ => rfl, fun h => (by cases h)⟩
      · subst ho
        exact hd.ix hl ⟨fun h => (by cases h), fun _ => rfl⟩
    · simp only [] at hp hfu
      subst hp
      obtain ⟨r, H2, s1, s2, s3, s4, s5⟩ := splitRoot_spec hw hl.nodup hl.lt hfu
      simp only [hr, s1]
      rw [Ix.insertLoop]
      have hl2 := s4.linked hl
      have hd := (insTr_spec k v f (h + 1) H2 none none r s2 trivial trivial hl2.nodup hl2.lt).2 s5
      rcases hr2 : insTr (f + 2) k v (h + 1) r H2 with ⟨n3, H3, o⟩
      rw [hr2] at hd
      simp only [] at hd
      simp only [hr2]
      have hc : ∀ {y b}, InsDone { root := some ⟨h + 1, r⟩, hp := H2 } y k v b →
          InsDone { root := some ⟨h, n⟩, hp := H } y k v b := by
        intro y b hd
        unfold InsDone Ix.toList at hd ⊢
        simp only [s3] at hd ⊢
        exact hd
      rcases hd.res with ⟨_, ho, _⟩ | ⟨_, ho, _⟩
      · subst ho
        exact hc (hd.ix hl2 ⟨fun _ => rfl, fun h => (by cases h)⟩)
      · subst ho
        exact hc (hd.ix hl2 ⟨fun h => (by cases h), fun _ => rfl⟩)

/-! ## Removal -/

theorem cleanup_ix {H : Hp K V} {h : Nat} {n : Tr K (h + 1)} (hw : WF H (h + 1) none none n)
    (hl : Linked H (leaves (h + 1) n)) :
    Ix.Inv { root := cleanupRoot h n, hp := H } ∧
    Ix.toList { root := cleanupRoot h n, hp := H } = cont H (h + 1) n := by
  obtain ⟨h', n', h1, h2, h3⟩ := cleanupRoot_wf h n hw
  rw [h1]
  refine ⟨⟨h2, ?_⟩, ?_⟩
  · show Linked H (leaves (h' + 1) n')
    rw [h3]; exact hl
  · show cont H (h' + 1) n' = _
    unfold cont; rw [h3]

theorem Ix.removeIf_spec {x : Ix K V} (hx : x.Inv) (k : K) (cond : V → Bool) (f : Nat) :
    (x.removeIf (f + 1) k cond).1.Inv ∧
    (((∃ e, Spec.get x.toList k = some e ∧ cond e.2 = true) ∧ (x.removeIf (f + 1) k cond).2 = some true ∧
      (x.removeIf (f + 1) k cond).1.toList = del x.toList k) ∨
    ((∀ e, Spec.get x.toList k = some e → cond e.2 = false) ∧ (x.removeIf (f + 1) k cond).2 = some false ∧
      (x.removeIf (f + 1) k cond).1.toList = x.toList)) := by
  obtain ⟨root, H⟩ := x
  unfold Ix.removeIf
  rw [Ix.removeLoop]
  cases root with
  | none => exact ⟨hx, .inr ⟨fun e he => (by cases he), rfl, rfl⟩⟩
  | some r =>
    obtain ⟨h, n⟩ := r
    obtain ⟨hw, hl⟩ := hx
    have hw : WF H (h + 1) none none n := hw
    have hl : Linked H (leaves (h + 1) n) := hl
    have hrem := remTr_spec k cond h H none none n hw trivial trivial hl.nodup hl.lt
    rcases hr : remTr k cond h n H with ⟨n', H', r⟩
    rw [hr] at hrem
    simp only [hr]
    rcases hrem with ⟨h1, h2, h3⟩ | ⟨h1, ⟨h2, h3⟩ | ⟨h2, h3, h4, h5⟩⟩
    · simp only [] at h1 h3
      subst h1
      exact ⟨⟨h3.wf, h3.eff.linked hl⟩, .inr ⟨h2, rfl, h3.cont⟩⟩
    · simp only [] at h2 h3
      have hl' := h3.eff.linked hl
      rcases h2 with h2 | h2
      · subst h2
        exact ⟨⟨h3.wf, hl'⟩, .inl ⟨h1, rfl, h3.cont⟩⟩
      · subst h2
        obtain ⟨a1, a2⟩ := cleanup_ix h3.wf hl'
        exact ⟨a1, .inl ⟨h1, rfl, a2.trans h3.cont⟩⟩
    · simp only [] at h2 h3 h5
      subst h2
      simp only [cleanupRoot_dead h n' h3]
      exact ⟨h5.linked hl, .inl ⟨h1, by trivial, h4.symm⟩⟩

/-! ## Clearing -/

theorem Ix.clear_spec {x : Ix K V} (hx : x.Inv) : x.clear.Inv ∧ x.clear.toList = [] := by
  obtain ⟨root, H⟩ := x
  unfold Ix.clear
  cases root with
  | none => exact ⟨hx, rfl⟩
  | some r =>
    obtain ⟨h, n⟩ := r
    refine ⟨?_, rfl⟩
    obtain ⟨G, g, hG⟩ : Linked H (leaves (h + 1) n) := hx.2
    have hlt : ∀ i ∈ leaves (h + 1) n, i < H.fresh := Linked.lt ⟨G, g, hG⟩
    show Linked ((leaves (h + 1) n).foldl (fun H i => H.setLink i none) H) []
    have key : ∀ (L : List Nat) (H : Hp K V), LinkG H [] → LinkG (L.foldl (fun H i => H.setLink i none) H) [] := by
      intro L
      induction L with
      | nil => intro H h; exact h
      | cons a L ih =>
        intro H h
        refine ih _ ⟨List.nodup_nil, fun _ h => (by cases h), trivial, ?_, ?_⟩
        · intro i hi
          simp only [Hp.setLink]
          split
          · rfl
          · exact h.clean i hi
        · intro i hi
          simp only [Hp.setLink]
          split
          · rfl
          · exact h.unl i hi
    exact ⟨[], key _ H ⟨List.nodup_nil, fun _ h => (by cases h), trivial, g.clean, g.unl⟩, rfl⟩

end Scc.Tree
