import Verif.Tree.UnwindSafe

/-!
# What panics in user code break

/repo/src/tree_index.rs 61-64 says that a `TreeIndex` is impervious to panics in user code as long as `drop`
does not panic. A panic of `K::clone` in `split_leaf`, and one of the comparison of keys in `coalesce` of a
leaf node break the linked list of leaves.
-/

set_option maxRecDepth 100000
set_option synthInstance.maxSize 1000

namespace Scc.Tree

open Scc.Leaf

variable {K V : Type} [KeyOrd K]

theorem hist_calls {late : Bool} {f : Nat} (os : List (TOp K V)) : ∀ {x : Ix K V} {m : Spec.Map K V},
    Hist late f x m → Hist late f (x.calls f os).1 (Spec.calls m os).1 := by
  induction os with
  | nil => intro x m h; exact h
  | cons o os ih => intro x m h; exact ih (h.call o)

/-- The root if it is a leaf node. -/
def Ix.leafNode (x : Ix K V) : Option (Nd K Nat) :=
  match x.root with
  | some ⟨0, n⟩ => some n
  | _ => none

omit [KeyOrd K] in
theorem Ix.eq_leafNode {x : Ix K V} {n : Nd K Nat} (h : x.leafNode = some n) :
    x = { root := some ⟨0, n⟩, hp := x.hp } := by
  obtain ⟨root, hp⟩ := x
  unfold Ix.leafNode at h
  cases root with
  | none => cases h
  | some r =>
    obtain ⟨d, n'⟩ := r
    cases d with
    | zero => simp only [Option.some.injEq] at h; subst h; rfl
    | succ d => simp at h

namespace UnwindWitness

/-! ## A panic of `K::clone` -/

/-- One full leaf: the keys 0 to 13. -/
def full : List (TOp Nat Nat) := (List.range 14).map (fun k => .insert k k)

def x14 : Ix Nat Nat := ((Ix.new : Ix Nat Nat).calls 3 full).1

def n14 : Nd Nat Nat := x14.leafNode.get (by decide +kernel)

def high : Leaf Nat Nat := (x14.hp.leaf 0).freezeAndDistribute.2.2.get (by decide +kernel)

/-- After the insertion of 14, which finds the leaf full, splits it and panics when it clones the greatest
key of the low-key leaf. -/
def xp : Ix Nat Nat :=
  { root := some ⟨0, n14⟩,
    hp := exitSplitLeaf (linkHalves x14.hp 0 (x14.hp.leaf 0).freezeAndDistribute.2.1 high) 0 }

theorem unw14 : UnwInsert true 3 14 14 x14 xp := by
  have h : x14.leafNode = some n14 := (Option.some_get _).symm
  rw [Ix.eq_leafNode h]
  refine .tree (h := 0) (UnwLeafNode.clone (s := none) (id := 0) rfl ?_ (.inl ?_) ?_ ?_)
  · decide +kernel
  · decide +kernel
  · decide +kernel
  · exact (Option.some_get _).symm

noncomputable def m14 : Spec.Map Nat Nat := (Spec.calls Spec.Map.empty full).1

theorem hist14 : Hist true 3 xp m14 := (hist_calls full .new).insert unw14

end UnwindWitness

open UnwindWitness in
/-- C50 is wrong for panics of `K::clone`: 14 insertions, one that panics in `K::clone`, and the removal of
key 13. The key is gone for `peek`, but iterators still yield it. -/
theorem c50_insert_violated : ∃ (x : Ix Nat Nat) (m : Spec.Map Nat Nat), Hist true 3 x m ∧ m 13 = none ∧
    x.peek 13 = none ∧ x.iterTake 100 none = (List.range 14).map (fun k => (k, k)) := by
  refine ⟨_, _, hist14.call (.remove 13), ?_, ?_, ?_⟩
  · simp [Spec.step]
  · decide +kernel
  · decide +kernel

open UnwindWitness in
/-- The same with another insertion of 14 after the panic: iterators yield the keys 0 to 14, and then 0 to 13
again. -/
theorem c50_insert_retry_violated : ∃ (x : Ix Nat Nat) (m : Spec.Map Nat Nat), Hist true 3 x m ∧
    x.iterTake 100 none = (List.range 15 ++ List.range 14).map (fun k => (k, k)) := by
  refine ⟨_, _, hist14.call (.insert 14 14), ?_⟩
  decide +kernel

namespace UnwindWitness

/-! ## A panic of a comparison in `coalesce` -/

/-- Two leaves, the first of which holds only key 12, or whatever is the greatest key of it. -/
def thin : List (TOp Nat Nat) :=
  (List.range 15).map (fun k => .insert k k) ++ (List.range 12).map (fun k => .remove k)

def x3 : Ix Nat Nat := ((Ix.new : Ix Nat Nat).calls 3 thin).1

def n3 : Nd Nat Nat := x3.leafNode.get (by decide +kernel)

/-- The leaf that holds key 12. -/
def id12 : Nat := (n3.locate 12).2.getD 0

/-- After the removal of 12, which deletes the leaf from the linked list and panics when it searches for the
key of the leaf. -/
def xq : Ix Nat Nat :=
  { root := some ⟨0, n3⟩,
    hp := (x3.hp.setLeaf id12 ((x3.hp.leaf id12).removeIf 12 (fun _ => true)).1).deleteSelf id12 }

theorem unw12 : UnwRemove true 12 (fun _ => true) x3 xq := by
  have h : x3.leafNode = some n3 := (Option.some_get _).symm
  rw [Ix.eq_leafNode h]
  have hl : n3.locate 12 = (some 12, some id12) := by decide +kernel
  have hr : ((x3.hp.leaf id12).removeIf 12 (fun _ => true)).2 = .retired := by decide +kernel
  refine .tree (h := 0) (UnwRemLeafNode.coalesce (l := ((x3.hp.leaf id12).removeIf 12 (fun _ => true)).1)
    (A := []) (kj := 12) (B := []) rfl hl ?_ ?_ ?_ ?_)
  · rw [← hr]
  · decide +kernel
  · intro e he; cases he
  · decide +kernel

noncomputable def m3 : Spec.Map Nat Nat := (Spec.calls Spec.Map.empty thin).1

theorem hist12 : Hist true 3 xq m3 := (hist_calls thin .new).remove unw12

end UnwindWitness

open UnwindWitness in
/-- C50 is wrong for panics of comparisons in removals: 15 insertions, 12 removals, one that panics, and the
insertion of 5. Keys 5, 13 and 14 are there for `peek`, but iterators yield key 5 only. -/
theorem c50_remove_violated : ∃ (x : Ix Nat Nat) (m : Spec.Map Nat Nat), Hist true 3 x m ∧
    m 5 = some 5 ∧ m 13 = some 13 ∧ x.peek 5 = some (5, 5) ∧ x.peek 13 = some (13, 13) ∧
    x.iterTake 100 none = [(5, 5)] := by
  have h5 : m3 5 = none := by
    have := c31_contents (K := Nat) (V := Nat) (f := 3) (by omega) thin 5
    rw [show m3 = (Spec.calls Spec.Map.empty thin).1 from rfl, ← this]
    decide +kernel
  have h13 : m3 13 = some 13 := by
    have := c31_contents (K := Nat) (V := Nat) (f := 3) (by omega) thin 13
    rw [show m3 = (Spec.calls Spec.Map.empty thin).1 from rfl, ← this]
    decide +kernel
  refine ⟨_, _, hist12.call (.insert 5 5), ?_, ?_, ?_, ?_, ?_⟩
  · simp [Spec.step, h5]
  · simp [Spec.step, h5, h13]
  · decide +kernel
  · decide +kernel
  · decide +kernel

/-! ## Panics that do no harm -/

namespace UnwindWitness

/-- After the insertion of 14, which panics when it copies entries to the new leaves. -/
def xd : Ix Nat Nat :=
  { root := some ⟨0, n14⟩,
    hp := exitSplitLeaf (x14.hp.setLeaf 0 (x14.hp.leaf 0).freezeAndDistribute.1) 0 }

theorem unwd : UnwInsert false 3 14 14 x14 xd := by
  have h : x14.leafNode = some n14 := (Option.some_get _).symm
  rw [Ix.eq_leafNode h]
  refine .tree (h := 0) (UnwLeafNode.distribute (s := none) (id := 0) ?_ (.inl ?_) ?_)
  · decide +kernel
  · decide +kernel
  · decide +kernel

/-- The hypothesis of `c50_calls_partial` and `c50_iter_partial`: a history with a panic. -/
example : Hist false 3 xd m14 := (hist_calls full .new).insert unwd

/-- One leaf with three keys. -/
def few : List (TOp Nat Nat) := [.insert 1 1, .insert 2 2, .insert 3 3]

def xf : Ix Nat Nat := ((Ix.new : Ix Nat Nat).calls 3 few).1

def nf : Nd Nat Nat := xf.leafNode.get (by decide +kernel)

/-- After an insertion that panics in a comparison: one slot of the leaf is lost, and the tree is another
one, but yields the same. -/
def xb : Ix Nat Nat := { root := some ⟨0, nf⟩, hp := xf.hp.setLeaf 0 ((xf.hp.leaf 0).burn 9 9) }

example : UnwInsert false 3 9 9 xf xb ∧ (xb.hp.leaf 0).w ≠ (xf.hp.leaf 0).w ∧
    xb.iterTake 100 none = [(1, 1), (2, 2), (3, 3)] := by
  refine ⟨?_, by decide +kernel, by decide +kernel⟩
  have h : xf.leafNode = some nf := (Option.some_get _).symm
  rw [Ix.eq_leafNode h]
  exact .tree (h := 0) (UnwLeafNode.compare (s := none) (id := 0) (by decide +kernel))

/-- A leaf node with 15 leaves. -/
def many : List (TOp Nat Nat) := (List.range 196).map (fun k => .insert k k)

def xm : Ix Nat Nat := ((Ix.new : Ix Nat Nat).calls 3 many).1

def nm : Nd Nat Nat := xm.leafNode.get (by decide +kernel)

/-- `SplitOp` of the result. -/
def Out.op {C : Type} : Out Nat C → Option (SplitOp Nat C)
  | .full p => some p
  | _ => none

theorem Out.eq_full {C : Type} {o : Out Nat C} {p : SplitOp Nat C} (h : Out.op o = some p) : o = .full p := by
  cases o <;> simp [Out.op] at h
  rw [h]

def pm : SplitOp Nat Nat := (Out.op (insTr 3 196 196 0 nm xm.hp).2.2).get (by decide +kernel)

/-- After the insertion of 196, which finds its leaf and the root full and panics in `split_root`. -/
def xr : Ix Nat Nat :=
  { root := some ⟨0, (insTr 3 196 196 0 nm xm.hp).1⟩, hp := rollback (insTr 3 196 196 0 nm xm.hp).2.1 pm.leaves }

example : UnwInsert false 3 196 196 xm xr ∧ xr.hp.fresh = xm.hp.fresh + 2 ∧
    (xr.iterTake 300 none).map (fun e => e.1) = List.range 196 := by
  refine ⟨?_, by decide +kernel, by decide +kernel⟩
  have h : xm.leafNode = some nm := (Option.some_get _).symm
  rw [Ix.eq_leafNode h]
  have hp : (insTr 3 196 196 0 nm xm.hp).2.2 = .full pm := Out.eq_full (Option.some_get _).symm
  exact .root (h := 0) (p := pm) (by rw [← hp])

end UnwindWitness

end Scc.Tree
