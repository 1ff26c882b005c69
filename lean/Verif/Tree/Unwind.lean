import Verif.Tree.Spec

/-!
# Calls that end with a panic in user code

`insert` and `remove_if` call user code: comparisons of keys (`Ord`, `Comparable`), `Clone` of keys and
values, the condition of `remove_if`. Here is what they leave behind if that code panics and the caller
catches the panic: the writes made before, and what the exit guards do (/repo/src/exit_guard.rs; the guards
of leaf_node.rs 807-811, internal_node.rs 608-610 and node.rs 204-210).

The relations below have one constructor for each place of the panic. `late` says that panics at the two
places that are known to do harm are allowed: `clone`, `cloneCompare` for insertions and `coalesce` for
removals. Locks are free afterwards: every guard releases those that are held, and `Locker` does so in its
`drop` (leaf_node.rs 1026-1031). Failures of allocations, panics in `drop`, and panics in `remove_range`,
in `InternalNode::coalesce` and in iterators are left out.
-/

namespace Scc.Tree

open Scc.Leaf

variable {K V C : Type} [KeyOrd K]

/-! ## What is left behind -/

/-- `Leaf::insert` (leaf.rs 342-379) left by a panic of a comparison in `post_insert` (leaf.rs 645-696):
the slot is reserved, key and value are written, and nobody gives the slot back. The reserved rank is that
of a removed entry; key and value are dropped with the leaf (leaf.rs 740-756). -/
def _root_.Scc.Leaf.Leaf.burn (l : Leaf K V) (k : K) (v : V) : Leaf K V :=
  if retired l.w then l
  else if frozen l.w then l
  else match freeSlot l.w with
    | some i => ({ l with w := augment l.w i removed } : Leaf K V).write i k v
    | none => l

/-- The heap at the point where `split_leaf` clones the greatest key of the low-key leaf (leaf_node.rs
815-850): both new leaves are linked, the full leaf is frozen and marked, the low-key leaf is frozen.
`low` and `high` are the leaves made by `freeze_and_distribute`. -/
def linkHalves (H : Hp K V) (id : Nat) (low high : Leaf K V) : Hp K V :=
  let H1 := ((H.setLeaf id (H.leaf id).freezeAndDistribute.1).alloc low).alloc high
  let H2 := (H1.pushBack id (H.fresh + 1)).pushBack id H.fresh
  H2.setLeaf H.fresh (H2.leaf H.fresh).freezeLeaf.1

/-- The exit guard of `split_leaf` (leaf_node.rs 807-811), apart from the lock and `split_op`: the full leaf
is thawed. -/
def exitSplitLeaf (H : Hp K V) (id : Nat) : Hp K V := H.setLeaf id (H.leaf id).thawLeaf.1

/-- `LeafNode::rollback` (leaf_node.rs 692-731), to which `Node::rollback` (node.rs 368-373) and
`InternalNode::rollback` (internal_node.rs 903-910) lead: both new leaves are deleted, the full leaf is
thawed, and its mark is taken away. -/
def rollback (H : Hp K V) (ls : Nat × Nat × Nat) : Hp K V :=
  let H1 := (H.deleteSelf ls.2.2).deleteSelf ls.2.1
  let H2 := H1.setLeaf ls.1 (H1.leaf ls.1).thawLeaf.1
  { H2 with mark := fun j => if j = ls.1 then false else H2.mark j }

/-! ## Insertion -/

/-- `LeafNode::insert` (leaf_node.rs 264-364) with `split_leaf` (771-914) left by a panic: node and heap
before and after. A leaf is handed back as it was by an insertion that finds it full or retired. -/
inductive UnwLeafNode (late : Bool) (k : K) (v : V) :
    Nd K Nat → Hp K V → Nd K Nat → Hp K V → Prop
  /-- A comparison before anything is written: in the search for the leaf, or in `search_slot` of a leaf
  without a free slot. -/
  | before (n H) : UnwLeafNode late k v n H n H
  /-- A comparison in `post_insert` of the leaf. -/
  | compare {n H s id} (hl : n.locate k = (s, some id)) :
      UnwLeafNode late k v n H n (H.setLeaf id ((H.leaf id).burn k v))
  /-- A clone of a key or of a value in `freeze_and_distribute` (leaf.rs 633-641): the new leaves, which
  nobody knows yet, are dropped. -/
  | distribute {n H s id} (hl : n.locate k = (s, some id))
      (hi : ((H.leaf id).insert k v).2 = .full ∨ ((H.leaf id).insert k v).2 = .retired)
      (hd : n.dead = false) :
      UnwLeafNode late k v n H n (exitSplitLeaf (H.setLeaf id (H.leaf id).freezeAndDistribute.1) id)
  /-- The clone of the greatest key of the low-key leaf (leaf_node.rs 850). -/
  | clone {n H s id high} (hlate : late = true) (hl : n.locate k = (s, some id))
      (hi : ((H.leaf id).insert k v).2 = .full ∨ ((H.leaf id).insert k v).2 = .retired)
      (hd : n.dead = false) (hh : (H.leaf id).freezeAndDistribute.2.2 = some high) :
      UnwLeafNode late k v n H n
        (exitSplitLeaf (linkHalves H id (H.leaf id).freezeAndDistribute.2.1 high) id)
  /-- A comparison in `self.children.insert` (leaf_node.rs 849-852). -/
  | cloneCompare {n H s id high e} (hlate : late = true) (hl : n.locate k = (s, some id))
      (hi : ((H.leaf id).insert k v).2 = .full ∨ ((H.leaf id).insert k v).2 = .retired)
      (hd : n.dead = false) (hh : (H.leaf id).freezeAndDistribute.2.2 = some high)
      (he : (H.leaf id).freezeAndDistribute.2.1.maxEntry = some e) :
      UnwLeafNode late k v n H { n with kids := n.kids.burn e.1 H.fresh }
        (exitSplitLeaf (linkHalves H id (H.leaf id).freezeAndDistribute.2.1 high) id)
  /-- In a later round, after a leaf has been split. -/
  | again {n H s id n1 H1 n2 H2} (hl : n.locate k = (s, some id))
      (hi : ((H.leaf id).insert k v).2 = .full ∨ ((H.leaf id).insert k v).2 = .retired)
      (hs : splitLeaf n H s id = (n1, H1, none)) (hu : UnwLeafNode late k v n1 H1 n2 H2) :
      UnwLeafNode late k v n H n2 H2

/-- `InternalNode::insert` (internal_node.rs 246-355) with `split_node` (571-878) left by a panic. `ins` is
the insertion into a child, `unw` the one left by a panic. -/
inductive UnwNode (ins : Nd K C → Hp K V → Nd K C × Hp K V × Out K C)
    (unw : Nd K C → Hp K V → Nd K C → Hp K V → Prop) (k : K) :
    Nd K (Nd K C) → Hp K V → Nd K (Nd K C) → Hp K V → Prop
  /-- A comparison in the search for the child. -/
  | before (n H) : UnwNode ins unw k n H n H
  /-- In the child. -/
  | child {n H s c c' H'} (hl : n.locate k = (s, some c)) (hu : unw c H c' H') :
      UnwNode ins unw k n H (n.set s c') H'
  /-- A clone or a comparison while the two new nodes are filled, or the clone of the middle key
  (internal_node.rs 621-805, leaf_node.rs 518-637): the guard rolls the prepared split of the child back. -/
  | split {n H s c c' H' p} (hl : n.locate k = (s, some c)) (hi : ins c H = (c', H', .full p)) :
      UnwNode ins unw k n H (n.set s c') (rollback H' p.leaves)
  /-- A comparison in `self.children.insert` (internal_node.rs 811-821). -/
  | splitCompare {n H s c c' H' p lo hi mid} (hl : n.locate k = (s, some c))
      (hf : ins c H = (c', H', .full p)) (hs : splitNd c' p = some (lo, hi, some mid)) :
      UnwNode ins unw k n H { n.set s c' with kids := (n.set s c').kids.burn mid lo } (rollback H' p.leaves)
  /-- In a later round, after the child has been split. -/
  | again {n H s c c' H' p n1 H1 n2 H2} (hl : n.locate k = (s, some c))
      (hi : ins c H = (c', H', .full p)) (hs : splitNode (n.set s c') H' s c' p = (n1, H1, none))
      (hu : UnwNode ins unw k n1 H1 n2 H2) : UnwNode ins unw k n H n2 H2

/-- `Node::insert` (node.rs 123-135) left by a panic. -/
def UnwTr (late : Bool) (f : Nat) (k : K) (v : V) : (h : Nat) → Tr K (h + 1) → Hp K V → Tr K (h + 1) → Hp K V → Prop
  | 0, n, H, n', H' => UnwLeafNode late k v n H n' H'
  | h + 1, n, H, n', H' => UnwNode (insTr f k v h) (UnwTr late f k v h) k n H n' H'

/-- `TreeIndex::insert_sync` (tree_index.rs 259-308) left by a panic, every loop with at most `f` rounds.
Nothing is compared or cloned as long as there is no root. -/
inductive UnwInsert (late : Bool) (f : Nat) (k : K) (v : V) : Ix K V → Ix K V → Prop
  | tree {h n H n' H'} (hu : UnwTr late f k v h n H n' H') :
      UnwInsert late f k v { root := some ⟨h, n⟩, hp := H } { root := some ⟨h, n'⟩, hp := H' }
  /-- A clone or a comparison in `Node::split_root` (node.rs 197-270): the new root is dropped. -/
  | root {h n H n' H' p} (hi : insTr f k v h n H = (n', H', .full p)) :
      UnwInsert late f k v { root := some ⟨h, n⟩, hp := H }
        { root := some ⟨h, n'⟩, hp := rollback H' p.leaves }
  /-- In a later round, after the root has been split. -/
  | again {h n H n' H' p y z} (hi : insTr f k v h n H = (n', H', .full p)) (hs : splitRoot H' h n' p = some y)
      (hu : UnwInsert late f k v y z) : UnwInsert late f k v { root := some ⟨h, n⟩, hp := H } z

/-! ## Removal -/

/-- `LeafNode::remove_if` (leaf_node.rs 372-422) left by a panic. -/
inductive UnwRemLeafNode (late : Bool) (k : K) (cond : V → Bool) :
    Nd K Nat → Hp K V → Nd K Nat → Hp K V → Prop
  /-- A comparison in the search for the leaf or in the leaf, or the condition. -/
  | before (n H) : UnwRemLeafNode late k cond n H n H
  /-- The entry was the last one of its leaf, and a comparison in `self.children.remove_if` panics (leaf_node.rs
  928-931): the first leaf that is retired has been deleted from the linked list, but still is a child. -/
  | coalesce {n H s id l A kj j B} (hlate : late = true) (hl : n.locate k = (s, some id))
      (hr : (H.leaf id).removeIf k cond = (l, .retired)) (hE : n.kids.toList = A ++ (kj, j) :: B)
      (hA : ∀ e ∈ A, retired ((H.setLeaf id l).leaf e.2).w = false)
      (hj : retired ((H.setLeaf id l).leaf j).w = true) :
      UnwRemLeafNode late k cond n H n ((H.setLeaf id l).deleteSelf j)

/-- `InternalNode::remove_if` (internal_node.rs 363-419) left by a panic in the search or below. -/
inductive UnwRemNode (unw : Nd K C → Hp K V → Nd K C → Hp K V → Prop) (k : K) :
    Nd K (Nd K C) → Hp K V → Nd K (Nd K C) → Hp K V → Prop
  | before (n H) : UnwRemNode unw k n H n H
  | child {n H s c c' H'} (hl : n.locate k = (s, some c)) (hu : unw c H c' H') :
      UnwRemNode unw k n H (n.set s c') H'

/-- `Node::remove_if` (node.rs 138-158) left by a panic. -/
def UnwRemTr (late : Bool) (k : K) (cond : V → Bool) : (h : Nat) → Tr K (h + 1) → Hp K V → Tr K (h + 1) → Hp K V → Prop
  | 0, n, H, n', H' => UnwRemLeafNode late k cond n H n' H'
  | h + 1, n, H, n', H' => UnwRemNode (UnwRemTr late k cond h) k n H n' H'

/-- `TreeIndex::remove_if_sync` (tree_index.rs 442-480) left by a panic. The entry is still there if `late`
is not set. -/
inductive UnwRemove (late : Bool) (k : K) (cond : V → Bool) : Ix K V → Ix K V → Prop
  | tree {h n H n' H'} (hu : UnwRemTr late k cond h n H n' H') :
      UnwRemove late k cond { root := some ⟨h, n⟩, hp := H } { root := some ⟨h, n'⟩, hp := H' }

/-- `TreeIndex::remove_if_sync` left by a panic of a comparison of `cleanup_link` (node.rs 379-388,
internal_node.rs 916-934, leaf_node.rs 734-762), which is called by nodes above the one that was cleaned and
does not write to nodes: the entry is removed, and the root is not cleaned (tree_index.rs 461-464). -/
inductive UnwCleanup (k : K) (cond : V → Bool) : Ix K V → Ix K V → Prop
  | tree {h n H n' H' r} (hr : remTr k cond h n H = (n', H', r)) (hc : r = .cleanup ∨ r = .success) :
      UnwCleanup k cond { root := some ⟨h, n⟩, hp := H } { root := some ⟨h, n'⟩, hp := H' }

/-! ## Histories -/

/-- Calls of one thread, some of which end with a panic that is caught, and the map made of the calls that
return: a call that panics is not to have any effect, other than that the entry may be gone if a removal
panics while it cleans up. -/
inductive Hist (late : Bool) (f : Nat) : Ix K V → Spec.Map K V → Prop
  | new : Hist late f Ix.new Spec.Map.empty
  | call {x m} (h : Hist late f x m) (o : TOp K V) : Hist late f (x.call f o).1 (Spec.step m o).1
  | insert {x m y k v} (h : Hist late f x m) (hu : UnwInsert late f k v x y) : Hist late f y m
  | remove {x m y k cond} (h : Hist late f x m) (hu : UnwRemove late k cond x y) : Hist late f y m
  | cleanup {x m y k cond} (h : Hist late f x m) (hu : UnwCleanup k cond x y) :
      Hist late f y (Spec.step m (.removeIf k cond)).1

end Scc.Tree
