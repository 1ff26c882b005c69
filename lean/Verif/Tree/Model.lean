import Verif.Leaf.Seq

/-!
# The tree index, one thread

/repo/src/tree_index.rs, /repo/src/tree_index/{node,internal_node,leaf_node}.rs on top of the leaf of
`Verif/Leaf/Model.lean`, which stores the entries of the index and, with child pointers as values, the
children of nodes.

Operations of one thread that nobody disturbs: locks are always free, metadata validations succeed and
pointer exchanges find the expected pointer, so these are left out. Nodes are values, so that writing
through a pointer is handing back a new node; leaves are in a heap because they are also linked to each
other. The tag that tells internal nodes from leaf nodes is replaced by the height in the type: all
children of a node have the same height, since splits create nodes of the height of what they split.
`split_op` of a node is filled by a failed split and read by the split of the parent; here its contents
are handed up in the result. Panics, allocation failures and deferred reclamation are left out. `Q`, the
type of lookup keys, is `K`.
-/

namespace Scc.Tree

open Scc.Leaf

variable {K V C : Type} [KeyOrd K]

/-! ## The heap of leaves -/

/-- Leaves with their links (leaf.rs 22-37, field `link`). The linked list is that of the crate `sdd`:
`next` is the pointer, `mark` and `del` are its tags; leaf `i` is allocated if `i < fresh`. -/
structure Hp (K V : Type) where
  leaf : Nat → Leaf K V
  next : Nat → Option Nat
  mark : Nat → Bool
  del : Nat → Bool
  fresh : Nat

def Hp.init : Hp K V :=
  { leaf := fun _ => Leaf.new, next := fun _ => none, mark := fun _ => false, del := fun _ => false,
    fresh := 0 }

/-- Store to a leaf. -/
def Hp.setLeaf (H : Hp K V) (i : Nat) (l : Leaf K V) : Hp K V :=
  { H with leaf := fun j => if j = i then l else H.leaf j }

/-- `Shared::new`: the new leaf is leaf `H.fresh`. -/
def Hp.alloc (H : Hp K V) (l : Leaf K V) : Hp K V := { H.setLeaf H.fresh l with fresh := H.fresh + 1 }

/-- `sdd::LinkedList::push_back(a, b, mark = true)`: `b` follows `a`, and `a` is marked. Nothing happens
if `a` is deleted; the code of /repo does not look at the result outside of debug builds. -/
def Hp.pushBack (H : Hp K V) (a b : Nat) : Hp K V :=
  { H with
    next := fun j =>
      if H.del a then H.next j else if j = a then some b else if j = b then H.next a else H.next j
    mark := fun j => if H.del a then H.mark j else if j = a then true else H.mark j }

/-- `sdd::LinkedList::delete_self`: the tag of the link says that the leaf is deleted. -/
def Hp.deleteSelf (H : Hp K V) (a : Nat) : Hp K V :=
  { H with del := fun j => if j = a then true else H.del j }

/-- `link_ref().swap((p, Tag::None))`: the tags are cleared as well. -/
def Hp.setLink (H : Hp K V) (a : Nat) (p : Option Nat) : Hp K V :=
  { H with
    next := fun j => if j = a then p else H.next j
    mark := fun j => if j = a then false else H.mark j
    del := fun j => if j = a then false else H.del j }

/-- `sdd::LinkedList::next_ptr`: the next leaf that is not deleted. At most `f` deleted ones are passed
over; there are never more than `fresh` leaves. -/
def Hp.nextFrom (H : Hp K V) : Nat → Nat → Option Nat
  | 0, _ => none
  | f + 1, a =>
    match H.next a with
    | none => none
    | some b => if H.del b then H.nextFrom f b else some b

def Hp.nextPtr (H : Hp K V) (a : Nat) : Option Nat := H.nextFrom H.fresh a

/-- `sdd::LinkedList::is_clear`: neither marked nor deleted. -/
def Hp.isClear (H : Hp K V) (a : Nat) : Bool := !H.mark a && !H.del a

/-! ## Nodes -/

/-- `LeafNode` (leaf_node.rs 24-36) with `C` leaves, `InternalNode` (internal_node.rs 22-35) with `C`
nodes. `ub` is `unbounded_child`; `dead` says that its tag is `RETIRED`. -/
structure Nd (K C : Type) where
  kids : Leaf K C
  ub : Option C
  dead : Bool

/-- `LeafNode::new` (leaf_node.rs 74-81), `InternalNode::new` (internal_node.rs 56-63). -/
def Nd.new : Nd K C := { kids := Leaf.new, ub := none, dead := false }

/-- Height 0: a leaf; height 1: a leaf node; above: internal nodes. -/
@[reducible] def Tr (K : Type) : Nat → Type
  | 0 => Nat
  | h + 1 => Nd K (Tr K h)

/-- Store to the value of the slot that holds key `k`, which is how a child pointer is replaced. -/
def _root_.Scc.Leaf.Leaf.setVal (l : Leaf K C) (k : K) (c : C) : Leaf K C :=
  match l.searchSlot k l.w with
  | some i => { l with entry := fun j => if j = i then (l.entry i).map (fun e => (e.1, c)) else l.entry j }
  | none => l

/-- Replace the child pointer of the key `s`; `none` is the unbounded child. -/
def Nd.set (n : Nd K C) (s : Option K) (c : C) : Nd K C :=
  match s with
  | some k => { n with kids := n.kids.setVal k c }
  | none => { n with ub := some c }

/-- The child pointer of the key `s`. -/
def Nd.child (n : Nd K C) (s : Option K) : Option C :=
  match s with
  | some k => (n.kids.search k).map (·.2)
  | none => n.ub

/-- The child responsible for `k`, and its key (the first lines of all descents, e.g. leaf_node.rs
119-121, 134-135; internal_node.rs 111-113, 120-121). -/
def Nd.locate (n : Nd K C) (k : K) : Option K × Option C :=
  match n.kids.minGreaterEqual k with
  | some (ck, c) => (some ck, some c)
  | none => (none, n.ub)

/-! ## Insertion -/

/-- `StructuralChange` (leaf_node.rs 62-69, internal_node.rs 46-52) after a split that could not be
finished: key of the origin, `middle_key` (for a leaf node the greatest key of the low-key leaf), the
low-key and the high-key part, and the origin, low-key and high-key leaf at the bottom. -/
structure SplitOp (K C : Type) where
  okey : Option K
  mid : K
  low : C
  high : C
  leaves : Nat × Nat × Nat

/-- `Ok(InsertResult)` (leaf.rs 47-64) and `Err` (`err`). `full` says that the node was locked with a
split prepared. `Frozen` and `Retry` are never the result of a node; `fuel` stands for a loop that has
not ended; `panic` for `unreachable!()` and `unwrap()` of nothing. -/
inductive Out (K C : Type)
  | success
  | duplicate
  | full (p : SplitOp K C)
  | retired
  | err
  | fuel
  | panic

/-- `LeafNode::split_leaf` (leaf_node.rs 771-914). The last component is `none` for
`InsertResult::Retry`. -/
def splitLeaf (n : Nd K Nat) (H : Hp K V) (s : Option K) (id : Nat) :
    Nd K Nat × Hp K V × Option (Out K Nat) :=
  if n.dead then (n, H, some .retired)
  else
    let d := (H.leaf id).freezeAndDistribute
    match d.2.2 with
    | some hl =>
      let lo := H.fresh
      let hi := H.fresh + 1
      let H1 := ((H.setLeaf id d.1).alloc d.2.1).alloc hl
      let H2 := (H1.pushBack id hi).pushBack id lo
      let H3 := H2.setLeaf lo (H2.leaf lo).freezeLeaf.1
      match (H3.leaf lo).maxEntry with
      | none => (n, H3, some .panic)
      | some e =>
        match n.kids.insert e.1 lo with
        | (kids, .success) =>
          let H4 := H3.deleteSelf id
          let H5 := H4.setLeaf lo (H4.leaf lo).thawLeaf.1
          ({ n with kids := kids }.set s hi, H5, none)
        | (_, .full) => (n, H3.setLeaf hi (H3.leaf hi).freezeLeaf.1, some (.full ⟨s, e.1, lo, hi, id, lo, hi⟩))
        | (_, .retired) => (n, H3.setLeaf hi (H3.leaf hi).freezeLeaf.1, some (.full ⟨s, e.1, lo, hi, id, lo, hi⟩))
        | (_, .duplicate) => (n, H3, some .panic)
        | (_, .frozen) => (n, H3, some .panic)
    | none =>
      let lo := H.fresh
      let H1 := (H.setLeaf id d.1).alloc d.2.1
      let H2 := (H1.pushBack id lo).deleteSelf id
      (n.set s lo, H2, none)

/-- `LeafNode::insert` (leaf_node.rs 264-364). -/
def insLeafNode (k : K) (v : V) : Nat → Nd K Nat → Hp K V → Nd K Nat × Hp K V × Out K Nat
  | 0, n, H => (n, H, .fuel)
  | f + 1, n, H =>
    let go := fun (n : Nd K Nat) (H : Hp K V) (s : Option K) (id : Nat) =>
      match (H.leaf id).insert k v with
      | (l, .success) => (n, H.setLeaf id l, Out.success)
      | (l, .duplicate) => (n, H.setLeaf id l, .duplicate)
      | (l, .frozen) => (n, H.setLeaf id l, .err)
      | (l, .full) | (l, .retired) =>
        match splitLeaf n (H.setLeaf id l) s id with
        | (n', H', none) => insLeafNode k v f n' H'
        | (n', H', some o) => (n', H', o)
    match n.locate k with
    | (s, some id) => go n H s id
    | (s, none) =>
      if n.dead then (n, H, .retired)
      else go { n with ub := some H.fresh } (H.alloc Leaf.new) s H.fresh

/-- The list built by `split_leaf_node` (leaf_node.rs 541-600) and by `split_node` (internal_node.rs
621-723): the children with the origin replaced by the two parts. -/
def entryArray (n : Nd K C) (p : SplitOp K C) : List (Option K × C) :=
  (n.kids.toList.flatMap fun e =>
    match p.okey with
    | some ok => if cmp e.1 ok = .eq then [(some p.mid, p.low), (some e.1, p.high)] else [(some e.1, e.2)]
    | none => [(some e.1, e.2)]) ++
  match p.okey with
  | none => [(some p.mid, p.low), (none, p.high)]
  | some _ => n.ub.toList.map fun u => (none, u)

/-- The loop that fills the two new nodes (leaf_node.rs 603-634, internal_node.rs 726-762): `b` is
`low_key_leaf_array_size`. The last component is the middle key. A missing key of a child of the low-key
node is a panic. -/
def fill (b : Nat) : Nat → List (Option K × C) → Nd K C → Nd K C → Option K →
    Option (Nd K C × Nd K C × Option K)
  | _, [], lo, hi, m => some (lo, hi, m)
  | i, (k, c) :: r, lo, hi, m =>
    if i + 1 < b then
      match k with
      | some k => fill b (i + 1) r { lo with kids := lo.kids.insertUnchecked k c i } hi m
      | none => none
    else if i + 1 = b then fill b (i + 1) r { lo with ub := some c } hi k
    else
      match k with
      | some k => fill b (i + 1) r lo { hi with kids := hi.kids.insertUnchecked k c (i - b) } m
      | none => fill b (i + 1) r lo { hi with ub := some c } m

/-- `LeafNode::split_leaf_node` (leaf_node.rs 518-637) and the corresponding part of
`InternalNode::split_node` (internal_node.rs 601-771). -/
def splitNd (n : Nd K C) (p : SplitOp K C) : Option (Nd K C × Nd K C × Option K) :=
  let es := entryArray n p
  fill (min (optimalBoundary n.kids.w) (es.length - 1)) 0 es Nd.new Nd.new none

/-- `Node::commit` (node.rs 359-364), `InternalNode::commit` (internal_node.rs 890-899),
`LeafNode::commit` (leaf_node.rs 641-688): the origin leaf is deleted, both parts are usable. -/
def commit (H : Hp K V) (ls : Nat × Nat × Nat) : Hp K V :=
  let H1 := H.deleteSelf ls.1
  let H2 := H1.setLeaf ls.2.1 (H1.leaf ls.2.1).thawLeaf.1
  H2.setLeaf ls.2.2 (H2.leaf ls.2.2).thawLeaf.1

/-- `InternalNode::split_node` (internal_node.rs 571-878) for the child `c` with key `s`. -/
def splitNode (n : Nd K (Nd K C)) (H : Hp K V) (s : Option K) (c : Nd K C) (p : SplitOp K C) :
    Nd K (Nd K C) × Hp K V × Option (Out K (Nd K C)) :=
  match splitNd c p with
  | some (lo, hi, some mid) =>
    match n.kids.insert mid lo with
    | (kids, .success) => ({ n with kids := kids }.set s hi, commit H p.leaves, none)
    | (_, .full) => (n, H, some (.full ⟨s, mid, lo, hi, p.leaves⟩))
    | (_, .retired) => (n, H, some (.full ⟨s, mid, lo, hi, p.leaves⟩))
    | (_, .duplicate) => (n, H, some .panic)
    | (_, .frozen) => (n, H, some .panic)
  | _ => (n, H, some .panic)

/-- `Node::retired` (node.rs 55-60, leaf_node.rs 101-103, internal_node.rs 93-95). -/
def Nd.retired (n : Nd K C) : Bool := n.dead

/-- `RemoveResult` (leaf.rs 68-79) and `Err`. `fuel` stands for a loop that has not ended. -/
inductive RRes
  | success | cleanup | retired | fail | err | fuel
  deriving DecidableEq, Repr

/-- The loop over the children in `InternalNode::coalesce` (internal_node.rs 941-957): the key and the
node of the last child that is not retired, and whether a node was removed. -/
def coalesceKids : List (K × Nd K C) → Nd K (Nd K C) → Option (K × Nd K C) → Bool →
    Nd K (Nd K C) × Option (K × Nd K C) × Bool
  | [], n, mx, d => (n, mx, d)
  | (k, c) :: r, n, mx, d =>
    if c.retired then coalesceKids r { n with kids := (n.kids.removeIf k (fun _ => true)).1 } mx true
    else coalesceKids r n (some (k, c)) d

/-- `InternalNode::coalesce` (internal_node.rs 937-1016). One round: afterwards no child is retired
(`has_retired_node`, internal_node.rs 1019-1039), so that the loop ends. -/
def coalesce (n : Nd K (Nd K C)) : Nd K (Nd K C) × RRes :=
  let r := coalesceKids n.kids.toList n none false
  match r.1.ub with
  | some u =>
    if u.retired then
      match r.2.1 with
      | some (k, c) =>
        ({ r.1 with ub := some c, kids := (r.1.kids.removeIf k (fun _ => true)).1 }, .cleanup)
      | none => ({ r.1 with ub := none, dead := true }, .retired)
    else (r.1, if r.2.2 then .cleanup else .success)
  | none => (r.1, .retired)

/-- `InternalNode::insert` (internal_node.rs 246-355). -/
def insNode (ins : Nd K C → Hp K V → Nd K C × Hp K V × Out K C) (k : K) :
    Nat → Nd K (Nd K C) → Hp K V → Nd K (Nd K C) × Hp K V × Out K (Nd K C)
  | 0, n, H => (n, H, .fuel)
  | f + 1, n, H =>
    match n.locate k with
    | (s, some c) =>
      match ins c H with
      | (c', H', .success) => (n.set s c', H', .success)
      | (c', H', .duplicate) => (n.set s c', H', .duplicate)
      | (c', H', .full p) =>
        match splitNode (n.set s c') H' s c' p with
        | (n', H', none) => insNode ins k f n' H'
        | (n', H', some o) => (n', H', o)
      | (c', H', .retired) =>
        let r := coalesce (n.set s c')
        (r.1, H', if r.2 = .retired then .retired else .err)
      | (c', H', .err) => (n.set s c', H', .err)
      | (c', H', .fuel) => (n.set s c', H', .fuel)
      | (c', H', .panic) => (n.set s c', H', .panic)
    | (_, none) => (n, H, .retired)

/-- `Node::insert` (node.rs 123-135). -/
def insTr (f : Nat) (k : K) (v : V) : (h : Nat) → Tr K (h + 1) → Hp K V →
    Tr K (h + 1) × Hp K V × Out K (Tr K h)
  | 0, n, H => insLeafNode k v f n H
  | h + 1, n, H => insNode (insTr f k v h) k f n H

/-! ## Removal -/

/-- The loop over the children in `LeafNode::coalesce` (leaf_node.rs 922-948): whether a leaf that is
not retired was found, and whether a leaf without such a one before it was removed. -/
def coalesceLeaves : List (K × Nat) → Nd K Nat → Hp K V → Bool → Bool → Nd K Nat × Hp K V × Bool × Bool
  | [], n, H, valid, unc => (n, H, valid, unc)
  | (k, i) :: r, n, H, valid, unc =>
    if Leaf.retired (H.leaf i).w then
      coalesceLeaves r { n with kids := (n.kids.removeIf k (fun _ => true)).1 } (H.deleteSelf i) valid
        (unc || !valid)
    else coalesceLeaves r n H true unc

/-- `LeafNode::coalesce` (leaf_node.rs 917-990). One round: afterwards no leaf is retired that the
round would remove (`has_retired_leaf`, leaf_node.rs 993-1012), so that the loop ends. -/
def coalesceLeafNode (n : Nd K Nat) (H : Hp K V) : Nd K Nat × Hp K V × RRes :=
  let r := coalesceLeaves n.kids.toList n H false false
  let done : RRes := if r.2.2.2 then .cleanup else .success
  if r.2.2.1 then (r.1, r.2.1, done)
  else match r.1.ub with
    | some u =>
      if Leaf.retired (r.2.1.leaf u).w then
        ({ r.1 with ub := none, dead := true }, r.2.1.deleteSelf u, .retired)
      else (r.1, r.2.1, done)
    | none => (r.1, r.2.1, .retired)

/-- `LeafNode::remove_if` (leaf_node.rs 372-422). -/
def remLeafNode (k : K) (cond : V → Bool) (n : Nd K Nat) (H : Hp K V) : Nd K Nat × Hp K V × RRes :=
  match n.locate k with
  | (_, some i) =>
    match (H.leaf i).removeIf k cond with
    | (l, .frozen) => (n, H.setLeaf i l, .err)
    | (l, .retired) => coalesceLeafNode n (H.setLeaf i l)
    | (l, .success) => (n, H.setLeaf i l, .success)
    | (l, .fail) => (n, H.setLeaf i l, .fail)
  | (_, none) => (n, H, .fail)

/-- The result of `LeafNode::cleanup_link` (leaf_node.rs 734-762). The jumps it makes only let the
linked list forget deleted leaves. -/
def cleanLeafNode (k : K) (mx : Bool) (n : Nd K Nat) : Bool :=
  if mx then n.ub.isSome else (n.kids.maxLessEntry k).isSome

/-- The result of `Node::cleanup_link` (node.rs 379-388, internal_node.rs 916-934). -/
def cleanTr (k : K) : (h : Nat) → Bool → Tr K (h + 1) → Bool
  | 0, mx, n => cleanLeafNode k mx n
  | h + 1, mx, n =>
    if mx then match n.ub with
      | some (u : Tr K (h + 1)) => cleanTr k h true u
      | none => false
    else match n.kids.maxLessEntry k with
      | some (_, c) => cleanTr k h true c
      | none => false

/-- `InternalNode::remove_if` (internal_node.rs 363-419). -/
def remNode (rem : Nd K C → Hp K V → Nd K C × Hp K V × RRes) (clean : Nd K (Nd K C) → Bool) (k : K)
    (n : Nd K (Nd K C)) (H : Hp K V) : Nd K (Nd K C) × Hp K V × RRes :=
  match n.locate k with
  | (s, some c) =>
    match rem c H with
    | (c', H', .cleanup) => (n.set s c', H', if clean (n.set s c') then .success else .cleanup)
    | (c', H', .retired) => ((coalesce (n.set s c')).1, H', (coalesce (n.set s c')).2)
    | (c', H', r) => (n.set s c', H', r)
  | (_, none) => (n, H, .fail)

/-- `Node::remove_if` (node.rs 138-158). -/
def remTr (k : K) (cond : V → Bool) : (h : Nat) → Tr K (h + 1) → Hp K V → Tr K (h + 1) × Hp K V × RRes
  | 0, n, H => remLeafNode k cond n H
  | h + 1, n, H => remNode (remTr k cond h) (cleanTr k (h + 1) false) k n H

/-! ## Lookup -/

/-- `Node::search_entry`, `Node::search_value` (node.rs 70-92, leaf_node.rs 113-181, internal_node.rs
105-159). -/
def findTr (H : Hp K V) (k : K) : (h : Nat) → Tr K h → Option (K × V)
  | 0, i => (H.leaf i).search k
  | h + 1, n =>
    match n.locate k with
    | (_, some c) => findTr H k h c
    | (_, none) => none

/-! ## Removal of a range -/

/-- `std::ops::Bound`. -/
inductive Bd (K : Type)
  | incl (k : K)
  | excl (k : K)
  | unb

/-- `Bound::Unbounded`. -/
def Bd.isUnb : Bd K → Bool
  | .unb => true
  | _ => false

/-- `range_contains` (leaf.rs 82-95). -/
def contains (a b : Bd K) (k : K) : Bool :=
  (match a with
    | .incl s => cmp s k != .gt
    | .excl s => cmp s k == .lt
    | .unb => true) &&
  (match b with
    | .incl e => cmp e k != .lt
    | .excl e => cmp e k == .gt
    | .unb => true)

/-- `RemoveRangeState` (leaf_node.rs 44-57). -/
inductive RS
  | below | maybeBelow | fully | maybeAbove
  deriving DecidableEq, Repr

/-- `RemoveRangeState::next` (leaf_node.rs 1037-1079). From `MaybeAbove` it is never called. -/
def RS.next (st : RS) (a b : Bd K) (su : Bool) (k : K) : RS :=
  if contains a b k then
    match st with
    | .below => if su then .fully else .maybeBelow
    | _ => .fully
  else
    match st with
    | .below =>
      match a with
      | .incl s => if cmp s k = .gt then .below else .maybeAbove
      | .excl s => if cmp s k = .lt then .maybeAbove else .below
      | .unb => .maybeAbove
    | _ => .maybeAbove

/-- The loop of `LeafNode::remove_range` (leaf_node.rs 453-489): node, heap, `num_leaves` and
`first_valid_leaf`. -/
def rangeLeaves (a b : Bd K) (su : Bool) : List (K × Nat) → RS → Nd K Nat → Hp K V → Nat → Option Nat →
    Nd K Nat × Hp K V × Nat × Option Nat
  | [], _, n, H, c, fv => (n, H, c, fv)
  | (k, i) :: r, st, n, H, c, fv =>
    match st.next a b su k with
    | .below =>
      rangeLeaves a b su r .below n (H.setLeaf i ((H.leaf i).removeRange (contains a b))) (c + 1)
        (fv.or (some i))
    | .maybeBelow =>
      rangeLeaves a b su r .maybeBelow n (H.setLeaf i ((H.leaf i).removeRange (contains a b))) (c + 1)
        (fv.or (some i))
    | .fully =>
      rangeLeaves a b su r .fully { n with kids := (n.kids.removeIf k (fun _ => true)).1 }
        (H.deleteSelf i) c fv
    | .maybeAbove => (n, H.setLeaf i ((H.leaf i).removeRange (contains a b)), c + 1, fv.or (some i))

/-- `LeafNode::remove_range` (leaf_node.rs 428-514). `ll` is `valid_lower_max_leaf`. Instead of being
handed `valid_upper_min_node` and calling its `remove_range` as the last thing (leaf_node.rs 502-511),
the function returns the unbounded leaf, and the caller that has both nodes makes that call. The results:
node, heap, number of remaining children, unbounded leaf. -/
def rangeLeafNode (a b : Bd K) (su : Bool) (ll : Option Nat) (n : Nd K Nat) (H : Hp K V) :
    Nd K Nat × Hp K V × Nat × Option Nat :=
  let r := rangeLeaves a b su n.kids.toList .below n H 1 none
  let H1 := match r.1.ub with
    | some u => r.2.1.setLeaf u ((r.2.1.leaf u).removeRange (contains a b))
    | none => r.2.1
  let H2 := match ll with
    | some l => H1.setLink l (r.2.2.2.or r.1.ub)
    | none => H1
  (r.1, H2, r.2.2.1, r.1.ub)

/-- The loop of `InternalNode::remove_range` (internal_node.rs 450-483): state, node, `num_children`,
keys of `lower_border` and `upper_border`. `up` says that `valid_upper_min_node` is given. -/
def rangeKids (a b : Bd K) (su up : Bool) : List (K × C) → RS → Nd K C → Nat → Option K → Option K →
    RS × Nd K C × Nat × Option K × Option K
  | [], st, n, c, lb, ub => (st, n, c, lb, ub)
  | (k, _) :: r, st, n, c, lb, ub =>
    match st.next a b su k with
    | .below => rangeKids a b su up r .below n (c + 1) lb ub
    | .maybeBelow => rangeKids a b su up r .maybeBelow n (c + 1) (some k) ub
    | .fully =>
      rangeKids a b su up r .fully { n with kids := (n.kids.removeIf k (fun _ => true)).1 } c lb ub
    | .maybeAbove =>
      if up then (.maybeAbove, { n with kids := (n.kids.removeIf k (fun _ => true)).1 }, c, lb, ub)
      else (.maybeAbove, n, c + 1, lb, some k)

/-- `InternalNode::remove_range` (internal_node.rs 426-563), `rec` on the children. Arguments of `rec`:
`start_unbounded`, `valid_lower_max_leaf`, whether `valid_upper_min_node` is given. As above, the
recursion on `valid_upper_min_node` is made by the caller that has both nodes. -/
def rangeNode (rec : Bool → Option Nat → Bool → C → Hp K V → C × Hp K V × Nat × Option Nat)
    (a b : Bd K) (su : Bool) (ll : Option Nat) (up : Bool) (n : Nd K C) (H : Hp K V) :
    Nd K C × Hp K V × Nat × Option Nat :=
  let r := rangeKids a b su up n.kids.toList .below n 1 none none
  let n1 := r.2.1
  -- `lower_border` and `upper_border` as keys, `some none` for the unbounded child
  let lower : Option (Option K) :=
    if r.1 = .below ∧ up then some none else r.2.2.2.1.map some
  let upper : Option (Option K) :=
    match r.1 with
    | .below => if up then none else some none
    | .maybeBelow => some none
    | .fully => some none
    | .maybeAbove => r.2.2.2.2.map some
  match ll with
  | some l =>
    match upper with
    | some s =>
      match n1.child s with
      | some c =>
        let x := rec true (some l) false c H
        (n1.set s x.1, x.2.1, r.2.2.1, none)
      | none => (n1, H, r.2.2.1, none)
    | none => (n1, H, r.2.2.1, none)
  | none =>
    if up then
      let n2 := match lower with
        | some (some k) =>
          { n1 with kids := (n1.kids.removeIf k (fun _ => true)).1, ub := n1.child (some k) }
        | _ => n1
      match n2.ub with
      | some c =>
        let x := rec su none true c H
        (n2.set none x.1, x.2.1, r.2.2.1, x.2.2.2)
      | none => (n2, H, r.2.2.1, none)
    else
      match lower.bind n1.child, upper.bind n1.child with
      | _, none => (n1, H, r.2.2.1, none)
      | none, some u =>
        let x := rec su none false u H
        (n1.set (upper.getD none) x.1, x.2.1, r.2.2.1, none)
      | some l, some u =>
        let x := rec su none true l H
        let y := rec true x.2.2.2 false u x.2.1
        ((n1.set (lower.getD none) x.1).set (upper.getD none) y.1, y.2.1, r.2.2.1, none)

/-- `Node::remove_range` (node.rs 163-193). -/
def rangeTr (a b : Bd K) : (h : Nat) → Bool → Option Nat → Bool → Tr K (h + 1) → Hp K V →
    Tr K (h + 1) × Hp K V × Nat × Option Nat
  | 0, su, ll, _, n, H => rangeLeafNode a b su ll n H
  | h + 1, su, ll, up, n, H => rangeNode (rangeTr a b h) a b su ll up n H

/-! ## The index -/

/-- `TreeIndex` (tree_index.rs 55-60): the root, absent or a node of some height, and the heap. -/
structure Ix (K V : Type) where
  root : Option ((h : Nat) × Tr K (h + 1))
  hp : Hp K V

/-- `TreeIndex::new` (tree_index.rs 103-107). -/
def Ix.new : Ix K V := { root := none, hp := Hp.init }

/-- `Node::split_root` (node.rs 197-270): a new internal node over the old root, whose split is then
finished. `none` is a panic. -/
def splitRoot (H : Hp K V) (h : Nat) (n : Tr K (h + 1)) (p : SplitOp K (Tr K h)) : Option (Ix K V) :=
  match splitNode { Nd.new with ub := some n } H none n p with
  | (r, H', none) => some { root := some ⟨h + 1, r⟩, hp := H' }
  | (_, _, some _) => none

/-- `Node::cleanup_root` (node.rs 279-355). -/
def cleanupRoot : (h : Nat) → Tr K (h + 1) → Option ((h : Nat) × Tr K (h + 1))
  | 0, n => if n.dead then none else some ⟨0, n⟩
  | h + 1, n =>
    if n.dead then none
    else if n.kids.isEmpty then
      match n.ub with
      | some (u : Tr K (h + 1)) => cleanupRoot h u
      | none => none
    else some ⟨h + 1, n⟩

/-- `TreeIndex::insert_sync` (tree_index.rs 259-308): `true` for `Ok`, `false` for `Err`, `none` if the
loop has not ended after `f` rounds or the code panics. -/
def Ix.insertLoop (f : Nat) (k : K) (v : V) : Nat → Ix K V → Ix K V × Option Bool
  | 0, x => (x, none)
  | g + 1, x =>
    match x.root with
    | some ⟨h, n⟩ =>
      match insTr f k v h n x.hp with
      | (n', H', .success) => ({ root := some ⟨h, n'⟩, hp := H' }, some true)
      | (n', H', .duplicate) => ({ root := some ⟨h, n'⟩, hp := H' }, some false)
      | (n', H', .full p) =>
        match splitRoot H' h n' p with
        | some y => y.insertLoop f k v g
        | none => ({ root := some ⟨h, n'⟩, hp := H' }, none)
      | (n', H', .retired) =>
        match cleanupRoot h n' with
        | some r => Ix.insertLoop f k v g { root := some r, hp := H' }
        | none => Ix.insertLoop f k v g { root := some ⟨0, Nd.new⟩, hp := H' }
      | (n', H', .err) => Ix.insertLoop f k v g { root := some ⟨h, n'⟩, hp := H' }
      | (n', H', .fuel) => ({ root := some ⟨h, n'⟩, hp := H' }, none)
      | (n', H', .panic) => ({ root := some ⟨h, n'⟩, hp := H' }, none)
    | none => Ix.insertLoop f k v g { x with root := some ⟨0, Nd.new⟩ }

/-- `TreeIndex::insert_sync`, every loop with at most `f` rounds. -/
def Ix.insert (f : Nat) (x : Ix K V) (k : K) (v : V) : Ix K V × Option Bool := x.insertLoop f k v f

/-- `TreeIndex::remove_if_sync` (tree_index.rs 442-480). -/
def Ix.removeLoop (k : K) (cond : V → Bool) : Nat → Bool → Ix K V → Ix K V × Option Bool
  | 0, _, x => (x, none)
  | g + 1, removed, x =>
    match x.root with
    | some ⟨h, n⟩ =>
      match remTr k cond h n x.hp with
      | (n', H', .success) => ({ root := some ⟨h, n'⟩, hp := H' }, some true)
      | (n', H', .cleanup) => ({ root := cleanupRoot h n', hp := H' }, some true)
      | (n', H', .retired) => ({ root := cleanupRoot h n', hp := H' }, some true)
      | (n', H', .fail) =>
        if removed then ({ root := cleanupRoot h n', hp := H' }, some true)
        else ({ root := some ⟨h, n'⟩, hp := H' }, some false)
      | (n', H', .err) => Ix.removeLoop k cond g removed { root := some ⟨h, n'⟩, hp := H' }
      | (n', H', .fuel) => ({ root := some ⟨h, n'⟩, hp := H' }, none)
    | none => (x, some removed)

/-- `TreeIndex::remove_if_sync`, with at most `f` rounds. -/
def Ix.removeIf (f : Nat) (x : Ix K V) (k : K) (cond : V → Bool) : Ix K V × Option Bool :=
  x.removeLoop k cond f false

/-- `TreeIndex::peek_entry` (tree_index.rs 682-690); `peek` (616-624) is its value. -/
def Ix.peek (x : Ix K V) (k : K) : Option (K × V) :=
  match x.root with
  | some ⟨h, n⟩ => findTr x.hp k (h + 1) n
  | none => none

/-- `TreeIndex::remove_range_sync` (tree_index.rs 572-592). -/
def Ix.removeRange (x : Ix K V) (a b : Bd K) : Ix K V :=
  match x.root with
  | some ⟨h, n⟩ =>
    let r := rangeTr a b h a.isUnb none false n x.hp
    { root := if r.2.2.1 < 2 then cleanupRoot h r.1 else some ⟨h, r.1⟩, hp := r.2.1 }
  | none => x

/-- All leaves below a node, in order. -/
def leaves : (h : Nat) → Tr K h → List Nat
  | 0, i => [i]
  | h + 1, n => n.kids.toList.flatMap (fun e => leaves h e.2) ++ match n.ub with
    | some c => leaves h c
    | none => []

/-- `TreeIndex::clear` (tree_index.rs 132-136): the root is dropped and the links of all leaves are cut
(node.rs 37-42, internal_node.rs 67-79, leaf_node.rs 85-97). -/
def Ix.clear (x : Ix K V) : Ix K V :=
  match x.root with
  | some ⟨h, n⟩ => { root := none, hp := (leaves (h + 1) n).foldl (fun H i => H.setLink i none) x.hp }
  | none => x

/-- `TreeIndex::depth` (tree_index.rs 150-157, node.rs 46-51, internal_node.rs 83-89). -/
def depthTr : (h : Nat) → Nat → Tr K (h + 1) → Nat
  | 0, d, _ => d
  | h + 1, d, n =>
    match n.ub with
    | some (u : Tr K (h + 1)) => depthTr h (d + 1) u
    | none => d

def Ix.depth (x : Ix K V) : Nat :=
  match x.root with
  | some ⟨h, n⟩ => depthTr h 1 n
  | none => 0

end Scc.Tree
