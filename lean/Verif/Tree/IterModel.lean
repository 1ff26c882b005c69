import Verif.Tree.Model

/-!
# Iterators of the tree index

/repo/src/tree_index.rs `Iter` and `Range`, /repo/src/tree_index/leaf.rs `Scanner`. The same conventions
as in `Verif/Tree/Model.lean`: nobody disturbs the functions, so that validations succeed. A `Scanner`
has its own copy of the metadata word, as in the code, so that the tree may change between two calls.
-/

namespace Scc.Tree

open Scc.Leaf

variable {K V C : Type} [KeyOrd K]

/-! ## Scanner -/

/-- `Scanner` (leaf.rs 865-869): leaf, copy of its metadata word, slot. The slot `num_entries` stands
before the first entry; `none` is `usize::MAX`, the end. -/
structure Scn where
  leaf : Nat
  w : Word
  idx : Option Nat
  deriving DecidableEq

/-- `Scanner::new` (leaf.rs 874-880). -/
def Scn.new (H : Hp K V) (i : Nat) : Scn := { leaf := i, w := (H.leaf i).w, idx := some numEntries }

/-- `Scanner::get` (leaf.rs 890-898). -/
def Scn.get (H : Hp K V) (s : Scn) : Option (K × V) :=
  match s.idx with
  | some i => if i ≥ numEntries then none else (H.leaf s.leaf).entry i
  | none => none

/-- `Scanner::proceed` (leaf.rs 943-954); `Scanner::next` (leaf.rs 992-1000) is `proceed` and `get`. -/
def Scn.step (s : Scn) : Scn :=
  match s.idx with
  | none => s
  | some i =>
    if nextSlot i s.w = numEntries then { s with idx := none }
    else { s with idx := some (nextSlot i s.w) }

/-- `Scanner::max_less` (leaf.rs 963-978). -/
def Scn.maxLess (H : Hp K V) (i : Nat) (k : K) : Option Scn :=
  let j := (H.leaf i).maxLess k (H.leaf i).w
  if j = numEntries then none else some { leaf := i, w := (H.leaf i).w, idx := some j }

/-- The inner loop of `Scanner::jump` (leaf.rs 925-929): the first entry with a key greater than `k`. A
leaf has at most `num_entries` entries, so that `num_entries + 1` rounds are enough. -/
def Scn.skipTo (H : Hp K V) (k : K) : Nat → Scn → Option Scn
  | 0, _ => none
  | f + 1, s =>
    match s.step.get H with
    | none => none
    | some e => if cmp k e.1 = .lt then some s.step else Scn.skipTo H k f s.step

/-- The loop of `Scanner::jump` (leaf.rs 916-939) from the leaf `p` on. `key` is `min_allowed_key` if the
leaf the scanner is on is not clear, else `none`. At most `f` leaves are visited. -/
def jumpLoop (H : Hp K V) (key : Option K) : Nat → Option Nat → Option Scn
  | 0, _ => none
  | _ + 1, none => none
  | f + 1, some p =>
    match key with
    | some k =>
      match Scn.skipTo H k (numEntries + 1) (Scn.new H p) with
      | some s => some s
      | none => jumpLoop H key f (H.nextPtr p)
    | none =>
      if ((Scn.new H p).step.get H).isSome then some (Scn.new H p).step
      else jumpLoop H key f (H.nextPtr p)

/-- `Scanner::jump` (leaf.rs 908-940). There are no more than `fresh` leaves. -/
def Scn.jump (H : Hp K V) (s : Scn) (min : Option K) : Option Scn :=
  jumpLoop H (if H.isClear s.leaf then none else min) (H.fresh + 1) (H.nextPtr s.leaf)

/-! ## The first leaf -/

/-- `Node::min` (node.rs 96-103), `LeafNode::min` (leaf_node.rs 185-213), `InternalNode::min`
(internal_node.rs 163-196). -/
def minTr (H : Hp K V) : (h : Nat) → Tr K (h + 1) → Option Scn
  | 0, n =>
    match n.kids.toList with
    | (_, i) :: _ => some (Scn.new H i)
    | [] => n.ub.map (fun i => Scn.new H i)
  | h + 1, n =>
    match n.kids.toList.findSome? (fun e => minTr H h e.2) with
    | some s => some s
    | none =>
      match n.ub with
      | some (u : Tr K (h + 1)) => minTr H h u
      | none => none

/-- A new scanner is moved to its first entry, or to that of a later leaf (tree_index.rs 986-989,
leaf_node.rs 244-253, internal_node.rs 231-240). `jump` returns only scanners that point to an entry, so
that the loops make at most one round. -/
def Scn.settle (H : Hp K V) (s : Scn) : Option Scn :=
  if (s.step.get H).isSome then some s.step else s.step.jump H none

/-- The fallback of `max_le_appr` (leaf_node.rs 242-255, internal_node.rs 229-242). -/
def fallback (H : Hp K V) (k : K) (m : Option Scn) : Option Scn :=
  match m.bind (fun s => s.settle H) with
  | none => none
  | some s =>
    match s.get H with
    | some e => if cmp k e.1 = .lt then none else some s
    | none => none

/-- The entry of the child list at the slot found by `max_less` (leaf_node.rs 222-223, internal_node.rs
208-209). -/
def below (l : Leaf K C) (k : K) : Option C :=
  if l.maxLess k l.w = numEntries then none else (l.entry (l.maxLess k l.w)).map (fun e => e.2)

/-- `Node::max_le_appr` (node.rs 110-121), `LeafNode::max_le_appr` (leaf_node.rs 215-256),
`InternalNode::max_le_appr` (internal_node.rs 202-243). -/
def maxLe (H : Hp K V) (k : K) : (h : Nat) → Tr K (h + 1) → Option Scn
  | 0, n =>
    match (below n.kids k).bind (fun i => Scn.maxLess H i k) with
    | some s => some s
    | none => fallback H k (minTr H 0 n)
  | h + 1, n =>
    match (below n.kids k : Option (Tr K (h + 1))).bind (fun c => maxLe H k h c) with
    | some s => some s
    | none => fallback H k (minTr H (h + 1) n)

/-! ## Iter -/

/-- "Go to the next entry" (tree_index.rs 911-925): the scanner to keep and the result. -/
def advance (H : Hp K V) (s : Scn) : Option Scn × Option (K × V) :=
  match s.step.get H with
  | some e => (some s.step, some e)
  | none =>
    match s.step.jump H ((s.get H).map (fun e => e.1)) with
    | some s' =>
      match s'.get H with
      | some e => (some s', some e)
      | none => (none, none)
    | none => (none, none)

/-- `Iter::next` (tree_index.rs 897-927); the state is `leaf_scanner`, absent in `Iter::new`
(tree_index.rs 869-878). -/
def Ix.iterNext (x : Ix K V) (it : Option Scn) : Option Scn × Option (K × V) :=
  match it with
  | some s => advance x.hp s
  | none =>
    match x.root with
    | none => (none, none)
    | some ⟨h, n⟩ =>
      match minTr x.hp h n with
      | some s => advance x.hp s
      | none => (none, none)

/-- The results of `n` calls of `next`. -/
def Ix.iterCalls (x : Ix K V) : Nat → Option Scn → List (Option (K × V))
  | 0, _ => []
  | n + 1, it => (x.iterNext it).2 :: x.iterCalls n (x.iterNext it).1

/-- What a `for` loop over `iter()` visits: results up to the first `None`, at most `n`. -/
def Ix.iterTake (x : Ix K V) : Nat → Option Scn → List (K × V)
  | 0, _ => []
  | n + 1, it =>
    match (x.iterNext it).2 with
    | some e => e :: x.iterTake n (x.iterNext it).1
    | none => []

/-! ## Range -/

/-- `Range` (tree_index.rs 83-95): `leaf_scanner`, `check_lower_bound`, `check_upper_bound`. -/
structure Rng where
  scn : Option Scn
  cl : Bool
  cu : Bool
  deriving DecidableEq

/-- `Range::new` (tree_index.rs 939-953). -/
def Rng.new : Rng := { scn := none, cl := true, cu := false }

/-- The key of a bound. -/
def Bd.key : Bd K → Option K
  | .incl k => some k
  | .excl k => some k
  | .unb => none

/-- `Range::set_check_upper_bound` (tree_index.rs 1021-1032) reads the largest key of the leaf as it is
now, in the heap `H`; `Leaf::max_key` is leaf.rs 159-162. -/
def checkUpper (H : Hp K V) (b : Bd K) (i : Nat) : Bool :=
  match b with
  | .excl k => (H.leaf i).maxEntry.any (fun e => cmp k e.1 != .gt)
  | .incl k => (H.leaf i).maxEntry.any (fun e => cmp k e.1 == .lt)
  | .unb => false

/-- The start of a scan (tree_index.rs 968-998): the scanner. -/
def Ix.startScan (x : Ix K V) (a : Bd K) : Option Scn :=
  match x.root with
  | none => none
  | some ⟨h, n⟩ =>
    match a.key.bind (fun k => maxLe x.hp k h n) with
    | some s => some s
    | none => (minTr x.hp h n).bind (fun s => s.settle x.hp)

/-- `Range::next_unbounded` (tree_index.rs 965-1019). Leaves are scanned in the heap of `x`; the largest
key of a leaf is read after its metadata word has been copied, in the heap `Hm`. -/
def Ix.nextUnb (x : Ix K V) (Hm : Hp K V) (a b : Bd K) (r : Rng) : Rng × Option (K × V) :=
  match r.scn with
  | none =>
    let cl := if x.root.isSome && a.isUnb then false else r.cl
    match x.startScan a with
    | none => ({ r with cl := cl }, none)
    | some s =>
      match s.get x.hp with
      | some e => ({ scn := some s, cl := cl, cu := checkUpper Hm b s.leaf }, some e)
      | none => ({ r with cl := cl }, none)
  | some s =>
    match s.step.get x.hp with
    | some e => ({ r with scn := some s.step }, some e)
    | none =>
      match s.step.jump x.hp ((s.get x.hp).map (fun e => e.1)) with
      | some s' =>
        match s'.get x.hp with
        | some e => ({ r with scn := some s', cu := checkUpper Hm b s'.leaf }, some e)
        | none => ({ r with scn := none }, none)
      | none => ({ r with scn := none }, none)

/-- The test of the lower bound in `Range::next` (tree_index.rs 1059-1073): go on. -/
def skipLower (a : Bd K) (k : K) : Bool :=
  match a with
  | .excl s => cmp s k != .lt
  | .incl s => cmp s k == .gt
  | .unb => false

/-- The test of the upper bound in `Range::next` (tree_index.rs 1076-1090): return the entry. -/
def passUpper (b : Bd K) (k : K) : Bool :=
  match b with
  | .excl e => cmp e k == .gt
  | .incl e => cmp e k != .lt
  | .unb => true

/-- `Range::next` (tree_index.rs 1056-1096), at most `f` rounds of the loop; `none` if that is too few. -/
def Ix.rangeNext (x : Ix K V) (Hm : Hp K V) (a b : Bd K) : Nat → Rng → Rng × Option (Option (K × V))
  | 0, r => (r, none)
  | f + 1, r =>
    match x.nextUnb Hm a b r with
    | (r', none) => (r', some none)
    | (r', some e) =>
      if r'.cl && skipLower a e.1 then x.rangeNext Hm a b f r'
      else if r'.cu && !passUpper b e.1 then ({ r' with cl := false }, some none)
      else ({ r' with cl := false }, some (some e))

/-- The results of `n` calls of `next`, the tree being left alone. -/
def Ix.rangeCalls (x : Ix K V) (a b : Bd K) (f : Nat) : Nat → Rng → List (Option (Option (K × V)))
  | 0, _ => []
  | n + 1, r => (x.rangeNext x.hp a b f r).2 :: x.rangeCalls a b f n (x.rangeNext x.hp a b f r).1

/-! ## Functions made of iterators -/

/-- `TreeIndex::len` (tree_index.rs 725-729): the number of results before the first `None`, at most `n`. -/
def Ix.len (x : Ix K V) (n : Nat) : Nat := (x.iterTake n none).length

/-- `TreeIndex::is_empty` (tree_index.rs 742-746). -/
def Ix.isEmpty (x : Ix K V) : Bool := !(x.iterNext none).2.isSome

/-- `TreeIndex::clone` (tree_index.rs 808-822): the loop over at most `n` results, each insertion with at
most `f` rounds. -/
def Ix.clone (f n : Nat) (x : Ix K V) : Ix K V :=
  (x.iterTake n none).foldl (fun y e => (y.insert f e.1 e.2).1) Ix.new

/-- `TreeIndex::eq` (tree_index.rs 851-863), `Iterator::eq` of the two iterators: at most `n` results of
each are compared, `none` if that is too few. -/
def Ix.eqLoop [DecidableEq K] [DecidableEq V] (x y : Ix K V) : Nat → Option Scn → Option Scn → Option Bool
  | 0, _, _ => none
  | n + 1, i, j =>
    match (x.iterNext i).2 with
    | none => some (y.iterNext j).2.isNone
    | some e =>
      match (y.iterNext j).2 with
      | none => some false
      | some e' => if e = e' then Ix.eqLoop x y n (x.iterNext i).1 (y.iterNext j).1 else some false

end Scc.Tree
