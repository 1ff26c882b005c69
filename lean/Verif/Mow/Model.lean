/-!
# `remove_range` of the tree index beside other calls: one node

/repo/src/tree_index/internal_node.rs 426-563 (`InternalNode::remove_range`) and
/repo/src/tree_index/leaf_node.rs 428-514 (`LeafNode::remove_range`), executed access by access on one node while
any number of threads pass through that node with `peek`, `insert` and `remove` (internal_node.rs 105-420,
leaf_node.rs 110-420: choose a child, load its pointer, validate the version, go on in the child).

What is atomic here: reading the version of the node together with its keys; every load of a pointer; every store
to one; the comparison of versions; every change of the keys together with the version.

A child is a map with atomic operations; what `remove_range` does in a child (the recursion on a node, or
`Leaf::remove_range`, leaf.rs 481-499) is: entries in the range disappear one by one at arbitrary times, and the call
ends only when the entries in the range that are left were inserted after `remove_range` had begun. Beside it calls on
keys in the range may see anything (`Step.stray`). For a child that is itself a node this is what is proved here for
the node.

Left out: structural changes by other threads. They need the lock of the node, which `remove_range` holds; the node is
not full and its children do not split. Panics; the reclamation of memory (sequential consistency; objects are never
freed). Keys are natural numbers.
-/

namespace Scc.Mow

local notation "Key" => Nat
local notation "Id" => Nat
local notation "Thr" => Nat

/-- `std::ops::Bound`. -/
inductive Bd
  | incl (k : Key)
  | excl (k : Key)
  | unb
  deriving DecidableEq, Repr

/-- `range_contains` (leaf.rs 82-95), the first half: the key is not below the range. -/
def Bd.from (a : Bd) (k : Key) : Bool :=
  match a with
  | .incl s => decide (s ≤ k)
  | .excl s => decide (s < k)
  | .unb => true

/-- `range_contains` (leaf.rs 82-95), the second half: the key is not above the range. -/
def Bd.to (b : Bd) (k : Key) : Bool :=
  match b with
  | .incl e => decide (k ≤ e)
  | .excl e => decide (k < e)
  | .unb => true

/-- `RemoveRangeState` (leaf_node.rs 44-57). -/
inductive RS
  | below | maybeBelow | fully | maybeAbove
  deriving DecidableEq, Repr

/-- How a node is called: with neither of the two optional arguments, with `valid_upper_min_node` (the node is on the
lower border of the range, another one is on the upper border), or with `valid_lower_max_leaf` (the node is on the
upper border of the range). -/
inductive Mode
  | plain | lower | upper
  deriving DecidableEq, Repr

/-- What is fixed during a call: the bounds of the range, the argument `start_unbounded`, the way the node is called,
whether it is an `InternalNode` or a `LeafNode`, and the keys the node is responsible for: those greater than `lo` and
not greater than `hi`. -/
structure Cfg where
  a : Bd
  b : Bd
  su : Bool
  mode : Mode
  internal : Bool
  lo : Option Key
  hi : Option Key

/-- `range_contains` (leaf.rs 82-95). -/
def Cfg.has (g : Cfg) (k : Key) : Bool := g.a.from k && g.b.to k

/-- `RemoveRangeState::next` (leaf_node.rs 1037-1079). From `MaybeAbove` it is never called. -/
def Cfg.next (g : Cfg) (st : RS) (k : Key) : RS :=
  if g.has k then
    match st with
    | .below => if g.su then .fully else .maybeBelow
    | _ => .fully
  else
    match st with
    | .below => if g.a.from k then .maybeAbove else .below
    | _ => .maybeAbove

/-- The keys a node is responsible for. -/
def Cfg.within (g : Cfg) (k : Key) : Prop :=
  (∀ p, g.lo = some p → p < k) ∧ ∀ q, g.hi = some q → k ≤ q

/-- `min_greater_equal` (leaf.rs 564-606): the place of the child for a key; 0 is `unbounded_child`. -/
def route (kids : List (Key × Nat)) (k : Key) : Nat :=
  match kids.find? fun e => decide (k ≤ e.1) with
  | some e => e.2
  | none => 0

/-- What a thread is asked to do (/repo/src/tree_index.rs 179-487 and 616-715). -/
inductive Op (V : Type)
  | peek
  | insert (v : V)
  | remove
  deriving DecidableEq, Repr

/-- What a call returns. -/
inductive Ans (V : Type)
  | found (o : Option V)
  | inserted
  | duplicate
  | removed (b : Bool)
  deriving DecidableEq, Repr

/-- The answer of an operation on a leaf and what it leaves there for the key (leaf.rs 277-480 and 512-520). -/
def Op.run {V : Type} : Op V → Option V → Ans V × Option V
  | .peek, o => (.found o, o)
  | .insert v, none => (.inserted, some v)
  | .insert _, some w => (.duplicate, some w)
  | .remove, o => (.removed o.isSome, none)

/-- Bookkeeping: when a call chose the child, seen from `remove_range`. `gap`: after the key of the lower border was
removed and before the unbounded child is replaced (internal_node.rs 518-520). -/
inductive When
  | usual | gap | after
  deriving DecidableEq, Repr

/-- Where a thread is in its call. -/
inductive Pc
  | idle
  /-- before `min_greater_equal` -/
  | top
  /-- before the load of the pointer at place `i`; `v` is the version of the node -/
  | sel (i v : Nat) (w : When)
  /-- pointer `c` was loaded; before `validate` -/
  | got (c : Id) (v : Nat) (w : When)
  /-- in the child -/
  | act (c : Id) (w : When)
  deriving DecidableEq, Repr

/-- A thread. -/
structure Th (V : Type) where
  key : Key
  op : Op V
  pc : Pc

/-- Where `remove_range` is. `rest` is what the `Scanner` will still return, `st` is `current_state`, `lb` and `ub` are
`lower_border` and `upper_border`. -/
inductive RPc
  | idle
  | scan (rest : List (Key × Nat)) (st : RS) (lb : Option (Key × Nat)) (ub : Option Nat)
  /-- in leaf `c`, within the loop (leaf_node.rs 455-463 and 472-481) -/
  | leaf (c : Id) (rest : List (Key × Nat)) (st : RS) (lb : Option (Key × Nat)) (ub : Option Nat)
  /-- a key was removed, its pointer at place `i` is still to be cleared (internal_node.rs 465-466, 471-472,
  leaf_node.rs 467-470) -/
  | clear (i : Nat) (rest : List (Key × Nat)) (st : RS) (lb : Option (Key × Nat)) (ub : Option Nat)
  /-- before the key of the lower border is removed (internal_node.rs 518) -/
  | move (k : Key) (i : Nat)
  /-- before the unbounded child is replaced (internal_node.rs 519-520) -/
  | gap (i : Nat)
  /-- before the pointer is cleared (internal_node.rs 521) -/
  | tidy (i : Nat)
  /-- in child `c`; the children `todo` are next (internal_node.rs 507-560, leaf_node.rs 485-487) -/
  | sub (c : Id) (todo : List Id)
  | done
  deriving DecidableEq, Repr

/-- Bookkeeping: a call, its answer, when it had chosen the child, and whether the key had been inserted (by a call on
this node) since `remove_range` began. -/
structure Ev (V : Type) where
  key : Key
  op : Op V
  ans : Ans V
  w : When
  fresh : Bool
  deriving DecidableEq, Repr

/-- The state: the node (`children` as keys in ascending order with places, pointers, metadata word), its children, the
threads, `remove_range`. -/
structure St (V : Type) where
  kids : List (Key × Nat)
  cell : Nat → Option Id
  ver : Nat
  map : Id → Key → Option V
  th : Thr → Th V
  rr : RPc
  /-- bookkeeping: a call has inserted the key since `remove_range` began -/
  fresh : Key → Bool
  /-- bookkeeping: the calls that have acted, the first one first -/
  hist : List (Ev V)

/-- `Function.update`. -/
def upd {α : Type} (f : Nat → α) (i : Nat) (x : α) : Nat → α := fun j => if j = i then x else f j

variable {V : Type}

/-- The time at which a call chooses its child. -/
def RPc.when : RPc → When
  | .gap _ => .gap
  | .done => .after
  | _ => .usual

/-- Whether an operation counts as an insertion that was made after `remove_range` had begun. -/
def RPc.marks (r : RPc) : Op V → Bool
  | .insert _ => decide (r ≠ .idle)
  | _ => false

/-- Thread `t` goes on to `pc`. -/
def St.go (s : St V) (t : Thr) (pc : Pc) : St V := { s with th := upd s.th t { s.th t with pc := pc } }

/-- The call of thread `t` acts: its answer, the new contents of the children. -/
def St.call (s : St V) (t : Thr) (ans : Ans V) (w : When) (m : Id → Key → Option V) : St V :=
  { s.go t .idle with
    map := m
    fresh := upd s.fresh (s.th t).key (s.fresh (s.th t).key || s.rr.marks (s.th t).op)
    hist := s.hist ++ [⟨(s.th t).key, (s.th t).op, ans, w, s.fresh (s.th t).key⟩] }

/-- `children.remove_if(key, &mut |_| true)` (leaf.rs 383-478). -/
def St.cut (s : St V) (k : Key) (r : RPc) : St V :=
  { s with kids := s.kids.filter fun e => decide (e.1 ≠ k), ver := s.ver + 1, rr := r }

/-- No entry in the range is left in a child, apart from keys that were inserted since `remove_range` began. -/
def Clean (g : Cfg) (s : St V) (c : Id) : Prop := ∀ k, g.has k = true → s.map c k ≠ none → s.fresh k = true

/-- The children that remain to be treated after the loop: `lower_node`, `upper_node` of internal_node.rs 534-560 and
`upper_node` of 507-512, `unbounded_child` of 523-532. -/
def Cfg.todo (g : Cfg) (s : St V) (lb : Option (Key × Nat)) (ub : Option Nat) : List Id :=
  match g.mode with
  | .plain =>
    match lb.bind (fun e => s.cell e.2), ub.bind s.cell with
    | _, none => []
    | none, some u => [u]
    | some l, some u => [l, u]
  | .upper => (ub.bind s.cell).toList
  | .lower => (s.cell 0).toList

/-- `upper_border` after the loop (internal_node.rs 482-505). -/
def Cfg.upper (g : Cfg) (st : RS) (ub : Option Nat) : Option Nat :=
  match st with
  | .below => if g.mode = .lower then ub else some 0
  | .maybeBelow => some 0
  | .fully => some 0
  | .maybeAbove => ub

/-- The next of the children to be treated. -/
def subs : List Id → RPc
  | [] => .done
  | c :: r => .sub c r

/-- The steps. -/
inductive Step (g : Cfg) : St V → St V → Prop
  /-- a thread calls (the parent, or the user, has led it to this node) -/
  | begin {s} (t : Thr) (k : Key) (op : Op V) (hp : (s.th t).pc = .idle) (hk : g.within k) :
      Step g s { s with th := upd s.th t ⟨k, op, .top⟩ }
  /-- `min_greater_equal` (internal_node.rs 111, 140, 254, 375; leaf_node.rs 119, 161, 272, 383) -/
  | select {s} (t : Thr) (hp : (s.th t).pc = .top) :
      Step g s (s.go t (.sel (route s.kids (s.th t).key) s.ver s.rr.when))
  /-- the load of the pointer (internal_node.rs 113, 120) -/
  | load {s} (t : Thr) (i v : Nat) (w : When) (c : Id) (hp : (s.th t).pc = .sel i v w) (hc : s.cell i = some c) :
      Step g s (s.go t (.got c v w))
  /-- the pointer is null: again (internal_node.rs 110-128) -/
  | null {s} (t : Thr) (i v : Nat) (w : When) (hp : (s.th t).pc = .sel i v w) (hc : s.cell i = none)
      (hi : i ≠ 0 ∨ (s.th t).op ≠ .peek) : Step g s (s.go t .top)
  /-- the unbounded pointer is null: nothing found (internal_node.rs 125-127) -/
  | void {s} (t : Thr) (v : Nat) (w : When) (hp : (s.th t).pc = .sel 0 v w) (hc : s.cell 0 = none)
      (ho : (s.th t).op = .peek) : Step g s (s.call t (.found none) w s.map)
  /-- `validate` succeeds (internal_node.rs 114, 122) -/
  | valid {s} (t : Thr) (c : Id) (v : Nat) (w : When) (hp : (s.th t).pc = .got c v w) (hv : v = s.ver) :
      Step g s (s.go t (.act c w))
  /-- `validate` fails: again -/
  | invalid {s} (t : Thr) (c : Id) (v : Nat) (w : When) (hp : (s.th t).pc = .got c v w) (hv : v ≠ s.ver) :
      Step g s (s.go t .top)
  /-- the operation on the child -/
  | act {s} (t : Thr) (c : Id) (w : When) (hp : (s.th t).pc = .act c w) :
      Step g s (s.call t ((s.th t).op.run (s.map c (s.th t).key)).1 w
        (upd s.map c (upd (s.map c) (s.th t).key ((s.th t).op.run (s.map c (s.th t).key)).2)))
  /-- a call on a key in the range that gets into a part of the child that `remove_range` has removed: nothing is said
  about its answer, and it has no effect -/
  | stray {s} (t : Thr) (c : Id) (w : When) (ans : Ans V) (hp : (s.th t).pc = .act c w) (hw : w ≠ .after)
      (hk : g.has (s.th t).key = true) : Step g s (s.call t ans w s.map)
  /-- `Locker::try_lock` and `Scanner::new` (internal_node.rs 441-451, leaf_node.rs 443-452) -/
  | lock {s} (hr : s.rr = .idle) : Step g s { s with rr := .scan s.kids .below none none }
  /-- the loop, a child below the range (internal_node.rs 454-456) -/
  | below {s} (k : Key) (i : Nat) (rest) (st : RS) (lb ub) (hr : s.rr = .scan ((k, i) :: rest) st lb ub)
      (hn : g.next st k = .below) (hg : g.internal = true) :
      Step g s { s with rr := .scan rest .below lb ub }
  /-- the loop, the child that has the lower border (internal_node.rs 457-461) -/
  | border {s} (k : Key) (i : Nat) (rest) (st : RS) (lb ub) (hr : s.rr = .scan ((k, i) :: rest) st lb ub)
      (hn : g.next st k = .maybeBelow) (hg : g.internal = true) :
      Step g s { s with rr := .scan rest .maybeBelow (some (k, i)) ub }
  /-- the loop, a child within the range: its key is removed (internal_node.rs 462-465, leaf_node.rs 464-467) -/
  | fully {s} (k : Key) (i : Nat) (rest) (st : RS) (lb ub) (hr : s.rr = .scan ((k, i) :: rest) st lb ub)
      (hn : g.next st k = .fully) : Step g s (s.cut k (.clear i rest .fully lb ub))
  /-- the loop, a child above the range in a node on the lower border (internal_node.rs 469-471) -/
  | aboveCut {s} (k : Key) (i : Nat) (rest) (st : RS) (lb ub) (hr : s.rr = .scan ((k, i) :: rest) st lb ub)
      (hn : g.next st k = .maybeAbove) (hg : g.internal = true) (hm : g.mode = .lower) :
      Step g s (s.cut k (.clear i [] .maybeAbove lb ub))
  /-- the loop, the child that has the upper border (internal_node.rs 473-477) -/
  | above {s} (k : Key) (i : Nat) (rest) (st : RS) (lb ub) (hr : s.rr = .scan ((k, i) :: rest) st lb ub)
      (hn : g.next st k = .maybeAbove) (hg : g.internal = true) (hm : g.mode ≠ .lower) :
      Step g s { s with rr := .scan [] .maybeAbove lb (some i) }
  /-- the loop of a leaf node, a leaf that may have keys in the range (leaf_node.rs 455-463 and 472-481) -/
  | leaf {s} (k : Key) (i : Nat) (rest) (st : RS) (lb ub) (c : Id) (hr : s.rr = .scan ((k, i) :: rest) st lb ub)
      (hn : g.next st k ≠ .fully) (hg : g.internal = false) (hc : s.cell i = some c) :
      Step g s { s with rr := .leaf c (if g.next st k = .maybeAbove then [] else rest) (g.next st k) lb ub }
  /-- the same with a null pointer -/
  | leafNull {s} (k : Key) (i : Nat) (rest) (st : RS) (lb ub) (hr : s.rr = .scan ((k, i) :: rest) st lb ub)
      (hn : g.next st k ≠ .fully) (hg : g.internal = false) (hc : s.cell i = none) :
      Step g s { s with rr := .scan (if g.next st k = .maybeAbove then [] else rest) (g.next st k) lb ub }
  /-- an entry of a leaf is removed (leaf.rs 493-495) -/
  | leafDrop {s} (c : Id) (rest) (st : RS) (lb ub) (x : Key) (hr : s.rr = .leaf c rest st lb ub)
      (hx : g.has x = true) : Step g s { s with map := upd s.map c (upd (s.map c) x none) }
  /-- `Leaf::remove_range` returns -/
  | leafEnd {s} (c : Id) (rest) (st : RS) (lb ub) (hr : s.rr = .leaf c rest st lb ub) (hc : Clean g s c) :
      Step g s { s with rr := .scan rest st lb ub }
  /-- the pointer is cleared (internal_node.rs 466, 472, leaf_node.rs 468) -/
  | clear {s} (i : Nat) (rest) (st : RS) (lb ub) (hr : s.rr = .clear i rest st lb ub) :
      Step g s { s with cell := upd s.cell i none, rr := .scan rest st lb ub }
  /-- the end of the loop of a leaf node: the unbounded leaf is next (leaf_node.rs 485-487) -/
  | endLeaf {s} (st : RS) (lb ub) (hr : s.rr = .scan [] st lb ub) (hg : g.internal = false) :
      Step g s { s with rr := subs (s.cell 0).toList }
  /-- the end of the loop of a node on the lower border, if a child with a key has the lower border
  (internal_node.rs 513-517) -/
  | endMove {s} (st : RS) (k : Key) (i : Nat) (ub) (hr : s.rr = .scan [] st (some (k, i)) ub)
      (hg : g.internal = true) (hm : g.mode = .lower) : Step g s { s with rr := .move k i }
  /-- the end of the loop of an internal node otherwise -/
  | endNode {s} (st : RS) (lb ub) (hr : s.rr = .scan [] st lb ub) (hg : g.internal = true)
      (hm : g.mode = .lower → lb = none) :
      Step g s { s with rr := subs (g.todo s lb (g.upper st ub)) }
  /-- the key of the lower border is removed (internal_node.rs 518) -/
  | move {s} (k : Key) (i : Nat) (hr : s.rr = .move k i) : Step g s (s.cut k (.gap i))
  /-- the unbounded child is replaced (internal_node.rs 519-520) -/
  | gap {s} (i : Nat) (hr : s.rr = .gap i) :
      Step g s { s with cell := upd s.cell 0 (s.cell i), rr := .tidy i }
  /-- the pointer is cleared (internal_node.rs 521); the unbounded child is next (523-532) -/
  | tidy {s} (i : Nat) (hr : s.rr = .tidy i) :
      Step g s { s with cell := upd s.cell i none, rr := subs (s.cell 0).toList }
  /-- an entry in the range disappears from a child -/
  | drop {s} (c : Id) (todo) (x : Key) (hr : s.rr = .sub c todo) (hx : g.has x = true) :
      Step g s { s with map := upd s.map c (upd (s.map c) x none) }
  /-- the recursive call returns -/
  | subEnd {s} (c : Id) (todo) (hr : s.rr = .sub c todo) (hc : Clean g s c) : Step g s { s with rr := subs todo }

/-- A node before `remove_range` and before any call. -/
structure Init (g : Cfg) (s : St V) : Prop where
  idle : ∀ t, (s.th t).pc = .idle
  rr : s.rr = .idle
  fresh : ∀ k, s.fresh k = false
  hist : s.hist = []
  sorted : s.kids.Pairwise fun d e => d.1 < e.1
  place : s.kids.Pairwise fun d e => d.2 ≠ e.2
  pos : ∀ e ∈ s.kids, e.2 ≠ 0
  inside : ∀ e ∈ s.kids, g.within e.1
  cell : ∀ e ∈ s.kids, s.cell e.2 ≠ none
  cell0 : s.cell 0 ≠ none

/-- The ways in which a node is called (internal_node.rs 507-560, /repo/src/tree_index.rs 572-592). With
`start_unbounded` the range has no lower bound, or the child before this node has a key in the range; a node on the
lower border has a key in the range in its parent. -/
structure Good (g : Cfg) : Prop where
  su : g.su = true → g.a = .unb ∨ ∃ p, g.lo = some p ∧ g.has p = true
  lower : g.mode = .lower → g.su = false ∧ ∃ q, g.hi = some q ∧ g.has q = true
  upper : g.mode = .upper → g.su = true

/-- The states that can be reached. -/
inductive Reach (g : Cfg) (s₀ : St V) : St V → Prop
  | refl : Reach g s₀ s₀
  | step {s s'} : Reach g s₀ s → Step g s s' → Reach g s₀ s'

end Scc.Mow
