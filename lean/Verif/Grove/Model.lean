/-!
# The tree index, any number of threads

/repo/src/tree_index.rs, /repo/src/tree_index/{node,internal_node,leaf_node}.rs: `insert`, `remove_if` and
`peek` of any number of threads, with the splits, merges and changes of the root they cause, in any
interleaving of their accesses to the shared pointers, version words and locks.

What is atomic here:
* One operation on a leaf (`Leaf::insert`, `Leaf::remove_if`, `Leaf::search_value`, `freeze`, `thaw`), whose
  single accesses are the subject of `Verif/LeafConc`. The false answer `Duplicate` of property C44 is left out.
* Reading the version of a node together with its keys; every load of a pointer; every store to one; the
  comparison of versions; every change of the keys of a node together with that of its version; taking and
  releasing a lock.

Threads that change the structure are not told apart: how far a change has got is written into the node that
is locked for it, and its next step may happen at any time. So a split may begin at any time and at any place
and need not have to do with an insertion, and nodes are full or not as they like: these are more executions
than the code has.

Left out: `clear`, `remove_range`, iterators and the linked list of leaves; panics; the reclamation of memory
(objects are never freed; the code keeps them alive by guards); weak memory (sequential consistency). Keys
are natural numbers; an execution has only finitely many keys, and those of any ordered type can be numbered.
-/

namespace Scc.Grove

local notation "Key" => Nat
local notation "Id" => Nat
local notation "Thr" => Nat

/-- A leaf or a node. -/
inductive Ref
  | leaf (i : Id)
  | node (i : Id)
  deriving DecidableEq, Repr

/-- The value of an `AtomicShared`: null, null with the tag `RETIRED`
(/repo/src/tree_index/leaf_node.rs 18-19), or a pointer. -/
inductive Ptr
  | null
  | ret
  | to (r : Ref)
  deriving DecidableEq, Repr

/-- `Leaf` (/repo/src/tree_index/leaf.rs 22-37) without the linked list;
whether it is frozen is in `Mem.frozen`. -/
structure Leaf (V : Type) where
  /-- the entries -/
  m : List (Key × V)
  /-- the last entry was removed; no more insertions -/
  retired : Bool

/-- The value stored for a key (`search_value`, /repo/src/tree_index/leaf.rs 500-508). -/
def Leaf.get {V : Type} (l : Leaf V) (k : Key) : Option V :=
  (l.m.find? fun e => e.1 == k).map Prod.snd

/-- Where the thread is that has locked a node, and what it keeps in `split_op`
(/repo/src/tree_index/leaf_node.rs 62-69, /repo/src/tree_index/internal_node.rs 47-53). `i` is the place of
the child that is changed, `x` the child, `xl` and `xh` what it is replaced with, `mid` the key that separates
these, and `ch` everything that the change makes obsolete. -/
inductive Phase
  /-- not locked -/
  | free
  /-- locked, newly created by the split of a leaf node (leaf_node.rs 526-527) -/
  | held
  | locked
  /-- a key was removed from the node, its pointer is still to be cleared (leaf_node.rs 928-933,
  internal_node.rs 956-961 and 985-987) -/
  | coal (i : Nat)
  /-- the unbounded child was replaced with the one of place `i`, the key `b` of that place is still to be
  removed (internal_node.rs 972-985) -/
  | move (b : Key) (i : Nat)
  /-- leaf `x` is frozen, its entries were copied to leaf `y` (leaf_node.rs 885-897) -/
  | single (i : Nat) (x y : Id)
  /-- leaf `x` is frozen, or node `x` is full; `xl` and `xh` were created -/
  | split (i : Nat) (x xl xh : Ref) (mid : Key) (ch : List Ref)
  /-- `xl` was added to the children; `thawed` if it can be changed -/
  | ins (i : Nat) (x xl xh : Ref) (mid : Key) (ch : List Ref) (thawed : Bool)
  /-- there was no room for `xl`; `claim`: the parent is replacing this node with two others -/
  | full (i : Nat) (x xl xh : Ref) (mid : Key) (ch : List Ref) (claim : Option (Id × Id))
  /-- `commit` of a leaf node (leaf_node.rs 641-688) after `j` of its steps -/
  | fin (j : Nat) (xl xh nl nh : Id)
  /-- a node that `split_root` has created to replace root `x`; nobody else knows it -/
  | root (x nl nh : Id) (mid : Key) (ch : List Ref)
  /-- the lock is poisoned, or the node was given up before anyone else saw it -/
  | gone
  deriving DecidableEq, Repr

/-- `LeafNode` (/repo/src/tree_index/leaf_node.rs 24-36) if `lv = 1`, and `InternalNode`
(/repo/src/tree_index/internal_node.rs 22-34) otherwise; the version of the keys is in `Mem.ver`, the lock and
`split_op` are in `Mem.phase`. -/
structure Node where
  /-- the height above the leaves -/
  lv : Nat
  /-- the keys of `children` in ascending order, each with the place of its pointer -/
  kids : List (Key × Nat)
  /-- the pointers; place 0 is `unbounded_child` -/
  cell : Nat → Ptr
  /-- the number of places used so far -/
  used : Nat

/-- `min_greater_equal` (/repo/src/tree_index/leaf.rs 549-602): the place of the child for a key. -/
def route (kids : List (Key × Nat)) (k : Key) : Nat :=
  match kids.find? fun e => decide (k ≤ e.1) with
  | some e => e.2
  | none => 0

/-- The pointer to the child for a key. -/
def Node.dest (N : Node) (k : Key) : Ptr := N.cell (route N.kids k)

/-- The places that are in use. -/
def Node.slots (N : Node) : List Nat := 0 :: N.kids.map Prod.snd

/-- Insertion of a key into `children`. -/
def insKid (b : Key) (i : Nat) : List (Key × Nat) → List (Key × Nat)
  | [] => [(b, i)]
  | e :: r => if b ≤ e.1 then (b, i) :: e :: r else e :: insKid b i r

/-- A new node with the given children. -/
def mkNode (lv : Nat) (l : List (Key × Ptr)) (u : Ptr) : Node :=
  { lv, kids := l.mapIdx fun j e => (e.1, j + 1),
    cell := fun i => if i = 0 then u else match l[i - 1]? with | some e => e.2 | none => .null,
    used := l.length + 1 }

/-- `entry_array` (/repo/src/tree_index/leaf_node.rs 539-598, internal_node.rs 628-732): the children of a
node with the one at place `i` replaced; the second component is the child without a key. -/
def Node.expand (N : Node) (i : Nat) (xl xh : Ref) (mid : Key) : List (Key × Ptr) × Ptr :=
  ((N.kids.flatMap fun e => if e.2 = i then [(mid, .to xl), (e.1, .to xh)] else [(e.1, N.cell e.2)]) ++
      (if i = 0 then [(mid, .to xl)] else []),
   if i = 0 then .to xh else N.cell 0)

/-- What a thread is asked to do. -/
inductive Op (V : Type)
  /-- `peek` and its variants (/repo/src/tree_index.rs 616-715) -/
  | peek
  /-- `insert_sync`, `insert_async` (/repo/src/tree_index.rs 179-309) -/
  | insert (v : V)
  /-- `remove_if_sync`, `remove_if_async` (/repo/src/tree_index.rs 372-487) with the condition;
  `remove_sync` and `remove_async` have a condition that is always true -/
  | remove (c : V → Bool)

/-- What a call returns. -/
inductive Ans (V : Type)
  | found (o : Option V)
  | inserted
  | duplicate
  | removed (b : Bool)
  deriving DecidableEq, Repr

/-- Where a thread is in its call. -/
inductive Pc (V : Type)
  | idle
  /-- before the load of the root -/
  | top
  /-- in a node, before `min_greater_equal` -/
  | at (n : Id)
  /-- before the load of the pointer at place `i`; `ver` is the version of the node -/
  | sel (n : Id) (i ver : Nat)
  /-- pointer `r` was loaded; before `validate` -/
  | got (n : Id) (ver : Nat) (r : Ref)
  /-- before the operation on leaf `l` -/
  | inLeaf (l : Id)
  /-- `remove_if` has removed the last entry of a leaf; before `cleanup_root` -/
  | clean
  /-- before the return -/
  | out (a : Ans V)

/-- A thread. -/
structure Th (V : Type) where
  key : Key
  op : Op V
  pc : Pc V
  /-- the nodes the thread has come through since it loaded the root -/
  vis : List Id
  /-- the variable `removed` of `remove_if_sync` (/repo/src/tree_index.rs 446) -/
  rm : Bool

/-- What the threads share. -/
structure Mem (V : Type) where
  /-- `TreeIndex::root` (/repo/src/tree_index.rs 58) -/
  root : Option Id
  node : Id → Node
  leaf : Id → Leaf V
  /-- the metadata word of `children` of a node: a number that grows with every change -/
  ver : Id → Nat
  /-- the lock of a node and `split_op` -/
  phase : Id → Phase
  /-- a leaf that cannot be changed until it is thawed -/
  frozen : Id → Bool
  /-- the numbers of nodes and leaves created so far -/
  nN : Nat
  nL : Nat
  /-- bookkeeping: the change that replaces this object cannot be rolled back any more -/
  dead : Ref → Bool

/-- The state. -/
structure St (V : Type) where
  mem : Mem V
  th : Thr → Th V

/-- Function update. -/
def upd {α : Type} (f : Nat → α) (a : Nat) (v : α) : Nat → α := fun b => if b = a then v else f b

variable {V : Type}

/-- An empty leaf, `Leaf::new`. -/
def Leaf.new : Leaf V := { m := [], retired := false }

/-- An empty leaf node, `LeafNode::new` (/repo/src/tree_index/leaf_node.rs 74-81). -/
def Node.new : Node := { lv := 1, kids := [], cell := fun _ => .null, used := 1 }

/-- A new index; no thread has begun a call. -/
def St.init : St V :=
  { mem := { root := none, node := fun _ => Node.new, leaf := fun _ => Leaf.new,
             ver := fun _ => 0, phase := fun _ => .free, frozen := fun _ => false, nN := 0, nL := 0,
             dead := fun _ => false },
    th := fun _ => { key := 0, op := .peek, pc := .idle, vis := [], rm := false } }

/-- `retired` of a leaf (/repo/src/tree_index/leaf.rs 134-138) or node (leaf_node.rs 99-103,
internal_node.rs 92-96). -/
def Mem.retired (s : Mem V) : Ref → Bool
  | .leaf l => (s.leaf l).retired
  | .node n => decide ((s.node n).cell 0 = .ret)

/-- Change of a node. -/
def Mem.setNode (s : Mem V) (n : Id) (N : Node) : Mem V := { s with node := upd s.node n N }

/-- Change of the phase of a node. -/
def Mem.setPhase (s : Mem V) (n : Id) (p : Phase) : Mem V := { s with phase := upd s.phase n p }

/-- Change of a leaf. -/
def Mem.setLeaf (s : Mem V) (l : Id) (L : Leaf V) : Mem V := { s with leaf := upd s.leaf l L }

/-- `freeze` and `thaw` (/repo/src/tree_index/leaf.rs 121-132, 214-225). -/
def Mem.freeze (s : Mem V) (l : Id) (b : Bool) : Mem V := { s with frozen := upd s.frozen l b }

/-- The keys of a node have changed. -/
def Mem.bump (s : Mem V) (n : Id) : Mem V := { s with ver := upd s.ver n (s.ver n + 1) }

/-- `thaw` if it is a leaf. -/
def Mem.thaw (s : Mem V) : Ref → Mem V
  | .leaf l => s.freeze l false
  | .node _ => s

/-- Change of a thread. -/
def St.setTh (s : St V) (t : Thr) (T : Th V) : St V := { s with th := upd s.th t T }

/-- Change of the position of a thread. -/
def St.go (s : St V) (t : Thr) (p : Pc V) : St V := s.setTh t { s.th t with pc := p }

/-- The objects of a list become obsolete. -/
def Mem.kill (s : Mem V) (ch : List Ref) : Mem V := { s with dead := fun r => s.dead r || ch.contains r }

/-- What `commit` begins with: for a leaf node the new leaves are still to be thawed and the new nodes to be
unlocked; an internal node is poisoned (/repo/src/tree_index/internal_node.rs 898-908). -/
def Phase.released : Phase → Phase
  | .full _ _ (.leaf xl) (.leaf xh) _ _ (some (nl, nh)) => .fin 0 xl xh nl nh
  | _ => .gone

/-- `commit` of the obsolete nodes of a list begins. -/
def Mem.release (s : Mem V) (ch : List Ref) : Mem V :=
  { s with phase := fun n => if ch.contains (.node n) then (s.phase n).released else s.phase n }

/-- What happens in a step, as far as it matters for the meaning of calls. -/
inductive Ev (V : Type)
  | tau
  /-- a call begins -/
  | call (t : Thr) (k : Key) (o : Op V)
  /-- an entry is added, on behalf of the call of `t` -/
  | put (t : Thr) (k : Key) (v : V)
  /-- an entry is taken away, on behalf of the call of `t` -/
  | del (t : Thr) (k : Key) (v : V)
  /-- a call returns -/
  | ret (t : Thr) (a : Ans V)

/-- The answer of a removal that has not found the key; `rm` says that it has removed an entry before
(/repo/src/tree_index.rs 472-480). -/
def Th.failed (T : Th V) : Pc V := if T.rm then .clean else .out (.removed false)

/-- The two halves of leaf `l`. -/
def Leaf.low (l : Leaf V) (mid : Key) : Leaf V :=
  { m := l.m.filter fun e => decide (e.1 ≤ mid), retired := false }
def Leaf.high (l : Leaf V) (mid : Key) : Leaf V :=
  { m := l.m.filter fun e => decide (mid < e.1), retired := false }

/-- The steps of calls. -/
inductive Call : St V → Ev V → St V → Prop
  | call {s : St V} (t : Thr) (k : Key) (o : Op V) (h : (s.th t).pc = .idle) :
    Call s (.call t k o) (s.setTh t { key := k, op := o, pc := .top, vis := [], rm := false })
  | ret {s : St V} (t : Thr) (a : Ans V) (h : (s.th t).pc = .out a) :
    Call s (.ret t a) (s.go t .idle)
  /-- the load of the root -/
  | load {s : St V} (t : Thr) (n : Id) (h : (s.th t).pc = .top) (hr : s.mem.root = some n) :
    Call s .tau (s.setTh t { s.th t with pc := .at n, vis := [n] })
  | loadPeek {s : St V} (t : Thr) (h : (s.th t).pc = .top) (hr : s.mem.root = none) (ho : (s.th t).op = .peek) :
    Call s .tau (s.go t (.out (.found none)))
  | loadRemove {s : St V} (t : Thr) (c : V → Bool) (h : (s.th t).pc = .top) (hr : s.mem.root = none)
    (ho : (s.th t).op = .remove c) :
    Call s .tau (s.go t (.out (.removed (s.th t).rm)))
  /-- an insertion creates a root (/repo/src/tree_index.rs 291-306) -/
  | newRoot {s : St V} (t : Thr) (v : V) (h : (s.th t).pc = .top) (hr : s.mem.root = none)
    (ho : (s.th t).op = .insert v) :
    Call s .tau
      { s with mem := { s.mem.setNode s.mem.nN Node.new with root := some s.mem.nN, nN := s.mem.nN + 1 } }
  /-- `min_greater_equal` -/
  | select {s : St V} (t : Thr) (n : Id) (h : (s.th t).pc = .at n) :
    Call s .tau (s.go t (.sel n (route (s.mem.node n).kids (s.th t).key) (s.mem.ver n)))
  /-- the load of a pointer that is not null -/
  | fetch {s : St V} (t : Thr) (n : Id) (i ver : Nat) (r : Ref) (h : (s.th t).pc = .sel n i ver)
    (hc : (s.mem.node n).cell i = .to r) :
    Call s .tau (s.go t (.got n ver r))
  /-- the pointer is null: the key has just been removed -/
  | fetchNull {s : St V} (t : Thr) (n : Id) (i ver : Nat) (h : (s.th t).pc = .sel n i ver) (hi : i ≠ 0)
    (hc : (s.mem.node n).cell i = .null) :
    Call s .tau (s.go t (.at n))
  /-- there is no unbounded child: `peek` returns `None` without validation (leaf_node.rs 146-148) -/
  | nullPeek {s : St V} (t : Thr) (n : Id) (ver : Nat) (h : (s.th t).pc = .sel n 0 ver)
    (hc : (s.mem.node n).cell 0 = .null ∨ (s.mem.node n).cell 0 = .ret) (ho : (s.th t).op = .peek) :
    Call s .tau (s.go t (.out (.found none)))
  /-- the same for `remove_if` (leaf_node.rs 420) -/
  | nullRemove {s : St V} (t : Thr) (n : Id) (ver : Nat) (c : V → Bool) (h : (s.th t).pc = .sel n 0 ver)
    (hc : (s.mem.node n).cell 0 = .null ∨ (s.mem.node n).cell 0 = .ret) (ho : (s.th t).op = .remove c) :
    Call s .tau (s.go t (s.th t).failed)
  /-- an insertion puts a new leaf there (leaf_node.rs 311-327) -/
  | nullInsert {s : St V} (t : Thr) (n : Id) (ver : Nat) (v : V) (h : (s.th t).pc = .sel n 0 ver)
    (hc : (s.mem.node n).cell 0 = .null) (ho : (s.th t).op = .insert v) (hl : (s.mem.node n).lv = 1) :
    Call s .tau
      ({ s with mem :=
          { ((s.mem.setNode n
              { s.mem.node n with cell := upd (s.mem.node n).cell 0 (.to (.leaf s.mem.nL)) }).setLeaf
              s.mem.nL Leaf.new).freeze s.mem.nL false with nL := s.mem.nL + 1 } }.go t (.got n ver (.leaf s.mem.nL)))
  /-- the node has retired (leaf_node.rs 362): the insertion begins again at the root -/
  | retInsert {s : St V} (t : Thr) (n : Id) (ver : Nat) (v : V) (h : (s.th t).pc = .sel n 0 ver)
    (hc : (s.mem.node n).cell 0 = .ret) (ho : (s.th t).op = .insert v) :
    Call s .tau (s.go t .top)
  /-- `validate` fails -/
  | invalid {s : St V} (t : Thr) (n : Id) (ver : Nat) (r : Ref) (h : (s.th t).pc = .got n ver r)
    (hv : s.mem.ver n ≠ ver) :
    Call s .tau (s.go t (.at n))
  /-- `validate` succeeds -/
  | enterNode {s : St V} (t : Thr) (n : Id) (ver : Nat) (c : Id) (h : (s.th t).pc = .got n ver (.node c))
    (hv : s.mem.ver n = ver) :
    Call s .tau (s.setTh t { s.th t with pc := .at c, vis := c :: (s.th t).vis })
  | enterLeaf {s : St V} (t : Thr) (n : Id) (ver : Nat) (l : Id) (h : (s.th t).pc = .got n ver (.leaf l))
    (hv : s.mem.ver n = ver) :
    Call s .tau (s.go t (.inLeaf l))
  /-- `Leaf::search_value` -/
  | search {s : St V} (t : Thr) (l : Id) (h : (s.th t).pc = .inLeaf l) (ho : (s.th t).op = .peek) :
    Call s .tau (s.go t (.out (.found ((s.mem.leaf l).get (s.th t).key))))
  /-- `Leaf::insert` succeeds -/
  | put {s : St V} (t : Thr) (l : Id) (v : V) (h : (s.th t).pc = .inLeaf l) (ho : (s.th t).op = .insert v)
    (hf : s.mem.frozen l = false) (hr : (s.mem.leaf l).retired = false)
    (hk : (s.mem.leaf l).get (s.th t).key = none) :
    Call s (.put t (s.th t).key v)
      ({ s with mem := s.mem.setLeaf l { s.mem.leaf l with m := ((s.th t).key, v) :: (s.mem.leaf l).m } }.go t
        (.out .inserted))
  /-- `Leaf::insert` finds the key -/
  | dup {s : St V} (t : Thr) (l : Id) (v w : V) (h : (s.th t).pc = .inLeaf l) (ho : (s.th t).op = .insert v)
    (hk : (s.mem.leaf l).get (s.th t).key = some w) :
    Call s .tau (s.go t (.out .duplicate))
  /-- `Leaf::remove_if` succeeds and leaves other entries -/
  | del {s : St V} (t : Thr) (l : Id) (c : V → Bool) (v : V) (h : (s.th t).pc = .inLeaf l)
    (ho : (s.th t).op = .remove c) (hf : s.mem.frozen l = false)
    (hk : (s.mem.leaf l).get (s.th t).key = some v) (hc : c v = true)
    (he : ((s.mem.leaf l).m.filter fun e => e.1 != (s.th t).key) ≠ []) :
    Call s (.del t (s.th t).key v)
      ({ s with mem :=
          s.mem.setLeaf l { s.mem.leaf l with m := (s.mem.leaf l).m.filter fun e => e.1 != (s.th t).key } }.go t
        (.out (.removed true)))
  /-- `Leaf::remove_if` removes the last entry, and the leaf retires -/
  | delLast {s : St V} (t : Thr) (l : Id) (c : V → Bool) (v : V) (h : (s.th t).pc = .inLeaf l)
    (ho : (s.th t).op = .remove c) (hf : s.mem.frozen l = false)
    (hk : (s.mem.leaf l).get (s.th t).key = some v) (hc : c v = true)
    (he : ((s.mem.leaf l).m.filter fun e => e.1 != (s.th t).key) = []) :
    Call s (.del t (s.th t).key v)
      ({ s with mem := s.mem.setLeaf l { s.mem.leaf l with m := [], retired := true } }.go t .clean)
  /-- `Leaf::remove_if` fails -/
  | fail {s : St V} (t : Thr) (l : Id) (c : V → Bool) (h : (s.th t).pc = .inLeaf l)
    (ho : (s.th t).op = .remove c) (hk : ∀ v, (s.mem.leaf l).get (s.th t).key = some v → c v = false) :
    Call s .tau (s.go t (s.th t).failed)
  /-- an insertion or removal that could not be done begins again at the root (`Err`) -/
  | again {s : St V} (t : Thr) (l : Id) (h : (s.th t).pc = .inLeaf l) (ho : (s.th t).op ≠ .peek) :
    Call s .tau (s.go t .top)
  /-- an insertion begins again at a node it has come through (`continue` in `LeafNode::insert` and
  `InternalNode::insert`) -/
  | back {s : St V} (t : Thr) (l n : Id) (v : V) (h : (s.th t).pc = .inLeaf l)
    (ho : (s.th t).op = .insert v) (hn : n ∈ (s.th t).vis) :
    Call s .tau (s.go t (.at n))
  /-- `cleanup_root` succeeds, or is not called (/repo/src/tree_index.rs 465-470) -/
  | cleaned {s : St V} (t : Thr) (h : (s.th t).pc = .clean) :
    Call s .tau (s.go t (.out (.removed true)))
  /-- `cleanup_root` finds the root locked (/repo/src/tree_index/node.rs 289-321): the removal is begun
  again (/repo/src/tree_index.rs 471) -/
  | busy {s : St V} (t : Thr) (n : Id) (h : (s.th t).pc = .clean) (hr : s.mem.root = some n)
    (hl : s.mem.phase n ≠ .free)
    (he : s.mem.retired (.node n) = true ∨ (s.mem.node n).lv ≠ 1 ∧ (s.mem.node n).kids = []) :
    Call s .tau (s.setTh t { s.th t with pc := .top, rm := true })

  /-- a removal that begins again after it has removed an entry (`busy`) finds another tree, because of `TreeIndex::clear`, does
  not take anything away there, and answers that it has removed an entry (/repo/src/tree_index.rs 472-480) -/
  | leave {s : St V} (t : Thr) (c : V → Bool) (h : (s.th t).pc = .top) (ho : (s.th t).op = .remove c) (hr : (s.th t).rm = true) :
    Call s .tau (s.go t (.out (.removed true)))

/-- The steps of structural changes. `vis` are the nodes to which threads have come in calls that have not
yet returned. -/
inductive Change (vis : Id → Prop) : Mem V → Mem V → Prop
  /-- `try_lock` by a thread that has come to the node, or has loaded the root -/
  | lock {s : Mem V} (n : Id) (h : s.phase n = .free) (hv : vis n ∨ s.root = some n) :
    Change vis s (s.setPhase n .locked)
  | unlock {s : Mem V} (n : Id) (h : s.phase n = .locked) :
    Change vis s (s.setPhase n .free)
  /-- `split_leaf` (leaf_node.rs 771-829): a leaf is frozen and its entries are copied to one new leaf -/
  | copy {s : Mem V} (n i x : Nat) (h : s.phase n = .locked) (hi : i ∈ (s.node n).slots)
    (hx : (s.node n).cell i = .to (.leaf x)) :
    Change vis s
      { (((s.freeze x true).setLeaf s.nL { m := (s.leaf x).m, retired := false }).freeze s.nL false).setPhase n
          (.single i x s.nL) with nL := s.nL + 1 }
  /-- the new leaf takes its place (leaf_node.rs 898-904) -/
  | copied {s : Mem V} (n i x y : Nat) (h : s.phase n = .single i x y) :
    Change vis s
      (((s.setNode n { s.node n with cell := upd (s.node n).cell i (.to (.leaf y)) }).setPhase n .locked).kill
        [.leaf x])
  /-- a leaf is frozen and its entries are copied to two new leaves, neither of them empty -/
  | halve {s : Mem V} (n i x : Nat) (mid k : Key) (v w : V) (h : s.phase n = .locked)
    (hi : i ∈ (s.node n).slots) (hx : (s.node n).cell i = .to (.leaf x))
    (hm : (s.leaf x).get mid = some v) (hk : (s.leaf x).get k = some w) (hlt : mid < k) :
    Change vis s
      { (((((s.freeze x true).setLeaf s.nL ((s.leaf x).low mid)).freeze s.nL true).setLeaf (s.nL + 1)
          ((s.leaf x).high mid)).freeze (s.nL + 1) false).setPhase n
          (.split i (.leaf x) (.leaf s.nL) (.leaf (s.nL + 1)) mid [.leaf x]) with nL := s.nL + 2 }
  /-- `Leaf::insert` on the children of a node reserves a slot before it adds the key (leaf.rs 344-363) -/
  | reserve {s : Mem V} (n i : Nat) (x xl xh : Ref) (mid : Key) (ch : List Ref)
    (h : s.phase n = .split i x xl xh mid ch) :
    Change vis s (s.bump n)
  /-- the lower half is added to the children (leaf_node.rs 849-853, internal_node.rs 827-838) -/
  | insert {s : Mem V} (n i : Nat) (x xl xh : Ref) (mid : Key) (ch : List Ref)
    (h : s.phase n = .split i x xl xh mid ch) :
    Change vis s
      ((((s.setNode n
        { s.node n with kids := insKid mid (s.node n).used (s.node n).kids,
                        cell := upd (s.node n).cell (s.node n).used (.to xl),
                        used := (s.node n).used + 1 }).bump n).setPhase n (.ins i x xl xh mid ch false)).kill ch)
  /-- a lower half that is a leaf is thawed (leaf_node.rs 874-876) -/
  | thaw {s : Mem V} (n i : Nat) (x xl xh : Ref) (mid : Key) (ch : List Ref)
    (h : s.phase n = .ins i x xl xh mid ch false) :
    Change vis s ((s.thaw xl).setPhase n (.ins i x xl xh mid ch true))
  /-- the upper half takes the place of what was split (leaf_node.rs 878-884, internal_node.rs 849-875) -/
  | swap {s : Mem V} (n i : Nat) (x xl xh : Ref) (mid : Key) (ch : List Ref)
    (h : s.phase n = .ins i x xl xh mid ch true) :
    Change vis s
      (((s.setNode n { s.node n with cell := upd (s.node n).cell i (.to xh) }).setPhase n .locked).release ch)
  /-- there is no room: the upper half is frozen, too, if it is a leaf (leaf_node.rs 857-863,
  internal_node.rs 842-846) -/
  | full {s : Mem V} (n i : Nat) (x xl xh : Ref) (mid : Key) (ch : List Ref)
    (h : s.phase n = .split i x xl xh mid ch) :
    Change vis s
      ((match xh with | .leaf l => s.freeze l true | .node _ => s).setPhase n (.full i x xl xh mid ch none))
  /-- `LeafNode::rollback` (leaf_node.rs 692-728) -/
  | rollLeaf {s : Mem V} (n i x : Nat) (xl xh : Ref) (mid : Key) (ch : List Ref)
    (h : s.phase n = .full i (.leaf x) xl xh mid ch none) :
    Change vis s ((s.freeze x false).setPhase n .free)
  /-- `InternalNode::rollback` (internal_node.rs 911-919): the child is rolled back next -/
  | rollNode {s : Mem V} (n i c : Nat) (xl xh : Ref) (mid : Key) (ch : List Ref) (i' : Nat)
    (x' xl' xh' : Ref) (mid' : Key) (ch' : List Ref) (cl : Option (Id × Id))
    (h : s.phase n = .full i (.node c) xl xh mid ch none)
    (hc : s.phase c = .full i' x' xl' xh' mid' ch' cl) :
    Change vis s ((s.setPhase n .free).setPhase c (.full i' x' xl' xh' mid' ch' none))
  /-- `split_node` (internal_node.rs 565-825, leaf_node.rs 518-637): two new nodes for a full child -/
  | claim {s : Mem V} (p d n : Nat) (i : Nat) (x xl xh : Ref) (mid : Key) (ch : List Ref)
    (pre post : List (Key × Ptr)) (b : Key) (q u : Ptr)
    (h : s.phase p = .locked) (hd : d ∈ (s.node p).slots) (hn : (s.node p).cell d = .to (.node n))
    (hf : s.phase n = .full i x xl xh mid ch none)
    (he : (s.node n).expand i xl xh mid = (pre ++ (b, q) :: post, u)) :
    Change vis s
      { (((((s.setNode s.nN (mkNode (s.node n).lv pre q)).setNode
          (s.nN + 1) (mkNode (s.node n).lv post u)).setPhase
          s.nN (if (s.node n).lv = 1 then .held else .free)).setPhase
          (s.nN + 1) (if (s.node n).lv = 1 then .held else .free)).setPhase n
          (.full i x xl xh mid ch (some (s.nN, s.nN + 1)))).setPhase p
          (.split d (.node n) (.node s.nN) (.node (s.nN + 1)) b (.node n :: ch)) with nN := s.nN + 2 }
  /-- `split_root` (node.rs 193-236): a new root above two new nodes -/
  | rootClaim {s : Mem V} (n : Nat) (i : Nat) (x xl xh : Ref) (mid : Key) (ch : List Ref)
    (pre post : List (Key × Ptr)) (b : Key) (q u : Ptr)
    (hf : s.phase n = .full i x xl xh mid ch none)
    (hr : s.root = some n)
    (he : (s.node n).expand i xl xh mid = (pre ++ (b, q) :: post, u)) :
    Change vis s
      { ((((((s.setNode s.nN (mkNode (s.node n).lv pre q)).setNode
          (s.nN + 1) (mkNode (s.node n).lv post u)).setNode
          (s.nN + 2) (mkNode ((s.node n).lv + 1) [(b, .to (.node s.nN))] (.to (.node (s.nN + 1))))).setPhase
          s.nN (if (s.node n).lv = 1 then .held else .free)).setPhase
          (s.nN + 1) (if (s.node n).lv = 1 then .held else .free)).setPhase
          (s.nN + 2) (.root n s.nN (s.nN + 1) b (.node n :: ch))).setPhase n
          (.full i x xl xh mid ch (some (s.nN, s.nN + 1))) with nN := s.nN + 3 }
  /-- the root is exchanged (node.rs 239-253) -/
  | rootSwap {s : Mem V} (r n nl nh : Nat) (b : Key) (ch : List Ref) (h : s.phase r = .root n nl nh b ch)
    (hr : s.root = some n) :
    Change vis s ({ (s.setPhase r .locked).kill ch with root := some r }.release ch)
  /-- the root has changed (node.rs 254-261). Changes of this tree alone never lead to this (`Inv.root_same`),
  `TreeIndex::clear` does (tree_index.rs 132-136): this step is allowed at any time, so that the executions of a tree
  that `clear` has taken out are executions of this model, too. -/
  | rootFail {s : Mem V} (r n nl nh : Nat) (b : Key) (ch : List Ref) (i : Nat) (x xl xh : Ref) (mid : Key)
    (ch' : List Ref) (cl : Option (Id × Id)) (h : s.phase r = .root n nl nh b ch)
    (hn : s.phase n = .full i x xl xh mid ch' cl) :
    Change vis s ((s.setPhase r .gone).setPhase n (.full i x xl xh mid ch' none))
  /-- `commit` thaws the lower leaf -/
  | finLow {s : Mem V} (n xl xh nl nh : Nat) (h : s.phase n = .fin 0 xl xh nl nh) :
    Change vis s ((s.freeze xl false).setPhase n (.fin 1 xl xh nl nh))
  /-- `commit` thaws the upper leaf -/
  | finHigh {s : Mem V} (n xl xh nl nh : Nat) (h : s.phase n = .fin 1 xl xh nl nh) :
    Change vis s ((s.freeze xh false).setPhase n (.fin 2 xl xh nl nh))
  /-- `commit` unlocks the lower node -/
  | finLowNode {s : Mem V} (n xl xh nl nh : Nat) (h : s.phase n = .fin 2 xl xh nl nh) :
    Change vis s ((s.setPhase n (.fin 3 xl xh nl nh)).setPhase nl .free)
  /-- `commit` unlocks the upper node and poisons the lock of this node -/
  | finHighNode {s : Mem V} (n xl xh nl nh : Nat) (h : s.phase n = .fin 3 xl xh nl nh) :
    Change vis s ((s.setPhase n .gone).setPhase nh .free)
  /-- `coalesce` (leaf_node.rs 917-945, internal_node.rs 946-967) removes the key of a retired child -/
  | unlink {s : Mem V} (n i : Nat) (b : Key) (r : Ref) (l l' : List (Key × Nat))
    (h : s.phase n = .locked) (hk : (s.node n).kids = l ++ (b, i) :: l')
    (hc : (s.node n).cell i = .to r) (hr : s.retired r = true) :
    Change vis s (((s.setNode n { s.node n with kids := l ++ l' }).bump n).setPhase n (.coal i))
  /-- `coalesce` clears the pointer -/
  | clear {s : Mem V} (n i : Nat) (h : s.phase n = .coal i) :
    Change vis s ((s.setNode n { s.node n with cell := upd (s.node n).cell i .null }).setPhase n .locked)
  /-- `coalesce` finds the unbounded child, the only one, retired, and the node retires
  (leaf_node.rs 947-977, internal_node.rs 989-998) -/
  | retire {s : Mem V} (n : Nat) (r : Ref) (h : s.phase n = .locked) (hk : (s.node n).kids = [])
    (hc : (s.node n).cell 0 = .to r) (hr : s.retired r = true) :
    Change vis s (s.setNode n { s.node n with cell := upd (s.node n).cell 0 .ret })
  /-- `InternalNode::coalesce` replaces a retired unbounded child (internal_node.rs 969-982) -/
  | move {s : Mem V} (n i : Nat) (b : Key) (r : Id) (z : Ref) (l : List (Key × Nat))
    (h : s.phase n = .locked) (hk : (s.node n).kids = l ++ [(b, i)])
    (hc : (s.node n).cell 0 = .to (.node r)) (hr : s.retired (.node r) = true)
    (hz : (s.node n).cell i = .to z) :
    Change vis s ((s.setNode n { s.node n with cell := upd (s.node n).cell 0 (.to z) }).setPhase n (.move b i))
  /-- and removes the key of the child that is the unbounded one now (internal_node.rs 983-984) -/
  | moved {s : Mem V} (n i : Nat) (b : Key) (l : List (Key × Nat))
    (h : s.phase n = .move b i) (hk : (s.node n).kids = l ++ [(b, i)]) :
    Change vis s (((s.setNode n { s.node n with kids := l }).bump n).setPhase n (.coal i))
  /-- `cleanup_root` (node.rs 283-371) removes a retired root -/
  | rootEmpty {s : Mem V} (n : Nat) (h : s.phase n = .locked) (hr : s.root = some n)
    (hn : s.retired (.node n) = true) :
    Change vis s { s with root := none }
  /-- `cleanup_root` replaces a root that has only one child -/
  | rootOnly {s : Mem V} (n c : Nat) (h : s.phase n = .locked) (hr : s.root = some n)
    (hk : (s.node n).kids = []) (hc : (s.node n).cell 0 = .to (.node c)) :
    Change vis s ({ s.setPhase n .gone with root := some c }.kill [.node n])

/-- A step. -/
inductive Step : St V → Ev V → St V → Prop
  | call {s s' : St V} {e : Ev V} (h : Call s e s') : Step s e s'
  | change {s : St V} {m : Mem V}
    (h : Change (fun n => ∃ t, (s.th t).pc ≠ .idle ∧ n ∈ (s.th t).vis) s.mem m) :
    Step s .tau { s with mem := m }

/-- Executions of a new index, with what happens in them, latest first. -/
inductive Run : St V → List (Ev V) → Prop
  | init : Run .init []
  | step {s s' : St V} {es : List (Ev V)} {e : Ev V} (r : Run s es) (h : Step s e s') : Run s' (e :: es)

end Scc.Grove
