/-!
# The locks of the nodes of the tree index

Which locks the calls of a `TreeIndex` take, hold and wait for, by any number of threads, while the tree changes.

`try_wait` (/repo/src/async_helper.rs 99-125) suspends a thread (or a task) until a lock is available. All locks are taken with
`try_lock`; a call that fails to take one may wait until it is available, but then begins again from the root.
Threads hold locks in the following situations.

* `split_leaf` (leaf_node.rs 766-914) takes the lock of a leaf node. If there is no room for another leaf, it returns `Full` with
  the lock held, and the parent, `split_node` (internal_node.rs 571-878), takes its own lock, copies the full node, and
  either puts the copies in place and releases all locks, or returns `Full` in turn. If the parent is locked by another thread,
  all locks are released before the thread waits (582-586). A full root gets a new parent (node.rs 200-270).
* `remove_range` (internal_node.rs 426-563, leaf_node.rs 428-514) goes down from the root and holds the locks of all nodes it
  has passed. If it finds a locked node, it waits for it **with all these locks held**, and releases them only then.
  The task of `remove_range_async` releases them before it is suspended.
* `coalesce` (internal_node.rs 937-1016, leaf_node.rs 917-990) and `cleanup_root` (node.rs 279-352) hold one lock and do not
  wait with it.

Nodes are numbers; leaves, keys, entries and the memory of the nodes are left out. Steps by one thread on a node whose lock it
holds are merged, as others change the children of a node with its lock held only. A copy of a full node is made where it is
published: until then nobody else can reach it, and the original cannot change. In other respects the model does more
than the code: a thread may try to lock any node there has ever been, and any step that can fail may fail at any time (which
includes panics and failing allocations, whose scope guards release the same locks).
-/

namespace Scc.Knot

/-- `saa::Lock`: free, held by a thread, or poisoned. -/
inductive Lk
  | free
  | held (t : Nat)
  | poison
  deriving DecidableEq, Repr

/-- What a thread does at the end of a split, one by one: `release_lock`, `poison_lock`. -/
inductive Op
  | rel (n : Nat)
  | poi (n : Nat)
  deriving DecidableEq, Repr

def Op.node : Op → Nat
  | .rel n | .poi n => n

/-- Where a thread is. -/
inductive Pc
  | idle
  /-- `split_leaf` or `split_node` has returned `Full`: the locks of the nodes are held, the topmost one first. -/
  | climb (held : List Nat)
  /-- `split_node` of `p` has taken its lock (internal_node.rs 582), and the child below is the first of `held`. -/
  | join (p : Nat) (held : List Nat)
  /-- Locks are being released or poisoned; after that the thread waits for a lock, or the call is over. -/
  | fin (ops : List Op) (after : Option Nat)
  /-- `try_wait`: waits until the lock of `n` is available. -/
  | wait (n : Nat) (held : List Nat)
  /-- `remove_range` is about to lock `cur`; the node on the upper border is still to come. -/
  | mow (held : List Nat) (cur : Nat) (up : Option Nat)
  /-- `remove_range` has locked `cur`. -/
  | cut (held : List Nat) (cur : Nat) (up : Option Nat)
  /-- `cleanup_root` has locked `r`. -/
  | clean (r : Nat)
  /-- `coalesce` has locked `p`. -/
  | coal (p : Nat)
  deriving DecidableEq, Repr

/-- The tree. `leaf n`: a leaf node; `kids n`: the children of an internal node, the unbounded one is the last.
Not in the code: `live n` is false when the node has been replaced by copies or by its only child; `was n`: the node has been
the root. -/
structure State where
  next : Nat
  leaf : Nat → Bool
  kids : Nat → List Nat
  live : Nat → Bool
  was : Nat → Bool
  lock : Nat → Lk
  root : Option Nat
  pc : Nat → Pc

def upd {β : Type} (f : Nat → β) (i : Nat) (v : β) : Nat → β := fun j => if j = i then v else f j

/-- An empty tree. -/
def State.init : State :=
  ⟨0, fun _ => false, fun _ => [], fun _ => true, fun _ => false, fun _ => .free, none, fun _ => .idle⟩

def State.go (s : State) (t : Nat) (c : Pc) : State := { s with pc := upd s.pc t c }
def State.take (s : State) (t n : Nat) : State := { s with lock := upd s.lock n (.held t) }
def State.prune (s : State) (n : Nat) (ks : List Nat) : State := { s with kids := upd s.kids n ks }

/-- A child is replaced by two. -/
def subst (ks : List Nat) (x l h : Nat) : List Nat := ks.flatMap (fun d => if d = x then [l, h] else [d])

/-- The copies of the nodes of a chain (internal_node.rs 623-791, leaf_node.rs 517-640): the first one becomes `b` and `b + 1`, the
next one `b + 2` and `b + 3`, and so on; `g` is what the children of the copies are. The children of an internal node are
shared among its two copies, with the next node of the chain replaced by its copies. The last node is a leaf node. -/
def Parts (kids g : Nat → List Nat) : List Nat → Nat → Prop
  | [], _ => True
  | [_], b => g b = [] ∧ g (b + 1) = []
  | x :: y :: rest, b => g b ++ g (b + 1) = subst (kids x) y (b + 2) (b + 3) ∧ Parts kids g (y :: rest) (b + 2)

/-- `commit` (internal_node.rs 890-900, leaf_node.rs 643-689): internal nodes are poisoned from top to bottom; the copies of the leaf
node, which have been locked since they were made (leaf_node.rs 526-527), are released, and the leaf node is poisoned. -/
def commit : List Nat → Nat → List Op
  | [], _ => []
  | [z], b => [.rel b, .rel (b + 1), .poi z]
  | x :: y :: rest, b => .poi x :: commit (y :: rest) (b + 2)

/-- `rollback` (internal_node.rs 903-912, leaf_node.rs 692-728): from top to bottom. -/
def rollback (held : List Nat) : List Op := held.map .rel

/-- The copies of `chain` come to life: those from number `b` on. -/
def State.copy (s : State) (t : Nat) (chain : List Nat) (b : Nat) (g : Nat → List Nat) : State :=
  { s with
    next := b + 2 * chain.length
    leaf := fun n => if b ≤ n ∧ n < b + 2 * chain.length then decide (b + 2 * chain.length ≤ n + 2) else s.leaf n
    kids := fun n => if b ≤ n ∧ n < b + 2 * chain.length then g n else s.kids n
    live := fun n => if n ∈ chain then false else s.live n
    lock := fun n => if b ≤ n ∧ n < b + 2 * chain.length ∧ b + 2 * chain.length ≤ n + 2 then .held t else s.lock n }

/-- One step of thread `t`. -/
inductive Step (s : State) (t : Nat) : State → Prop
  /-- tree_index.rs 96-100, `clear`: the root is taken away without a lock. -/
  | clear : s.pc t = .idle → Step s t { s with root := none }
  /-- tree_index.rs 219-233, 293-307: `insert` into an empty tree makes a leaf node the root. -/
  | plant : s.pc t = .idle → s.root = none →
      Step s t { s with next := s.next + 1, leaf := upd s.leaf s.next true, was := upd s.was s.next true, root := some s.next }
  /-- A call waits without a lock: `split_leaf` (leaf_node.rs 780-782), `insert` and `remove_if` that find a leaf frozen (301, 357,
  393, 413), `cleanup_root` (node.rs 296, 306). -/
  | ask {n : Nat} : s.pc t = .idle → n < s.next → Step s t (s.go t (.wait n []))
  /-- A future that waits is dropped. -/
  | quit {n : Nat} : s.pc t = .wait n [] → Step s t (s.go t .idle)
  /-- leaf_node.rs 780: `split_leaf` takes the lock. -/
  | split {n : Nat} : s.pc t = .idle → n < s.next → s.leaf n = true → s.lock n = .free →
      Step s t ((s.take t n).go t (.climb [n]))
  /-- leaf_node.rs 908, and 784, 787, 810: the leaf node has room for the new leaf, or nothing is done. -/
  | roomy {n : Nat} : s.pc t = .climb [n] → Step s t (s.go t (.fin [.rel n] none))
  /-- internal_node.rs 582: `split_node` takes the lock. -/
  | up {held : List Nat} {p : Nat} : s.pc t = .climb held → p < s.next → s.leaf p = false → s.lock p = .free →
      Step s t ((s.take t p).go t (.join p held))
  /-- internal_node.rs 582-586: the lock is not free; all locks are released before the thread waits. -/
  | upBusy {held : List Nat} {p : Nat} : s.pc t = .climb held → p < s.next → s.lock p ≠ .free →
      Step s t (s.go t (.fin (rollback held) (some p)))
  /-- internal_node.rs 589-593 (the child has changed), 609-611 (a panic). -/
  | joinFail {held : List Nat} {p : Nat} : s.pc t = .join p held → Step s t (s.go t (.fin (rollback (p :: held)) none))
  /-- internal_node.rs 835-839: there is no room in `p` either. -/
  | full {x p : Nat} {sub : List Nat} : s.pc t = .join p (x :: sub) → x ∈ s.kids p → Step s t (s.go t (.climb (p :: x :: sub)))
  /-- internal_node.rs 823-877: the copies are put in place of the full node; the lock of `p` is released, then `commit`. -/
  | publish {x p : Nat} {sub : List Nat} {g : Nat → List Nat} : s.pc t = .join p (x :: sub) → x ∈ s.kids p →
      Parts s.kids g (x :: sub) s.next →
      Step s t (((s.copy t (x :: sub) s.next g).prune p (subst (s.kids p) x s.next (s.next + 1))).go t
        (.fin (.rel p :: commit (x :: sub) s.next) none))
  /-- node.rs 211-257: the root is full; a new root with the copies as children. -/
  | grow {x : Nat} {sub : List Nat} {g : Nat → List Nat} : s.pc t = .climb (x :: sub) → s.root = some x →
      Parts s.kids g (x :: sub) (s.next + 1) →
      Step s t (({ ((s.copy t (x :: sub) (s.next + 1) g).prune s.next [s.next + 1, s.next + 2]).take t s.next with
          root := some s.next, was := upd s.was s.next true, leaf := upd (s.copy t (x :: sub) (s.next + 1) g).leaf s.next false } : State).go t
        (.fin (.rel s.next :: commit (x :: sub) (s.next + 1)) none))
  /-- node.rs 202-208, 216-219, 258-265: the root has changed; a panic. -/
  | growFail {held : List Nat} : s.pc t = .climb held → Step s t (s.go t (.fin (rollback held) none))
  /-- `release_lock`. -/
  | rel {n : Nat} {ops : List Op} {a : Option Nat} : s.pc t = .fin (.rel n :: ops) a →
      Step s t (({ s with lock := upd s.lock n .free } : State).go t (.fin ops a))
  /-- `poison_lock`. -/
  | poi {n : Nat} {ops : List Op} {a : Option Nat} : s.pc t = .fin (.poi n :: ops) a →
      Step s t (({ s with lock := upd s.lock n .poison } : State).go t (.fin ops a))
  /-- All is released. -/
  | over : s.pc t = .fin [] none → Step s t (s.go t .idle)
  | overWait {n : Nat} : s.pc t = .fin [] (some n) → Step s t (s.go t (.wait n []))
  /-- The lock is available, or poisoned: the call releases what it holds and begins again. -/
  | awake {n : Nat} {held : List Nat} : s.pc t = .wait n held → (∀ u, s.lock n ≠ .held u) →
      Step s t (s.go t (.fin (rollback held) none))
  /-- tree_index.rs 514-527, 582-584: `remove_range` begins at the root. -/
  | mow {r : Nat} : s.pc t = .idle → s.root = some r → Step s t (s.go t (.mow [] r none))
  /-- internal_node.rs 441, leaf_node.rs 443: the lock is taken. -/
  | mowTake {held : List Nat} {c : Nat} {up : Option Nat} : s.pc t = .mow held c up → s.lock c = .free →
      Step s t ((s.take t c).go t (.cut held c up))
  /-- internal_node.rs 441-444, leaf_node.rs 443-446: the lock is not free; `remove_range_sync` waits right here. -/
  | mowBusy {held : List Nat} {c : Nat} {up : Option Nat} : s.pc t = .mow held c up → s.lock c ≠ .free →
      Step s t (s.go t (.wait c held))
  /-- The same for `remove_range_async`: all functions return first (tree_index.rs 512-541). -/
  | mowAway {held : List Nat} {c : Nat} {up : Option Nat} : s.pc t = .mow held c up → s.lock c ≠ .free →
      Step s t (s.go t (.fin (rollback held) (some c)))
  /-- internal_node.rs 446-556: children in the range are dropped, and `remove_range` goes on in one of those left. -/
  | down {held ks : List Nat} {c d : Nat} {up : Option Nat} : s.pc t = .cut held c up → ks.Sublist (s.kids c) → d ∈ ks →
      Step s t ((s.prune c ks).go t (.mow (c :: held) d up))
  /-- internal_node.rs 543-553: … or in two of them, first the one on the lower border. -/
  | fork {held ks : List Nat} {c d e : Nat} : s.pc t = .cut held c none → ks.Sublist (s.kids c) → d ∈ ks → e ∈ ks → d ≠ e →
      Step s t ((s.prune c ks).go t (.mow (c :: held) d (some e)))
  /-- leaf_node.rs 501-511: the leaf node on the lower border goes on with the node on the upper border. -/
  | over2 {held : List Nat} {c u : Nat} : s.pc t = .cut held c (some u) → s.leaf c = true → Step s t (s.go t (.mow (c :: held) u none))
  /-- internal_node.rs 558-563, leaf_node.rs 513: nothing more to do; all functions return. -/
  | done {held ks : List Nat} {c : Nat} {up : Option Nat} : s.pc t = .cut held c up → ks.Sublist (s.kids c) →
      Step s t ((s.prune c ks).go t (.fin (rollback (c :: held)) none))
  /-- node.rs 284-309: `cleanup_root` takes the lock of the root. -/
  | clean {r : Nat} : s.pc t = .idle → s.root = some r → s.lock r = .free → Step s t ((s.take t r).go t (.clean r))
  /-- node.rs 316-347: the root has one child, which becomes the root. -/
  | cleanOne {r c : Nat} : s.pc t = .clean r → s.root = some r → s.kids r = [c] →
      Step s t (({ s with root := some c, was := upd s.was c true, live := upd s.live r false } : State).go t (.fin [.poi r] none))
  /-- node.rs 316-347: an internal root without children … -/
  | cleanNone {r : Nat} : s.pc t = .clean r → s.root = some r → s.kids r = [] → s.leaf r = false →
      Step s t (({ s with root := none, live := upd s.live r false } : State).go t (.fin [.poi r] none))
  /-- … or a leaf node without leaves, whose lock is released only. -/
  | cleanLeaf {r : Nat} : s.pc t = .clean r → s.root = some r → s.leaf r = true →
      Step s t (({ s with root := none } : State).go t (.fin [.rel r] none))
  /-- node.rs 288-290, 324-326, 347-350: the root is in use or has changed. -/
  | cleanFail {r : Nat} : s.pc t = .clean r → Step s t (s.go t (.fin [.rel r] none))
  /-- internal_node.rs 939, leaf_node.rs 920: `coalesce` takes the lock; it does not wait if that fails. -/
  | coal {p : Nat} : s.pc t = .idle → p < s.next → s.lock p = .free → Step s t ((s.take t p).go t (.coal p))
  /-- internal_node.rs 940-1005: retired children are taken out; all may go. -/
  | coalEnd {p : Nat} {ks : List Nat} : s.pc t = .coal p → ks.Sublist (s.kids p) →
      Step s t ((s.prune p ks).go t (.fin [.rel p] none))

/-- Reachable states. -/
inductive Reach : State → Prop
  | init : Reach .init
  | step {s s' : State} {t : Nat} : Reach s → Step s t s' → Reach s'

end Scc.Knot
