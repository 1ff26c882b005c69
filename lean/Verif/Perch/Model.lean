/-!
# Waiting for the lock of a node of a `TreeIndex`

`insert_async`, `remove_if_async`, `remove_range_async` (/repo/src/tree_index.rs 179-240, 372-420, 507-541) put an entry (`Pager`) in the queue of
waiters of a lock that lies in a node of the tree (`AsyncWait::try_wait`, /repo/src/async_helper.rs 101-115), drop their `Guard`, and are then suspended
(`AsyncWait::wait`, 82-88). The type of the entry says that the lock lives for ever (`Pager<'static, Lock>`, 92-97); in fact the node may be unlinked and
its memory be returned meanwhile. If the future is dropped, the entry removes itself from the queue, and who releases the lock reads the entry.

Modelled: nodes as pieces of memory with a lock, references found under a guard, `sdd` (memory of a node is returned when every guard is gone that
was there when the last reference to the node in the data structure was dropped), and locks of `saa` with their queues. What is done with the
contents of nodes is left out; a thread may load, lock, wait for, and unlink any node at any time, as far as this is possible at all. So the
model does more than the code.

Taken from the code: all locks are taken and released under the same guard (`Locker` and the locks of `split_leaf`, `split_node` do not outlive the
functions that are called with the guard: tree_index.rs 183-216, 380-417, 513-538), and a call registers an entry only when the former one has been taken off (each attempt
ends right after `try_wait`, and `wait` is awaited before the next one).

Taken from `saa`: an entry gets into the queue only while the lock is held, and the queue is emptied when the lock is released or poisoned. Simplified:
all entries are woken together; `Mode::WaitExclusive` only waits, it does not take the lock.
-/

namespace Scc.Perch

def upd {α : Type} (f : Nat → α) (i : Nat) (x : α) : Nat → α := fun j => if j = i then x else f j

structure St where
  /-- Nodes made so far: numbers below. -/
  made : Nat
  /-- The data structure has a reference (`Shared`) to the node. -/
  linked : Nat → Bool
  /-- The memory of the node has been returned. -/
  freed : Nat → Bool
  /-- The thread or task has a guard. -/
  pin : Nat → Bool
  /-- It has found a reference to the node under this guard. -/
  know : Nat → Nat → Bool
  /-- `sdd`: guards that were there when the last reference to the node was dropped, and still are. First the node, then the thread. -/
  keep : Nat → Nat → Bool
  /-- Who holds the lock of the node. -/
  lk : Nat → Option Nat
  /-- The lock is poisoned: the node has retired. -/
  poison : Nat → Bool
  /-- The entry of the thread or task is in the queue of the lock of this node. -/
  wait : Nat → Option Nat

def St.init : St := ⟨0, fun _ => false, fun _ => false, fun _ => false, fun _ _ => false, fun _ _ => false, fun _ => none, fun _ => false, fun _ => none⟩

/-- Everybody in the queue of the lock of node `n` is woken. -/
def wake (w : Nat → Option Nat) (n : Nat) : Nat → Option Nat := fun u => if w u = some n then none else w u

inductive Step : St → St → Prop
  /-- `Guard::new` (tree_index.rs 184, 380, 514): an attempt begins. A suspended task goes on only when it has been woken. -/
  | guard {s : St} (t : Nat) (h : s.pin t = false) (hw : s.wait t = none) : Step s { s with pin := upd s.pin t true }
  /-- A node is made and linked (tree_index.rs 222-236, internal_node.rs 571-878, node.rs 211-250). -/
  | make {s : St} (t : Nat) (h : s.pin t = true) :
      Step s { s with made := s.made + 1, linked := upd s.linked s.made true, know := upd s.know t (upd (s.know t) s.made true) }
  /-- A reference to a node is loaded from a pointer in the data structure. -/
  | load {s : St} (t n : Nat) (h : s.pin t = true) (hl : s.linked n = true) : Step s { s with know := upd s.know t (upd (s.know t) n true) }
  /-- `try_lock` (internal_node.rs 441, 582, 939, 1046; leaf_node.rs 443, 780, 920, 1020; node.rs 293, 303). -/
  | lock {s : St} (t n : Nat) (hk : s.know t n = true) (h : s.lk n = none) (hp : s.poison n = false) : Step s { s with lk := upd s.lk n (some t) }
  /-- `release_lock`. -/
  | unlock {s : St} (t n : Nat) (h : s.lk n = some t) : Step s { s with lk := upd s.lk n none, wait := wake s.wait n }
  /-- `poison_lock`. -/
  | retired {s : St} (t n : Nat) (h : s.lk n = some t) : Step s { s with lk := upd s.lk n none, poison := upd s.poison n true, wait := wake s.wait n }
  /-- `try_wait` (async_helper.rs 101-125): the lock is held, and the entry gets into the queue. If it is not held, nothing happens. -/
  | register {s : St} (t n u : Nat) (hk : s.know t n = true) (hw : s.wait t = none) (h : s.lk n = some u) : Step s { s with wait := upd s.wait t (some n) }
  /-- The last reference to a node in the data structure is dropped: by any thread. -/
  | unlink {s : St} (n : Nat) (h : s.linked n = true) : Step s { s with linked := upd s.linked n false, keep := upd s.keep n s.pin }
  /-- The guard is dropped; all functions that were called with it have returned. -/
  | unpin {s : St} (t : Nat) (h : s.pin t = true) (hl : ∀ n, s.lk n ≠ some t) :
      Step s { s with pin := upd s.pin t false, know := upd s.know t (fun _ => false), keep := fun n => upd (s.keep n) t false }
  /-- `sdd` returns the memory. -/
  | free {s : St} (n : Nat) (hm : n < s.made) (h : s.linked n = false) (hk : ∀ t, s.keep n t = false) : Step s { s with freed := upd s.freed n true }
  /-- The future is dropped: the entry removes itself from the queue. -/
  | cancel {s : St} (t n : Nat) (h : s.wait t = some n) : Step s { s with wait := upd s.wait t none }

inductive Reach : St → Prop
  | init : Reach .init
  | step {s s' : St} (h : Reach s) (st : Step s s') : Reach s'

/-- The node that a step reads or writes, if it does: its lock, or the queue of its lock. -/
inductive Touch : {s s' : St} → Step s s' → Nat → Prop
  | lock {s : St} {t n : Nat} {hk : _} {h : _} {hp : _} : Touch (Step.lock (s := s) t n hk h hp) n
  | unlock {s : St} {t n : Nat} {h : _} : Touch (Step.unlock (s := s) t n h) n
  | retired {s : St} {t n : Nat} {h : _} : Touch (Step.retired (s := s) t n h) n
  | register {s : St} {t n u : Nat} {hk : _} {hw : _} {h : _} : Touch (Step.register (s := s) t n u hk hw h) n
  | cancel {s : St} {t n : Nat} {h : _} : Touch (Step.cancel (s := s) t n h) n

end Scc.Perch
