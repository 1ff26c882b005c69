/-!
# Retired bucket arrays of a `HashIndex`

`HashIndex` does not hand retired bucket arrays to the epoch collector. It keeps them on a list of its own,
`garbage_chain`, together with the epoch in which the last one was added, `garbage_epoch`, and frees the
whole list at once, without any further delay, when a thread finds that this epoch is in the past.

The model covers the pointers to bucket arrays and the epochs; what the arrays contain is left out. Every
array that is ever allocated has its own number (`Inst`); its address (`Addr`) may be used again after the
array was freed. Atomic accesses are single steps, in any interleaving (sequential consistency).
-/

namespace Scc.Gc

/-- A bucket array that was allocated at some time. -/
abbrev Inst := Nat

/-- An address. -/
abbrev Addr := Nat

/-- A thread. -/
abbrev Thr := Nat

/-- Where a thread is in `defer_reclaim` (/repo/src/hash_index.rs 1375-1390) or `dealloc_garbage`
(/repo/src/hash_index.rs 1191-1218). `dealloc_garbage` is called by `reclaim_memory` (1184-1188), either
from an operation of the container (`k = none`), or from `defer_reclaim` for an array (`k = some y`). -/
inductive Pc
  /-- anywhere else -/
  | idle
  /-- before the load of `garbage_chain`, lines 1185 and 1193 -/
  | load (k : Option Inst)
  /-- `head_ptr` was loaded; before the load of `garbage_epoch`, line 1197 -/
  | check (k : Option Inst) (h : Inst)
  /-- before the `compare_exchange`, line 1199 -/
  | cas (k : Option Inst) (h : Inst)
  /-- the loop of lines 1206-1213 with `garbage_head` -/
  | free (k : Option Inst) (next : Option Inst)
  /-- before the store to `garbage_epoch`, line 1378 -/
  | stamp (y : Inst)
  /-- before the swap of `garbage_chain`, lines 1379-1381 -/
  | swap (y : Inst)
  /-- before the swap of the link of the array, lines 1386-1388 -/
  | link (y p : Inst)
  deriving DecidableEq, Repr

/-- The end of `dealloc_garbage`. -/
def Pc.after : Option Inst → Pc
  | none => .idle
  | some y => .stamp y

/-- The state. -/
structure St where
  /-- the global epoch of the collector -/
  epoch : Nat
  /-- `HashIndex::bucket_array` (/repo/src/hash_index.rs 52) -/
  root : Option Inst
  /-- `BucketArray::linked_array` (/repo/src/hash_table/bucket_array.rs 21) -/
  linked : Inst → Option Inst
  /-- where an array is, or was -/
  addr : Inst → Addr
  /-- the number of arrays allocated so far -/
  next : Nat
  /-- `garbage_chain` (/repo/src/hash_index.rs 54) -/
  chain : Option Inst
  /-- `garbage_epoch` (/repo/src/hash_index.rs 55), `none` for `u8::MAX` -/
  stamp : Option Nat
  /-- the epoch a thread with a `Guard` announced; a nested `Guard` shares it -/
  guard : Thr → Option Nat
  /-- the arrays a thread has obtained references to under its guard -/
  holds : Thr → Inst → Bool
  /-- where the threads are -/
  pc : Thr → Pc
  /-- `end_incremental_rehash` has returned `true` for the array (/repo/src/hash_table.rs 1127-1153) -/
  rehashed : Inst → Bool
  /-- the arrays freed so far, in order, latest first -/
  freed : List Inst

/-- Function update. -/
def upd {α : Type} (f : Nat → α) (a : Nat) (v : α) : Nat → α := fun b => if b = a then v else f b

/-- A new container. -/
def St.init : St :=
  { epoch := 0, root := none, linked := fun _ => none, addr := fun _ => 0, next := 0, chain := none,
    stamp := none, guard := fun _ => none, holds := fun _ _ => false, pc := fun _ => .idle,
    rehashed := fun _ => false, freed := [] }

/-- What the allocator may return: an address at which there is no array. Without `reuse` it must not be
one that a thread in `dealloc_garbage` is about to compare with `garbage_chain`. -/
def St.Free (s : St) (reuse : Bool) (a : Addr) : Prop :=
  (∀ i, i < s.next → i ∉ s.freed → s.addr i ≠ a) ∧
  (reuse = false → ∀ t k h, s.pc t = .check k h ∨ s.pc t = .cas k h → s.addr h ≠ a)

/-- The atomic steps. `same e g` is `Epoch::in_same_generation`; `reuse` allows the allocator to hand out
any free address; `redo` allows a thread that still works on an array that was replaced and retired to
finish the "rehash" of the array that is linked to it on the garbage list. -/
inductive Step (same : Nat → Nat → Bool) (reuse redo : Bool) : St → St → Prop
  /-- `Guard::new` -/
  | enter {s : St} (t : Thr) (h : s.guard t = none) :
    Step same reuse redo s { s with guard := upd s.guard t (some s.epoch) }
  /-- the guard is dropped; references obtained under it end -/
  | leave {s : St} (t : Thr) (h : s.pc t = .idle) :
    Step same reuse redo s { s with guard := upd s.guard t none, holds := upd s.holds t fun _ => false }
  /-- the collector advances the epoch: every guard has announced the current one -/
  | advance {s : St} (h : ∀ t g, s.guard t = some g → g = s.epoch) :
    Step same reuse redo s { s with epoch := s.epoch + 1 }
  /-- `get_or_create_bucket_array` (/repo/src/hash_table.rs 124-149) -/
  | create {s : St} (t : Thr) (a : Addr) (h : s.guard t ≠ none) (hr : s.root = none) (ha : s.Free reuse a) :
    Step same reuse redo s
      { s with root := some s.next, linked := upd s.linked s.next none, addr := upd s.addr s.next a,
               next := s.next + 1, holds := upd s.holds t (upd (s.holds t) s.next true) }
  /-- the end of `try_resize` with a new capacity (/repo/src/hash_table.rs 1419-1428): the new array is
  linked to the old one, which has no linked array itself -/
  | resize {s : St} (t : Thr) (a : Addr) (x : Inst) (h : s.guard t ≠ none) (hr : s.root = some x)
    (hl : s.linked x = none) (ha : s.Free reuse a) :
    Step same reuse redo s
      { s with root := some s.next, linked := upd s.linked s.next (some x), addr := upd s.addr s.next a,
               next := s.next + 1 }
  /-- a thread loads `bucket_array` -/
  | see {s : St} (t : Thr) (i : Inst) (h : s.guard t ≠ none) (hr : s.root = some i) :
    Step same reuse redo s { s with holds := upd s.holds t (upd (s.holds t) i true) }
  /-- a thread loads the link of an array it refers to (`linked_array`,
  /repo/src/hash_table/bucket_array.rs 175-180) -/
  | follow {s : St} (t : Thr) (i j : Inst) (h : s.guard t ≠ none) (hi : s.holds t i = true)
    (hj : s.linked i = some j) :
    Step same reuse redo s { s with holds := upd s.holds t (upd (s.holds t) j true) }
  /-- the end of `incremental_rehash` (/repo/src/hash_table.rs 1192-1200, 1244-1252): the thread that
  finishes unlinks the old array `y` from `x` and calls `defer_reclaim` -/
  | detach {s : St} (t : Thr) (x y : Inst) (h : s.guard t ≠ none) (hp : s.pc t = .idle)
    (hl : s.linked x = some y) (hf : s.rehashed y = false)
    (hx : s.root = some x ∨ redo = true ∧ s.holds t x = true) :
    Step same reuse redo s
      { s with linked := upd s.linked x none, rehashed := upd s.rehashed y true,
               pc := upd s.pc t (.load (some y)) }
  /-- `try_resize` of an empty table (/repo/src/hash_table.rs 1388-1418): the array is unlinked -/
  | clear {s : St} (t : Thr) (x : Inst) (h : s.guard t ≠ none) (hp : s.pc t = .idle)
    (hr : s.root = some x) (hl : s.linked x = none) :
    Step same reuse redo s { s with root := none, pc := upd s.pc t (.load (some x)) }
  /-- `reclaim_memory` at the beginning of an operation -/
  | reclaim {s : St} (t : Thr) (h : s.guard t ≠ none) (hp : s.pc t = .idle) :
    Step same reuse redo s { s with pc := upd s.pc t (.load none) }
  | loadNull {s : St} (t : Thr) (k : Option Inst) (hp : s.pc t = .load k) (hc : s.chain = none) :
    Step same reuse redo s { s with pc := upd s.pc t (.after k) }
  | load {s : St} (t : Thr) (k : Option Inst) (h : Inst) (hp : s.pc t = .load k) (hc : s.chain = some h) :
    Step same reuse redo s { s with pc := upd s.pc t (.check k h) }
  | checkKeep {s : St} (t : Thr) (k : Option Inst) (h : Inst) (g : Nat) (hp : s.pc t = .check k h)
    (hg : s.guard t = some g) (hs : ∀ e, s.stamp = some e → same e g = true) :
    Step same reuse redo s { s with pc := upd s.pc t (.after k) }
  | checkGo {s : St} (t : Thr) (k : Option Inst) (h : Inst) (g e : Nat) (hp : s.pc t = .check k h)
    (hg : s.guard t = some g) (hs : s.stamp = some e) (he : same e g = false) :
    Step same reuse redo s { s with pc := upd s.pc t (.cas k h) }
  | casFail {s : St} (t : Thr) (k : Option Inst) (h : Inst) (hp : s.pc t = .cas k h)
    (hc : ∀ h', s.chain = some h' → s.addr h' ≠ s.addr h) :
    Step same reuse redo s { s with pc := upd s.pc t (.after k) }
  /-- the `compare_exchange` compares addresses -/
  | casOk {s : St} (t : Thr) (k : Option Inst) (h h' : Inst) (hp : s.pc t = .cas k h)
    (hc : s.chain = some h') (ha : s.addr h' = s.addr h) :
    Step same reuse redo s { s with chain := none, pc := upd s.pc t (.free k (some h')) }
  /-- one round of the loop: the swap of the link and `drop_in_place`, which frees at once, in one step -/
  | free {s : St} (t : Thr) (k : Option Inst) (i : Inst) (hp : s.pc t = .free k (some i)) :
    Step same reuse redo s
      { s with linked := upd s.linked i none, freed := i :: s.freed,
               pc := upd s.pc t (.free k (s.linked i)) }
  | freeDone {s : St} (t : Thr) (k : Option Inst) (hp : s.pc t = .free k none) :
    Step same reuse redo s { s with pc := upd s.pc t (.after k) }
  | stamp {s : St} (t : Thr) (y : Inst) (g : Nat) (hp : s.pc t = .stamp y) (hg : s.guard t = some g) :
    Step same reuse redo s { s with stamp := some g, pc := upd s.pc t (.swap y) }
  | swapNone {s : St} (t : Thr) (y : Inst) (hp : s.pc t = .swap y) (hc : s.chain = none) :
    Step same reuse redo s { s with chain := some y, pc := upd s.pc t .idle }
  | swap {s : St} (t : Thr) (y p : Inst) (hp : s.pc t = .swap y) (hc : s.chain = some p) :
    Step same reuse redo s { s with chain := some y, pc := upd s.pc t (.link y p) }
  /-- what was in the link before, if anything, is handed to the collector and not followed further -/
  | link {s : St} (t : Thr) (y p : Inst) (hp : s.pc t = .link y p) :
    Step same reuse redo s { s with linked := upd s.linked y (some p), pc := upd s.pc t .idle }

/-- The states an execution can reach. -/
inductive Reach (same : Nat → Nat → Bool) (reuse redo : Bool) : St → Prop
  | init : Reach same reuse redo .init
  | step {s s' : St} (r : Reach same reuse redo s) (h : Step same reuse redo s s') : Reach same reuse redo s'

/-- What `Epoch::in_same_generation e g` must guarantee, where `g` is the epoch of a live guard and `e` an
epoch announced at some time before: a negative answer means that `g` is at least three epochs later. -/
def Generation (same : Nat → Nat → Bool) : Prop := ∀ e g, e ≤ g + 1 → same e g = false → e + 3 ≤ g

end Scc.Gc
