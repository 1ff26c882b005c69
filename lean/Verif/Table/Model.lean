import Verif.Index.Model
import Verif.Rehash.Model

/-!
# The concurrent hash table

A transition system of the lock-based part of `HashTable` (/repo/src/hash_table.rs 122-1429): bucket
arrays that replace each other, buckets with an exclusive lock and a "killed" mark, user operations,
traversals, helpers that relocate buckets, the resize and drop-table procedure, and the lock-free scan
of `is_empty`. Any number of threads; one shared access per step; sequentially consistent memory.

Simplifications:
* The contents of a bucket are a partial function from keys to values. That the bucket data structure
  implements such a function under its lock is C12.
* Resize decisions are nondeterministic: any size, any moment at which the code would attempt it. The
  chosen sizes are C06.
* Helping (`incremental_rehash_*`) and resizing (`try_resize`) are separate activities that run beside
  the operation that triggers them. The operation holds no lock at that point, so this only adds
  behaviours.
* A shared (reader) lock is held for one step only: search and closure run at once while no exclusive
  lock is held.
* Releasing several locks one after another is one step. Releases never block.
* An array is never reused: each allocation has a new number. Guards and reference counts keep arrays
  alive in the code.
-/

namespace Scc.Table

open Scc.Index (bucketIndex fromIndexToRange)

/-- An exclusive bucket lock and what its holder does with it. The code stores only the lock bit; the
holder and its purpose are ghost information. -/
inductive Lock
  /-- held by a user operation or traversal -/
  | user (t : Nat)
  /-- held by a relocation that has not moved anything yet (old bucket) or is filling it (target) -/
  | reloc (t : Nat)
  /-- old bucket from which entries are being moved -/
  | moving (t : Nat)
  /-- held by the drop-table procedure -/
  | drop (t : Nat)
  /-- held by the drop-table procedure after the array was taken out -/
  | kill (t : Nat)
  /-- held by nobody any more: the future that had acquired it was dropped -/
  | leaked

/-- The thread that will release the lock. -/
def Lock.owner : Lock → Option Nat
  | .user t | .reloc t | .moving t | .drop t | .kill t => some t
  | .leaked => none

/-- A bucket: contents, lock, and whether it was killed
(/repo/src/hash_table/bucket.rs 41-100, `Writer::kill` 790-819). -/
structure Bkt (K V : Type) where
  content : K → Option V
  lock : Option Lock
  dead : Bool

/-- A new bucket. -/
def Bkt.empty {K V : Type} : Bkt K V := { content := fun _ => none, lock := none, dead := false }

/-- A bucket array of `2^lg` buckets (/repo/src/hash_table/bucket_array.rs 12-97): the link to the
array it replaces and the bookkeeping word of its own relocation. -/
structure Arr (K V : Type) where
  lg : Nat
  linked : Option Nat
  bkt : Nat → Bkt K V
  rh : Rehash.State

/-- `BucketArray::new` (/repo/src/hash_table/bucket_array.rs 29-97). -/
def Arr.new {K V : Type} (lg : Nat) (linked : Option Nat) : Arr K V :=
  { lg := lg, linked := linked, bkt := fun _ => Bkt.empty, rh := Rehash.State.init }

/-- A point operation on `key`: under the lock it sees the current value and yields the new value and
a result. `create` says whether it allocates the table if there is none (`writer_sync`) or treats that
as absence (`optional_writer_sync`, `reader_sync`); `readOnly` whether it takes a shared lock;
`tryOp` whether it may give up when it meets a locked bucket (`try_entry`); `evict` whether it may evict
another entry of the bucket to make room (`HashCache::put_*` and `VacantEntry::put_entry`,
/repo/src/hash_cache.rs 335-387, 1750-1770), and what it returns then. -/
structure Op (K V R : Type) where
  key : K
  f : Option V → Option V × R
  create : Bool
  readOnly : Bool
  tryOp : Bool
  absent : create = false → (f none).1 = none
  same : readOnly = true → ∀ v, (f v).1 = v
  evict : Option (K → V → R) := none

/-- What an activity wants to access: the bucket of a key, or the next bucket of a traversal
(`for_each_reader_sync`, `for_each_writer_sync`) at index `i` of an array of `prev` buckets (`0` at the
beginning); `upd` is what the closure does with each entry and `seen` records (ghost) the values shown
to the closure for each key. -/
inductive Goal (K V R : Type)
  | op (o : Op K V R)
  | tv (upd : K → V → Option V) (i prev : Nat) (seen : K → List V)

/-- Who started a relocation: the de-duplication step of an access, or a helper. -/
inductive Cont (K V R : Type)
  | ded (g : Goal K V R)
  | help

/-- Program counters. -/
inductive PC (K V R : Type)
  | idle
  /-- loop head: about to load the current array -/
  | start (g : Goal K V R)
  /-- has loaded the array, about to load its link -/
  | loaded (g : Goal K V R) (a : Nat)
  /-- `dedup_bucket_sync`: old buckets of the range below `j` are dealt with -/
  | dedup (g : Goal K V R) (a o j : Nat)
  /-- about to lock the bucket -/
  | wait (g : Goal K V R) (a : Nat)
  /-- holds the bucket lock -/
  | crit (g : Goal K V R) (a : Nat)
  /-- has done its work, still holds the lock -/
  | fin (o : Op K V R) (a : Nat) (r : R)
  /-- a traversal has processed the bucket, still holds the lock -/
  | swept (upd : K → V → Option V) (i prev : Nat) (seen : K → List V) (a : Nat)
  /-- returns; `none` means that a try operation gave up -/
  | done (r : Option R)
  | tvDone (upd : K → V → Option V) (seen : K → List V)
  /-- `relocate_bucket_sync`: holds the old bucket and the targets below `n` -/
  | rlLock (c : Cont K V R) (a o j n : Nat)
  /-- `relocate_bucket`: holds the old bucket and all targets -/
  | rlMove (c : Cont K V R) (a o j : Nat)
  /-- everything moved and targets released; about to kill the old bucket -/
  | rlKill (c : Cont K V R) (a o j : Nat)
  /-- a helper that loaded the current array -/
  | hl (a : Nat)
  /-- a helper that loaded the link -/
  | help (a o : Nat)
  /-- `try_resize`: loaded the current array -/
  | rzLoad (a : Nat)
  /-- saw no linked array -/
  | rzTry (a : Nat)
  /-- has set `RESIZING` -/
  | rzLocked (a : Nat)
  /-- has re-checked that `a` is current -/
  | rzChecked (a : Nat)
  /-- about to clear `RESIZING` -/
  | rzDone
  /-- drop-table: buckets below `i` are locked and empty -/
  | rzDrop (a i : Nat)
  /-- drop-table: array taken out, buckets below `i` killed -/
  | rzKill (a i : Nat)
  /-- `has_entry`: loaded the array -/
  | em1 (a : Nat)
  /-- scanning the old array -/
  | em2 (a o i : Nat)
  /-- scanning the current array -/
  | em3 (a i : Nat)
  /-- `is_empty` returns -/
  | emDone (empty : Bool)

/-- Observable events. -/
inductive Event (K V R : Type)
  | inv (t : Nat) (o : Op K V R)
  | ret (t : Nat) (r : Option R)
  /-- the future of a pending operation is dropped -/
  | cancel (t : Nat)
  | tvInv (t : Nat) (upd : K → V → Option V)
  | tvRet (t : Nat) (seen : K → List V)
  | tvCancel (t : Nat)
  /-- the future inside which a helper runs is dropped -/
  | helpCancel (t : Nat)
  /-- user code panics in a call, and the call unwinds -/
  | panic (t : Nat)
  | tvPanic (t : Nat)
  /-- user code panics in a helper -/
  | helpPanic (t : Nat)

/-- Global state. `rz` is the holder of the `RESIZING` bit. -/
structure St (K V R : Type) where
  arr : Nat → Arr K V
  next : Nat
  cur : Option Nat
  rz : Option Nat
  pc : Nat → PC K V R

variable {K V R : Type}

/-- An empty container without an array (`HashMap::new`, /repo/src/hash_map.rs 206-227). -/
def St.init : St K V R :=
  { arr := fun _ => Arr.new 0 none, next := 0, cur := none, rz := none, pc := fun _ => .idle }

/-- An empty container with an array (`HashMap::with_capacity`, /repo/src/hash_map.rs 206-227). -/
def St.initWith (lg : Nat) : St K V R :=
  { arr := fun _ => Arr.new lg none, next := 1, cur := some 0, rz := none, pc := fun _ => .idle }

/-- Initial states. -/
inductive Init : St K V R → Prop
  | new : Init St.init
  | withCapacity (lg : Nat) : 1 ≤ lg → lg ≤ 57 → Init (St.initWith lg)

/-- Bucket `i` of array `x`. -/
def St.b (s : St K V R) (x i : Nat) : Bkt K V := (s.arr x).bkt i

/-- Length of array `x`. -/
def St.len (s : St K V R) (x : Nat) : Nat := 2 ^ (s.arr x).lg

/-- `from_index_to_range` (/repo/src/hash_table.rs 1666-1679) from array `x` to array `y`. -/
def St.rng (s : St K V R) (x y i : Nat) : Nat × Nat := fromIndexToRange (s.len x) (s.len y) i

def St.setPc (s : St K V R) (t : Nat) (p : PC K V R) : St K V R :=
  { s with pc := fun u => if u = t then p else s.pc u }

def St.setArr (s : St K V R) (x : Nat) (a : Arr K V) : St K V R :=
  { s with arr := fun y => if y = x then a else s.arr y }

/-- Change the buckets of array `x`. -/
def St.mapBkts (s : St K V R) (x : Nat) (f : Nat → Bkt K V → Bkt K V) : St K V R :=
  s.setArr x { s.arr x with bkt := fun i => f i (s.b x i) }

/-- Change one bucket. -/
def St.modBkt (s : St K V R) (x i : Nat) (f : Bkt K V → Bkt K V) : St K V R :=
  s.mapBkts x (fun j b => if j = i then f b else b)

def Bkt.setLock (l : Option Lock) (b : Bkt K V) : Bkt K V := { b with lock := l }

/-- Set the lock of one bucket. -/
def St.setLock (s : St K V R) (x i : Nat) (l : Option Lock) : St K V R :=
  s.modBkt x i (Bkt.setLock l)

/-- Set the locks of the buckets in `[lo, hi)`. -/
def St.setLocks (s : St K V R) (x lo hi : Nat) (l : Option Lock) : St K V R :=
  s.mapBkts x (fun j b => if lo ≤ j ∧ j < hi then Bkt.setLock l b else b)

/-- `Writer::kill` (/repo/src/hash_table/bucket.rs 790-819): mark the bucket and release the lock. The
bookkeeping's ghost record `done` follows. -/
def St.killBkt (s : St K V R) (x i : Nat) : St K V R :=
  (s.modBkt x i (fun b => { b with dead := true, lock := none })).setArr x
    { (s.modBkt x i (fun b => { b with dead := true, lock := none })).arr x with
      rh := { (s.arr x).rh with done := fun y => y = i || (s.arr x).rh.done y } }

def Bkt.set [DecidableEq K] (k : K) (v : Option V) (b : Bkt K V) : Bkt K V :=
  { b with content := fun k' => if k' = k then v else b.content k' }

/-- The bucket has no entries (`len() == 0`). -/
def Bkt.isEmpty (b : Bkt K V) : Prop := ∀ k, b.content k = none

/-- Where the traversal continues in an array of `len` buckets
(/repo/src/hash_table.rs 581-586, 715-720). -/
def tvIndex (prev len i : Nat) : Nat :=
  if prev = 0 ∨ prev = len then i else (fromIndexToRange prev len i).1

/-- The goal after loading an array of `len` buckets. -/
def Goal.load (g : Goal K V R) (len : Nat) : Goal K V R :=
  match g with
  | .op o => .op o
  | .tv u i prev seen => .tv u (tvIndex prev len i) len seen

/-- The bucket a goal accesses in an array of `2^lg` buckets. -/
def Goal.idx (hash : K → Nat) (lg : Nat) (g : Goal K V R) : Nat :=
  match g with
  | .op o => bucketIndex lg (hash o.key)
  | .tv _ i _ _ => i

/-- May the activity give up at a locked bucket (`TRY_LOCK`)? Helpers of `len`, `is_empty` and `peek`
may, and so do helpers of a `try_entry`. -/
def Cont.mayFail : Cont K V R → Prop
  | .ded (.op o) => o.tryOp = true
  | .ded (.tv ..) => False
  | .help => True

/-- Where a relocation that gave up continues (/repo/src/hash_table.rs 773-775, 877-884, 1233-1240). -/
def Cont.failed : Cont K V R → PC K V R
  | .ded _ => .done none
  | .help => .idle

/-- Where a finished relocation continues. -/
def Cont.next (a o j : Nat) : Cont K V R → PC K V R
  | .ded g => .dedup g a o (j + 1)
  | .help => .help a o

/-- The bucket that receives a moved entry (/repo/src/hash_table.rs 1024-1031, 1081-1085): the single
target if the new array is not larger, else by hash. -/
def target (hash : K → Nat) (s : St K V R) (a o j : Nat) (k : K) : Nat :=
  if s.len o ≥ s.len a then (s.rng o a j).1 else bucketIndex (s.arr a).lg (hash k)

/-- The goal a program counter is pursuing and that can be cancelled there (dropping the future at a
suspension point, or, for synchronous calls, never). -/
inductive Pending : PC K V R → Goal K V R → Prop
  | start {g} : Pending (.start g) g
  | loaded {g a} : Pending (.loaded g a) g
  | dedup {g a o j} : Pending (.dedup g a o j) g
  | wait {g a} : Pending (.wait g a) g

/-- The event of dropping the future of a goal. -/
def Goal.cancelEvent (t : Nat) : Goal K V R → Event K V R
  | .op _ => .cancel t
  | .tv .. => .tvCancel t

/-- The event of a panic in user code called for a goal. -/
def Goal.panicEvent (t : Nat) : Goal K V R → Event K V R
  | .op _ => .panic t
  | .tv .. => .tvPanic t

/-- The closure `u` is applied to the entries with keys in `S`. -/
def Bkt.partly (S : K → Bool) (u : K → V → Option V) (b : Bkt K V) : Bkt K V :=
  { b with content := fun k => if S k then (b.content k).bind (u k) else b.content k }

/-- One step. -/
inductive Step [DecidableEq K] (hash : K → Nat) :
    St K V R → Option (Event K V R) → St K V R → Prop
  /-- A call starts. -/
  | invoke {s t o} : s.pc t = .idle → Step hash s (some (.inv t o)) (s.setPc t (.start (.op o)))
  /-- A traversal starts. -/
  | tvInvoke {s t u} : s.pc t = .idle →
      Step hash s (some (.tvInv t u)) (s.setPc t (.start (.tv u 0 0 (fun _ => []))))
  /-- There is no array and the operation does not need one (hash_table.rs 312, 328, 460, 477). -/
  | loadNone {s t o} : s.pc t = .start (.op o) → o.create = false → s.cur = none →
      Step hash s none (s.setPc t (.done (some (o.f none).2)))
  | tvLoadNone {s t u i p seen} : s.pc t = .start (.tv u i p seen) → s.cur = none →
      Step hash s none (s.setPc t (.tvDone u seen))
  /-- `allocate_bucket_array` (hash_table.rs 134-148): the CAS from null succeeds. -/
  | alloc {s t o} (lg : Nat) : s.pc t = .start (.op o) → o.create = true → s.cur = none →
      1 ≤ lg → lg ≤ 57 →
      Step hash s none (({ s.setArr s.next (Arr.new lg none) with
        next := s.next + 1, cur := some s.next } : St K V R).setPc t (.loaded (.op o) s.next))
  /-- Load the current array. -/
  | load {s t g a} : s.pc t = .start g → s.cur = some a →
      Step hash s none (s.setPc t (.loaded (g.load (s.len a)) a))
  /-- No linked array (hash_table.rs 314, 390, 462, 590, 724). -/
  | linkNone {s t g a} : s.pc t = .loaded g a → (s.arr a).linked = none →
      Step hash s none (s.setPc t (.wait g a))
  | linkSome {s t g a o} : s.pc t = .loaded g a → (s.arr a).linked = some o →
      Step hash s none (s.setPc t (.dedup g a o (s.rng a o (g.idx hash (s.arr a).lg)).1))
  /-- `dedup_bucket_sync` (hash_table.rs 859-888): the old bucket is already killed. -/
  | dedupSkip {s t g a o j} : s.pc t = .dedup g a o j →
      j < (s.rng a o (g.idx hash (s.arr a).lg)).2 → (s.b o j).dead = true →
      Step hash s none (s.setPc t (.dedup g a o (j + 1)))
  /-- The old bucket is locked for relocation. -/
  | dedupLock {s t g a o j} : s.pc t = .dedup g a o j →
      j < (s.rng a o (g.idx hash (s.arr a).lg)).2 → (s.b o j).dead = false → (s.b o j).lock = none →
      Step hash s none ((s.setLock o j (some (.reloc t))).setPc t
        (.rlLock (.ded g) a o j (s.rng o a j).1))
  /-- All old buckets of the range are dealt with. -/
  | dedupDone {s t g a o j} : s.pc t = .dedup g a o j →
      (s.rng a o (g.idx hash (s.arr a).lg)).2 ≤ j → Step hash s none (s.setPc t (.wait g a))
  /-- `dedup_bucket_async` stops early because the link is gone (hash_table.rs 847-849). -/
  | dedupUnlinked {s t g a o j} : s.pc t = .dedup g a o j → (s.arr a).linked = none →
      Step hash s none (s.setPc t (.wait g a))
  /-- Start over: the bucket was killed (hash_table.rs 320, 403, 468, 596, 730), or an asynchronous
  operation noticed a changed array (hash_table.rs 277-286, 535-541, 546-549), or the fast path of an
  asynchronous operation did not succeed (hash_table.rs 337-339, 420-422). -/
  | retry {s t g a} : s.pc t = .loaded g a ∨ (∃ o j, s.pc t = .dedup g a o j) ∨ s.pc t = .wait g a →
      Step hash s none (s.setPc t (.start g))
  /-- `reader_sync` (hash_table.rs 306-329): shared lock, search and closure. -/
  | read {s t o a} : s.pc t = .wait (.op o) a → o.readOnly = true →
      (s.b a (bucketIndex (s.arr a).lg (hash o.key))).dead = false →
      (s.b a (bucketIndex (s.arr a).lg (hash o.key))).lock = none →
      Step hash s none (s.setPc t (.done (some
        (o.f ((s.b a (bucketIndex (s.arr a).lg (hash o.key))).content o.key)).2)))
  /-- `Writer::lock_sync` succeeds (hash_table.rs 403, 468, 730). -/
  | lock {s t g a} : s.pc t = .wait g a →
      (s.b a (g.idx hash (s.arr a).lg)).dead = false → (s.b a (g.idx hash (s.arr a).lg)).lock = none →
      Step hash s none ((s.setLock a (g.idx hash (s.arr a).lg) (some (.user t))).setPc t (.crit g a))
  /-- The operation works on the locked bucket. -/
  | commit {s t o a} : s.pc t = .crit (.op o) a →
      Step hash s none ((s.modBkt a (bucketIndex (s.arr a).lg (hash o.key)) (Bkt.set o.key
          (o.f ((s.b a (bucketIndex (s.arr a).lg (hash o.key))).content o.key)).1)).setPc t
        (.fin o a (o.f ((s.b a (bucketIndex (s.arr a).lg (hash o.key))).content o.key)).2))
  /-- The operation finds its key absent and the bucket full: `evict_lru_head` takes another entry out
  (/repo/src/hash_table/bucket.rs 254-299), then the new entry is stored. Which one is taken is C25; here any. -/
  | commitEvict {s t o a f k v} : s.pc t = .crit (.op o) a → o.evict = some f →
      (s.b a (bucketIndex (s.arr a).lg (hash o.key))).content o.key = none → k ≠ o.key →
      (s.b a (bucketIndex (s.arr a).lg (hash o.key))).content k = some v →
      Step hash s none ((s.modBkt a (bucketIndex (s.arr a).lg (hash o.key))
        (Bkt.set o.key (o.f none).1 ∘ Bkt.set k none)).setPc t (.fin o a (f k v)))
  | unlock {s t o a r} : s.pc t = .fin o a r →
      Step hash s none ((s.setLock a (bucketIndex (s.arr a).lg (hash o.key)) none).setPc t
        (.done (some r)))
  /-- The closure of a traversal is applied to all entries of the bucket (hash_table.rs 598, 737). -/
  | visit {s t u i p seen a} : s.pc t = .crit (.tv u i p seen) a →
      Step hash s none ((s.modBkt a i (fun b =>
          { b with content := fun k => (b.content k).bind (u k) })).setPc t
        (.swept u i p (fun k => seen k ++ ((s.b a i).content k).toList) a))
  | tvUnlock {s t u i p seen a} : s.pc t = .swept u i p seen a →
      Step hash s none ((s.setLock a i none).setPc t
        (if i + 1 < s.len a then .loaded (.tv u (i + 1) p seen) a else .tvDone u seen))
  | ret {s t r} : s.pc t = .done r → Step hash s (some (.ret t r)) (s.setPc t .idle)
  | tvRet {s t u seen} : s.pc t = .tvDone u seen →
      Step hash s (some (.tvRet t seen)) (s.setPc t .idle)
  /-- A try operation meets a locked bucket (hash_table.rs 773-775, 787-789). -/
  | busy {s t o a} : (∃ x j, s.pc t = .dedup (.op o) a x j) ∨ s.pc t = .wait (.op o) a →
      o.tryOp = true → Step hash s none (s.setPc t (.done none))
  /-- The future of a pending call is dropped while it holds no lock. -/
  | cancel {s t g} : Pending (s.pc t) g →
      Step hash s (some (g.cancelEvent t)) (s.setPc t .idle)
  /-- User code panics while the call holds no exclusive lock: the hash function, or a comparison or a closure
  under a shared lock, which `Reader::drop` releases (/repo/src/hash_table/bucket.rs 890-895). -/
  | panic {s t g} : Pending (s.pc t) g → Step hash s (some (g.panicEvent t)) (s.setPc t .idle)
  /-- A comparison, or a closure that has changed nothing, panics under the lock; `Writer::drop` releases it
  (/repo/src/hash_table/bucket.rs 831-836). A closure that panics after changes is an operation whose result
  is a panic (`commit`, `unlock`, `ret`). -/
  | critPanic {s t o a} : s.pc t = .crit (.op o) a →
      Step hash s (some (.panic t)) ((s.setLock a (bucketIndex (s.arr a).lg (hash o.key)) none).setPc t .idle)
  /-- The closure of a traversal panics when it has dealt with the entries with keys in `S`. -/
  | tvPanic {s t u i p seen a} (S : K → Bool) : s.pc t = .crit (.tv u i p seen) a →
      Step hash s (some (.tvPanic t)) (((s.modBkt a i (Bkt.partly S u)).setLock a i none).setPc t .idle)
  /-- The hash function panics in a relocation (hash_table.rs 1024-1034), or the allocation of `extended_dist` or of
  linked buckets in `reserve_slots` fails (1040, 1060-1066): the guard releases the targets
  (hash_table.rs 927-935, 980-985) and `Writer::drop` the old bucket, which stays in use. Here nothing has been
  moved yet (`rlBack`); a panic after something was moved is in `Verif/Table/Panic.lean`. -/
  | rlPanic {s t g a o j n} : s.pc t = .rlLock (.ded g) a o j n →
      Step hash s (some (g.panicEvent t)) (((s.setLocks a (s.rng o a j).1 n none).setLock o j none).setPc t .idle)
  /-- The same in a helper; the guard of `incremental_rehash_sync` gives the range up (hash_table.rs 1215-1218). -/
  | rlPanicHelp {s t a o j n} : s.pc t = .rlLock .help a o j n →
      Step hash s (some (.helpPanic t)) (((s.setLocks a (s.rng o a j).1 n none).setLock o j none).setPc t .idle)
  /-- The relocation has not moved anything yet (this only tells whether a panic comes before the first move; the
  lock is the same). -/
  | rlBack {s t c a o j} : s.pc t = .rlMove c a o j →
      (∀ i k, (s.b a i).content k ≠ none → bucketIndex (s.arr o).lg (hash k) ≠ j) →
      Step hash s none ((s.setLock o j (some (.reloc t))).setPc t (.rlLock c a o j (s.rng o a j).2))
  /-- A helper loads the current array and its link (hash_table.rs 1214). -/
  | helpLoad {s t a} : s.pc t = .idle → s.cur = some a → Step hash s none (s.setPc t (.hl a))
  | helpLink {s t a o} : s.pc t = .hl a → (s.arr a).linked = some o →
      Step hash s none (s.setPc t (.help a o))
  | helpQuit {s t a} : (s.pc t = .hl a ∨ ∃ o, s.pc t = .help a o) →
      Step hash s none (s.setPc t .idle)
  /-- A helper locks an old bucket (hash_table.rs 1223-1231). -/
  | helpLock {s t a o j} : s.pc t = .help a o → j < s.len o →
      (s.b o j).dead = false → (s.b o j).lock = none →
      Step hash s none ((s.setLock o j (some (.reloc t))).setPc t (.rlLock .help a o j (s.rng o a j).1))
  /-- `relocate_bucket_sync`: nothing to move (hash_table.rs 955-958). -/
  | rlEmpty {s t c a o j n} : s.pc t = .rlLock c a o j n → n = (s.rng o a j).1 →
      (s.b o j).isEmpty → Step hash s none ((s.killBkt o j).setPc t (c.next a o j))
  /-- Lock the next target bucket (hash_table.rs 964-978). The code assumes that the target is not
  killed (`unwrap_unchecked`); see `target_alive`. -/
  | rlTarget {s t c a o j n} : s.pc t = .rlLock c a o j n → n < (s.rng o a j).2 →
      (s.b a n).lock = none →
      Step hash s none ((s.setLock a n (some (.reloc t))).setPc t (.rlLock c a o j (n + 1)))
  /-- A target could not be locked; release everything (hash_table.rs 966-972). -/
  | rlAbort {s t c a o j n} : s.pc t = .rlLock c a o j n → c.mayFail →
      Step hash s none (((s.setLocks a (s.rng o a j).1 n none).setLock o j none).setPc t c.failed)
  /-- The future is dropped while waiting for a target lock of `relocate_bucket_async`
  (hash_table.rs 910-917): the old bucket's writer is dropped, the locks of the targets acquired so far
  were forgotten and stay. -/
  | rlLeak {s t g a o j n} : s.pc t = .rlLock (.ded g) a o j n →
      Step hash s (some (g.cancelEvent t))
        (((s.setLocks a (s.rng o a j).1 n (some .leaked)).setLock o j none).setPc t .idle)
  /-- The same for a helper running inside a future. -/
  | rlLeakHelp {s t a o j n} : s.pc t = .rlLock .help a o j n →
      Step hash s (some (.helpCancel t))
        (((s.setLocks a (s.rng o a j).1 n (some .leaked)).setLock o j none).setPc t .idle)
  /-- All targets are locked (hash_table.rs 979-992). -/
  | rlBegin {s t c a o j n} : s.pc t = .rlLock c a o j n → (s.rng o a j).2 ≤ n →
      Step hash s none ((s.setLock o j (some (.moving t))).setPc t (.rlMove c a o j))
  /-- `extract_from` (hash_table.rs 1047-1053, 1086-1092): move one entry. -/
  | rlMove {s t c a o j k v} : s.pc t = .rlMove c a o j → (s.b o j).content k = some v →
      Step hash s none ((s.modBkt o j (Bkt.set k none)).modBkt a (target hash s a o j k)
        (Bkt.set k (some v)))
  /-- Everything moved; the targets are released (hash_table.rs 993). -/
  | rlUnlock {s t c a o j} : s.pc t = .rlMove c a o j → (s.b o j).isEmpty →
      Step hash s none ((s.setLocks a (s.rng o a j).1 (s.rng o a j).2 none).setPc t (.rlKill c a o j))
  /-- The old bucket is killed (hash_table.rs 995). -/
  | rlKill {s t c a o j} : s.pc t = .rlKill c a o j →
      Step hash s none ((s.killBkt o j).setPc t (c.next a o j))
  /-- Helpers claim, finish or give up ranges of an old array (`start_incremental_rehash`,
  `end_incremental_rehash`, hash_table.rs 1098-1154); see `Verif/Rehash`. -/
  | rehash {s o m} : Rehash.Step (s.len o) (s.arr o).rh m → m.done = (s.arr o).rh.done →
      m.detached = (s.arr o).rh.detached →
      Step hash s none (s.setArr o { s.arr o with rh := m })
  /-- The helper told to do so detaches the old array (hash_table.rs 1245-1251). -/
  | detach {s a o} : (s.arr a).linked = some o → 0 < (s.arr o).rh.detaching →
      Step hash s none ((s.setArr o { s.arr o with rh := { (s.arr o).rh with
          detaching := (s.arr o).rh.detaching - 1, detached := (s.arr o).rh.detached + 1 } }).setArr a
        { s.arr a with linked := none })
  /-- `try_resize` (hash_table.rs 1313-1324). -/
  | rzLoad {s t a} : s.pc t = .idle → s.cur = some a → Step hash s none (s.setPc t (.rzLoad a))
  | rzLink {s t a} : s.pc t = .rzLoad a → (s.arr a).linked = none →
      Step hash s none (s.setPc t (.rzTry a))
  | rzQuit {s t a} : s.pc t = .rzLoad a ∨ s.pc t = .rzTry a → Step hash s none (s.setPc t .idle)
  /-- Take the resize lock (hash_table.rs 1326-1342). -/
  | rzLock {s t a} : s.pc t = .rzTry a → s.rz = none →
      Step hash s none (({ s with rz := some t } : St K V R).setPc t (.rzLocked a))
  /-- Re-check (hash_table.rs 1344-1347). -/
  | rzCheck {s t a} : s.pc t = .rzLocked a → s.cur = some a →
      Step hash s none (s.setPc t (.rzChecked a))
  /-- Nothing to do (hash_table.rs 1344-1347, 1383-1386). -/
  | rzNothing {s t a} : s.pc t = .rzLocked a ∨ s.pc t = .rzChecked a →
      Step hash s none (s.setPc t .rzDone)
  /-- Install a new array linked to the current one (hash_table.rs 1419-1428). -/
  | rzSwap {s t a} (lg : Nat) : s.pc t = .rzChecked a → 1 ≤ lg → lg ≤ 57 →
      Step hash s none (({ s.setArr s.next (Arr.new lg s.cur) with
        next := s.next + 1, cur := some s.next } : St K V R).setPc t .rzDone)
  /-- Clear `RESIZING` (hash_table.rs 1340-1342). -/
  | rzRelease {s t} : s.pc t = .rzDone →
      Step hash s none (({ s with rz := none } : St K V R).setPc t .idle)
  /-- Drop the table (hash_table.rs 1388-1418). -/
  | rzDropStart {s t a} : s.pc t = .rzChecked a → Step hash s none (s.setPc t (.rzDrop a 0))
  | rzDropLock {s t a i} : s.pc t = .rzDrop a i → i < s.len a → (s.b a i).dead = false →
      (s.b a i).lock = none → (s.b a i).isEmpty →
      Step hash s none ((s.setLock a i (some (.drop t))).setPc t (.rzDrop a (i + 1)))
  | rzDropFail {s t a i} : s.pc t = .rzDrop a i →
      Step hash s none ((s.setLocks a 0 i none).setPc t .rzDone)
  | rzDropSwap {s t a i} : s.pc t = .rzDrop a i → i = s.len a →
      Step hash s none (({ s.setLocks a 0 i (some (.kill t)) with cur := none } : St K V R).setPc t
        (.rzKill a 0))
  | rzKillOne {s t a i} : s.pc t = .rzKill a i → i < s.len a →
      Step hash s none ((s.killBkt a i).setPc t (.rzKill a (i + 1)))
  | rzKillEnd {s t a i} : s.pc t = .rzKill a i → s.len a ≤ i →
      Step hash s none (s.setPc t .rzDone)
  /-- `is_empty` (`has_entry`, hash_table.rs 183-204; /repo/src/hash_map.rs 1425-1427). -/
  | emNone {s t} : s.pc t = .idle → s.cur = none → Step hash s none (s.setPc t (.emDone true))
  | emLoad {s t a} : s.pc t = .idle → s.cur = some a → Step hash s none (s.setPc t (.em1 a))
  | emLinkNone {s t a} : s.pc t = .em1 a → (s.arr a).linked = none →
      Step hash s none (s.setPc t (.em3 a 0))
  | emLinkSome {s t a o} : s.pc t = .em1 a → (s.arr a).linked = some o →
      Step hash s none (s.setPc t (.em2 a o 0))
  | emOld {s t a o i} : s.pc t = .em2 a o i → i < s.len o → (s.b o i).isEmpty →
      Step hash s none (s.setPc t (.em2 a o (i + 1)))
  | emOldFound {s t a o i} : s.pc t = .em2 a o i → i < s.len o → ¬ (s.b o i).isEmpty →
      Step hash s none (s.setPc t (.emDone false))
  | emOldEnd {s t a o i} : s.pc t = .em2 a o i → s.len o ≤ i → Step hash s none (s.setPc t (.em3 a 0))
  | emCur {s t a i} : s.pc t = .em3 a i → i < s.len a → (s.b a i).isEmpty →
      Step hash s none (s.setPc t (.em3 a (i + 1)))
  | emCurFound {s t a i} : s.pc t = .em3 a i → i < s.len a → ¬ (s.b a i).isEmpty →
      Step hash s none (s.setPc t (.emDone false))
  | emEnd {s t a i} : s.pc t = .em3 a i → s.len a ≤ i → Step hash s none (s.setPc t (.emDone true))
  | emRet {s t e} : s.pc t = .emDone e → Step hash s none (s.setPc t .idle)

/-- Executions and their sequences of observable events. -/
inductive Exec [DecidableEq K] (hash : K → Nat) : St K V R → List (Event K V R) → St K V R → Prop
  | nil {s} : Exec hash s [] s
  | tau {s es s' s''} : Exec hash s es s' → Step hash s' none s'' → Exec hash s es s''
  | event {s es s' e s''} : Exec hash s es s' → Step hash s' (some e) s'' →
      Exec hash s (es ++ [e]) s''

end Scc.Table
