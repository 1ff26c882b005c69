/-!
# Calls on single keys of `HashMap` under release/acquire memory

A `HashMap` is reached through one pointer, the current bucket array. It is null at first, replaced when the table is resized, and set
to null when the table is empty. An array may be linked to the one before it, out of which the buckets are moved one by one. Entries
are guarded by the lock of their bucket. This model follows any number of threads with the orderings of the code
(/repo/src/hash_table.rs):

* `reader_sync` (306-330), `writer_sync` (385-413), `optional_writer_sync` (458-478), with `get_or_create_bucket_array` (125-131)
  and `allocate_bucket_array` (134-149);
* `dedup_bucket_sync` (859-888), `incremental_rehash_sync` (1209-1256), `relocate_bucket_sync` (948-998);
* `try_resize` (1307-1429).

Memory: the pointer to the current array has a history of values with the numbers `0` to `n`; all but the first are written by
read-modify-write operations. A load returns any value that is not older than what the thread knows, and with `Acquire` the thread
learns what was released with that value and, by the release sequence, with those before it. The link of an array has two
values, the array it was made with and null. Locks (crate `saa`) are taken to follow the usual contract: the lock word is only
changed by read-modify-write operations, who takes a lock learns what those who held it before have released. Whether a thread that finds a lock
poisoned learns anything is left open.

What a thread knows is a `View`: values of the pointer and accesses (calls and relocations) that happen before its next step.
Threads may also communicate outside of the container: a view can be posted and received at any time.

Simplifications:

* One array for each value of the pointer, named by its number. That memory is not reused while threads have pointers to it is
  the contract of the guards of `sdd`.
* Buckets are numbered without limit; `ix v k` is the bucket of key `k` in array `v`, and any function is allowed (C05: the ranges of buckets
  agree with it). A bucket is a map from its keys (C12).
* Helping with relocation and resizing may be done by any thread at any time, next to its call, with any array it has loaded.
* The target buckets are locked, the entries moved and the targets unlocked in one step; all buckets are locked in one step
  when the table is dropped. The locks exclude all other accesses from the first of these actions to the last.
* The link is removed when all buckets of the old array are dead, by any thread (C04: by the last one of those who helped).
* A call is a function of the value of its key (`Op.f`), applied while the lock is held. `Entry` values are such calls.
* What `try_*` calls do when they fail is left out (C17); when they succeed they are calls like the others.
-/

namespace Scc.Haze

/-- What happens before the next step of a thread: values of the pointer (`ver`), accesses to entries (`ops`). -/
structure View where
  ver : Nat → Prop
  ops : Nat → Prop

def View.join (a b : View) : View := ⟨fun w => a.ver w ∨ b.ver w, fun x => a.ops x ∨ b.ops x⟩
/-- With one more value of the pointer. -/
def View.addV (a : View) (v : Nat) : View := ⟨fun w => a.ver w ∨ w = v, a.ops⟩
/-- With one more access. -/
def View.addO (a : View) (x : Nat) : View := ⟨a.ver, fun y => a.ops y ∨ y = x⟩
/-- The views of many locks together. -/
def View.sup (f : Nat → View) (p : Nat → Prop) : View := ⟨fun w => ∃ b, p b ∧ (f b).ver w, fun x => ∃ b, p b ∧ (f b).ops x⟩

def upd {β : Type} (f : Nat → β) (i : Nat) (v : β) : Nat → β := fun j => if j = i then v else f j
def upd2 {β : Type} (f : Nat → Nat → β) (i j : Nat) (v : β) : Nat → Nat → β := fun a b => if a = i ∧ b = j then v else f a b

/-- A call on one key. `make`: it allocates an array if there is none (`writer_sync`: `insert`, `entry`, `upsert`); otherwise it does nothing if
the key is not there. `ro`: it takes the lock shared (`reader_sync`: `read`, `contains`). `f`: the new value and the result. -/
structure Op where
  key : Nat
  make : Bool
  ro : Bool
  f : Option Nat → Option Nat × Option Nat
  absent : make = false → (f none).1 = none
  reads : ro = true → ∀ x, (f x).1 = x

/-- A call that has taken effect, with its result. -/
structure Ev where
  id : Nat
  op : Op
  res : Option Nat

/-- Where a call is. -/
inductive Pc
  | idle
  /-- Called, or to begin anew (hash_table.rs 313, 388, 461). -/
  | go (x : Nat) (o : Op)
  /-- It has loaded null and allocates (134-137). -/
  | alloc (x : Nat) (o : Op)
  /-- It has array `v`. -/
  | at (x : Nat) (o : Op) (v : Nat)
  /-- There is no old array, or it has found the old bucket dead (315-318). -/
  | rdy (x : Nat) (o : Op) (v : Nat)
  /-- It has the lock (321, 404, 469). -/
  | crit (x : Nat) (o : Op) (v : Nat)
  /-- It has done its work and still has the lock. -/
  | rel (x : Nat) (o : Op) (v : Nat) (r : Option Nat)

/-- What a thread does for the table next to its call. -/
inductive Mp
  | idle
  /-- It has array `v`. -/
  | have (v : Nat)
  /-- It has the lock of bucket `i` of the old array `p` linked to `v` (870, 1234). -/
  | mv (v p i : Nat)
  /-- It has moved the entries (984-991). -/
  | kl (v p i : Nat)
  /-- `try_resize`: `v` is current and has no linked array (1313-1323). -/
  | chk (v : Nat)
  /-- It has the resize lock (1325-1339). -/
  | lk (v : Nat)
  /-- It has found `v` still to be current (1344). -/
  | swp (v : Nat)
  /-- It has locked all buckets, they are empty (1397-1409). -/
  | drp (v : Nat)
  /-- It has set the pointer to null (1413-1416). -/
  | drd (v : Nat)
  /-- To release the resize lock (1340-1342). -/
  | fin

structure State where
  /-- The number of the last value of the pointer `bucket_array`. -/
  n : Nat
  /-- Whether the value with this number is an array. -/
  isA : Nat → Bool
  /-- What is released with the value. -/
  cmsg : Nat → View
  /-- bucket_array.rs: `linked_array` of the array as it was made. -/
  prev : Nat → Option Nat
  /-- Whether it has been set to null since. -/
  unl : Nat → Bool
  umsg : Nat → View
  /-- The entries: array, key. -/
  val : Nat → Nat → Option Nat
  /-- Poisoned locks: array, bucket. -/
  dead : Nat → Nat → Bool
  /-- The lock held exclusively, by the call (`false`) or next to it (`true`). -/
  wl : Nat → Nat → Option (Nat × Bool)
  /-- The lock held shared: array, bucket, thread. -/
  sl : Nat → Nat → Nat → Bool
  /-- What has been released with the lock. -/
  bmsg : Nat → Nat → View
  /-- `RESIZING` in `minimum_capacity`. -/
  rs : Option Nat
  rmsg : View
  tv : Nat → View
  pc : Nat → Pc
  mp : Nat → Mp
  /-- Views posted outside of the container. -/
  post : View → Prop
  /-- Ghost: the calls that took effect, by the array they used or the null pointer they saw. -/
  log : Nat → List Ev
  /-- Ghost: the number of calls and relocations so far. -/
  nid : Nat
  /-- Ghost: what happens before the call. -/
  bef : Nat → View
  /-- Ghost: calls that returned, with their results. -/
  ans : Nat → Option (Op × Option Nat)
  /-- Ghost: the accesses to the entries of a bucket with the lock held exclusively, and shared. -/
  wr : Nat → Nat → Nat → Prop
  rd : Nat → Nat → Nat → Prop

def View.none : View := ⟨fun _ => False, fun _ => False⟩
/-- The first null is known to all who have the container. -/
def View.start : View := ⟨fun w => w = 0, fun _ => False⟩

/-- hash_map.rs 1500-1504: `HashMap::new`: the pointer is null. -/
def State.init : State where
  n := 0
  isA := fun _ => false
  cmsg := fun _ => View.start
  prev := fun _ => .none
  unl := fun _ => false
  umsg := fun _ => View.none
  val := fun _ _ => .none
  dead := fun _ _ => false
  wl := fun _ _ => .none
  sl := fun _ _ _ => false
  bmsg := fun _ _ => View.none
  rs := .none
  rmsg := View.start
  tv := fun _ => View.start
  pc := fun _ => .idle
  mp := fun _ => .idle
  post := fun _ => False
  log := fun _ => []
  nid := 0
  bef := fun _ => View.none
  ans := fun _ => .none
  wr := fun _ _ _ => False
  rd := fun _ _ _ => False

/-- The thread can load the value with number `m`: it knows of no newer one. -/
def Ok (s : State) (t m : Nat) : Prop := m ≤ s.n ∧ ∀ w, (s.tv t).ver w → w ≤ m

/-- What a thread knows after a load of the value `m` with `Acquire`. -/
def acq (s : State) (t m : Nat) : View := ((s.tv t).join (s.cmsg m)).addV m

/-- Takes the next step of its call with the given view. -/
def State.goto (s : State) (t : Nat) (p : Pc) (v : View) : State := { s with pc := upd s.pc t p, tv := upd s.tv t v }
/-- Takes the next step next to its call. -/
def State.goto' (s : State) (t : Nat) (p : Mp) (v : View) : State := { s with mp := upd s.mp t p, tv := upd s.tv t v }

/-- hash_table.rs 141, 1414, 1427: a new value of the pointer; `rel` is released with it. -/
def State.push (s : State) (a : Bool) (l : Option Nat) (rel : View) : State :=
  { s with n := s.n + 1, isA := upd s.isA (s.n + 1) a, prev := upd s.prev (s.n + 1) l,
           cmsg := upd s.cmsg (s.n + 1) (((s.cmsg s.n).join rel).addV (s.n + 1)) }

/-- The targets of bucket `i` of array `p` in array `v` (hash_table.rs 958-961). -/
def Target (ix : Nat → Nat → Nat) (v p i b : Nat) : Prop := ∃ k, ix p k = i ∧ ix v k = b

/-- The call takes effect: hash_table.rs 323-326, and the callers of `writer_sync` and `optional_writer_sync`. -/
def State.act (ix : Nat → Nat → Nat) (s : State) (t x : Nat) (o : Op) (v : Nat) : State :=
  { s with
    val := upd2 s.val v o.key (o.f (s.val v o.key)).1
    log := upd s.log v (s.log v ++ [⟨x, o, (o.f (s.val v o.key)).2⟩])
    pc := upd s.pc t (.rel x o v (o.f (s.val v o.key)).2)
    tv := upd s.tv t ((s.tv t).addO x)
    wr := fun a b y => s.wr a b y ∨ (o.ro = false ∧ a = v ∧ b = ix v o.key ∧ y = x)
    rd := fun a b y => s.rd a b y ∨ (o.ro = true ∧ a = v ∧ b = ix v o.key ∧ y = x) }

/-- hash_table.rs 313, 461: there is no array, so the key is not there. -/
def State.actNull (s : State) (t x : Nat) (o : Op) (m : Nat) : State :=
  { s with
    log := upd s.log m (s.log m ++ [⟨x, o, (o.f .none).2⟩])
    pc := upd s.pc t .idle
    tv := upd s.tv t ((acq s t m).addO x)
    ans := upd s.ans x (some (o, (o.f .none).2)) }

/-- hash_table.rs 963-991: all entries of bucket `i` of `p` are moved to `v`. -/
def State.move (ix : Nat → Nat → Nat) (s : State) (t v p i : Nat) : State :=
  let w := (((s.tv t).join (View.sup (s.bmsg v) (Target ix v p i))).addO s.nid)
  { s with
    val := fun a k => if ix p k = i then (if a = v then (s.val p k).or (s.val v k) else if a = p then .none else s.val a k) else s.val a k
    mp := upd s.mp t (.kl v p i)
    tv := upd s.tv t w
    bmsg := fun a b => ⟨fun u => (s.bmsg a b).ver u ∨ (a = v ∧ Target ix v p i b ∧ w.ver u), fun y => (s.bmsg a b).ops y ∨ (a = v ∧ Target ix v p i b ∧ w.ops y)⟩
    nid := s.nid + 1
    wr := fun a b y => s.wr a b y ∨ (y = s.nid ∧ ((a = p ∧ b = i) ∨ (a = v ∧ Target ix v p i b))) }

/-- The steps of thread `t`. -/
inductive Step (ix : Nat → Nat → Nat) : State → State → Prop
  /-- A call begins. -/
  | call {s : State} {t : Nat} (o : Op) (h : s.pc t = .idle) :
      Step ix s { s with pc := upd s.pc t (.go s.nid o), nid := s.nid + 1, bef := upd s.bef s.nid (s.tv t) }
  /-- Communication outside of the container. -/
  | send {s : State} {t : Nat} : Step ix s { s with post := fun v => s.post v ∨ v = s.tv t }
  | recv {s : State} {t : Nat} {v : View} (h : s.post v) : Step ix s { s with tv := upd s.tv t ((s.tv t).join v) }
  /-- hash_table.rs 46-51, 313, 388, 461: loads the pointer with `Acquire`: an array. -/
  | load {s : State} {t x : Nat} {o : Op} {m : Nat} (h : s.pc t = .go x o) (ok : Ok s t m) (ha : s.isA m = true) :
      Step ix s (s.goto t (.at x o m) (acq s t m))
  /-- Null: the call does not need an array. -/
  | null {s : State} {t x : Nat} {o : Op} {m : Nat} (h : s.pc t = .go x o) (ok : Ok s t m) (ha : s.isA m = false) (hm : o.make = false) :
      Step ix s (s.actNull t x o m)
  /-- Null: the call needs an array (128). -/
  | loadNull {s : State} {t x : Nat} {o : Op} {m : Nat} (h : s.pc t = .go x o) (ok : Ok s t m) (ha : s.isA m = false) (hm : o.make = true) :
      Step ix s (s.goto t (.alloc x o) (acq s t m))
  /-- 138-144: `compare_exchange(null, new, AcqRel, _)` succeeds: null is the last value. -/
  | make {s : State} {t x : Nat} {o : Op} (h : s.pc t = .alloc x o) (ha : s.isA s.n = false) :
      Step ix s ((s.push true .none (s.tv t)).goto t (.at x o (s.n + 1)) ((acq s t s.n).addV (s.n + 1)))
  /-- It fails and loads a value other than null with `Acquire`. -/
  | found {s : State} {t x : Nat} {o : Op} {m : Nat} (h : s.pc t = .alloc x o) (ok : Ok s t m) (ha : s.isA m = true) :
      Step ix s (s.goto t (.at x o m) (acq s t m))
  /-- 315, 391, 464: `linked_array` with `Acquire`: null from the beginning, -/
  | direct {s : State} {t x : Nat} {o : Op} {v : Nat} (h : s.pc t = .at x o v) (hp : s.prev v = .none) :
      Step ix s (s.goto t (.rdy x o v) (s.tv t))
  /-- or set to null. -/
  | past {s : State} {t x : Nat} {o : Op} {v : Nat} (h : s.pc t = .at x o v) (hu : s.unl v = true) :
      Step ix s (s.goto t (.rdy x o v) ((s.tv t).join (s.umsg v)))
  /-- 866-887: the bucket of the old array is dead; whether it learns something from that is left open. -/
  | moved {s : State} {t x : Nat} {o : Op} {v p : Nat} (l : Bool) (h : s.pc t = .at x o v) (hp : s.prev v = some p) (hd : s.dead p (ix p o.key) = true) :
      Step ix s (s.goto t (.rdy x o v) (if l then (s.tv t).join (s.bmsg p (ix p o.key)) else s.tv t))
  /-- 404, 469: takes the lock. -/
  | lock {s : State} {t x : Nat} {o : Op} {v : Nat} (h : s.pc t = .rdy x o v) (hr : o.ro = false) (hd : s.dead v (ix v o.key) = false)
      (hw : s.wl v (ix v o.key) = .none) (hs : ∀ u, s.sl v (ix v o.key) u = false) :
      Step ix s { (s.goto t (.crit x o v) ((s.tv t).join (s.bmsg v (ix v o.key)))) with wl := upd2 s.wl v (ix v o.key) (some (t, false)) }
  /-- 321: takes the lock shared. -/
  | share {s : State} {t x : Nat} {o : Op} {v : Nat} (h : s.pc t = .rdy x o v) (hr : o.ro = true) (hd : s.dead v (ix v o.key) = false)
      (hw : s.wl v (ix v o.key) = .none) :
      Step ix s { (s.goto t (.crit x o v) ((s.tv t).join (s.bmsg v (ix v o.key)))) with sl := upd2 s.sl v (ix v o.key) (upd (s.sl v (ix v o.key)) t true) }
  /-- The bucket is dead: it begins anew. -/
  | retry {s : State} {t x : Nat} {o : Op} {v : Nat} (l : Bool) (h : s.pc t = .rdy x o v) (hd : s.dead v (ix v o.key) = true) :
      Step ix s (s.goto t (.go x o) (if l then (s.tv t).join (s.bmsg v (ix v o.key)) else s.tv t))
  | act {s : State} {t x : Nat} {o : Op} {v : Nat} (h : s.pc t = .crit x o v) : Step ix s (s.act ix t x o v)
  /-- hash_table/bucket.rs 831-836: releases the lock, returns. -/
  | unlock {s : State} {t x : Nat} {o : Op} {v : Nat} {r : Option Nat} (h : s.pc t = .rel x o v r) (hr : o.ro = false) :
      Step ix s { (s.goto t .idle (s.tv t)) with wl := upd2 s.wl v (ix v o.key) .none, bmsg := upd2 s.bmsg v (ix v o.key) ((s.bmsg v (ix v o.key)).join (s.tv t)), ans := upd s.ans x (some (o, r)) }
  /-- hash_table/bucket.rs 890-895. -/
  | unshare {s : State} {t x : Nat} {o : Op} {v : Nat} {r : Option Nat} (h : s.pc t = .rel x o v r) (hr : o.ro = true) :
      Step ix s { (s.goto t .idle (s.tv t)) with sl := upd2 s.sl v (ix v o.key) (upd (s.sl v (ix v o.key)) t false), bmsg := upd2 s.bmsg v (ix v o.key) ((s.bmsg v (ix v o.key)).join (s.tv t)), ans := upd s.ans x (some (o, r)) }
  /-- Next to its call: it has an array. -/
  | take {s : State} {t m : Nat} (h : s.mp t = .idle) (ok : Ok s t m) (ha : s.isA m = true) :
      Step ix s (s.goto' t (.have m) (acq s t m))
  | leave {s : State} {t v : Nat} (h : s.mp t = .have v) : Step ix s (s.goto' t .idle (s.tv t))
  /-- 868-876, 1229-1236: it loads the link, which may have been set to null since, and locks a bucket of the old array. -/
  | pick {s : State} {t v p : Nat} (i : Nat) (h : s.mp t = .have v) (hp : s.prev v = some p) (hd : s.dead p i = false)
      (hw : s.wl p i = .none) (hs : ∀ u, s.sl p i u = false) :
      Step ix s { (s.goto' t (.mv v p i) ((s.tv t).join (s.bmsg p i))) with wl := upd2 s.wl p i (some (t, true)) }
  /-- 963-991: the targets are locked, the entries moved, the targets unlocked. -/
  | move {s : State} {t v p i : Nat} (h : s.mp t = .mv v p i) (hw : ∀ b, Target ix v p i b → s.wl v b = .none ∧ ∀ u, s.sl v b u = false) :
      Step ix s (s.move ix t v p i)
  /-- 978-982 (`TRY_LOCK`): a target cannot be locked. -/
  | giveUp {s : State} {t v p i : Nat} (h : s.mp t = .mv v p i) :
      Step ix s { (s.goto' t (.have v) (s.tv t)) with wl := upd2 s.wl p i .none, bmsg := upd2 s.bmsg p i ((s.bmsg p i).join (s.tv t)) }
  /-- 955, 995: `kill`; without the step before if the bucket is empty. -/
  | kill {s : State} {t v p i : Nat} (h : s.mp t = .kl v p i ∨ (s.mp t = .mv v p i ∧ ∀ k, ix p k = i → s.val p k = .none)) :
      Step ix s { (s.goto' t (.have v) (s.tv t)) with wl := upd2 s.wl p i .none, dead := upd2 s.dead p i true, bmsg := upd2 s.bmsg p i ((s.bmsg p i).join (s.tv t)) }
  /-- 1244-1252: the link is set to null, `Release`. -/
  | unlink {s : State} {t v p : Nat} (h : s.mp t = .have v) (hp : s.prev v = some p) (hd : ∀ k, s.dead p (ix p k) = true) :
      Step ix s { s with unl := upd s.unl v true, umsg := upd s.umsg v ((s.umsg v).join (s.tv t)) }
  /-- 1313-1323: the array is current, as far as the thread knows, and has no linked array. -/
  | check {s : State} {t v : Nat} (h : s.mp t = .have v) (ok : Ok s t v) (hl : s.prev v = .none ∨ s.unl v = true) :
      Step ix s (s.goto' t (.chk v) (if s.unl v then (acq s t v).join (s.umsg v) else acq s t v))
  /-- 1325-1335: takes the resize lock, `AcqRel`. -/
  | resize {s : State} {t v : Nat} (h : s.mp t = .chk v) (hr : s.rs = .none) :
      Step ix s { (s.goto' t (.lk v) ((s.tv t).join s.rmsg)) with rs := some t }
  /-- 1336-1339: it is taken. -/
  | busy {s : State} {t v : Nat} (h : s.mp t = .chk v) : Step ix s (s.goto' t (.have v) (s.tv t))
  /-- 1344: the pointer is still the same, -/
  | same {s : State} {t v : Nat} (h : s.mp t = .lk v) (ok : Ok s t v) : Step ix s (s.goto' t (.swp v) (acq s t v))
  /-- or another one. -/
  | other {s : State} {t v m : Nat} (h : s.mp t = .lk v) (ok : Ok s t m) (hm : m ≠ v) : Step ix s (s.goto' t .fin (acq s t m))
  /-- 1388-1391: there is nothing to be done. -/
  | skip {s : State} {t v : Nat} (h : s.mp t = .swp v) : Step ix s (s.goto' t .fin (s.tv t))
  /-- 1419-1428: a new array, linked to what a `Relaxed` load of the pointer returns; `swap` with `Release`. -/
  | grow {s : State} {t v m : Nat} (h : s.mp t = .swp v) (ok : Ok s t m) :
      Step ix s ((s.push true (if s.isA m then some m else .none) (s.tv t)).goto' t .fin ((s.tv t).addV (s.n + 1)))
  /-- 1397-1409: locks all buckets if they are empty. -/
  | lockAll {s : State} {t v : Nat} (h : s.mp t = .swp v) (hd : ∀ b, s.dead v b = false) (hw : ∀ b, s.wl v b = .none) (hs : ∀ b u, s.sl v b u = false)
      (he : ∀ k, s.val v k = .none) :
      Step ix s { (s.goto' t (.drp v) ((s.tv t).join (View.sup (s.bmsg v) (fun _ => True)))) with wl := fun a b => if a = v then some (t, true) else s.wl a b }
  /-- 1413-1416: `swap(null, Release)`. -/
  | clear {s : State} {t v : Nat} (h : s.mp t = .drp v) :
      Step ix s ((s.push false .none (s.tv t)).goto' t (.drd v) ((s.tv t).addV (s.n + 1)))
  /-- 1395-1403: the buckets are killed. -/
  | killAll {s : State} {t v : Nat} (h : s.mp t = .drd v) :
      Step ix s { (s.goto' t .fin (s.tv t)) with wl := fun a b => if a = v then .none else s.wl a b, dead := fun a b => if a = v then true else s.dead a b,
                                                  bmsg := fun a b => if a = v then (s.bmsg a b).join (s.tv t) else s.bmsg a b }
  /-- 1340-1342: `fetch_sub(RESIZING, Release)`. -/
  | done {s : State} {t : Nat} (h : s.mp t = .fin) :
      Step ix s { (s.goto' t .idle (s.tv t)) with rs := .none, rmsg := s.rmsg.join (s.tv t) }

inductive Reach (ix : Nat → Nat → Nat) : State → Prop
  | init : Reach ix State.init
  | step {s s' : State} (h : Reach ix s) (st : Step ix s s') : Reach ix s'

/-! ## Specification -/

/-- The map after the calls of the list, in this order. -/
def after : (Nat → Option Nat) → List Ev → (Nat → Option Nat)
  | m, [] => m
  | m, e :: l => after (upd m e.op.key (e.op.f (m e.op.key)).1) l

/-- Every call has the result it has on the map that the calls before it made. -/
def Legal : (Nat → Option Nat) → List Ev → Prop
  | _, [] => True
  | m, e :: l => e.res = (e.op.f (m e.op.key)).2 ∧ Legal (upd m e.op.key (e.op.f (m e.op.key)).1) l

/-- The calls in the order of the arrays. -/
def flat (log : Nat → List Ev) : Nat → List Ev
  | 0 => log 0
  | j + 1 => flat log j ++ log (j + 1)

end Scc.Haze
