import Verif.Index.Model

/-!
# Asynchronous calls of the hash containers and the memory of bucket arrays

An asynchronous call keeps a reference to the bucket array it loaded, but gives up its epoch guard whenever it is
suspended (`AsyncGuard`, /repo/src/async_helper.rs; the closure given to `lock_async_with` and `share_async_with`,
/repo/src/hash_table/bucket.rs 742-754, 846-863). This model follows one such call, access by access, beside all
other threads, which may create, replace, empty, retire and free bucket arrays at any time. Memory is addressed: an
array that is freed leaves its address, and a later array may get the same address. Accesses are explicit
(`Pc.touches`), so that one can say which of them are valid.

Epochs are a contract: an array that is retired while the call has a guard is not freed before the call gives up that
guard. Locks are one as well: a bucket that is locked is not killed, and whoever waits for a bucket that is killed is
told so. That an old array is retired only when all its buckets are killed and nobody who started rehashing is still
at it is C04. Left out: the contents of buckets, other than whether a bucket is killed.
-/

namespace Scc.Async

open Scc.Index (bucketIndex fromIndexToRange)

/-- A bucket array of `2^lg` buckets: `linked_array`, which buckets are killed, whether the array is retired (no
longer reachable, freed later), and whether a guard of the call keeps it from being freed
(/repo/src/hash_table/bucket_array.rs 14-23). -/
structure Arr where
  lg : Nat
  linked : Option Nat
  dead : Nat → Bool
  retired : Bool
  prot : Bool

/-- A new array. -/
def Arr.new (lg : Nat) (linked : Option Nat) : Arr :=
  { lg := lg, linked := linked, dead := fun _ => false, retired := false, prot := false }

/-- Which function is running: `reader_async`, `writer_async` or `optional_writer_async` with a hash
(/repo/src/hash_table.rs 266-301, 335-378, 418-454; they differ in the lock they take and in the case of no array),
`for_each_reader_async` (512-564) or `for_each_writer_async` (618-694). -/
inductive Kind
  | point (hash : Nat)
  | reader
  | writer

/-- Where `relocate_bucket_async` returns to: `incremental_rehash_async` or `dedup_bucket_async`, in loops up to `e`. -/
inductive Back
  | reh (e : Nat)
  | ded (e : Nat)

/-- Where the call is. `p` is the address of `current_array`, `i` the index of the bucket, `n` the length of the array
when it was read, `o` the address of the old array. -/
inductive Pc
  /-- Load the pointer to the current array (272, 341, 423, 519, 629). -/
  | load (i prev : Nat)
  /-- `has_linked_array` (274, 342, 425, 531, 643). -/
  | test (p i n : Nat)
  /-- `incremental_rehash_async` loads the linked array (1166). -/
  | rehLoad (p i n : Nat)
  /-- `start_incremental_rehash` (1169). -/
  | rehStart (p i n o : Nat)
  /-- The loop over buckets of the old array (1174-1190), then `end_incremental_rehash` (1192). -/
  | rehLock (p i n o j e : Nat)
  | rehWait (p i n o j e : Nat)
  /-- `relocate_bucket_async` with the lock of bucket `j` of `o` (891-944). -/
  | rel (p i n o j : Nat) (k : Back)
  /-- Lock target bucket `t` of the current array (910-917). -/
  | relTgt (p i n o j t te : Nat) (k : Back)
  | relWait (p i n o j t te : Nat) (k : Back)
  /-- Move the entries and kill the old bucket (921-943). -/
  | relMove (p i n o j t te : Nat) (k : Back)
  /-- The old array was unlinked; `async_guard.guard()` (1198). -/
  | rehGuard (p i n : Nat)
  /-- `current_array.bucket_index(hash)`, the argument of `dedup_bucket_async` (280, 348, 431). -/
  | arg (p i n : Nat)
  /-- `check_ref` in `dedup_bucket_async` (818). -/
  | ded (p i n : Nat)
  /-- Load the linked array (823). -/
  | dedLoad (p i n : Nat)
  /-- `from_index_to_range(current_array.len(), old_array.len(), index)` (826). -/
  | dedRange (p i n o : Nat)
  /-- The loop over old buckets (827-850). -/
  | dedLock (p i n o j e : Nat)
  | dedWait (p i n o j e : Nat)
  /-- `current_array.has_linked_array()` (847). -/
  | dedNext (p i n o j e : Nat)
  /-- `current_array.bucket_index(hash)` after deduplication (289, 357, 440). -/
  | pick (p : Nat)
  /-- Lock the bucket (291, 370, 442, 545, 657). -/
  | lock (p i n : Nat)
  | lockWait (p i n : Nat)
  /-- The bucket is locked (292-297, 371-376, 443-448, 546-552, 658-673). -/
  | use (p i n : Nat)
  /-- After the inner loop of a traversal (562, 681). -/
  | brk (p i n : Nat)
  | done

/-- Which behaviours are considered: suspension in `incremental_rehash_async` (`help`), in `dedup_bucket_async`
(`dedup`), when the bucket itself is locked (`bucket`); whether an address may be used again (`reuse`). The code allows
all of them. -/
structure Mode where
  help : Bool
  dedup : Bool
  bucket : Bool
  reuse : Bool

/-- Everything the code allows. -/
def Mode.all : Mode := ⟨true, true, true, true⟩

/-- The memory, the pointer to the current array, the addresses used so far, and the call: whether it has a guard, the
old array it has started to rehash and not finished, the old bucket or bucket it has locked. -/
structure St where
  mem : Nat → Option Arr
  cur : Option Nat
  used : Nat → Bool
  guard : Bool
  reh : Option Nat
  lk : Option (Nat × Nat)
  pc : Pc

/-- An empty container; the call begins (a cursor begins in the middle, 1595). -/
def St.init (i prev : Nat) : St :=
  { mem := fun _ => none, cur := none, used := fun _ => false, guard := false, reh := none, lk := none,
    pc := .load i prev }

/-- Replace what is stored at `q`. -/
def St.set (s : St) (q : Nat) (A : Option Arr) : St := { s with mem := fun x => if x = q then A else s.mem x }

/-- An array is allocated at `q`. -/
def St.alloc (s : St) (q lg : Nat) (linked : Option Nat) : St :=
  { s with mem := fun x => if x = q then some (.new lg linked) else s.mem x, cur := some q,
           used := fun x => x == q || s.used x }

/-- The guard is given up (/repo/src/async_helper.rs 51-55): retired arrays lose its protection. -/
def St.reset (s : St) : St :=
  { s with mem := fun x => (s.mem x).map (fun A => { A with prot := false }), guard := false }

def St.go (s : St) (pc : Pc) : St := { s with pc := pc }

/-- After a failed lock or deduplication: retry (point calls), or leave the inner loop. -/
def Kind.fail (kd : Kind) (p i n : Nat) : Pc :=
  match kd with
  | .point _ => .load i n
  | _ => .brk p i n

/-- After `incremental_rehash_async`. -/
def Kind.helped (kd : Kind) (p i n : Nat) : Pc :=
  match kd with
  | .point _ => .arg p i n
  | _ => .ded p i n

/-- After `dedup_bucket_async` returned `true`. -/
def Kind.clean (kd : Kind) (p i n : Nat) : Pc :=
  match kd with
  | .point _ => .pick p
  | _ => .lock p i n

/-- The index a call is at when it has loaded an array of `len` buckets (524-528, 634-640; for a point call its
index, which the code computes later). -/
def Kind.start (kd : Kind) (lg i prev : Nat) : Nat :=
  match kd with
  | .point h => bucketIndex lg h
  | _ => if prev = 0 ∨ prev = 2 ^ lg then i else (fromIndexToRange prev (2 ^ lg) i).1

/-- The buckets `hit` are killed: whoever waits for one of them goes on without a lock. -/
def Pc.onKill (kd : Kind) (hit : Nat → Nat → Bool) : Pc → Pc
  | .rehWait p i n o j e => if hit o j then .rehLock p i n o (j + 1) e else .rehWait p i n o j e
  | .dedWait p i n o j e => if hit o j then kd.fail p i n else .dedWait p i n o j e
  | .lockWait p i n => if hit p i then kd.fail p i n else .lockWait p i n
  | c => c

/-- Where `relocate_bucket_async` goes when it is done with bucket `j`. -/
def Back.next (p i n o j : Nat) : Back → Pc
  | .reh e => .rehLock p i n o (j + 1) e
  | .ded e => .dedNext p i n o j e

/-- The accesses the next step of the call makes: an array, or a bucket of it. While the call is suspended: what it
waits for, and what its destructors would access. -/
def Pc.touches (kd : Kind) : Pc → List (Nat × Option Nat)
  | .load .. => []
  | .test p .. => [(p, none)]
  | .rehLoad p .. => [(p, none)]
  | .rehStart _ _ _ o => [(o, none)]
  | .rehLock p _ _ o j e => if j < e then [(o, some j)] else [(o, none), (p, none)]
  | .rehWait _ _ _ o j _ => [(o, some j)]
  | .rel p _ _ o j _ => [(o, some j), (p, none)]
  | .relTgt p _ _ o j t te _ => if t < te then [(p, some t), (o, some j)] else []
  | .relWait p _ _ o j t _ _ => [(p, some t), (o, some j)]
  | .relMove p _ _ o j _ _ _ => [(p, none), (o, some j)]
  | .rehGuard .. => []
  | .arg p .. => [(p, none)]
  | .ded .. => []
  | .dedLoad p .. => [(p, none)]
  | .dedRange p _ _ o => [(p, none), (o, none)]
  | .dedLock _ _ _ o j _ => [(o, some j)]
  | .dedWait _ _ _ o j _ => [(o, some j)]
  | .dedNext p .. => [(p, none)]
  | .pick p => [(p, none)]
  | .lock p i _ => [(p, some i)]
  | .lockWait p i _ => [(p, some i)]
  | .use p i _ => [(p, some i)]
  | .brk p .. => match kd with | .reader => [(p, none)] | _ => []
  | .done => []

/-- An access is valid: the array is there and has that bucket. -/
def St.valid (s : St) (x : Nat × Option Nat) : Prop :=
  ∃ A, s.mem x.1 = some A ∧ ∀ j, x.2 = some j → j < 2 ^ A.lg

/-- One step of the other threads or of the call; a step of the call requires that its accesses are valid. -/
inductive Step (kd : Kind) (m : Mode) : St → St → Prop
  /-- `get_or_create_bucket_array` of some thread. -/
  | create {s q lg} : s.cur = none → s.mem q = none → (s.used q = true → m.reuse = true) → lg ≤ 64 →
      Step kd m s (s.alloc q lg none)
  /-- A new array replaces the current one (`try_resize`, 1307-1326, 1419-1428), which is possible only if no older one is linked. -/
  | resize {s p P q lg} : s.cur = some p → s.mem p = some P → P.linked = none → s.mem q = none →
      (s.used q = true → m.reuse = true) → lg ≤ 64 → Step kd m s (s.alloc q lg (some p))
  /-- Some thread relocates and kills a bucket of the old array. -/
  | kill {s p P o O j} : s.cur = some p → s.mem p = some P → P.linked = some o → s.mem o = some O →
      s.lk ≠ some (o, j) →
      Step kd m s ((s.set o (some { O with dead := fun x => x == j || O.dead x })).go
        (s.pc.onKill kd (fun x y => x == o && y == j)))
  /-- Some thread unlinks the old array and retires it (C04). -/
  | retire {s p P o O} : s.cur = some p → s.mem p = some P → P.linked = some o → s.mem o = some O →
      (∀ j, j < 2 ^ O.lg → O.dead j = true) → s.reh ≠ some o →
      Step kd m s ((s.set o (some { O with retired := true, prot := s.guard })).set p (some { P with linked := none }))
  /-- Some thread finds all buckets empty, kills them and retires the array (`try_resize`, 1388-1418; there
  the array is retired first and killed then, while the guard of that thread keeps it). -/
  | dropTable {s p P} : s.cur = some p → s.mem p = some P → P.linked = none → (∀ j, s.lk ≠ some (p, j)) →
      Step kd m s (({ s with cur := none }.set p
        (some { P with dead := fun _ => true, retired := true, prot := s.guard })).go
          (s.pc.onKill kd (fun x _ => x == p)))
  /-- A retired array is freed. -/
  | free {s q Q} : s.mem q = some Q → Q.retired = true → Q.prot = false → Step kd m s (s.set q none)
  -- the call
  | loadNone {s i prev} : s.pc = .load i prev → s.cur = none → Step kd m s ({ s with guard := true }.go .done)
  | load {s i prev p P} : s.pc = .load i prev → s.cur = some p → s.mem p = some P →
      Step kd m s ({ s with guard := true }.go
        (if kd.start P.lg i prev < 2 ^ P.lg then .test p (kd.start P.lg i prev) (2 ^ P.lg)
         else .brk p (kd.start P.lg i prev) (2 ^ P.lg)))
  | testNone {s p P i n} : s.pc = .test p i n → s.mem p = some P → P.linked = none →
      Step kd m s (s.go (kd.clean p i n))
  | testSome {s p P i n o} : s.pc = .test p i n → s.mem p = some P → P.linked = some o →
      Step kd m s (s.go (.rehLoad p i n))
  | rehNone {s p P i n} : s.pc = .rehLoad p i n → s.mem p = some P → P.linked = none →
      Step kd m s (s.go (kd.helped p i n))
  | rehSome {s p P i n o} : s.pc = .rehLoad p i n → s.mem p = some P → P.linked = some o →
      Step kd m s (s.go (.rehStart p i n o))
  /-- All buckets are being rehashed already, or too many threads are at it. -/
  | rehBusy {s p i n o O} : s.pc = .rehStart p i n o → s.mem o = some O → Step kd m s (s.go (kd.helped p i n))
  /-- Rehashing of the buckets from `j` up to `e` is started, which succeeds only on an array that is not yet through
  (1106) and therefore still linked (C04). -/
  | rehStart {s p i n o O j e} : s.pc = .rehStart p i n o → s.mem o = some O → O.retired = false → e ≤ 2 ^ O.lg →
      Step kd m s ({ s with reh := some o }.go (.rehLock p i n o j e))
  | rehLocked {s p i n o O j e} : s.pc = .rehLock p i n o j e → j < e → s.mem o = some O → j < 2 ^ O.lg →
      O.dead j = false → Step kd m s ({ s with lk := some (o, j) }.go (.rel p i n o j (.reh e)))
  | rehDead {s p i n o O j e} : s.pc = .rehLock p i n o j e → j < e → s.mem o = some O → j < 2 ^ O.lg →
      O.dead j = true → Step kd m s (s.go (.rehLock p i n o (j + 1) e))
  | rehSuspend {s p i n o O j e} : s.pc = .rehLock p i n o j e → j < e → s.mem o = some O → j < 2 ^ O.lg →
      O.dead j = false → m.help = true → Step kd m s (s.reset.go (.rehWait p i n o j e))
  | rehWake {s p i n o O j e} : s.pc = .rehWait p i n o j e → s.mem o = some O → j < 2 ^ O.lg → O.dead j = false →
      Step kd m s ({ s with lk := some (o, j) }.go (.rel p i n o j (.reh e)))
  /-- `end_incremental_rehash` says that there is more to do, or that others are still at it. -/
  | rehQuit {s p i n o O j e} : s.pc = .rehLock p i n o j e → ¬ j < e → s.mem o = some O →
      Step kd m s ({ s with reh := none }.go (kd.helped p i n))
  /-- The last one unlinks the old array (1192-1196). It is retired a moment later (1198), here at once. -/
  | rehFinish {s p P i n o O j e} : s.pc = .rehLock p i n o j e → ¬ j < e → s.mem o = some O → s.mem p = some P →
      P.linked = some o → (∀ j, j < 2 ^ O.lg → O.dead j = true) →
      Step kd m s ((({ s with reh := none }.set o (some { O with retired := true, prot := s.guard })).set p
        (some { P with linked := none })).go (.rehGuard p i n))
  | rehGuard {s p i n} : s.pc = .rehGuard p i n → Step kd m s ({ s with guard := true }.go (kd.helped p i n))
  /-- The old bucket is empty: a guard is created, the bucket is killed (899-905). -/
  | relEmpty {s p P i n o O j k} : s.pc = .rel p i n o j k → s.mem o = some O → s.mem p = some P →
      Step kd m s (({ s with guard := true, lk := none }.set o (some { O with dead := fun x => x == j || O.dead x })).go
        (k.next p i n o j))
  | relRange {s p P i n o O j k} : s.pc = .rel p i n o j k → s.mem o = some O → s.mem p = some P →
      Step kd m s (s.go (.relTgt p i n o j (fromIndexToRange (2 ^ O.lg) (2 ^ P.lg) j).1
        (fromIndexToRange (2 ^ O.lg) (2 ^ P.lg) j).2 k))
  | relLocked {s p P i n o j t te k} : s.pc = .relTgt p i n o j t te k → t < te → s.mem p = some P → t < 2 ^ P.lg →
      Step kd m s (s.go (.relTgt p i n o j (t + 1) te k))
  | relSuspend {s p P i n o j t te k} : s.pc = .relTgt p i n o j t te k → t < te → s.mem p = some P → t < 2 ^ P.lg →
      (match k with | .reh _ => m.help | .ded _ => m.dedup) = true → Step kd m s (s.reset.go (.relWait p i n o j t te k))
  | relWake {s p P i n o j t te k} : s.pc = .relWait p i n o j t te k → s.mem p = some P → t < 2 ^ P.lg →
      Step kd m s (s.go (.relTgt p i n o j (t + 1) te k))
  | relAll {s p i n o j t te k} : s.pc = .relTgt p i n o j t te k → ¬ t < te →
      Step kd m s ({ s with guard := true }.go (.relMove p i n o j t te k))
  | relMove {s p P i n o O j t te k} : s.pc = .relMove p i n o j t te k → s.mem o = some O → s.mem p = some P →
      P.linked = some o →
      Step kd m s (({ s with guard := true, lk := none }.set o (some { O with dead := fun x => x == j || O.dead x })).go
        (k.next p i n o j))
  | arg {s p P i n h} : s.pc = .arg p i n → kd = .point h → s.mem p = some P →
      Step kd m s (s.go (.ded p (bucketIndex P.lg h) (2 ^ P.lg)))
  | dedOther {s p i n} : s.pc = .ded p i n → s.cur ≠ some p → Step kd m s ({ s with guard := true }.go (kd.fail p i n))
  | dedSame {s p i n} : s.pc = .ded p i n → s.cur = some p → Step kd m s ({ s with guard := true }.go (.dedLoad p i n))
  | dedNone {s p P i n} : s.pc = .dedLoad p i n → s.mem p = some P → P.linked = none →
      Step kd m s (s.go (kd.clean p i n))
  | dedSome {s p P i n o} : s.pc = .dedLoad p i n → s.mem p = some P → P.linked = some o →
      Step kd m s (s.go (.dedRange p i n o))
  | dedRange {s p P i n o O} : s.pc = .dedRange p i n o → s.mem p = some P → s.mem o = some O →
      Step kd m s (s.go (.dedLock p i n o (fromIndexToRange (2 ^ P.lg) (2 ^ O.lg) i).1
        (fromIndexToRange (2 ^ P.lg) (2 ^ O.lg) i).2))
  | dedLocked {s p i n o O j e} : s.pc = .dedLock p i n o j e → s.mem o = some O → j < 2 ^ O.lg →
      O.dead j = false → Step kd m s ({ s with lk := some (o, j) }.go (.rel p i n o j (.ded e)))
  /-- The bucket was killed, and there is a guard. -/
  | dedDead {s p i n o O j e} : s.pc = .dedLock p i n o j e → s.mem o = some O → j < 2 ^ O.lg →
      O.dead j = true → s.guard = true → Step kd m s (s.go (.dedNext p i n o j e))
  | dedSuspend {s p i n o O j e} : s.pc = .dedLock p i n o j e → s.mem o = some O → j < 2 ^ O.lg →
      O.dead j = false → m.dedup = true → Step kd m s (s.reset.go (.dedWait p i n o j e))
  | dedWake {s p i n o O j e} : s.pc = .dedWait p i n o j e → s.mem o = some O → j < 2 ^ O.lg →
      O.dead j = false → Step kd m s ({ s with lk := some (o, j) }.go (.rel p i n o j (.ded e)))
  | dedMore {s p P i n o j e o'} : s.pc = .dedNext p i n o j e → s.mem p = some P → P.linked = some o' → j + 1 < e →
      Step kd m s (s.go (.dedLock p i n o (j + 1) e))
  | dedTrue {s p P i n o j e} : s.pc = .dedNext p i n o j e → s.mem p = some P → (P.linked = none ∨ ¬ j + 1 < e) →
      Step kd m s (s.go (kd.clean p i n))
  | pick {s p P h} : s.pc = .pick p → kd = .point h → s.mem p = some P →
      Step kd m s (s.go (.lock p (bucketIndex P.lg h) (2 ^ P.lg)))
  | locked {s p P i n} : s.pc = .lock p i n → s.mem p = some P → i < 2 ^ P.lg → P.dead i = false →
      Step kd m s ({ s with lk := some (p, i) }.go (.use p i n))
  | lockDead {s p P i n} : s.pc = .lock p i n → s.mem p = some P → i < 2 ^ P.lg → P.dead i = true →
      Step kd m s (s.go (kd.fail p i n))
  | lockSuspend {s p P i n} : s.pc = .lock p i n → s.mem p = some P → i < 2 ^ P.lg → P.dead i = false →
      m.bucket = true → Step kd m s (s.reset.go (.lockWait p i n))
  | lockWake {s p P i n} : s.pc = .lockWait p i n → s.mem p = some P → i < 2 ^ P.lg → P.dead i = false →
      Step kd m s ({ s with lk := some (p, i) }.go (.use p i n))
  /-- A point call is done with the bucket, or a traversal stops. -/
  | useDone {s p P i n} : s.pc = .use p i n → s.mem p = some P → Step kd m s ({ s with lk := none }.go .done)
  /-- A traversal finds that the array is no longer the current one (546, 658). -/
  | useOther {s p i n} : s.pc = .use p i n → s.cur ≠ some p → (∀ h, kd ≠ .point h) →
      Step kd m s ({ s with guard := true, lk := none }.go (.brk p i n))
  /-- A traversal shows the bucket to its closure and goes on with the next one. `for_each_reader_async` reads the
  length of the array again (530), `for_each_writer_async` does not (641). -/
  | useNext {s p P i n} : s.pc = .use p i n → s.cur = some p → s.mem p = some P → (∀ h, kd ≠ .point h) →
      Step kd m s ({ s with guard := true, lk := none }.go
        (if i + 1 < (match kd with | .reader => 2 ^ P.lg | _ => n) then .test p (i + 1) n else .brk p (i + 1) n))
  /-- The traversal is complete, or tries again with the array that is now current. `for_each_reader_async` reads the
  length of the array (562), `for_each_writer_async` remembers it (681). -/
  | brk {s p i n l} : s.pc = .brk p i n → (match kd with | .reader => ∃ P, s.mem p = some P ∧ l = 2 ^ P.lg | _ => l = n) →
      Step kd m s (s.go (if i = l then .done else .load i n))
  /-- The future is dropped while it is suspended. -/
  | cancel {s} : (match s.pc with | .rehWait .. | .relWait .. | .dedWait .. | .lockWait .. => True | _ => False) →
      Step kd m s ({ s.reset with reh := none, lk := none }.go .done)

/-- The states a call can get into. -/
inductive Reach (kd : Kind) (m : Mode) (i prev : Nat) : St → Prop
  | init : Reach kd m i prev (.init i prev)
  | step {s s'} : Reach kd m i prev s → Step kd m s s' → Reach kd m i prev s'

end Scc.Async
