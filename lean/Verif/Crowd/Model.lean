import Verif.Seq.Cache
import Verif.Rehash.Model

/-!
# Pairs in memory while many threads use a hash container

A transition system for `HashMap`, `HashSet`, `HashIndex` and `HashCache` that keeps track of where every
pair is. The buckets are the detailed ones of `Verif.Bucket` (slots, occupied and removed bits, overflow
links, LRU list), the arrays those of `Verif.Seq`; here any number of arrays exist side by side, and the
steps of any number of threads are interleaved. A thread works on a bucket only while it holds the
bucket's exclusive lock, and relocating a bucket only while it holds the locks of the old bucket and of
all targets (that the locking achieves this is C01 to C05 and C12). So the steps below, each of which
touches only buckets that are locked for it, are atomic.

What a call does is some sequence of these steps: looking up is no step, `insert` is at most one, `upsert`
one, `retain` many, a call whose future is dropped a prefix. Nothing is assumed about the order, about
which bucket of which array a thread has locked, or about keys being unique, so the steps allow more than
the code does. Three lists are ghost information: `inn` are the pairs handed to the container so far,
`out` those handed back to a caller, `gone` those the container has dropped. Writing to a value in place
counts as handing the new pair in and the old pair out.

Simplifications: sequentially consistent memory; `INDEX` is modelled for pairs that need `drop`; a pair
that an `insert` refuses never enters the container and is not counted.
-/

namespace Scc.Crowd

open Scc.Index (bucketIndex)
open Scc.Bucket (Kind Bucket Ptr Env PointsTo)
open Scc.Seq (Cfg Arr relocate killBucket dropArr)

variable {K V : Type}

/-- All arrays a container ever had. `rh x` is the bookkeeping of the relocation out of array `x`, whose
word is `num_cleared_buckets` (/repo/src/hash_table/bucket_array.rs 14-27); `link` is `linked_array`;
`freed` says that the array has been dropped. -/
structure St (K V : Type) where
  arr : Nat → Arr K V
  rh : Nat → Rehash.State
  next : Nat
  cur : Option Nat
  link : Nat → Option Nat
  freed : Nat → Bool
  inn : List (K × V)
  out : List (K × V)
  gone : List (K × V)

/-- A container without an array (`new`, /repo/src/hash_map.rs 206-227). -/
def St.init : St K V where
  arr := fun _ => Arr.new 1
  rh := fun _ => Rehash.State.init
  next := 0
  cur := none
  link := fun _ => none
  freed := fun _ => false
  inn := []
  out := []
  gone := []

/-- Writes back an array. -/
def St.setArr (s : St K V) (x : Nat) (a : Arr K V) : St K V :=
  { s with arr := fun y => if y = x then a else s.arr y }

/-- Writes back bucket `i` of array `x`. -/
def St.setBkt (s : St K V) (x i : Nat) (b : Bucket K V) : St K V :=
  s.setArr x ((s.arr x).set i b)

/-- Writes back the bookkeeping of array `x`. -/
def St.setRh (s : St K V) (x : Nat) (m : Rehash.State) : St K V :=
  { s with rh := fun y => if y = x then m else s.rh y }

/-- A thread may hold the lock of bucket `i` of array `x`: the array is still there and the bucket is not
killed (`Writer::lock_sync`, /repo/src/hash_table/bucket.rs 756-786, fails on a killed bucket). -/
def St.Open (s : St K V) (x i : Nat) : Prop :=
  x < s.next ∧ s.freed x = false ∧ i < 2 ^ (s.arr x).lg ∧ (s.arr x).dead i = false

/-- The array as `BucketArray::drop` finds it: `num_cleared_buckets` is the word of the bookkeeping. -/
def St.final (s : St K V) (x : Nat) : Arr K V := { s.arr x with prog := (s.rh x).word }

/-- One step. -/
inductive Step (c : Cfg K) : St K V → St K V → Prop
  /-- `insert` (/repo/src/hash_table/bucket.rs 144-177) in the bucket of the key's hash; a `HashIndex`
  bucket may drop pairs that were removed earlier. -/
  | insert {s x i} (recent : Nat → Bool) (e : K × V) : s.Open x i →
      bucketIndex (s.arr x).lg (c.hash e.1) = i →
      Step c s { s.setBkt x i (((s.arr x).bkt i).insert c.kind recent (c.hash e.1) e).1 with
        inn := s.inn ++ [e], gone := s.gone ++ ((s.arr x).bkt i).reclaimed c.kind recent }
  /-- `remove` (/repo/src/hash_table/bucket.rs 181-218) of the entry under a cursor; the pair goes back to
  the caller, or is dropped by `retain` and the like. -/
  | remove {s x i p e b q} (back : Bool) : c.kind ≠ .index → s.Open x i →
      PointsTo c.kind ((s.arr x).bkt i) p e →
      ((s.arr x).bkt i).remove c.kind p = some (b, some e, q) →
      Step c s { s.setBkt x i b with
        out := if back then s.out ++ [e] else s.out
        gone := if back then s.gone else s.gone ++ [e] }
  /-- `mark_removed` (/repo/src/hash_table/bucket.rs 221-250): a `HashIndex` keeps the pair. -/
  | mark {s x i p e} (epoch : Nat) : c.kind = .index → s.Open x i →
      PointsTo c.kind ((s.arr x).bkt i) p e →
      Step c s (s.setBkt x i (((s.arr x).bkt i).markRemoved p epoch))
  /-- Writing through `EntryPtr::get_mut` (/repo/src/hash_table/bucket.rs 951-962). -/
  | write {s x i p e} (v : V) : c.kind ≠ .index → s.Open x i →
      PointsTo c.kind ((s.arr x).bkt i) p e →
      Step c s { s.setBkt x i (((s.arr x).bkt i).setVal p v) with
        inn := s.inn ++ [(e.1, v)], out := s.out ++ [e] }
  /-- `OccupiedEntry::update` of `HashIndex` (/repo/src/hash_index.rs 1887-1899). -/
  | update {s x i p e b q} (env : Env) (v : V) : c.kind = .index → s.Open x i →
      PointsTo c.kind ((s.arr x).bkt i) p e →
      ((s.arr x).bkt i).indexUpdate env p v = some (b, q) →
      Step c s { s.setBkt x i b with
        inn := s.inn ++ [(e.1, v)], gone := s.gone ++ ((s.arr x).bkt i).reclaimed c.kind env.recent }
  /-- `evict_lru_head` (/repo/src/hash_table/bucket.rs 254-281); the pair goes to the caller of `put` or
  `put_entry`. -/
  | evict {s x i b e} : c.kind = .cache → s.Open x i →
      ((s.arr x).bkt i).evictHead = some (b, some e) →
      Step c s { s.setBkt x i b with out := s.out ++ [e] }
  /-- `update_lru_tail` (/repo/src/hash_table/bucket.rs 284-292). -/
  | touch {s x i p e} : c.kind = .cache → s.Open x i → PointsTo c.kind ((s.arr x).bkt i) p e →
      Step c s (s.setBkt x i (((s.arr x).bkt i).touch p))
  /-- `allocate_bucket_array` (/repo/src/hash_table.rs 134-148) and `with_capacity`. -/
  | alloc {s} (lg : Nat) : s.cur = none → 1 ≤ lg → lg ≤ 57 →
      Step c s { s.setArr s.next (Arr.new lg) with next := s.next + 1, cur := some s.next }
  /-- `try_resize` installs a new array (/repo/src/hash_table.rs 1419-1428). -/
  | grow {s a} (lg : Nat) : s.cur = some a → s.link a = none → 1 ≤ lg → lg ≤ 57 →
      Step c s { s.setArr s.next (Arr.new lg) with
        next := s.next + 1, cur := some s.next
        link := fun y => if y = s.next then some a else s.link y }
  /-- `try_resize` drops the table (/repo/src/hash_table.rs 1388-1418): all buckets are locked and found
  empty, the array is taken out, the buckets are killed. -/
  | dropTable {s a} : s.cur = some a → s.link a = none →
      (∀ i, i < 2 ^ (s.arr a).lg → ((s.arr a).bkt i).len = 0) →
      Step c s { s.setArr a { s.arr a with
          bkt := fun i => if i < 2 ^ (s.arr a).lg then (killBucket c.kind ((s.arr a).bkt i)).1
            else (s.arr a).bkt i
          dead := fun i => decide (i < 2 ^ (s.arr a).lg) || (s.arr a).dead i } with
        cur := none
        gone := s.gone ++ (List.range (2 ^ (s.arr a).lg)).flatMap fun i =>
          (killBucket c.kind ((s.arr a).bkt i)).2 }
  /-- `relocate_bucket` (/repo/src/hash_table.rs 948-1094) of bucket `j`, by a helper or by an
  operation. -/
  | move {s a o j a' o' g} (recent : Nat → Bool) : s.link a = some o → j < 2 ^ (s.arr o).lg →
      relocate c recent (s.arr a) (s.arr o) j = some (a', o', g) →
      Step c s { ((s.setArr a a').setArr o o').setRh o { s.rh o with
          done := fun y => y = j || (s.rh o).done y } with
        gone := s.gone ++ g }
  /-- Helpers claim, finish and give up ranges (/repo/src/hash_table.rs 1098-1154). They hold a reference to
  an array that is or was linked. -/
  | helper {s o m} : o < s.next →
      (∃ a, s.link a = some o) ∨ 0 < (s.rh o).detaching + (s.rh o).detached →
      Rehash.Step (2 ^ (s.arr o).lg) (s.rh o) m → m.done = (s.rh o).done →
      m.detached = (s.rh o).detached →
      Step c s (s.setRh o m)
  /-- The last helper takes the old array out (/repo/src/hash_table.rs 1193-1200, 1245-1251). -/
  | detach {s a o} : s.link a = some o → 0 < (s.rh o).detaching →
      Step c s { s.setRh o { s.rh o with
          detaching := (s.rh o).detaching - 1, detached := (s.rh o).detached + 1 } with
        link := fun y => if y = a then none else s.link y }
  /-- An array that is no longer in use is dropped, at any time after it was taken out
  (`defer_reclaim`, /repo/src/hash_table.rs 54-58, /repo/src/hash_index.rs 1375-1390;
  `BucketArray::drop`, /repo/src/hash_table/bucket_array.rs 192-239). -/
  | free {s x} : x < s.next → s.freed x = false → s.cur ≠ some x → (∀ y, s.link y ≠ some x) →
      Step c s { s with
        freed := fun y => y = x || s.freed y, gone := s.gone ++ dropArr c.kind (s.final x) }

/-- Runs from a new container. -/
inductive Run (c : Cfg K) : St K V → Prop
  | init : Run c St.init
  | step {s s'} : Run c s → Step c s s' → Run c s'

/-- No helper is at work. Every claim of a range ends with `end_incremental_rehash`, also when the call or
its future is dropped (`ExitGuard`, /repo/src/hash_table.rs 1170-1172, 1216-1218), and the container can be
dropped only when nobody is borrowing it. -/
def St.Quiet (s : St K V) : Prop := ∀ x, x < s.next → (s.rh x).workers = []

/-- The pairs dropped with the container (/repo/src/hash_map.rs 1590-1605, /repo/src/hash_index.rs
1319-1343, /repo/src/hash_cache.rs 1255-1270; `BucketArray::drop` drops the linked array first): those of
the current array and of the array linked to it, and those of arrays that were taken out before and
whose turn comes now. -/
def St.closing (c : Cfg K) (s : St K V) : List (K × V) :=
  (List.range s.next).flatMap fun x => if s.freed x then [] else dropArr c.kind (s.final x)

end Scc.Crowd
