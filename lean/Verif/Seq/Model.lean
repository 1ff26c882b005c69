import Verif.Index.Model
import Verif.Bucket.Cells

/-!
# A hash container used by one thread

Deterministic model of `HashTable` (/repo/src/hash_table.rs) over the detailed buckets of
`Verif.Bucket`: bucket arrays, incremental rehashing, relocation, resizing, the writer that locks a
bucket, cursors. No other thread touches the container, so every lock is free unless the bucket was
killed.

Simplifications:
* a `BucketArray` is a function from indices to buckets; memory layout is ignored;
* `INDEX` is modelled for pairs that need `drop` (`needs_drop::<(K, V)>()`), so that killed buckets keep
  their links;
* a retired array counts as dropped when it is handed to `defer_reclaim`;
* what the epoch scheme decides (`Env`) is fixed during one call;
* `gone` is a ghost list: every pair the container has dropped so far;
* `none` as the result of a function models undefined behaviour or too little fuel (the theorems show
  that it never happens).
-/

namespace Scc.Seq

open Scc.Index hiding bucketLen
open Scc.Bucket

variable {K V : Type}

/-- What is fixed for a container: `TYPE`, the hash function, `maximum_capacity`
(/repo/src/hash_table.rs 46-87). -/
structure Cfg (K : Type) where
  kind : Kind
  hash : K → Nat
  maxCap : Nat

/-- `BucketArray` (/repo/src/hash_table/bucket_array.rs 14-27): `lg` is the logarithm of `array_len`,
`dead i` says that the lock of bucket `i` is poisoned, `prog` is `num_cleared_buckets` (its five low
bits, the number of threads rehashing, are 0 between calls of one thread). -/
structure Arr (K V : Type) where
  lg : Nat
  bkt : Nat → Bucket K V
  dead : Nat → Bool
  prog : Nat

/-- `BucketArray::new` (/repo/src/hash_table/bucket_array.rs 29-98). -/
def Arr.new (lg : Nat) : Arr K V :=
  { lg, bkt := fun _ => Bucket.empty, dead := fun _ => false, prog := 0 }

/-- Writes back bucket `i`. -/
def Arr.set (a : Arr K V) (i : Nat) (b : Bucket K V) : Arr K V :=
  { a with bkt := fun j => if j = i then b else a.bkt j }

/-- The current array and the array linked to it (/repo/src/hash_table/bucket_array.rs 25). -/
structure Two (K V : Type) where
  cur : Arr K V
  old : Option (Arr K V)

/-- The fields of a container (/repo/src/hash_map.rs 79-86): `bucket_array`, `minimum_capacity`; and
the ghost list of dropped pairs. -/
structure Tbl (K V : Type) where
  arr : Option (Two K V)
  minCap : Nat
  gone : List (K × V)

/-- `EntryPtr::partial_hash` (/repo/src/hash_table/bucket.rs 923-929). -/
def phAt (b : Bucket K V) (p : Ptr) : Nat :=
  match b.blocks[p.blk]? with
  | some x => x.ph p.idx
  | none => 0

/-- A walk of a cursor over a bucket that reads every entry (the first loop of `relocate_bucket`,
/repo/src/hash_table.rs 1023-1052, and every `while entry_ptr.move_to_next` that only reads). -/
def collect (t : Kind) : Nat → Bucket K V → Ptr → Option (List (K × V))
  | 0, _, _ => none
  | fuel + 1, b, p =>
    let (q, found) := b.moveToNext t p
    if found then
      match b.get q with
      | none => none
      | some e => (collect t fuel b q).map (e :: ·)
    else some []

/-- The moving loop of `relocate_bucket` (/repo/src/hash_table.rs 1043-1052, 1066-1093): every entry
under the cursor goes to its bucket in the current array. `hs` are the cached hash values not yet used
(`hash_data`); `base` is `target_index`. The last component lists the pairs reclaimed by the insertions
into the targets. -/
def moveLoop (c : Cfg K) (recent : Nat → Bool) (olg base : Nat) :
    Nat → Arr K V → Bucket K V → Ptr → List Nat →
      Option (Arr K V × Bucket K V × List (K × V))
  | 0, _, _, _, _ => none
  | fuel + 1, a, src, p, hs =>
    let (q, found) := src.moveToNext c.kind p
    if found then
      match src.get q with
      | none => none
      | some e =>
        let h := if olg ≥ a.lg then phAt src q else hs.headD (c.hash e.1)
        let i := if olg ≥ a.lg then base else bucketIndex a.lg h
        match extractFrom c.kind recent (a.bkt i) h src q with
        | none => none
        | some (b', src') =>
          (moveLoop c recent olg base fuel (a.set i b') src' q hs.tail).map fun r =>
            (r.1, r.2.1, (a.bkt i).reclaimed c.kind recent ++ r.2.2)
    else some (a, src, [])

/-- The allocation step of `relocate_bucket` (/repo/src/hash_table.rs 1059-1064): every target bucket
`base + i` reserves as many slots as entries were counted for it. -/
def reserveTargets (c : Cfg K) (olg base : Nat) (es : List (K × V)) (a : Arr K V) : Arr K V :=
  let dist := fun i => es.countP fun e =>
    (if olg ≥ a.lg then base else bucketIndex a.lg (c.hash e.1)) == i
  { a with bkt := fun i => if dist i ≠ 0 then (a.bkt i).reserveSlots (dist i) else a.bkt i }

/-- `Writer::kill` (/repo/src/hash_table/bucket.rs 790-819): unless the type is `INDEX`, the links are
dropped together with the pairs in them. -/
def killBucket (t : Kind) (b : Bucket K V) : Bucket K V × List (K × V) :=
  if t = .index then (b, [])
  else
    ({ b with links := [] },
      b.links.flatMap fun x =>
        (List.range 32).filterMap fun i => if x.occ.getLsbD i then x.data i else none)

/-- Killing bucket `j` of an array. -/
def Arr.kill (t : Kind) (o : Arr K V) (j : Nat) : Arr K V :=
  { o.set j (killBucket t (o.bkt j)).1 with dead := fun i => if i = j then true else o.dead i }

/-- `Writer::lock_sync` on the old bucket, then `relocate_bucket_sync` and `relocate_bucket`
(/repo/src/hash_table.rs 874-887, 948-1094). The last component lists the dropped pairs. -/
def relocate (c : Cfg K) (recent : Nat → Bool) (a o : Arr K V) (j : Nat) :
    Option (Arr K V × Arr K V × List (K × V)) :=
  if o.dead j then some (a, o, [])
  else if (o.bkt j).len = 0 then some (a, o.kill c.kind j, (killBucket c.kind (o.bkt j)).2)
  else
    let base := (fromIndexToRange (2 ^ o.lg) (2 ^ a.lg) j).1
    let fuel := (o.bkt j).len + 1
    if o.lg > a.lg ∨ (o.bkt j).len > bucketLen then
      match collect c.kind fuel (o.bkt j) Ptr.null with
      | none => none
      | some es =>
        let a1 := reserveTargets c o.lg base es a
        let hs := (es.map fun e => c.hash e.1).take bucketLen
        (moveLoop c recent o.lg base fuel a1 (o.bkt j) Ptr.null hs).map fun r =>
          let o' := o.set j r.2.1
          (r.1, o'.kill c.kind j, r.2.2 ++ (killBucket c.kind r.2.1).2)
    else
      (moveLoop c recent o.lg base fuel a (o.bkt j) Ptr.null []).map fun r =>
        let o' := o.set j r.2.1
        (r.1, o'.kill c.kind j, r.2.2 ++ (killBucket c.kind r.2.1).2)

/-- Relocation of `n` old buckets starting at `lo`. -/
def relocateRange (c : Cfg K) (recent : Nat → Bool) :
    Nat → Nat → Arr K V → Arr K V → Option (Arr K V × Arr K V × List (K × V))
  | 0, _, a, o => some (a, o, [])
  | n + 1, lo, a, o =>
    match relocate c recent a o lo with
    | none => none
    | some (a1, o1, g1) =>
      (relocateRange c recent n (lo + 1) a1 o1).map fun r => (r.1, r.2.1, g1 ++ r.2.2)

/-- The pairs dropped by `BucketArray::drop` (/repo/src/hash_table/bucket_array.rs 180-205). -/
def dropArr (t : Kind) (o : Arr K V) : List (K × V) :=
  let start := if t = .index then 0 else o.prog
  (List.range (2 ^ o.lg - start)).flatMap fun i => (o.bkt (start + i)).dropEntries

/-- `incremental_rehash_sync` with `start_` and `end_incremental_rehash`
(/repo/src/hash_table.rs 1098-1156, 1209-1256): up to 32 old buckets are relocated; when all are done the
old array is detached and dropped. -/
def incrementalRehash (c : Cfg K) (recent : Nat → Bool) (w : Two K V) :
    Option (Two K V × List (K × V)) :=
  match w.old with
  | none => some (w, [])
  | some o =>
    if o.prog ≥ 2 ^ o.lg then some (w, [])
    else
      match relocateRange c recent (min (o.prog + bucketLen) (2 ^ o.lg) - o.prog) o.prog w.cur o with
      | none => none
      | some (a, o1, g) =>
        let o2 := { o1 with prog := o.prog + bucketLen }
        if o2.prog ≥ 2 ^ o.lg then some (⟨a, none⟩, g ++ dropArr c.kind o2)
        else some (⟨a, some o2⟩, g)

/-- `dedup_bucket_sync` (/repo/src/hash_table.rs 859-888): all old buckets that share hash values with
bucket `i` of the current array are relocated. (If the rehash just before detached the old array, all
its buckets are killed and nothing happens.) -/
def dedup (c : Cfg K) (recent : Nat → Bool) (w : Two K V) (i : Nat) :
    Option (Two K V × List (K × V)) :=
  match w.old with
  | none => some (w, [])
  | some o =>
    let r := fromIndexToRange (2 ^ w.cur.lg) (2 ^ o.lg) i
    (relocateRange c recent (r.2 - r.1) r.1 w.cur o).map fun x => (⟨x.1, some x.2.1⟩, x.2.2)

/-- What every access to bucket `i` of the current array does first if an old array is linked
(/repo/src/hash_table.rs 313-316, 389-392, 462-465, 586-589, 726-729). -/
def prepare (c : Cfg K) (recent : Nat → Bool) (T : Tbl K V) (i : Nat) : Option (Tbl K V) :=
  match T.arr with
  | none => some T
  | some w =>
    match incrementalRehash c recent w with
    | none => none
    | some (w1, g1) =>
      (dedup c recent w1 i).map fun r =>
        { T with arr := some r.1, gone := T.gone ++ g1 ++ r.2 }

/-- `len` of bucket `i`. -/
def Arr.lens (a : Arr K V) (i : Nat) : Nat := (a.bkt i).len

/-- `try_resize` (/repo/src/hash_table.rs 1307-1430); the array that was sampled is the current
one. -/
def tryResize (c : Cfg K) (T : Tbl K V) (i : Nat) : Tbl K V :=
  match T.arr with
  | none => T
  | some ⟨_, some _⟩ => T
  | some ⟨a, none⟩ =>
    let cap := numSlots (2 ^ a.lg)
    let est := sample a.lg i a.lens
    let new := newCapacity cap T.minCap c.maxCap est
    if est = 0 ∧ T.minCap = 0 then
      if (List.range (2 ^ a.lg)).all fun j => a.lens j == 0 then
        let a' : Arr K V := { a with bkt := fun j => (killBucket c.kind (a.bkt j)).1 }
        { T with
          arr := none
          gone := T.gone ++
            ((List.range (2 ^ a.lg)).flatMap fun j => (killBucket c.kind (a.bkt j)).2) ++
            dropArr c.kind a' }
      else T
    else if new ≠ cap then
      { T with arr := some ⟨Arr.new (log2ArrayLen new), some a⟩ }
    else T

/-- The sum of the lengths of `n` buckets from `i` on, wrapping around. -/
def sumLens (a : Arr K V) (i n : Nat) : Nat :=
  ((List.range n).map fun d => a.lens ((i + d) % 2 ^ a.lg)).sum

/-- `try_enlarge` (/repo/src/hash_table.rs 1259-1281). The loop stops as soon as the sum exceeds the
threshold; since lengths are not negative this is the same as comparing the whole sum. -/
def tryEnlarge (c : Cfg K) (T : Tbl K V) (i : Nat) : Tbl K V :=
  match T.arr with
  | none => T
  | some ⟨_, some _⟩ => T
  | some ⟨a, none⟩ =>
    if sumLens a i (sampleSize a.lg) > sampleSize a.lg * (bucketLen / 16) * 13 then tryResize c T i
    else T

/-- `try_shrink` (/repo/src/hash_table.rs 1284-1304), with the same remark on the early exit. -/
def tryShrink (c : Cfg K) (T : Tbl K V) (i : Nat) : Tbl K V :=
  match T.arr with
  | none => T
  | some ⟨_, some _⟩ => T
  | some ⟨a, none⟩ =>
    if numSlots (2 ^ a.lg) > T.minCap ∧
        sumLens a i (sampleSize a.lg) < sampleSize a.lg * bucketLen / 8 then tryResize c T i
    else T

/-- Which of the two arrays a locked bucket belongs to. -/
inductive Side
  | cur | old
  deriving DecidableEq, Repr

/-- The bucket at a place, unless it is killed or there is no such array. -/
def Tbl.bucket (T : Tbl K V) (s : Side) (i : Nat) : Option (Bucket K V) :=
  match T.arr, s with
  | some w, .cur => if w.cur.dead i then none else some (w.cur.bkt i)
  | some ⟨_, some o⟩, .old => if o.dead i then none else some (o.bkt i)
  | _, _ => none

/-- Writes back a bucket. -/
def Tbl.setBucket (T : Tbl K V) (s : Side) (i : Nat) (b : Bucket K V) : Tbl K V :=
  match T.arr, s with
  | some w, .cur => { T with arr := some { w with cur := w.cur.set i b } }
  | some ⟨a, some o⟩, .old => { T with arr := some ⟨a, some (o.set i b)⟩ }
  | _, _ => T

/-- `get_or_create_bucket_array` (/repo/src/hash_table.rs 124-149). -/
def create (T : Tbl K V) : Tbl K V :=
  match T.arr with
  | some _ => T
  | none => { T with arr := some ⟨Arr.new (log2ArrayLen T.minCap), none⟩ }

/-- `initiate_sampling` (/repo/src/hash_table/bucket_array.rs 134-136). -/
def initiateSampling (lg hash : Nat) : Bool := hash % 256 &&& (sampleSize lg - 1) == 0

/-- One round of the loop of `writer_sync` (/repo/src/hash_table.rs 388-411): the bucket that gets
locked, `none` if the array was dropped in the meantime and its buckets are killed. After a resize the
locked bucket belongs to the array that is now the old one. -/
def writerRound (c : Cfg K) (recent : Nat → Bool) (T : Tbl K V) (h : Nat) :
    Option (Tbl K V × Option (Side × Nat)) :=
  match (create T).arr with
  | none => none
  | some w0 =>
    let i := bucketIndex w0.cur.lg h
    match prepare c recent (create T) i with
    | none => none
    | some T1 =>
      match T1.arr with
      | none => none
      | some w =>
        if (c.kind ≠ .cache ∨ numSlots (2 ^ w.cur.lg) < c.maxCap) ∧ w.cur.lens i ≥ bucketLen - 1 ∧
            initiateSampling w.cur.lg h then
          let T2 := tryEnlarge c T1 i
          match T2.arr with
          | none => some (T2, none)
          | some w2 =>
            if w2.old.isSome ∧ w.old.isNone then some (T2, some (.old, i))
            else some (T2, some (.cur, i))
        else some (T1, some (.cur, i))

/-- `writer_sync` (/repo/src/hash_table.rs 385-412); a second round is needed only if the first one
found its array dropped. -/
def writer (c : Cfg K) (recent : Nat → Bool) (T : Tbl K V) (h : Nat) :
    Option (Tbl K V × Side × Nat) :=
  match writerRound c recent T h with
  | none => none
  | some (T1, some (s, i)) => some (T1, s, i)
  | some (T1, none) =>
    match writerRound c recent T1 h with
    | some (T2, some (s, i)) => some (T2, s, i)
    | _ => none

/-- `optional_writer_sync` (/repo/src/hash_table.rs 458-478): `none` inside if there is no array. -/
def optWriter (c : Cfg K) (recent : Nat → Bool) (T : Tbl K V) (h : Nat) :
    Option (Tbl K V × Option Nat) :=
  match T.arr with
  | none => some (T, none)
  | some w =>
    let i := bucketIndex w.cur.lg h
    (prepare c recent T i).map fun T1 => (T1, some i)

/-- `LockedBucket::try_shrink` after a removal that left the bucket empty
(/repo/src/hash_table.rs 1506-1519, 1523-1536, 1551-1562): only if the bucket is in the current
array. -/
def shrinkIfEmpty (c : Cfg K) (T : Tbl K V) (s : Side) (i : Nat) : Tbl K V :=
  match T.bucket s i with
  | some b => if b.len = 0 ∧ s = .cur then tryShrink c T i else T
  | none => T

/-- What a point operation does to the entry it found: nothing, storing a value, removing it. -/
inductive Act (V : Type)
  | keep
  | put (v : V)
  | del

/-- The body of a point operation on a locked bucket: look the key up, then act according to `f` applied
to the value found. The value found is returned. `HashIndex` stores a new value by inserting a new pair
and marking the old one removed. `none` models undefined behaviour. (/repo/src/hash_map.rs 564-575,
614-622, 672-687, 926-944; /repo/src/hash_index.rs 543-553, 659-676, 1887-1899.) -/
def _root_.Scc.Bucket.Bucket.act [DecidableEq K] (t : Kind) (hash : K → Nat) (env : Env)
    (b : Bucket K V) (k : K) (f : Option V → Act V) : Option (Bucket K V × Option V) :=
  let p := b.getEntryPtr t k (hash k)
  if p.isValid then
    match b.get p with
    | none => none
    | some e =>
      match f (some e.2) with
      | .keep => some (b, some e.2)
      | .put v =>
        match t with
        | .index => (b.indexUpdate env p v).map fun r => (r.1, some e.2)
        | _ => some (b.setVal p v, some e.2)
      | .del =>
        match t with
        | .index => some (b.markRemoved p env.epoch, some e.2)
        | _ => (b.remove t p).map fun r => (r.1, some e.2)
  else
    match f none with
    | .put v => some ((b.insert t env.recent (hash k) (k, v)).1, none)
    | _ => some (b, none)

/-- The pairs a point operation reclaims: those a `HashIndex` bucket had marked removed. -/
def _root_.Scc.Bucket.Bucket.actGone [DecidableEq K] (t : Kind) (hash : K → Nat) (env : Env)
    (b : Bucket K V) (k : K) (f : Option V → Act V) : List (K × V) :=
  let p := b.getEntryPtr t k (hash k)
  if p.isValid then
    match b.get p with
    | none => []
    | some e =>
      match f (some e.2) with
      | .put _ => if t = .index then b.reclaimed t env.recent else []
      | _ => []
  else
    match f none with
    | .put _ => b.reclaimed t env.recent
    | _ => []

/-- Whether something was removed. -/
def Act.removes (f : Option V → Act V) (r : Option V) : Bool :=
  match r, f r with
  | some _, .del => true
  | _, _ => false

/-- The body of a point operation on the locked bucket, and the attempt to shrink after a removal
(/repo/src/hash_map.rs 564-575, 614-622, 672-687, 926-944; /repo/src/hash_index.rs 543-553, 659-676). -/
def applyAt [DecidableEq K] (c : Cfg K) (env : Env) (T : Tbl K V) (s : Side) (i : Nat) (k : K)
    (f : Option V → Act V) : Option (Tbl K V × Option V) :=
  match T.bucket s i with
  | none => none
  | some b =>
    match b.act c.kind c.hash env k f with
    | none => none
    | some (b', r) =>
      let T1 := T.setBucket s i b'
      let T2 := { T1 with gone := T1.gone ++ b.actGone c.kind c.hash env k f }
      if Act.removes f r then some (shrinkIfEmpty c T2 s i, r) else some (T2, r)

/-- An operation that may insert: `insert_sync`, `upsert_sync`, `entry_sync` and what is done with the
entry (/repo/src/hash_map.rs 334-357, 564-575, 614-622; /repo/src/hash_index.rs 543-553). -/
def modifyOp [DecidableEq K] (c : Cfg K) (env : Env) (T : Tbl K V) (k : K)
    (f : Option V → Act V) : Option (Tbl K V × Option V) :=
  match writer c env.recent T (c.hash k) with
  | none => none
  | some (T1, s, i) => applyAt c env T1 s i k f

/-- `f` on a value that is there. -/
def Act.onSome (f : V → Act V) : Option V → Act V
  | some v => f v
  | none => .keep

/-- An operation that never inserts: `update_sync`, `remove_if_sync`, `get_sync` and what is done with
the entry (/repo/src/hash_map.rs 672-687, 926-944, 1000-1017; /repo/src/hash_index.rs 659-676). -/
def alterOp [DecidableEq K] (c : Cfg K) (env : Env) (T : Tbl K V) (k : K) (f : V → Act V) :
    Option (Tbl K V × Option V) :=
  match optWriter c env.recent T (c.hash k) with
  | none => none
  | some (T1, none) => some (T1, none)
  | some (T1, some i) => applyAt c env T1 .cur i k (Act.onSome f)

/-- `read_sync`/`contains_sync` by `reader_sync` (/repo/src/hash_table.rs 306-328). -/
def readOp [DecidableEq K] (c : Cfg K) (env : Env) (T : Tbl K V) (k : K) :
    Option (Tbl K V × Option V) :=
  match optWriter c env.recent T (c.hash k) with
  | none => none
  | some (T1, none) => some (T1, none)
  | some (T1, some i) =>
    match T1.bucket .cur i with
    | none => none
    | some b => some (T1, (b.searchEntry c.kind k (c.hash k)).map (·.2))

/-- The sum of all bucket lengths of an array. -/
def Arr.total (a : Arr K V) : Nat := ((List.range (2 ^ a.lg)).map a.lens).sum

/-- The same for the old array, if there is one. -/
def oldTotal : Option (Arr K V) → Nat
  | some o => o.total
  | none => 0

/-- `num_entries` (/repo/src/hash_table.rs 163-180), `len()`. -/
def lenOp (c : Cfg K) (env : Env) (T : Tbl K V) : Option (Tbl K V × Nat) :=
  match T.arr with
  | none => some (T, 0)
  | some w =>
    (incrementalRehash c env.recent w).map fun r =>
      let T1 := { T with arr := some r.1, gone := T.gone ++ r.2 }
      let n := oldTotal r.1.old + r.1.cur.total
      if n = 0 ∧ T.minCap = 0 then (tryResize c T1 0, n) else (T1, n)

/-- `reserve_capacity` (/repo/src/hash_table.rs 93-118); the result is `false` if nothing was
reserved. -/
def reserveOp (c : Cfg K) (T : Tbl K V) (additional : Nat) : Tbl K V × Bool :=
  if additional > c.maxCap - T.minCap then (T, false)
  else
    let T1 := { T with minCap := T.minCap + additional }
    (tryResize c T1 0, true)

/-- `Reserve::drop` (/repo/src/hash_map.rs 2371-2382). -/
def unreserveOp (c : Cfg K) (T : Tbl K V) (additional : Nat) : Tbl K V :=
  tryShrink c { T with minCap := T.minCap - additional } 0

/-- A new container (/repo/src/hash_map.rs 206-227): no array for capacity 0. -/
def Tbl.withCapacity (capacity : Nat) : Tbl K V :=
  if capacity = 0 then { arr := none, minCap := 0, gone := [] }
  else
    { arr := some ⟨Arr.new (log2ArrayLen capacity), none⟩
      minCap := numSlots (2 ^ log2ArrayLen capacity)
      gone := [] }

/-- The pairs dropped when the container is dropped (/repo/src/hash_map.rs 1590-1605,
/repo/src/hash_table/bucket_array.rs 180-205): the linked array first, then the current one. -/
def dropTable (c : Cfg K) (T : Tbl K V) : List (K × V) :=
  match T.arr with
  | none => []
  | some ⟨a, none⟩ => dropArr c.kind a
  | some ⟨a, some o⟩ => dropArr c.kind o ++ dropArr c.kind a

/-! ## Cursors -/

/-- `OccupiedEntry` (/repo/src/hash_map.rs 100-105): the locked bucket and the cursor in it. -/
structure Cur where
  side : Side
  idx : Nat
  ptr : Ptr

/-- The closure given to `for_each_writer_sync` by `next_sync` and `begin_sync`, over the `n` buckets
from `i` on (/repo/src/hash_table.rs 724-754, 1636-1643, /repo/src/hash_map.rs 487-506): the first entry
of the first bucket that has one. -/
def seek (c : Cfg K) (recent : Nat → Bool) : Nat → Nat → Tbl K V → Option (Tbl K V × Option Cur)
  | 0, _, T => some (T, none)
  | n + 1, i, T =>
    match prepare c recent T i with
    | none => none
    | some T1 =>
      match T1.bucket .cur i with
      | none => none
      | some b =>
        let (q, found) := b.moveToNext c.kind Ptr.null
        if found then some (T1, some ⟨.cur, i, q⟩) else seek c recent n (i + 1) T1

/-- `for_each_writer_sync` started at bucket `start` of an array of `len` buckets
(/repo/src/hash_table.rs 709-724): the start is translated if the array was replaced. -/
def seekFrom (c : Cfg K) (recent : Nat → Bool) (T : Tbl K V) (start len : Nat) :
    Option (Tbl K V × Option Cur) :=
  match T.arr with
  | none => some (T, none)
  | some w =>
    let n := 2 ^ w.cur.lg
    let i := if len = 0 ∨ len = n then start else (fromIndexToRange len n start).1
    seek c recent (n - i) i T

/-- `begin_sync` (/repo/src/hash_map.rs 431-433). -/
def beginOp (c : Cfg K) (env : Env) (T : Tbl K V) : Option (Tbl K V × Option Cur) :=
  seekFrom c env.recent T 0 0

/-- The length of the array a locked bucket belongs to. -/
def Tbl.sideLen (T : Tbl K V) (s : Side) : Nat :=
  match T.arr, s with
  | some w, .cur => 2 ^ w.cur.lg
  | some ⟨_, some o⟩, .old => 2 ^ o.lg
  | _, _ => 0

/-- `LockedBucket::next_sync` (/repo/src/hash_table.rs 1610-1647). -/
def nextOp (c : Cfg K) (env : Env) (T : Tbl K V) (x : Cur) : Option (Tbl K V × Option Cur) :=
  match T.bucket x.side x.idx with
  | none => none
  | some b =>
    let (q, found) := b.moveToNext c.kind x.ptr
    if found then some (T, some { x with ptr := q })
    else
      let len := T.sideLen x.side
      let T1 := shrinkIfEmpty c T x.side x.idx
      if x.idx + 1 = len then some (T1, none)
      else seekFrom c env.recent T1 (x.idx + 1) len

/-- What the cursor shows. -/
def getAt (T : Tbl K V) (x : Cur) : Option (K × V) := (T.bucket x.side x.idx).bind fun b => b.get x.ptr

/-- `OccupiedEntry::remove_and_sync` (/repo/src/hash_map.rs 2054-2072): the pair removed and the next
entry; for `HashIndex` the entry is marked removed, nothing is handed back
(/repo/src/hash_index.rs 1766-1782). -/
def removeAndOp (c : Cfg K) (env : Env) (T : Tbl K V) (x : Cur) :
    Option (Tbl K V × Option (K × V) × Option Cur) :=
  match T.bucket x.side x.idx with
  | none => none
  | some b =>
    if c.kind = .index then
      (nextOp c env (T.setBucket x.side x.idx (b.markRemoved x.ptr env.epoch)) x).map fun r =>
        (r.1, none, r.2)
    else
      match b.remove c.kind x.ptr with
      | none => none
      | some (b', e, p') =>
        (nextOp c env (T.setBucket x.side x.idx b') { x with ptr := p' }).map fun r => (r.1, e, r.2)

/-- `capacity` (/repo/src/hash_table.rs 155-161). -/
def Tbl.capacity (T : Tbl K V) : Nat :=
  match T.arr with
  | some w => numSlots (2 ^ w.cur.lg)
  | none => 0

/-! ## Passes over all buckets -/

/-- `for_each_writer_sync` with the closure of `iter_mut_sync`/`retain_sync`, over the `n` buckets from
`j` on (/repo/src/hash_table.rs 724-754, /repo/src/hash_map.rs 1261-1281, 1338-1346,
/repo/src/hash_index.rs 989-1003). The closure state is `s`; returns also the entries visited and
whether something was removed. -/
def retainLoop {σ : Type} (c : Cfg K) (env : Env) (f : σ → K × V → σ × V × Bool) :
    Nat → Nat → Tbl K V → σ → Option (Tbl K V × σ × List (K × V) × Bool)
  | 0, _, T, s => some (T, s, [], false)
  | n + 1, j, T, s =>
    match prepare c env.recent T j with
    | none => none
    | some T1 =>
      match T1.bucket .cur j with
      | none => none
      | some b =>
        match b.retain c.kind env f (b.len + 1) Ptr.null s with
        | none => none
        | some (b', s', l) =>
          (retainLoop c env f n (j + 1) (T1.setBucket .cur j b') s').map fun r =>
            (r.1, r.2.1, l ++ r.2.2.1, decide (b'.len < b.len) || r.2.2.2)

/-- `retain_sync` (/repo/src/hash_map.rs 1338-1346, /repo/src/hash_index.rs 989-1003), including the
attempt to shrink at the end (/repo/src/hash_table.rs 756-764). -/
def retainOp {σ : Type} (c : Cfg K) (env : Env) (T : Tbl K V) (f : σ → K × V → σ × V × Bool) (s : σ) :
    Option (Tbl K V × σ × List (K × V)) :=
  match T.arr with
  | none => some (T, s, [])
  | some w =>
    (retainLoop c env f (2 ^ w.cur.lg) 0 T s).map fun r =>
      (if r.2.2.2 then tryShrink c r.1 0 else r.1, r.2.1, r.2.2.1)

/-- `for_each_reader_sync` with the closure of `iter_sync`, over the `n` buckets from `j` on
(/repo/src/hash_table.rs 588-606, /repo/src/hash_map.rs 1164-1179, /repo/src/hash_index.rs 912-928), for
a closure that never stops the iteration. Returns the entries visited. -/
def iterLoop (c : Cfg K) (env : Env) : Nat → Nat → Tbl K V → Option (Tbl K V × List (K × V))
  | 0, _, T => some (T, [])
  | n + 1, j, T =>
    match prepare c env.recent T j with
    | none => none
    | some T1 =>
      match T1.bucket .cur j with
      | none => none
      | some b =>
        match collect c.kind (b.len + 1) b Ptr.null with
        | none => none
        | some l => (iterLoop c env n (j + 1) T1).map fun r => (r.1, l ++ r.2)

/-- `iter_sync` (/repo/src/hash_table.rs 572-612). -/
def iterOp (c : Cfg K) (env : Env) (T : Tbl K V) : Option (Tbl K V × List (K × V)) :=
  match T.arr with
  | none => some (T, [])
  | some w => iterLoop c env (2 ^ w.cur.lg) 0 T

end Scc.Seq
