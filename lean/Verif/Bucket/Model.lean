import Verif.Bucket.Bits
import Verif.Lru.Model

/-!
# Buckets: slot bitmaps, partial hashes, overflow chain, cursors

Function-by-function model of `Bucket`, `LinkedBucket` and `EntryPtr` in
/repo/src/hash_table/bucket.rs, for a thread that holds the bucket lock.

Simplifications:
* memory orderings are ignored (the caller owns the lock; the concurrent readers of `HashIndex`
  are modelled elsewhere);
* a cell that was never written holds `none`; reading it would be undefined behaviour in the code and
  yields `none` here (the proofs show it never happens);
* the doubly linked chain of `LinkedBucket`s is a `List`, and a `link_ptr` is the position in it;
* the partial hash is a `Nat` below 256;
* `removed_bitmap` is `removed` for `INDEX` and the tail of the LRU list (`lru.tail`) for `CACHE`;
* `Equivalent<K>` lookups are equality of keys.
-/

namespace Scc.Bucket

/-- `MAP`, `INDEX`, `CACHE` (/repo/src/hash_table/bucket.rs 31-38). -/
inductive Kind
  | map | index | cache
  deriving DecidableEq, Repr

/-- `BUCKET_LEN` (/repo/src/hash_table/bucket.rs 41). -/
def bucketLen : Nat := 32

/-- `LINKED_BUCKET_LEN` (/repo/src/hash_table/bucket.rs 106). -/
def linkedBucketLen : Nat := bucketLen / 4

/-- `usize::MAX`, the index of a fused cursor. -/
def usizeMax : Nat := 2 ^ 64 - 1

/-- `Metadata<K, V, LEN>` together with its `DataBlock<K, V, LEN>`
(/repo/src/hash_table/bucket.rs 44, 92-103); `cap` is the const generic `LEN`. -/
structure Block (K V : Type) where
  cap : Nat
  occ : Word
  removed : Word
  ph : Nat → Nat
  data : Nat → Option (K × V)

/-- `Bucket` with its overflow chain (/repo/src/hash_table/bucket.rs 16-29, 94); `lru` is the LRU list
with its tail, used only if the type is `CACHE`. -/
structure Bucket (K V : Type) where
  len : Nat
  main : Block K V
  links : List (Block K V)
  lru : Lru.State := Lru.State.init

/-- `EntryPtr`: `blk = 0` is a null `link_ptr`, `blk = j + 1` the `j`-th link of the chain
(/repo/src/hash_table/bucket.rs 59-64). -/
structure Ptr where
  blk : Nat
  idx : Nat
  deriving DecidableEq, Repr

variable {K V : Type}

/-- A block whose slots are all free (`Metadata` defaults, /repo/src/hash_table/bucket.rs 126-131
and `LinkedBucket::new` 1233-1251). -/
def Block.empty (cap : Nat) : Block K V :=
  { cap, occ := 0, removed := 0, ph := fun _ => 0, data := fun _ => none }

/-- A new bucket (/repo/src/hash_table/bucket.rs 122-134). -/
def Bucket.empty : Bucket K V := { len := 0, main := Block.empty bucketLen, links := [] }

/-- All blocks in cursor order. -/
def Bucket.blocks (b : Bucket K V) : List (Block K V) := b.main :: b.links

/-- Writes back block `j`. -/
def Bucket.setBlock (b : Bucket K V) (j : Nat) (x : Block K V) : Bucket K V :=
  match j with
  | 0 => { b with main := x }
  | j + 1 => { b with links := b.links.set j x }

/-- `partial_hash` (/repo/src/hash_table/bucket.rs 564-566). -/
def partialHash (hash : Nat) : Nat := hash % 256

/-- The bitmap the search and the cursor look at
(/repo/src/hash_table/bucket.rs 694-699, 1025-1031). -/
def Block.visible (t : Kind) (x : Block K V) : Word :=
  match t with
  | .index => ~~~x.removed &&& x.occ
  | _ => x.occ

/-- `insert_entry` (/repo/src/hash_table/bucket.rs 438-460). -/
def Block.insertEntry (x : Block K V) (index hash : Nat) (e : K × V) : Block K V :=
  { x with
    data := fun j => if j = index then some e else x.data j
    ph := fun j => if j = index then partialHash hash else x.ph j
    occ := x.occ ||| bit index }

/-- The scan for a link with a free slot in `insert_overflow`
(/repo/src/hash_table/bucket.rs 394-415): position of the link and of the slot. -/
def findFree : List (Block K V) → Nat → Option (Nat × Nat)
  | [], _ => none
  | x :: xs, j =>
    if to x.occ ≠ linkedBucketLen then some (j, to x.occ) else findFree xs (j + 1)

/-- `insert_overflow` (/repo/src/hash_table/bucket.rs 393-434). -/
def Bucket.insertOverflow (b : Bucket K V) (hash : Nat) (e : K × V) : Bucket K V × Ptr :=
  match findFree b.links 0 with
  | some (j, i) =>
    match b.links[j]? with
    | some x =>
      ({ b with len := b.len + 1, links := b.links.set j (x.insertEntry i hash e) }, ⟨j + 1, i⟩)
    | none => (b, ⟨0, bucketLen⟩)
  | none =>
    ({ b with
        len := b.len + 1
        links := (Block.empty linkedBucketLen).insertEntry 0 hash e :: b.links }, ⟨1, 0⟩)

/-- The `for` loop of `drop_unreachable_entries`: bits of removed slots whose epoch is old
(/repo/src/hash_table/bucket.rs 505-514). `recent p` says that the epoch byte `p` is valid and in the
same generation as the current epoch. -/
def Block.droppedBits (recent : Nat → Bool) (x : Block K V) : Word :=
  (List.range x.cap).foldl (fun w i => if recent (x.ph i) then w &&& ~~~bit i else w) x.removed

/-- `drop_unreachable_entries` (/repo/src/hash_table/bucket.rs 498-534); the dropped cells become
uninitialised. -/
def Block.dropUnreachable (recent : Nat → Bool) (x : Block K V) : Block K V :=
  let d := x.droppedBits recent
  { x with
    occ := x.occ &&& ~~~d
    removed := x.removed &&& ~~~d
    data := fun j => if d.getLsbD j then none else x.data j }

/-- The backward walk over the chain in `clear_unreachable_entries`: links are cleaned from the last
to the first and empty ones at the end of the chain are unlinked
(/repo/src/hash_table/bucket.rs 468-492). -/
def clearLinks (recent : Nat → Bool) : List (Block K V) → List (Block K V)
  | [] => []
  | x :: xs =>
    let r := clearLinks recent xs
    let x' := x.dropUnreachable recent
    if r.isEmpty && x'.occ == 0#32 then [] else x' :: r

/-- `clear_unreachable_entries` (/repo/src/hash_table/bucket.rs 463-495). -/
def Bucket.clearUnreachable (recent : Nat → Bool) (b : Bucket K V) : Bucket K V :=
  { b with links := clearLinks recent b.links, main := b.main.dropUnreachable recent }

/-- `insert` (/repo/src/hash_table/bucket.rs 144-177). -/
def Bucket.insert (t : Kind) (recent : Nat → Bool) (b : Bucket K V) (hash : Nat) (e : K × V) :
    Bucket K V × Ptr :=
  let b' :=
    if t = .index ∧ b.main.occ = BitVec.allOnes 32 ∧ b.main.removed ≠ 0#32 then
      b.clearUnreachable recent
    else b
  let free := to b'.main.occ
  if free = bucketLen then b'.insertOverflow hash e
  else ({ b' with len := b'.len + 1, main := b'.main.insertEntry free hash e }, ⟨0, free⟩)

/-- The search loop over candidate slots (/repo/src/hash_table/bucket.rs 708-716); at most 32
rounds. -/
def scan [DecidableEq K] (x : Block K V) (k : K) : Nat → Word → Option ((K × V) × Nat)
  | 0, _ => none
  | fuel + 1, bm =>
    let off := tz bm
    if off = 32 then none
    else
      match x.data off with
      | some e => if e.1 = k then some (e, off) else scan x k fuel (bm &&& ~~~bit off)
      | none => none

/-- The candidate bitmap: visible slots whose partial hash matches
(/repo/src/hash_table/bucket.rs 694-706). -/
def Block.candidates (t : Kind) (x : Block K V) (hash : Nat) : Word :=
  (List.range x.cap).foldl
    (fun w i => if x.ph i ≠ partialHash hash then w &&& ~~~bit i else w) (x.visible t)

/-- `search_data_block` (/repo/src/hash_table/bucket.rs 685-719). -/
def Block.search [DecidableEq K] (t : Kind) (x : Block K V) (k : K) (hash : Nat) :
    Option ((K × V) × Nat) :=
  scan x k 33 (x.candidates t hash)

/-- The walk over the blocks in `search_entry` and `get_entry_ptr`. -/
def searchBlocks [DecidableEq K] (t : Kind) (k : K) (hash : Nat) :
    List (Block K V) → Nat → Option ((K × V) × Ptr)
  | [], _ => none
  | x :: xs, j =>
    match x.search t k hash with
    | some (e, i) => some (e, ⟨j, i⟩)
    | none => searchBlocks t k hash xs (j + 1)

/-- `search_entry` (/repo/src/hash_table/bucket.rs 614-642). -/
def Bucket.searchEntry [DecidableEq K] (t : Kind) (b : Bucket K V) (k : K) (hash : Nat) :
    Option (K × V) :=
  if b.len ≠ 0 then (searchBlocks t k hash b.blocks 0).map (·.1) else none

/-- `EntryPtr::null` (/repo/src/hash_table/bucket.rs 906-911). -/
def Ptr.null : Ptr := ⟨0, bucketLen⟩

/-- `EntryPtr::is_valid` (/repo/src/hash_table/bucket.rs 915-917). -/
def Ptr.isValid (p : Ptr) : Bool := p.idx != bucketLen

/-- `get_entry_ptr` (/repo/src/hash_table/bucket.rs 648-681). -/
def Bucket.getEntryPtr [DecidableEq K] (t : Kind) (b : Bucket K V) (k : K) (hash : Nat) : Ptr :=
  if b.len ≠ 0 then
    match searchBlocks t k hash b.blocks 0 with
    | some (_, p) => p
    | none => Ptr.null
  else Ptr.null

/-- `EntryPtr::get` (/repo/src/hash_table/bucket.rs 935-945). -/
def Bucket.get (b : Bucket K V) (p : Ptr) : Option (K × V) :=
  b.blocks[p.blk]?.bind fun x => x.data p.idx

/-- Writing a new value through `EntryPtr::get_mut` (/repo/src/hash_table/bucket.rs 951-962). -/
def Bucket.setVal (b : Bucket K V) (p : Ptr) (v : V) : Bucket K V :=
  match b.blocks[p.blk]? with
  | some x =>
    b.setBlock p.blk
      { x with data := fun j => if j = p.idx then (x.data j).map (fun e => (e.1, v)) else x.data j }
  | none => b

/-- `EntryPtr::unlink` (/repo/src/hash_table/bucket.rs 989-1014): the chain without link `j`, and the
cursor moved before the first slot of the next link, or fused. -/
def Bucket.unlink (b : Bucket K V) (j : Nat) : Bucket K V × Ptr :=
  ({ b with links := b.links.eraseIdx j },
    if j + 1 < b.links.length then ⟨j + 1, linkedBucketLen⟩ else ⟨0, usizeMax⟩)

/-- Clears the occupied bit of a slot; the cell is moved out. -/
def Block.clearSlot (x : Block K V) (i : Nat) : Block K V :=
  { x with
    occ := x.occ &&& ~~~bit i
    data := fun j => if j = i then none else x.data j }

/-- `remove` (/repo/src/hash_table/bucket.rs 181-218); `none` if the cursor does not point at a
block of the bucket (the code would then be undefined). -/
def Bucket.remove (t : Kind) (b : Bucket K V) (p : Ptr) : Option (Bucket K V × Option (K × V) × Ptr) :=
  match p.blk with
  | j + 1 =>
    match b.links[j]? with
    | some x =>
      let x' := x.clearSlot p.idx
      let b' := { b with len := b.len - 1, links := b.links.set j x' }
      if x'.occ = 0#32 ∧ t ≠ .index then
        let (b'', p') := b'.unlink j
        some (b'', x.data p.idx, p')
      else some (b', x.data p.idx, p)
    | none => none
  | 0 =>
    some
      ({ b with
          len := b.len - 1
          main := b.main.clearSlot p.idx
          lru := if t = .cache then b.lru.remove p.idx else b.lru }, b.main.data p.idx, p)

/-- `mark_removed` on one block: epoch into the partial hash cell, then the removed bit
(/repo/src/hash_table/bucket.rs 230-238). -/
def Block.markRemoved (x : Block K V) (i epoch : Nat) : Block K V :=
  { x with
    ph := fun j => if j = i then epoch else x.ph j
    removed := x.removed ||| bit i }

/-- `mark_removed` (/repo/src/hash_table/bucket.rs 222-250). -/
def Bucket.markRemoved (b : Bucket K V) (p : Ptr) (epoch : Nat) : Bucket K V :=
  match b.blocks[p.blk]? with
  | some x => { b.setBlock p.blk (x.markRemoved p.idx epoch) with len := b.len - 1 }
  | none => b

/-- `extract_from` (/repo/src/hash_table/bucket.rs 331-368): the target and the source bucket after
the move. The source chain keeps its (possibly empty) links and the cursor is unchanged. -/
def extractFrom (t : Kind) (recent : Nat → Bool) (target : Bucket K V) (hash : Nat)
    (source : Bucket K V) (p : Ptr) : Option (Bucket K V × Bucket K V) :=
  match source.blocks[p.blk]? with
  | some x =>
    match x.data p.idx with
    | some e =>
      some ((target.insert t recent hash e).1,
        { source.setBlock p.blk (x.clearSlot p.idx) with len := source.len - 1 })
    | none => none
  | none => none

/-- `reserve_slots`: the walk over the chain, appending empty links at its end until the free slots
suffice (/repo/src/hash_table/bucket.rs 308-326); the recursion is bounded by `fuel` (every appended
link adds 8 slots, so `additional + length` rounds are enough). -/
def reserveLinks (additional : Nat) : Nat → Nat → List (Block K V) → List (Block K V)
  | 0, _, l => l
  | _, _, [] => []
  | fuel + 1, cap, x :: xs =>
    let cap' := cap + (linkedBucketLen - ones x.occ)
    if additional ≤ cap' then x :: xs
    else
      match xs with
      | [] => x :: reserveLinks additional fuel cap' [Block.empty linkedBucketLen]
      | y :: ys => x :: reserveLinks additional fuel cap' (y :: ys)

/-- `reserve_slots` (/repo/src/hash_table/bucket.rs 302-327). -/
def Bucket.reserveSlots (b : Bucket K V) (additional : Nat) : Bucket K V :=
  let cap := bucketLen - ones b.main.occ
  if cap < additional then
    { b with links := reserveLinks additional (additional + b.links.length) cap b.links }
  else b

/-- `next_entry` (/repo/src/hash_table/bucket.rs 1020-1044): the index of the next visible slot of this
block, if any. -/
def Block.nextEntry (t : Kind) (x : Block K V) (idx : Nat) : Option Nat :=
  let cur := if idx = x.cap then 0 else idx + 1
  if cur < x.cap then
    let n := tz (x.visible t &&& from_ cur)
    if n < x.cap then some n else none
  else none

/-- The `while` loop of `move_to_next` over the remaining blocks; `idx` is the index in the first of
them (/repo/src/hash_table/bucket.rs 970-977). -/
def walk (t : Kind) : List (Block K V) → Nat → Nat → Option Ptr
  | [], _, _ => none
  | x :: xs, j, idx =>
    match x.nextEntry t idx with
    | some i => some ⟨j, i⟩
    | none => walk t xs (j + 1) linkedBucketLen

/-- `move_to_next` (/repo/src/hash_table/bucket.rs 968-984): the new cursor and whether an entry was
found. -/
def Bucket.moveToNext (t : Kind) (b : Bucket K V) (p : Ptr) : Ptr × Bool :=
  if p.idx ≠ usizeMax then
    match walk t (b.blocks.drop p.blk) p.blk p.idx with
    | some q => (q, true)
    | none => (⟨0, usizeMax⟩, false)
  else (p, false)

/-- `drop_entries` for a bucket that goes away, and `LinkedBucket::drop`
(/repo/src/hash_table/bucket.rs 373-390, 1261-1273): the cells dropped, for every block the slots
whose occupied bit is set. -/
def Bucket.dropEntries (b : Bucket K V) : List (K × V) :=
  (b.links ++ [b.main]).flatMap fun x =>
    (List.range 32).filterMap fun i => if x.occ.getLsbD i then x.data i else none

end Scc.Bucket
