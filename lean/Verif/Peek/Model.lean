/-!
# A bucket of `HashIndex`: lock-free readers beside the owner of the lock

A transition system for one bucket of type `INDEX` (/repo/src/hash_table/bucket.rs). One thread at a time
owns the lock of the bucket and inserts, removes, updates or moves entries; any number of guards read
without a lock: `peek` (`search_entry`) and `Iter` (`move_to_next`). Every load of a reader and every store
of the owner that a reader can see is a step of its own; memory is sequentially consistent.

Simplifications:
* The owner is one sequential process: which thread owns the lock does not matter to readers. Loads of the
  owner see its own stores, so they are not steps.
* A bitmap is a function to `Bool`, the partial hash a number.
* A reader is a guard (`sdd::Guard`); a thread that makes a new guard is a new reader.
* Linked blocks have numbers that are never reused; block 0 is the block of the bucket itself. That the
  memory of an unlinked block stays until the guards are gone is the job of `sdd::Shared`.
* Epochs (`sdd::Epoch`) are replaced by their purpose: a slot marked as removed may be recycled when all
  guards that were alive when it was marked are gone (`pin`).
* `clear_unreachable_entries` may run at any time the lock is held, on any block, for any part of the slots
  it may recycle. The code does it before an insertion into a full bucket.
* An insertion uses any free slot of a linked block. The code uses the first.
* The entries a block loses in one call of `drop_unreachable_entries` are dropped in one step.
-/

namespace Scc.Peek

/-- `BUCKET_LEN` and `LINKED_BUCKET_LEN` (bucket.rs 41, 106): slots of block `b`. -/
def blkLen (b : Nat) : Nat := if b = 0 then 32 else 8

/-- What the owner of the lock is doing. In an insertion `upd` is the slot that is going to be removed
afterwards, if the insertion is part of an update; in a removal it is the slot of the new copy. -/
inductive WPC (K V : Type)
  | idle
  /-- cell written, about to write the partial hash (bucket.rs 453-455) -/
  | insHash (k : K) (v : V) (b i : Nat) (upd : Option (Nat × Nat))
  /-- about to store the bitmap (bucket.rs 456-459) -/
  | insOcc (k : K) (v : V) (b i : Nat) (upd : Option (Nat × Nat))
  /-- about to store the length (bucket.rs 170, 411, 432) -/
  | insLen (k : K) (b i : Nat) (upd : Option (Nat × Nat))
  /-- update: about to store the length (bucket.rs 227) -/
  | rmLen (k : K) (b i : Nat) (new : Nat × Nat)
  /-- about to overwrite the partial hash with the epoch (bucket.rs 230-232, 240-242) -/
  | rmHash (k : K) (b i : Nat) (upd : Option (Nat × Nat))
  /-- about to store the bitmap of removed slots (bucket.rs 238, 248) -/
  | rmRem (k : K) (b i : Nat) (upd : Option (Nat × Nat))
  /-- `drop_unreachable_entries` (bucket.rs 498-534): about to store the bitmap of occupied slots -/
  | clrOcc (b : Nat) (d : Nat → Bool)
  /-- about to store the bitmap of removed slots -/
  | clrRem (b : Nat) (d : Nat → Bool)
  /-- about to drop the entries -/
  | clrDrop (b : Nat) (d : Nat → Bool)
  /-- `extract_from` (bucket.rs 331-368): about to store the length of the old bucket -/
  | exLen

/-- What a reader is doing. -/
inductive RPC (K V : Type)
  /-- there is no guard yet -/
  | new
  /-- no call in progress -/
  | free
  /-- `search_entry` (bucket.rs 614-642): about to load the length -/
  | sLen (k : K)
  /-- `search_data_block` (bucket.rs 685-719): about to load the bitmap of removed slots -/
  | sRem (k : K) (b : Nat)
  /-- about to load the bitmap of occupied slots -/
  | sOcc (k : K) (b : Nat) (rm : Nat → Bool)
  /-- about to read the partial hash of slot `j` -/
  | sHash (k : K) (b : Nat) (bm : Nat → Bool) (j : Nat)
  /-- about to compare the key of the first candidate -/
  | sCell (k : K) (b : Nat) (bm : Nat → Bool)
  /-- about to load the link to the next block -/
  | sNext (k : K) (b : Nat)
  /-- `search_entry` returns a reference to a slot, or nothing -/
  | sDone (k : K) (r : Option (Nat × Nat × K × V))
  /-- `next_entry` (bucket.rs 1021-1045) from slot `c` on: about to load the bitmap of removed slots -/
  | iRem (b c : Nat)
  | iOcc (b c : Nat) (rm : Nat → Bool)
  /-- about to load the link -/
  | iNext (b : Nat)
  /-- `move_to_next` has returned; the cursor points to a slot -/
  | iHeld (b i : Nat)
  /-- the guard was dropped -/
  | ended

/-- Is the guard alive? -/
def RPC.alive {K V : Type} : RPC K V → Bool
  | .new => false
  | .ended => false
  | _ => true

/-- The state. `Metadata` and `DataBlock` (bucket.rs 44, 92-103) of block `b` are `occ b`, `rem b`, `ph b`,
`next b` and `cell b`; `cell b i` is `none` before the first write and after the entry was dropped.
`pin b i` (ghost): the guards that were alive when slot `i` was marked as removed. `refs r` (ghost): the
references to entries that reader `r` has obtained. `must` (ghost): the keys of entries whose insertion is
complete and whose removal has not begun. `ext`: entries are being moved to another array, or have been. -/
structure St (K V : Type) where
  len : Nat
  occ : Nat → Nat → Bool
  rem : Nat → Nat → Bool
  ph : Nat → Nat → Nat
  cell : Nat → Nat → Option (K × V)
  next : Nat → Option Nat
  pin : Nat → Nat → Nat → Bool
  fresh : Nat
  ext : Bool
  w : WPC K V
  rd : Nat → RPC K V
  refs : Nat → List (Nat × Nat × K × V)
  must : List K

variable {K V : Type}

/-- A new bucket (bucket.rs 117-134, bucket_array.rs 53-70); a new linked block is the same (bucket.rs
1239-1251). -/
def St.init : St K V :=
  { len := 0, occ := fun _ _ => false, rem := fun _ _ => false, ph := fun _ _ => 0, cell := fun _ _ => none,
    next := fun _ => none, pin := fun _ _ _ => false, fresh := 1, ext := false, w := .idle,
    rd := fun _ => .new, refs := fun _ => [], must := [] }

/-- The function with one value replaced. -/
def upd1 {α : Type} (f : Nat → α) (i : Nat) (x : α) : Nat → α := fun j => if j = i then x else f j

/-- The function with the value of slot `i` of block `b` replaced. -/
def upd2 {α : Type} (f : Nat → Nat → α) (b i : Nat) (x : α) : Nat → Nat → α :=
  fun c j => if c = b ∧ j = i then x else f c j

def St.setRd (s : St K V) (r : Nat) (p : RPC K V) : St K V := { s with rd := upd1 s.rd r p }

def St.addRef (s : St K V) (r : Nat) (x : Nat × Nat × K × V) : St K V :=
  { s with refs := upd1 s.refs r (x :: s.refs r) }

/-- Block `b` can be reached from block `a` by links. -/
inductive Reach (nx : Nat → Option Nat) : Nat → Nat → Prop
  | refl (a : Nat) : Reach nx a a
  | cons {a c b : Nat} : nx a = some c → Reach nx c b → Reach nx a b

/-- Slot `i` of block `b` is occupied and not marked as removed. -/
def St.live (s : St K V) (b i : Nat) : Prop := s.occ b i = true ∧ s.rem b i = false

/-- The entry `(k, v)` is stored: a slot that is occupied and not marked as removed holds it. -/
def St.stored (s : St K V) (k : K) (v : V) : Prop := ∃ b i, s.live b i ∧ s.cell b i = some (k, v)

/-- One step; `hp` is the partial hash of a key. -/
inductive Step [DecidableEq K] (hp : K → Nat) : St K V → St K V → Prop
  -- the owner of the lock: insertion of a key that is not stored (`insert_entry`, bucket.rs 438-460)
  | insert {s : St K V} {k v b i} : s.w = .idle → s.ext = false → (∀ v, ¬ s.stored k v) →
      Reach s.next 0 b → i < blkLen b → s.occ b i = false →
      Step hp s { s with cell := upd2 s.cell b i (some (k, v)), w := .insHash k v b i none }
  /-- the first half of `OccupiedEntry::update` (hash_index.rs 1887-1892): insertion of a second copy -/
  | update {s : St K V} {k v b i b' i' v'} : s.w = .idle → s.ext = false →
      s.live b' i' → s.cell b' i' = some (k, v') →
      Reach s.next 0 b → i < blkLen b → s.occ b i = false →
      Step hp s { s with cell := upd2 s.cell b i (some (k, v)), w := .insHash k v b i (some (b', i')) }
  | insHash {s : St K V} {k v b i u} : s.w = .insHash k v b i u →
      Step hp s { s with ph := upd2 s.ph b i (hp k), w := .insOcc k v b i u }
  | insOcc {s : St K V} {k v b i u} : s.w = .insOcc k v b i u →
      Step hp s { s with occ := upd2 s.occ b i true, w := .insLen k b i u }
  /-- a new block at the head of the list (bucket.rs 417-431); it is prepared before anybody can see it,
  and then the link of the bucket is replaced -/
  | insLink {s : St K V} {k v} : s.w = .idle → s.ext = false → (∀ v, ¬ s.stored k v) →
      Step hp s { s with
        cell := upd2 s.cell s.fresh 0 (some (k, v)), ph := upd2 s.ph s.fresh 0 (hp k)
        occ := upd2 s.occ s.fresh 0 true, next := upd1 (upd1 s.next s.fresh (s.next 0)) 0 (some s.fresh)
        fresh := s.fresh + 1, w := .insLen k s.fresh 0 none }
  /-- the same for an update -/
  | updLink {s : St K V} {k v b' i' v'} : s.w = .idle → s.ext = false →
      s.live b' i' → s.cell b' i' = some (k, v') →
      Step hp s { s with
        cell := upd2 s.cell s.fresh 0 (some (k, v)), ph := upd2 s.ph s.fresh 0 (hp k)
        occ := upd2 s.occ s.fresh 0 true, next := upd1 (upd1 s.next s.fresh (s.next 0)) 0 (some s.fresh)
        fresh := s.fresh + 1, w := .insLen k s.fresh 0 (some (b', i')) }
  | insLen {s : St K V} {k b i} : s.w = .insLen k b i none →
      Step hp s { s with len := s.len + 1, must := k :: s.must, w := .idle }
  | updLen {s : St K V} {k b i b' i'} : s.w = .insLen k b i (some (b', i')) →
      Step hp s { s with len := s.len + 1, w := .rmLen k b' i' (b, i) }
  /-- `mark_removed` (bucket.rs 222-250): removal of an entry begins with the store of the length -/
  | remove {s : St K V} {k v b i} : s.w = .idle → s.ext = false → s.live b i →
      s.cell b i = some (k, v) →
      Step hp s { s with len := s.len - 1, must := s.must.erase k, w := .rmHash k b i none }
  | rmLen {s : St K V} {k b i n} : s.w = .rmLen k b i n →
      Step hp s { s with len := s.len - 1, w := .rmHash k b i (some n) }
  /-- any epoch -/
  | rmHash {s : St K V} {k b i u} (e : Nat) : s.w = .rmHash k b i u →
      Step hp s { s with ph := upd2 s.ph b i e, w := .rmRem k b i u }
  | rmRem {s : St K V} {k b i u} : s.w = .rmRem k b i u →
      Step hp s { s with
        rem := upd2 s.rem b i true, pin := upd2 s.pin b i (fun r => (s.rd r).alive), w := .idle }
  /-- `drop_unreachable_entries` (bucket.rs 498-534): slots whose epoch is not of the current generation -/
  | clear {s : St K V} {b} {d : Nat → Bool} : s.w = .idle → s.ext = false →
      (∀ i, d i = true → s.rem b i = true ∧ ∀ r, (s.rd r).alive = true → s.pin b i r = false) →
      Step hp s { s with w := .clrOcc b d }
  | clrOcc {s : St K V} {b d} : s.w = .clrOcc b d →
      Step hp s { s with occ := fun c i => s.occ c i && !(c == b && d i), w := .clrRem b d }
  | clrRem {s : St K V} {b d} : s.w = .clrRem b d →
      Step hp s { s with rem := fun c i => s.rem c i && !(c == b && d i), w := .clrDrop b d }
  | clrDrop {s : St K V} {b d} : s.w = .clrDrop b d →
      Step hp s { s with cell := fun c i => if (c == b && d i) = true then none else s.cell c i, w := .idle }
  /-- a block is unlinked with all that follow it, when none holds an entry (bucket.rs 476-485, 804-816) -/
  | cut {s : St K V} {b} : s.w = .idle →
      (∀ c d i, s.next b = some c → Reach s.next c d → ¬ s.live d i) →
      Step hp s { s with next := upd1 s.next b none }
  /-- `reserve_slots` (bucket.rs 317-322): an empty block at the end of the list -/
  | append {s : St K V} {b} : s.w = .idle → s.ext = false → Reach s.next 0 b → s.next b = none →
      Step hp s { s with next := upd1 s.next b (some s.fresh), fresh := s.fresh + 1 }
  /-- `extract_from` (bucket.rs 331-368), the part that takes the entry out of this bucket; the copy in the
  other bucket is an insertion there. After the first entry has left, the lock is kept until the bucket is
  killed (hash_table.rs 948-1094). -/
  | extract {s : St K V} {k v b i} : s.w = .idle → s.live b i → s.cell b i = some (k, v) →
      Step hp s { s with occ := upd2 s.occ b i false, ext := true, must := s.must.erase k, w := .exLen }
  | exLen {s : St K V} : s.w = .exLen → Step hp s { s with len := s.len - 1, w := .idle }
  -- readers
  /-- `Guard::new` -/
  | guard {s : St K V} {r} : s.rd r = .new → Step hp s (s.setRd r .free)
  /-- the guard is dropped, and with it all references -/
  | drop {s : St K V} {r} : s.rd r = .free ∨ (∃ b i, s.rd r = .iHeld b i) → Step hp s (s.setRd r .ended)
  /-- `search_entry` (bucket.rs 614-642) -/
  | sStart {s : St K V} {r} (k : K) : s.rd r = .free → Step hp s (s.setRd r (.sLen k))
  | sLenZero {s : St K V} {r k} : s.rd r = .sLen k → s.len = 0 → Step hp s (s.setRd r (.sDone k none))
  | sLen {s : St K V} {r k} : s.rd r = .sLen k → s.len ≠ 0 → Step hp s (s.setRd r (.sRem k 0))
  | sRem {s : St K V} {r k b} : s.rd r = .sRem k b → Step hp s (s.setRd r (.sOcc k b (s.rem b)))
  | sOcc {s : St K V} {r k b rm} : s.rd r = .sOcc k b rm →
      Step hp s (s.setRd r (.sHash k b (fun i => s.occ b i && !rm i) 0))
  | sHash {s : St K V} {r k b bm j} : s.rd r = .sHash k b bm j → j < blkLen b →
      Step hp s (s.setRd r (.sHash k b (if s.ph b j = hp k then bm else upd1 bm j false) (j + 1)))
  | sHashEnd {s : St K V} {r k b bm j} : s.rd r = .sHash k b bm j → blkLen b ≤ j →
      Step hp s (s.setRd r (.sCell k b bm))
  | sMatch {s : St K V} {r k b bm i v} : s.rd r = .sCell k b bm → bm i = true → i < blkLen b →
      (∀ j, j < i → bm j = false) → s.cell b i = some (k, v) →
      Step hp s ((s.setRd r (.sDone k (some (b, i, k, v)))).addRef r (b, i, k, v))
  | sOther {s : St K V} {r k b bm i k' v} : s.rd r = .sCell k b bm → bm i = true → i < blkLen b →
      (∀ j, j < i → bm j = false) → s.cell b i = some (k', v) → k' ≠ k →
      Step hp s (s.setRd r (.sCell k b (upd1 bm i false)))
  | sNone {s : St K V} {r k b bm} : s.rd r = .sCell k b bm → (∀ i, i < blkLen b → bm i = false) →
      Step hp s (s.setRd r (.sNext k b))
  | sNext {s : St K V} {r k b c} : s.rd r = .sNext k b → s.next b = some c →
      Step hp s (s.setRd r (.sRem k c))
  | sEnd {s : St K V} {r k b} : s.rd r = .sNext k b → s.next b = none →
      Step hp s (s.setRd r (.sDone k none))
  | sRet {s : St K V} {r k x} : s.rd r = .sDone k x → Step hp s (s.setRd r .free)
  /-- `move_to_next` (bucket.rs 957-975): from the beginning, or from the slot the cursor points to -/
  | iStart {s : St K V} {r} : s.rd r = .free → Step hp s (s.setRd r (.iRem 0 0))
  | iGo {s : St K V} {r b i} : s.rd r = .iHeld b i → i + 1 < blkLen b →
      Step hp s (s.setRd r (.iRem b (i + 1)))
  | iSkip {s : St K V} {r b i} : s.rd r = .iHeld b i → blkLen b ≤ i + 1 → Step hp s (s.setRd r (.iNext b))
  | iRem {s : St K V} {r b c} : s.rd r = .iRem b c → Step hp s (s.setRd r (.iOcc b c (s.rem b)))
  | iYield {s : St K V} {r b c rm i k v} : s.rd r = .iOcc b c rm → c ≤ i → i < blkLen b →
      s.occ b i = true → rm i = false → (∀ j, c ≤ j → j < i → (s.occ b j && !rm j) = false) →
      s.cell b i = some (k, v) →
      Step hp s ((s.setRd r (.iHeld b i)).addRef r (b, i, k, v))
  | iNone {s : St K V} {r b c rm} : s.rd r = .iOcc b c rm →
      (∀ j, c ≤ j → j < blkLen b → (s.occ b j && !rm j) = false) →
      Step hp s (s.setRd r (.iNext b))
  | iNext {s : St K V} {r b c} : s.rd r = .iNext b → s.next b = some c →
      Step hp s (s.setRd r (.iRem c 0))
  | iEnd {s : St K V} {r b} : s.rd r = .iNext b → s.next b = none → Step hp s (s.setRd r .free)

/-- Reachable states. -/
inductive Reachable [DecidableEq K] (hp : K → Nat) : St K V → Prop
  | init : Reachable hp St.init
  | step {s s' : St K V} : Reachable hp s → Step hp s s' → Reachable hp s'

end Scc.Peek
