import Verif.Index.Proof

/-!
# The memory of a bucket array

`BucketArray::new` (/repo/src/hash_table/bucket_array.rs 29-97) asks the allocator for two blocks: one for the buckets, with an alignment of
1, in which the buckets are put at the first aligned address, and one for the data blocks with the slots of the entries. `bucket` and
`data_block` (149-159) compute addresses in them without checks; `drop` (193-240) gives the blocks back.

The model follows the arithmetic on machine words: on a machine with `bits` bits, a product that does not fit panics if overflow checks are
on (debug builds), and is cut off if they are not (release builds). The allocator may answer with any address or fail.
-/

namespace Scc.Alloc

open Scc.Index (nextPow2)

/-- The machine, the container and the type of the entries: `bits` of `usize`; `checks`: overflow checks; `sb`: the size of a bucket
(bucket.rs 19-29, 1320: 64 bytes; 128 for `HashCache`), aligned to 64; `es`, `ea`: size and alignment of `(K, V)`. -/
structure Cfg where
  bits : Nat
  checks : Bool
  sb : Nat
  es : Nat
  ea : Nat

/-- What the language guarantees: there are 16, 32 or 64 bits; a size is a multiple of the alignment; `[(K, V); 32]` is a type, so that its
size fits. -/
structure Cfg.Wf (c : Cfg) : Prop where
  bits : 16 ≤ c.bits ∧ c.bits ≤ 64
  sb : c.sb = 64 ∨ c.sb = 128
  ea : 0 < c.ea
  es : c.es % c.ea = 0
  blk : 32 * c.es < 2 ^ (c.bits - 1)

/-- `Layout` (Rust core). -/
structure Layout where
  size : Nat
  align : Nat
  deriving DecidableEq, Repr

/-- The contract of `alloc` and `alloc_zeroed` (Rust core): the size is not 0, and not more than `isize::MAX` when rounded up to the
alignment. -/
def Layout.Ok (bits : Nat) (l : Layout) : Prop := 0 < l.size ∧ l.size + (l.align - 1) < 2 ^ (bits - 1)

/-- A product of two words. -/
def Cfg.mul (c : Cfg) (a b : Nat) : Option Nat :=
  if a * b < 2 ^ c.bits then some (a * b) else if c.checks then none else some (a * b % 2 ^ c.bits)

/-- `array_len` (33-37). -/
def Cfg.len (c : Cfg) (capacity : Nat) : Nat := max (nextPow2 (min capacity (2 ^ (c.bits - 2)))) 64 / 32

/-- A bucket array: addresses of the first bucket and of the first data block, their number, and the offset of the first bucket in its
block (14-22). -/
structure Arr where
  buckets : Nat
  blocks : Nat
  len : Nat
  off : Nat
  deriving DecidableEq, Repr

/-- How `new` ends: with an array, or by a panic that leaves blocks behind that are never given back. -/
inductive Out
  | done (a : Arr)
  | panic (lost : List (Nat × Layout))
  deriving DecidableEq, Repr

/-- `align_offset` (51), for an alignment of 64. -/
def alignOff (p : Nat) : Nat := (64 - p % 64) % 64

/-- `u16::try_from(..).unwrap_or(0)` (61). -/
def toU16 (x : Nat) : Nat := if x < 2 ^ 16 then x else 0

/-- `bucket_array_layout` (184-189); `from_size_align_unchecked` checks nothing. -/
def Cfg.bucketLayout (c : Cfg) (len : Nat) : Option Layout := (c.mul (len + 1) c.sb).map (⟨·, 1⟩)

/-- The layout of the data blocks (62-66, 231-235): `from_size_align(..).unwrap()`. -/
def Cfg.blockLayout (c : Cfg) (len : Nat) : Option Layout :=
  (c.mul (32 * c.es) len).bind fun n => if n + (c.ea - 1) < 2 ^ (c.bits - 1) then some ⟨n, c.ea⟩ else none

/-- `BucketArray::new` (29-97): the requests to the allocator, which answers with `a1` and `a2`, and how it ends. A product that does not fit and
the `unwrap` of line 66 panic before the guard of lines 69-71 exists; if the second request fails, the guard gives the first block back. -/
def Cfg.new (c : Cfg) (capacity : Nat) (a1 a2 : Option Nat) : List Layout × Out :=
  let len := c.len capacity
  match c.bucketLayout len with
  | none => ([], .panic [])
  | some l1 =>
    match a1 with
    | none => ([l1], .panic [])
    | some p =>
      match c.blockLayout len with
      | none => ([l1], .panic [(p, l1)])
      | some l2 =>
        match a2 with
        | none => ([l1, l2], .panic [])
        | some q => ([l1, l2], .done ⟨p + alignOff p, q, len, toU16 (alignOff p)⟩)

/-- `bucket` (149-152): the address of bucket `i`. -/
def Cfg.bucketAt (c : Cfg) (a : Arr) (i : Nat) : Nat := a.buckets + i * c.sb

/-- `data_block` (156-159) and the slot in it (bucket.rs 44): the address of slot `j` of data block `i`. -/
def Cfg.slotAt (c : Cfg) (a : Arr) (i j : Nat) : Nat := a.blocks + i * (32 * c.es) + j * c.es

/-- `drop` (222-237): what is given back. -/
def Cfg.drop (c : Cfg) (a : Arr) : Option (List (Nat × Layout)) :=
  match c.bucketLayout a.len, c.blockLayout a.len with
  | some l1, some l2 => some [(a.buckets - a.off, l1), (a.blocks, l2)]
  | _, _ => none

/-- What an allocator may answer: an aligned block in memory. -/
def Answer (bits : Nat) (l : Layout) (p : Nat) : Prop := 0 < p ∧ p % l.align = 0 ∧ p + l.size ≤ 2 ^ bits

/-- `[x, x + n)` is part of the block at `p`. -/
def Within (p : Nat) (l : Layout) (x n : Nat) : Prop := p ≤ x ∧ x + n ≤ p + l.size

end Scc.Alloc
