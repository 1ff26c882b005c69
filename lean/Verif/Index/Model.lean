/-!
# Model of the sizing and indexing arithmetic of the hash table

Machine words (`usize`, `u64`) are natural numbers; `not64` is bitwise complement of a 64-bit word.
-/

namespace Scc.Index

/-- `!x` on a 64-bit word. -/
def not64 (x : Nat) : Nat := (2 ^ 64 - 1) ^^^ x

/-- `BUCKET_LEN`, /repo/src/hash_table/bucket.rs line 41. -/
def bucketLen : Nat := 32

/-- `MAXIMUM_CAPACITY_LIMIT`, /repo/src/hash_table.rs line 1445. -/
def maxCapacityLimit : Nat := 2 ^ 62

/-- `RESIZING`, /repo/src/hash_table.rs line 1448. -/
def resizingBit : Nat := 2 ^ 63

/-- `usize::next_power_of_two` (Rust core; `0` and `1` give `1`). Overflow cannot occur for
arguments up to `2^63`; every caller clamps its argument to `2^62` or below. -/
def nextPow2 (n : Nat) : Nat := if n ≤ 1 then 1 else 2 ^ (Nat.log2 (n - 1) + 1)

/-- `BucketArray::minimum_capacity`, /repo/src/hash_table/bucket_array.rs lines 121-124. -/
def minimumCapacity : Nat := bucketLen <<< 1

/-- `array_len` computed by `BucketArray::new`, bucket_array.rs lines 33-37. -/
def arrayLen (capacity : Nat) : Nat :=
  max (nextPow2 (min capacity (2 ^ 62))) minimumCapacity / bucketLen

/-- `log2_array_len` computed by `BucketArray::new`, bucket_array.rs line 38 (`trailing_zeros`; the
`assert_eq!` of line 39 makes it the exact logarithm). -/
def log2ArrayLen (capacity : Nat) : Nat := Nat.log2 (arrayLen capacity)

/-- `num_slots`, bucket_array.rs lines 107-109. -/
def numSlots (arrayLen : Nat) : Nat := arrayLen * bucketLen

/-- `bucket_index` of an array of `2^lg` buckets, bucket_array.rs lines 114-118, with
`hash_offset = 64 - lg` (line 90). -/
def bucketIndex (lg hash : Nat) : Nat := hash >>> (64 - lg)

/-- `sample_size` of an array of `2^lg` buckets, bucket_array.rs line 42. -/
def sampleSize (lg : Nat) : Nat := nextPow2 lg

/-- `from_index_to_range`, /repo/src/hash_table.rs lines 1666-1679. -/
def fromIndexToRange (fromLen toLen i : Nat) : Nat × Nat :=
  if fromLen < toLen then
    let ratio := toLen / fromLen
    (i * ratio, i * ratio + ratio)
  else
    let ratio := fromLen / toLen
    (i / ratio, i / ratio + 1)

/-- The bucket indices read by `sample`, hash_table.rs lines 208-216. -/
def sampledIndices (lg samplingIndex : Nat) : List Nat :=
  let s := sampleSize lg
  let sample1 := samplingIndex &&& not64 (s - 1)
  let sample2 := if sample1 = 0 then 2 ^ lg - s else 0
  (List.range s).map (sample1 + ·) ++ (List.range s).map (sample2 + ·)

/-- `sample`, hash_table.rs lines 207-220; `len i` is the length of bucket `i`. -/
def sample (lg samplingIndex : Nat) (len : Nat → Nat) : Nat :=
  ((sampledIndices lg samplingIndex).map len).sum * (2 ^ lg / (sampleSize lg * 2))

/-- The doubling loop of `try_resize`, hash_table.rs lines 1363-1368, with explicit fuel (the loop
at most doubles until the maximum is reached). -/
def doubleLoop (est maxCap : Nat) : Nat → Nat → Nat
  | 0, n => n
  | fuel + 1, n =>
    if n / 2 < est then
      if n ≥ maxCap then n else doubleLoop est maxCap fuel (n * 2)
    else n

/-- The target capacity chosen by `try_resize`, hash_table.rs lines 1353-1379. -/
def newCapacity (capacity minCap maxCap est : Nat) : Nat :=
  if capacity < minCap ∨ est ≥ capacity / 16 * 13 then
    if capacity = maxCap then capacity
    else doubleLoop est maxCap 64 (max (nextPow2 minCap) capacity)
  else if est ≤ capacity / 8 then
    nextPow2 (max (max (est * 2) minCap) minimumCapacity)
  else capacity

/-- Capacity and minimum capacity of a new `HashMap`, /repo/src/hash_map.rs lines 206-227 (same text
for `HashIndex`); capacity `0` means that no array is allocated. -/
def mapWithCapacity (capacity : Nat) : Nat × Nat :=
  if capacity = 0 then (0, 0) else (numSlots (arrayLen capacity), numSlots (arrayLen capacity))

/-- Capacity, minimum and maximum capacity of a new `HashCache`, /repo/src/hash_cache.rs lines
169-200. -/
def cacheWithCapacity (minCap maxCap : Nat) : Nat × Nat × Nat :=
  let r := mapWithCapacity minCap
  (r.1, r.2, nextPow2 (min (max (max maxCap r.2) minimumCapacity) maxCapacityLimit))

/-- `capacity_from_size_hint`, hash_table.rs lines 1433-1441. -/
def capacityFromSizeHint (lower : Nat) (upper : Option Nat) : Nat :=
  min (upper.getD lower) (2 ^ 62) / 4 * 5

end Scc.Index
