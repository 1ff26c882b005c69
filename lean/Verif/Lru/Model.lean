import Verif.Lru.Spec

/-!
# Model of the per-bucket LRU list of `HashCache`

`/repo/src/hash_table/bucket.rs` lines 87-89 (`DoublyLinkedList`) and 1072-1214 (its methods).

The list is an array of 32 pairs of bytes.  `.1` of a slot points to the next *newer* slot
(cyclically: the newest slot points to the oldest one), `.2` to the next *older* slot
(cyclically: the oldest slot points to the newest one).  The 1-based index of the newest slot
(`tail`, `0` = empty list) is kept outside, in the `removed_bitmap` word of the bucket.

Simplifications: the array is a total function on `Nat` (only indices below 32 are ever used, see
`Rep` in `Verif.Lru.Proof`), and bytes / `u32` are `Nat` (all values stay below 33, so the
truncating casts of the code are the identity).
-/

namespace Scc.Lru

open Spec (Op)

/-- The array of links; `DoublyLinkedList([UnsafeCell<(u8, u8)>; 32])`, bucket.rs 87-89. -/
abbrev Links := Nat → Nat × Nat

/-- `DoublyLinkedList::write` with a closure replacing the whole pair, bucket.rs 1081-1083. -/
def Links.set (s : Links) (i : Nat) (v : Nat × Nat) : Links :=
  fun j => if j = i then v else s j

/-- `write(i, |v| v.0 = a)`, bucket.rs 1081-1083. -/
def Links.setFst (s : Links) (i a : Nat) : Links := s.set i (a, (s i).2)

/-- `write(i, |v| v.1 = a)`, bucket.rs 1081-1083. -/
def Links.setSnd (s : Links) (i a : Nat) : Links := s.set i ((s i).1, a)

/-- `DoublyLinkedList::evict`, bucket.rs 1088-1114. Returns the new array and the optional
`(evicted, new_tail)`. -/
def evict (s : Links) (tail : Nat) : Links × Option (Nat × Nat) :=
  if tail = 0 then (s, none)
  else
    let lru := (s (tail - 1)).1
    if tail - 1 = lru then
      (s.set lru (0, 0), some (lru, 0))
    else
      let newLru := (s lru).1
      let s := s.setSnd newLru (tail - 1)
      let s := s.setFst (tail - 1) newLru
      (s.set lru (0, 0), some (lru, tail))

/-- `DoublyLinkedList::remove`, bucket.rs 1117-1159. Returns the new array and the optional new tail. -/
def remove (s : Links) (tail entry : Nat) : Links × Option Nat :=
  if tail = 0 ∨ (s entry = (0, 0) ∧ (s 0 ≠ (entry, entry) ∨ (tail ≠ 1 ∧ tail ≠ entry + 1))) then
    (s, none)
  else if (s entry).1 = entry then
    (s.set entry (0, 0), some 0)
  else
    let prev := (s entry).1
    let next := (s entry).2
    let s := s.setSnd prev next
    let s := s.setFst next prev
    let newTail := if tail = entry + 1 then some (next + 1) else none
    (s.set entry (0, 0), newTail)

/-- `DoublyLinkedList::promote`, bucket.rs 1162-1213. -/
def promote (s : Links) (tail entry : Nat) : Links × Option Nat :=
  if tail = entry + 1 then (s, none)
  else if tail = 0 then (s.set entry (entry, entry), some (entry + 1))
  else
    let s :=
      if s entry ≠ (0, 0) ∨ (s 0 = (entry, entry) ∧ tail = 1) then
        let prev := (s entry).1
        let next := (s entry).2
        let s := s.setSnd prev next
        s.setFst next prev
      else s
    let oldest := (s (tail - 1)).1
    let s := s.setSnd oldest entry
    let s := s.setFst entry oldest
    let s := s.setFst (tail - 1) entry
    let s := s.setSnd entry (tail - 1)
    (s, some (entry + 1))

/-- List together with its tail word (`removed_bitmap` of a CACHE bucket, bucket.rs 97-99). -/
structure State where
  links : Links
  tail : Nat

/-- A fresh bucket: all links `(0,0)` and tail `0` (zeroed memory, bucket.rs 88 `Default`). -/
def State.init : State := ⟨fun _ => (0, 0), 0⟩

/-- `Bucket::update_lru_tail` for a slot of the main block, bucket.rs 285-298. -/
def State.touch (st : State) (entry : Nat) : State :=
  let r := promote st.links st.tail entry
  ⟨r.1, r.2.getD st.tail⟩

/-- `Bucket::remove_from_lru_list` for a slot of the main block, bucket.rs 546-559. -/
def State.remove (st : State) (entry : Nat) : State :=
  let r := Lru.remove st.links st.tail entry
  ⟨r.1, r.2.getD st.tail⟩

/-- The LRU part of `Bucket::evict_lru_head`, bucket.rs 264-271: the victim is what `evict`
returns, or slot 0 when the list is empty. -/
def State.evict (st : State) : State × Nat :=
  match Lru.evict st.links st.tail with
  | (s, some (e, t)) => (⟨s, t⟩, e)
  | (s, none) => (⟨s, st.tail⟩, 0)

/-- One step of the list; `evict` also reports its victim if the list was not empty. -/
def State.step (st : State) : Op → State × Option Nat
  | .touch e => (st.touch e, none)
  | .remove e => (st.remove e, none)
  | .evict => (st.evict.1, if st.tail = 0 then none else some st.evict.2)

/-- Run a sequence of operations, collecting the results. -/
def State.run (st : State) : List Op → State × List (Option Nat)
  | [] => (st, [])
  | o :: os =>
    let r := st.step o
    let q := r.1.run os
    (q.1, r.2 :: q.2)

end Scc.Lru
