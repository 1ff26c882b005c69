import Verif.Index.Proof

/-!
# Model of the incremental-rehash bookkeeping of an old bucket array

`/repo/src/hash_table.rs` lines 1098-1256.  One word of the old array packs the index of the next
bucket range to be claimed (multiples of 32) and the number of active helpers (low 5 bits).

The transition system lets any number of helpers claim, relocate, finish or give up in any order.
A CAS loop is one atomic step (a failed CAS has no effect and retries with the value read).
Sequentially consistent memory.
-/

namespace Scc.Rehash

open Scc.Index (not64)

/-- `start_incremental_rehash`, hash_table.rs 1098-1123: the claimed start index and the new word. -/
def startRehash (len word : Nat) : Option (Nat × Nat) :=
  if word ≥ len ∨ word &&& 31 = 31 then none
  else some (word &&& not64 31, word + 33)

/-- `end_incremental_rehash` with `success = true`, hash_table.rs 1133-1136: new word and the
return value that makes the caller detach the old array. -/
def endOk (len word : Nat) : Nat × Bool :=
  let m := word - 1
  (m, m &&& 31 = 0 ∧ m ≥ len)

/-- `end_incremental_rehash` with `success = false`, hash_table.rs 1137-1153: the new word. -/
def endFail (word prev : Nat) : Nat :=
  if word ≤ prev then word - 1
  else prev ||| ((word &&& 31) - 1)

/-- The range of buckets a helper that claimed `prev` works on, hash_table.rs 1174-1176. -/
def claimed (len prev b : Nat) : Prop := prev ≤ b ∧ b < min (prev + 32) len

/-- Global state of one old array. -/
structure State where
  /-- `num_cleared_buckets` of the old array -/
  word : Nat
  /-- buckets whose entries have been moved and that have been killed -/
  done : Nat → Bool
  /-- start indices claimed by the active helpers -/
  workers : List Nat
  /-- helpers that were told to detach the array and have not done it yet -/
  detaching : Nat
  /-- number of times the array has been detached -/
  detached : Nat

/-- A freshly linked old array. -/
def State.init : State := ⟨0, fun _ => false, [], 0, 0⟩

/-- One atomic step. -/
inductive Step (len : Nat) : State → State → Prop
  /-- A helper claims a range (hash_table.rs 1169, 1215). -/
  | claim {s : State} {p w : Nat} (h : startRehash len s.word = some (p, w)) :
      Step len s { s with word := w, workers := p :: s.workers }
  /-- A bucket is relocated and killed, by a helper or by a user operation (hash_table.rs 876-885,
  1232-1241). -/
  | relocate {s : State} (b : Nat) (hb : b < len) :
      Step len s { s with done := fun x => x = b || s.done x }
  /-- A helper found every bucket of its range killed or relocated it, and finishes
  (hash_table.rs 1244). -/
  | finish {s : State} {p : Nat} {l1 l2 : List Nat} (h : s.workers = l1 ++ p :: l2)
      (hd : ∀ b, claimed len p b → s.done b = true) :
      Step len s { s with
        word := (endOk len s.word).1
        workers := l1 ++ l2
        detaching := s.detaching + if (endOk len s.word).2 then 1 else 0 }
  /-- A helper gives up or is cancelled (`ExitGuard`, hash_table.rs 1170-1172, 1216-1218). -/
  | fail {s : State} {p : Nat} {l1 l2 : List Nat} (h : s.workers = l1 ++ p :: l2) :
      Step len s { s with word := endFail s.word p, workers := l1 ++ l2 }
  /-- The chosen helper swaps the link to null (hash_table.rs 1193-1200, 1245-1251). -/
  | detach {s : State} (h : 0 < s.detaching) :
      Step len s { s with detaching := s.detaching - 1, detached := s.detached + 1 }

/-- States reachable from a freshly linked array of `len` buckets. -/
inductive Reachable (len : Nat) : State → Prop
  | init : Reachable len State.init
  | step {s t : State} : Reachable len s → Step len s t → Reachable len t

end Scc.Rehash
