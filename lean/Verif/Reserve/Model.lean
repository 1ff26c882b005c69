/-!
# The minimum-capacity word

`HashTable::minimum_capacity_var` (an `AtomicUsize`) holds the sum of the initial minimum capacity and
of all live reservations, plus the top bit `RESIZING` while a thread replaces the bucket array.

Words are `Nat`s below `2^64`; additions and subtractions wrap as the hardware does. Atomic accesses
are interleaved (one access per step); any number of threads may take part.
-/

namespace Scc.Reserve

/-- `RESIZING` (/repo/src/hash_table.rs 1448). -/
def resizing : Nat := 2 ^ 63

/-- `word & !RESIZING` (/repo/src/hash_table.rs 77, 98). -/
def masked (word : Nat) : Nat := word % 2 ^ 63

/-- `fetch_sub` on an `AtomicUsize`: wraps. -/
def wrappingSub (a b : Nat) : Nat := (a + (2 ^ 64 - b % 2 ^ 64)) % 2 ^ 64

/-- `fetch_add`/the sum stored by the CAS: wraps. -/
def wrappingAdd (a b : Nat) : Nat := (a + b) % 2 ^ 64

/-- The state shared by all threads. `live` lists `additional_capacity()` of the `Reserve` values in
existence, `pending` the reservations between their load and their CAS (requested amount, value
loaded), `locked` whether some thread is between setting and clearing `RESIZING`. -/
structure State where
  word : Nat
  live : List Nat
  pending : List (Nat × Nat)
  locked : Bool

/-- A container created with minimum capacity `m` (/repo/src/hash_map.rs 206-227). -/
def init (m : Nat) : State := { word := m, live := [], pending := [], locked := false }

/-- The overflow check on a loaded word (/repo/src/hash_table.rs 96-101): `false` means that
`reserve` gives up. The subtraction is the machine's. -/
def admits (maxCap n seen : Nat) : Bool := ¬ (n > wrappingSub maxCap (masked seen))

/-- `minimum_capacity()` (/repo/src/hash_table.rs 76-78). -/
def State.minimumCapacity (s : State) : Nat := masked s.word

/-- The lower end of `capacity_range()` (/repo/src/hash_map.rs 1459-1461,
/repo/src/hash_index.rs 1114-1116, /repo/src/hash_cache.rs 1156-1158): a raw load of the word. -/
def State.capacityRangeStart (s : State) : Nat := s.word

/-- The events of one step. -/
inductive Event
  /-- `reserve n` loads the word and passes the check. -/
  | load (n : Nat)
  /-- `reserve n` loads the word (initially or after a failed CAS) and gives up. -/
  | refuse (n : Nat)
  /-- The CAS of `reserve n` succeeds. `reserve` returns `None` if `n = 0`, else a `Reserve`. -/
  | reserved (n : Nat)
  /-- The CAS fails (also spuriously) and the new value passes the check. -/
  | retry (n : Nat)
  /-- A `Reserve` is dropped. -/
  | release (n : Nat)
  /-- `try_resize` takes the resize lock. -/
  | lock
  /-- `try_resize` releases the resize lock. -/
  | unlock

/-- One atomic access by one thread (/repo/src/hash_table.rs 93-119, 1329-1349;
/repo/src/hash_map.rs 271-281, 2371-2382). -/
inductive Step (maxCap : Nat) : State → Event → State → Prop
  | load {s n} : admits maxCap n s.word = true →
      Step maxCap s (.load n) { s with pending := (n, s.word) :: s.pending }
  | refuse {s n} : admits maxCap n s.word = false → Step maxCap s (.refuse n) s
  | refuseRetry {s n seen l r} : s.pending = l ++ (n, seen) :: r → admits maxCap n s.word = false →
      Step maxCap s (.refuse n) { s with pending := l ++ r }
  | retry {s n seen l r} : s.pending = l ++ (n, seen) :: r → admits maxCap n s.word = true →
      Step maxCap s (.retry n) { s with pending := l ++ (n, s.word) :: r }
  | reserved {s n seen l r} : s.pending = l ++ (n, seen) :: r → s.word = seen →
      Step maxCap s (.reserved n)
        { s with
          word := wrappingAdd n seen
          pending := l ++ r
          live := if n = 0 then s.live else n :: s.live }
  | release {s n l r} : s.live = l ++ n :: r →
      Step maxCap s (.release n) { s with word := wrappingSub s.word n, live := l ++ r }
  | lock {s} : s.word < resizing →
      Step maxCap s .lock { s with word := wrappingAdd s.word resizing, locked := true }
  | unlock {s} : s.locked = true →
      Step maxCap s .unlock { s with word := wrappingSub s.word resizing, locked := false }

/-- States reachable from a container created with minimum capacity `m`. -/
inductive Reachable (maxCap m : Nat) : State → Prop
  | init : Reachable maxCap m (init m)
  | step {s e s'} : Reachable maxCap m s → Step maxCap s e s' → Reachable maxCap m s'

end Scc.Reserve
