import Verif.Leaf.Word

/-!
# A leaf of the tree index

/repo/src/tree_index/leaf.rs. The same structure stores the entries of a `TreeIndex` and, with child
pointers as values, the children of its nodes. This file: what one thread does, all accesses of an
operation at once. The interleaved accesses are in `Verif/LeafConc/Model.lean`.
-/

namespace Scc.Leaf

/-- A total order on keys: the assumption on `Ord`/`Comparable` implementations. Keys that compare
equal are identified. -/
class KeyOrd (K : Type) where
  lt : K → K → Prop
  dec : (a b : K) → Decidable (lt a b)
  irrefl : ∀ a, ¬ lt a a
  trans : ∀ a b c, lt a b → lt b c → lt a c
  tri : ∀ a b, lt a b ∨ a = b ∨ lt b a

instance : KeyOrd Nat :=
  { lt := fun a b => a < b, dec := fun a b => inferInstanceAs (Decidable (a < b)),
    irrefl := fun a => Nat.lt_irrefl a, trans := fun _ _ _ h k => Nat.lt_trans h k,
    tri := fun a b => Nat.lt_trichotomy a b }

variable {K V : Type} [KeyOrd K]

instance (a b : K) : Decidable (KeyOrd.lt a b) := KeyOrd.dec a b

/-- `Ord::cmp`. -/
def cmp (a b : K) : Ordering :=
  if KeyOrd.lt a b then .lt else if KeyOrd.lt b a then .gt else .eq

/-- `Leaf` (leaf.rs 22-37) without the link: the metadata word and the entry array. `none` is an
uninitialised array element. -/
structure Leaf (K V : Type) where
  w : Word
  entry : Nat → Option (K × V)

/-- `Leaf::new` (leaf.rs 101-108). -/
def Leaf.new : Leaf K V := { w := 0#64, entry := fun _ => none }

/-- `InsertResult` (leaf.rs 47-64); the returned key and value are those of the call. `Retry` is never
the result of a leaf operation. -/
inductive InsRes
  | success | duplicate | full | frozen | retired
  deriving DecidableEq, Repr

/-- `RemoveResult` (leaf.rs 68-79); `Cleanup` is never the result of a leaf operation. -/
inductive RemRes
  | success | retired | fail | frozen
  deriving DecidableEq, Repr

/-- The shape of most loops of the file: `for i in 0..num_entries { if mutable_metadata == 0 { break; }
let rank = mutable_metadata % 16; BODY; mutable_metadata >>= 4; }`. An early `return` in the body is a
state in which the body does nothing. -/
def loopFrom {σ : Type} (f : σ → Nat → Nat → σ) : Nat → Nat → Word → σ → σ
  | 0, _, _, s => s
  | n + 1, i, mm, s =>
    if mm = 0#64 then s
    else loopFrom f n (i + 1) (mm >>> 4) (f s i (mm % (1#64 <<< 4)).toNat)

/-- The loop from slot 0. -/
def loop {σ : Type} (f : σ → Nat → Nat → σ) (w : Word) (s : σ) : σ := loopFrom f numEntries 0 w s

/-- `Leaf::compare` (leaf.rs 732-737): the key in slot `i` against `key`. A slot with a rank is
initialised (`Ok.init`), so that the last line is never used. -/
def Leaf.cmpAt (l : Leaf K V) (key : K) (i : Nat) : Ordering :=
  match l.entry i with
  | some e => cmp e.1 key
  | none => .lt

/-- The variables of the search loops: `max_min_rank`, `min_max_rank`, the indices belonging to them,
and the slot at which the loop returned. -/
structure Scan where
  lo : Nat
  hi : Nat
  loIdx : Nat
  hiIdx : Nat
  eq : Option Nat

/-- Initial values (leaf.rs 395-396, 528-530, 569-571, 703-704). -/
def Scan.start : Scan := { lo := 0, hi := removed, loIdx := numEntries, hiIdx := numEntries, eq := none }

/-- The body of the search loops of `search_slot` (leaf.rs 709-727), `remove_if` (leaf.rs 402-471) and
`min_greater_equal` (leaf.rs 577-597). -/
def Leaf.scanBody (l : Leaf K V) (key : K) (s : Scan) (i r : Nat) : Scan :=
  if s.eq.isSome then s
  else if r < s.hi ∧ s.lo < r then
    match l.cmpAt key i with
    | .lt => { s with lo := r, loIdx := i }
    | .gt => { s with hi := r, hiIdx := i }
    | .eq => { s with eq := some i }
  else s

/-- `Leaf::search_slot` (leaf.rs 699-730). -/
def Leaf.searchSlot (l : Leaf K V) (key : K) (w : Word) : Option Nat :=
  (loop (l.scanBody key) w Scan.start).eq

/-- `Leaf::search_entry`, `Leaf::search_value` (leaf.rs 503-520). -/
def Leaf.search (l : Leaf K V) (key : K) : Option (K × V) :=
  (l.searchSlot key l.w).bind l.entry

/-- `Leaf::min_greater_equal` (leaf.rs 564-606). -/
def Leaf.minGreaterEqual (l : Leaf K V) (key : K) : Option (K × V) :=
  let s := loop (l.scanBody key) l.w Scan.start
  match s.eq with
  | some i => l.entry i
  | none => if s.hiIdx ≠ numEntries then l.entry s.hiIdx else none

/-- The body of `max_less` (leaf.rs 535-554). -/
def Leaf.maxLessBody (l : Leaf K V) (key : K) (s : Scan) (i r : Nat) : Scan :=
  if r < s.hi ∧ s.lo < r then
    match l.cmpAt key i with
    | .lt => { s with lo := r, loIdx := i }
    | .gt => { s with hi := r }
    | .eq => { s with hi := r }
  else s

/-- `Leaf::max_less` (leaf.rs 524-557): the slot, `num_entries` if there is none. -/
def Leaf.maxLess (l : Leaf K V) (key : K) (w : Word) : Nat :=
  (loop (l.maxLessBody key) w Scan.start).loIdx

/-- `Leaf::max_entry` (leaf.rs 166-185); `lo` is `max_rank`. -/
def maxSlot (w : Word) : Nat × Nat :=
  loop (fun (s : Nat × Nat) i r => if s.1 < r ∧ r ≠ removed then (r, i) else s) w (0, numEntries)

def Leaf.maxEntry (l : Leaf K V) : Option (K × V) :=
  if (maxSlot l.w).2 ≠ numEntries then l.entry (maxSlot l.w).2 else none

/-- `Leaf::is_empty` (leaf.rs 143-156). -/
def Leaf.isEmpty (l : Leaf K V) : Bool :=
  loop (fun (s : Bool) _ r => s && !(r != 0 && r != removed)) l.w true

/-- The first slot in state "uninit" (leaf.rs 352-372). -/
def freeSlot (w : Word) : Option Nat := (List.range numEntries).find? (fun i => rank w i = 0)

/-- The variables of the loop of `post_insert`. -/
structure Post where
  lo : Nat
  hi : Nat
  new : Word
  dup : Bool

/-- The body of the loop of `post_insert` (leaf.rs 656-678). -/
def Leaf.postBody (l : Leaf K V) (key : K) (s : Post) (i r : Nat) : Post :=
  if s.dup then s
  else if r < s.hi ∧ s.lo < r then
    match l.cmpAt key i with
    | .lt => { s with lo := r }
    | .gt => { s with hi := r, new := augment s.new i (r + 1) }
    | .eq => { s with dup := true }
  else if r ≠ removed ∧ s.hi < r then { s with new := augment s.new i (r + 1) }
  else s

/-- One round of `post_insert` (leaf.rs 648-682): `none` if the key is found, else the word to store. -/
def Leaf.postWord (l : Leaf K V) (key : K) (slot : Nat) (prev : Word) : Option Word :=
  let s := loop (l.postBody key) prev { lo := 0, hi := removed, new := prev, dup := false }
  if s.dup then none else some (augment s.new slot (s.lo + 1))

/-- The result of a rollback (leaf.rs 293-299). -/
def rollbackRes (w : Word) : InsRes :=
  if retired w then .retired else if frozen w then .frozen else .duplicate

/-- `Leaf::write` (leaf.rs 269-274). -/
def Leaf.write (l : Leaf K V) (i : Nat) (k : K) (v : V) : Leaf K V :=
  { l with entry := fun j => if j = i then some (k, v) else l.entry j }

/-- `Leaf::insert` (leaf.rs 342-379) with `post_insert` (645-696) and `rollback` (287-300), undisturbed. -/
def Leaf.insert (l : Leaf K V) (k : K) (v : V) : Leaf K V × InsRes :=
  if retired l.w then (l, .retired)
  else if frozen l.w then (l, .frozen)
  else match freeSlot l.w with
    | some i =>
      let l' := { l with w := augment l.w i removed }.write i k v
      match l'.postWord k i l'.w with
      | some w => ({ l' with w := w }, .success)
      | none => ({ l' with w := clearSlot l'.w i }, rollbackRes (clearSlot l'.w i))
    | none => (l, if (l.searchSlot k l.w).isSome then .duplicate else .full)

/-- No slot other than `i` has a rank (leaf.rs 422-439). -/
def emptyBut (w : Word) (i : Nat) : Bool :=
  loop (fun (s : Bool) j r => s && !(i != j && (r != 0 && r != removed))) w true

/-- The word stored by a removal (leaf.rs 441-444). -/
def removeWord (w : Word) (i : Nat) : Word :=
  if emptyBut w i then retire (markRemoved w i) else markRemoved w i

/-- `Leaf::remove_if` (leaf.rs 383-475), undisturbed. -/
def Leaf.removeIf (l : Leaf K V) (key : K) (cond : V → Bool) : Leaf K V × RemRes :=
  if frozen l.w then (l, .frozen)
  else match (loop (l.scanBody key) l.w Scan.start).eq with
    | none => (l, .fail)
    | some i =>
      match l.entry i with
      | none => (l, .fail)
      | some e =>
        if !cond e.2 then (l, .fail)
        else ({ l with w := removeWord l.w i }, if emptyBut l.w i then .retired else .success)

/-- The variables of `Leaf::next`. -/
structure Nxt where
  rank : Nat
  idx : Nat
  ret : Bool

/-- The body of `Leaf::next` (leaf.rs 317-328). -/
def nextBody (index cur : Nat) (s : Nxt) (i r : Nat) : Nxt :=
  if s.ret then s
  else if i ≠ index ∧ r ≠ 0 ∧ r < s.rank then
    if r = cur + 1 then { s with idx := i, ret := true }
    else if cur < r then { s with rank := r, idx := i }
    else s
  else s

/-- `Leaf::next` (leaf.rs 303-332): the slot of the next higher rank, `num_entries` if there is none.
`index = num_entries` stands before the first entry. -/
def nextSlot (index : Nat) (w : Word) : Nat :=
  let cur := if index = numEntries then 0 else rank w index
  if cur < numEntries then
    (loop (nextBody index cur) w { rank := removed, idx := numEntries, ret := false }).idx
  else numEntries

/-- What a `Scanner` at slot `index` still yields (leaf.rs 943-954, 992-1000). -/
def Leaf.scanFrom (l : Leaf K V) (w : Word) : Nat → Nat → List (K × V)
  | 0, _ => []
  | n + 1, index =>
    let i := nextSlot index w
    if i = numEntries then [] else (l.entry i).toList ++ l.scanFrom w n i

/-- All entries a new `Scanner` yields (leaf.rs 874-880). There are at most `num_entries` ranks. -/
def Leaf.toList (l : Leaf K V) : List (K × V) := l.scanFrom l.w (numEntries + 1) numEntries

/-- `Leaf::remove_range` (leaf.rs 481-499); `contains` is `range_contains` (leaf.rs 82-95). The loop
runs over the word loaded at its beginning. -/
def Leaf.removeRange (l : Leaf K V) (contains : K → Bool) : Leaf K V :=
  loop (fun (m : Leaf K V) i r =>
    if r ≠ 0 ∧ r ≠ removed then
      match m.entry i with
      | some e => if contains e.1 then (m.removeIf e.1 (fun _ => true)).1 else m
      | none => m
    else m) l.w l

/-- The loop of `optimal_boundary` (leaf.rs 240-251). -/
def boundaryBody (s : Nat × Nat) (r : Nat) : Nat × Nat :=
  if r ≠ 0 ∧ r ≠ removed then
    if s.2 ≥ r then (s.1 - 1, r) else if s.2 ≠ 0 then (s.1 + 1, r) else (s.1, r)
  else s

/-- `Leaf::optimal_boundary` (leaf.rs 237-256). -/
def optimalBoundary (w : Word) : Nat :=
  let b := ((List.range numEntries).foldl (fun s i => boundaryBody s (rank w i)) (numEntries, 0)).1
  min (max b (numEntries / 2 + 1)) (numEntries + numEntries / 2 - 1) - numEntries / 2

/-- `Leaf::insert_unchecked` (leaf.rs 191-197). -/
def Leaf.insertUnchecked (l : Leaf K V) (k : K) (v : V) (i : Nat) : Leaf K V :=
  { l.write i k v with w := augment l.w i (i + 1) }

/-- The distribution loop of `freeze_and_distribute` (leaf.rs 633-641). -/
def distribute (boundary : Nat) : Nat → List (K × V) → Leaf K V → Option (Leaf K V) →
    Leaf K V × Option (Leaf K V)
  | _, [], lo, hi => (lo, hi)
  | i, (k, v) :: es, lo, hi =>
    if i < boundary then distribute boundary (i + 1) es (lo.insertUnchecked k v i) hi
    else distribute boundary (i + 1) es lo
      (some ((hi.getD Leaf.new).insertUnchecked k v (i - boundary)))

/-- `Leaf::freeze_and_distribute` (leaf.rs 610-642): the frozen leaf, the low-key leaf, the high-key
leaf. -/
def Leaf.freezeAndDistribute (l : Leaf K V) : Leaf K V × Leaf K V × Option (Leaf K V) :=
  ({ l with w := freeze l.w }, distribute (optimalBoundary l.w) 0 l.toList Leaf.new none)

/-- `Leaf::freeze` (leaf.rs 210-220). -/
def Leaf.freezeLeaf (l : Leaf K V) : Leaf K V × Bool :=
  if frozen l.w then (l, false) else ({ l with w := freeze l.w }, true)

/-- `Leaf::thaw` (leaf.rs 123-133). -/
def Leaf.thawLeaf (l : Leaf K V) : Leaf K V × Bool :=
  if frozen l.w then ({ l with w := thaw l.w }, true) else (l, false)

end Scc.Leaf
