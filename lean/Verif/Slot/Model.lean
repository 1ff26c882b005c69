/-!
# The slots of a leaf under release/acquire memory

`Leaf` (/repo/src/tree_index/leaf.rs 22-35) keeps its entries in an array of `MaybeUninit` that is read and written without any
synchronisation of its own. Whether an entry may be read, and by whom it may be written, is decided by one word, `metadata`.
This model follows the accesses to both by any number of threads, with the orderings of the code:

* `insert` (342-379), `post_insert` (645-696), `rollback` (287-300);
* `remove_if` (383-475), `remove_range` (481-498), `search_*`, `max_less`, `min_greater_equal`, `Scanner`, `max_entry`,
  `freeze_and_distribute` (610-642) as far as they load the word and look at entries;
* `freeze` (210-220), `thaw` (123-133);
* `insert_unchecked` (191-197): fills the leaf before other threads can reach it, so that it belongs to the initial state;
* `drop` (742-757).

Memory: `metadata` has a history of values, the last of which has number `n`; after the initial one all are written by
read-modify-write operations, so that all values after a release operation belong to its release sequence, and a thread that reads one of
them with `Acquire` sees what all those before them have released. What a thread knows is a `View`. A load may return any value
that is not older than what the thread has seen.

Accesses to the slots are counted. There is a data race if a thread writes a slot without knowing of all accesses to it, or
reads it without knowing of all writes to it.

Simplifications: of a rank it is kept whether the entry is reachable, so that words are equal more often than in the code, and a
`compare_exchange` may fail at any time; which entries are looked at is left open (any reachable one, any
number of times), and so are the results of comparisons, which may also panic. The number of slots is left open. Pairs are numbers, one for
each call of `insert`. Any thread may freeze and thaw the leaf at any time.
-/

namespace Scc.Slot

/-- leaf.rs 808-815: `uninit_rank`, `removed_rank`, any other rank. -/
inductive Rk
  | free
  | gone
  | here
  deriving DecidableEq, Repr

/-- leaf.rs 32: `metadata`. -/
structure Word where
  rank : Nat → Rk
  frozen : Bool
  retired : Bool

/-- What a thread knows: values of `metadata` up to number `m`, how many writes to a slot, how many reads of it by each thread. -/
structure View where
  m : Nat
  w : Nat → Nat
  r : Nat → Nat → Nat

def View.join (a b : View) : View := ⟨max a.m b.m, fun i => max (a.w i) (b.w i), fun i u => max (a.r i u) (b.r i u)⟩

def upd {β : Type} (f : Nat → β) (i : Nat) (v : β) : Nat → β := fun j => if j = i then v else f j

inductive Pc
  | idle
  /-- `insert` owns the pair and has loaded the word with number `m` (leaf.rs 343). -/
  | ins (p m : Nat)
  /-- It has reserved slot `i` (360-366). -/
  | wrt (p i m : Nat)
  /-- `post_insert`: the pair is in the slot. `p` is kept to tell which one it was. -/
  | post (p i m : Nat)
  /-- `rollback` begins (287). -/
  | roll (p i : Nat)
  /-- It has taken `q` out of the slot (288). -/
  | back (q : Option Nat) (p i : Nat)
  /-- A lookup, removal or traversal that has loaded the word with number `m`, or holds references to what it has found. -/
  | view (m : Nat)
  deriving DecidableEq, Repr

/-- `cell i`: the pair in slot `i`, if it was written and not taken out; `wr i`, `rd i t`: the number of writes to the slot, of reads by thread
`t`; `out`: pairs that `insert` has given back, or that were dropped when it was left by a panic. -/
structure State where
  n : Nat
  word : Nat → Word
  mv : Nat → View
  tv : Nat → View
  wr : Nat → Nat
  rd : Nat → Nat → Nat
  cell : Nat → Option Nat
  next : Nat
  out : List (Option Nat)
  pc : Nat → Pc

/-- A leaf that was filled with `k` pairs before it became reachable (leaf.rs 191-197; leaf_node.rs 816-818). -/
def State.init (k : Nat) : State :=
  { n := 0
    word := fun _ => ⟨fun i => if i < k then .here else .free, false, false⟩
    mv := fun _ => ⟨0, fun i => if i < k then 1 else 0, fun _ _ => 0⟩
    tv := fun _ => ⟨0, fun i => if i < k then 1 else 0, fun _ _ => 0⟩
    wr := fun i => if i < k then 1 else 0
    rd := fun _ _ => 0
    cell := fun i => if i < k then some i else none
    next := k
    out := []
    pc := fun _ => .idle }

def State.go (s : State) (t : Nat) (c : Pc) : State := { s with pc := upd s.pc t c }

/-- A load of `metadata` with `Acquire` returns the value with number `m`. -/
def State.load (s : State) (t m : Nat) : State := { s with tv := upd s.tv t (((s.tv t).join (s.mv m)).join ⟨m, fun _ => 0, fun _ _ => 0⟩) }

/-- The view that goes with a new value: that of the last one, and, if the operation is a `Release`, that of the thread. -/
def State.relv (s : State) (rel : Bool) (a : View) : View :=
  ((s.mv s.n).join (if rel then a else s.mv s.n)).join ⟨s.n + 1, fun _ => 0, fun _ _ => 0⟩

/-- What the thread knows after a read-modify-write operation. -/
def State.acqv (s : State) (t : Nat) (acq : Bool) : View :=
  (if acq then (s.tv t).join (s.mv s.n) else s.tv t).join ⟨s.n + 1, fun _ => 0, fun _ _ => 0⟩

/-- A read-modify-write operation on `metadata` writes `w`. -/
def State.rmw (s : State) (t : Nat) (w : Word) (acq rel : Bool) : State :=
  { s with
    n := s.n + 1
    word := upd s.word (s.n + 1) w
    mv := upd s.mv (s.n + 1) (s.relv rel (s.acqv t acq))
    tv := upd s.tv t (s.acqv t acq) }

/-- `key_at`, `value_at`, `take` (leaf.rs 259-284): the slot is read. -/
def State.read (s : State) (t i : Nat) : State :=
  { s with
    rd := upd s.rd i (upd (s.rd i) t (s.rd i t + 1))
    tv := upd s.tv t { s.tv t with r := upd (s.tv t).r i (upd ((s.tv t).r i) t (s.rd i t + 1)) } }

/-- `write` (leaf.rs 269-274). -/
def State.write (s : State) (t i p : Nat) : State :=
  { s with
    wr := upd s.wr i (s.wr i + 1)
    cell := upd s.cell i (some p)
    tv := upd s.tv t { s.tv t with w := upd (s.tv t).w i (s.wr i + 1) } }

def Word.set (w : Word) (i : Nat) (k : Rk) : Word := { w with rank := upd w.rank i k }

/-- One step of thread `t`. -/
inductive Step (s : State) (t : Nat) : State → Prop
  /-- leaf.rs 343: `insert` is called with a new pair; the word is loaded. -/
  | call {m : Nat} : s.pc t = .idle → (s.tv t).m ≤ m → m ≤ s.n →
      Step s t (({ s.load t m with next := s.next + 1 } : State).go t (.ins s.next m))
  /-- 345-349, 374-377: retired, frozen, full, a duplicate; or a comparison panics, and the pair is dropped. -/
  | giveUp {p m : Nat} : s.pc t = .ins p m → Step s t (({ s with out := some p :: s.out } : State).go t .idle)
  /-- 374: `search_slot` looks at an entry. -/
  | insLook {p m i : Nat} : s.pc t = .ins p m → (s.word m).rank i = .here → Step s t (s.read t i)
  /-- 354-363: the slot is reserved; `compare_exchange` compares values; `Acquire`. -/
  | reserve {p m i : Nat} : s.pc t = .ins p m → s.word s.n = s.word m → (s.word m).rank i = .free →
      Step s t ((s.rmw t ((s.word m).set i .gone) true false).go t (.wrt p i (s.n + 1)))
  /-- 360-366: it fails; `Acquire`. -/
  | reserveFail {p m m' : Nat} : s.pc t = .ins p m → (s.tv t).m ≤ m' → m' ≤ s.n →
      Step s t ((s.load t m').go t (.ins p m'))
  /-- 368. -/
  | write {p i m : Nat} : s.pc t = .wrt p i m → Step s t ((s.write t i p).go t (.post p i m))
  /-- 657-658: `compare` looks at an entry. -/
  | postLook {p i m j : Nat} : s.pc t = .post p i m → (s.word m).rank j = .here → Step s t (s.read t j)
  /-- … and at the own one (646). -/
  | postOwn {p i m : Nat} : s.pc t = .post p i m → Step s t (s.read t i)
  /-- 682-694: the entry becomes reachable; `AcqRel`. -/
  | publish {p i m : Nat} : s.pc t = .post p i m → s.word s.n = s.word m →
      Step s t ((s.rmw t ((s.word m).set i .here) true true).go t .idle)
  /-- 683-691: it fails; `Acquire`. -/
  | publishFail {p i m m' : Nat} : s.pc t = .post p i m → (s.tv t).m ≤ m' → m' ≤ s.n →
      Step s t ((s.load t m').go t (.post p i m'))
  /-- 670-673, 687-689: a duplicate; the leaf is frozen or retired. -/
  | giveBack {p i m : Nat} : s.pc t = .post p i m → Step s t (s.go t (.roll p i))
  /-- A comparison panics; the slot stays as it is. -/
  | unwind {p i m : Nat} : s.pc t = .post p i m → Step s t (s.go t .idle)
  /-- 288: `take`. -/
  | take {p i : Nat} : s.pc t = .roll p i →
      Step s t (({ s.read t i with cell := upd s.cell i none } : State).go t (.back (s.cell i) p i))
  /-- 289-299: the slot is free again, `fetch_and` with `Release`; the pair is returned. -/
  | free {q : Option Nat} {p i : Nat} : s.pc t = .back q p i →
      Step s t (({ s.rmw t ((s.word s.n).set i .free) false true with out := q :: s.out } : State).go t .idle)
  /-- 391, 485, 507, 518, 568, 877, 968, …: the word is loaded by a lookup, a removal or a traversal. -/
  | look {m : Nat} : s.pc t = .idle → (s.tv t).m ≤ m → m ≤ s.n → Step s t ((s.load t m).go t (.view m))
  /-- An entry is looked at, then or later through a reference. -/
  | see {m i : Nat} : s.pc t = .view m → (s.word m).rank i = .here → Step s t (s.read t i)
  /-- 441-456: an entry is removed, `AcqRel`; the leaf may retire. -/
  | remove {m i : Nat} {r : Bool} : s.pc t = .view m → s.word s.n = s.word m → (s.word m).rank i = .here →
      Step s t ((s.rmw t { (s.word m).set i .gone with retired := r } true true).go t .idle)
  /-- 457-465: it fails; `Acquire`. -/
  | removeFail {m m' : Nat} : s.pc t = .view m → (s.tv t).m ≤ m' → m' ≤ s.n →
      Step s t ((s.load t m').go t (.view m'))
  /-- The references are given up. -/
  | leave {m : Nat} : s.pc t = .view m → Step s t (s.go t .idle)
  /-- 210-220, 615-625: `AcqRel`; the value before is used to look at the entries. -/
  | freeze : s.pc t = .idle → (s.word s.n).frozen = false →
      Step s t ((s.rmw t { s.word s.n with frozen := true } true true).go t (.view (s.n + 1)))
  /-- 123-133: `Release`. -/
  | thaw : s.pc t = .idle → (s.word s.n).frozen = true →
      Step s t (s.rmw t { s.word s.n with frozen := false } false true)

inductive Reach (k : Nat) : State → Prop
  | init : Reach k (.init k)
  | step {s s' : State} {t : Nat} : Reach k s → Step s t s' → Reach k s'

/-- `drop` (leaf.rs 742-757), when no thread can reach the leaf any more: the pairs in the first `c` slots that are not free. A slot that was
not written, or from which the pair has been taken, would give `none`. -/
def dropped (s : State) (c : Nat) : List (Option Nat) :=
  ((List.range c).filter (fun i => (s.word s.n).rank i ≠ .free)).map s.cell

end Scc.Slot
