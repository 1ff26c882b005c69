/-!
# Lock-free lookups of `HashIndex` under release/acquire/relaxed memory

The other models interleave accesses to one memory. Here every location has the list of all values written to it, each
thread has a view of how far it must have seen each location, and a load may return any value that is not older than
that: the operational form of the fragment of the C++ and Rust memory model without sequentially consistent accesses,
fences and speculation. Storing with `Release` attaches the view of the thread to the value, loading with `Acquire` takes
it over; `Relaxed` does neither. All locations of a bucket are written only under its lock, so that writes to one location
come in the order in which they are made.

Locks and epochs are contracts: who gets a lock takes over the view of whoever released it, and a slot is emptied only if
every guard that is there, and every one created later, has seen the entry being marked (`Step.rcOcc`, `Step.start`; C21).
Linked buckets and `update` are left out.
-/

namespace Scc.Weak

/-- The locations of a bucket (/repo/src/hash_table/bucket.rs 41-57, 88-103), and for an array `rehashing_metadata` and
`linked_array` (/repo/src/hash_table/bucket_array.rs 14-23). -/
inductive Field
  | len
  | occ
  | rem
  | hash (i : Nat)
  | data (i : Nat)
  | helpers
  | link
  deriving DecidableEq

structure Loc where
  b : Nat
  f : Field
  deriving DecidableEq

/-- The newest value of each location a thread must have seen. -/
abbrev View := Loc → Nat

def View.join (v w : View) : View := fun l => max (v l) (w l)

def View.zero : View := fun _ => 0

/-- Values: numbers, bitmaps, slots of a data block (the key; `none`: not initialised, or dropped). -/
inductive Val
  | num (n : Nat)
  | bits (f : Nat → Bool)
  | pair (e : Option Nat)

def Val.n : Val → Nat
  | .num n => n
  | _ => 0

def Val.bit (v : Val) (i : Nat) : Bool :=
  match v with
  | .bits f => f i
  | _ => false

def Val.entry : Val → Option Nat
  | .pair e => e
  | _ => none

/-- A value that was written, and the view that comes with it. -/
structure Msg where
  val : Val
  view : View

/-- What a new location contains. The array has an older one linked to it. -/
def Field.first : Field → Val
  | .len => .num 0
  | .occ => .bits (fun _ => false)
  | .rem => .bits (fun _ => false)
  | .hash _ => .num 0
  | .data _ => .pair none
  | .helpers => .num 0
  | .link => .num 1

/-- What a thread that has a bucket locked is doing. In an insertion `k` is the slot of the old array the entry is taken
from, if it is being relocated. -/
inductive Phase
  | idle
  | insHash (b i e : Nat) (k : Option (Nat × Nat))
  | insOcc (b i e : Nat) (k : Option (Nat × Nat))
  | insLen (b i e : Nat) (k : Option (Nat × Nat))
  | out (b i c j : Nat)
  | outLen (b i : Nat)
  | mkHash (b i : Nat)
  | mkRem (b i : Nat)
  | rcRem (b : Nat) (D : Nat → Bool)
  | rcDrop (b : Nat) (D : Nat → Bool)

/-- After an insertion into slot `i` of bucket `b`, a relocated entry leaves the old bucket. -/
def Phase.after (b i : Nat) : Option (Nat × Nat) → Phase
  | none => .idle
  | some (b', i') => .out b' i' b i

/-- Where a lookup of key `e` in bucket `b` is. `f` is the value of `removed_bitmap` that was loaded, `r` its position. It
ends with a slot, without one because `len` was 0, or without one after the slots were looked at. -/
inductive RPc
  | idle
  | len (b e : Nat)
  | rem (b e : Nat)
  | occ (b e : Nat) (f : Nat → Bool) (r : Nat)
  | look (b e : Nat) (bm : Nat → Bool) (r : Nat)
  | hit (b e i : Nat)
  | empty (b e : Nat)
  | miss (b e : Nat)

/-- The life of a slot; not part of the program. -/
inductive Slot
  | free
  | writing
  | used
  | marked
  | recycling
  | moved
  deriving DecidableEq

/-- Where an entry was moved to: bucket, slot, and the positions (`Ghost`) of the insertion there. -/
structure Tgt where
  c : Nat
  j : Nat
  born : Nat
  len : Nat
  rc : Nat

/-- Positions of writes in the history of a location, for each slot; not part of the program, except that `mark` and
`floor` say what epochs guarantee. -/
structure Ghost where
  sl : Nat → Nat → Slot
  /-- Where `occupied_bitmap` got the bit, last. -/
  born : Nat → Nat → Nat
  /-- Where `removed_bitmap` got the bit, last. -/
  mark : Nat → Nat → Nat
  /-- The mark of the last entry that was dropped. -/
  floor : Nat → Nat → Nat
  /-- Where `occupied_bitmap` lost the bit, last, by recycling. -/
  oc : Nat → Nat → Nat
  /-- Where `removed_bitmap` lost the bit, last. -/
  rc : Nat → Nat → Nat
  /-- Where `len` counted the slot, last. -/
  lenIx : Nat → Nat → Nat
  /-- The slots `len` counts. -/
  counted : Nat → List Nat
  tgt : Nat → Nat → Option Tgt
  /-- The partial hash is in its cell. -/
  hashed : Nat → Nat → Bool

structure St where
  /-- The position of the newest value. -/
  cnt : Loc → Nat
  msg : Loc → Nat → Msg
  view : Nat → View
  lockView : Nat → View
  own : Nat → Option Nat
  /-- Entries are being taken out of the bucket, it will be killed. -/
  dead : Nat → Bool
  ph : Nat → Phase
  /-- The guard of the thread: its view when the guard was created. -/
  act : Nat → Option View
  pc : Nat → RPc
  /-- The threads between `start_incremental_rehash` and `end_incremental_rehash`. -/
  helping : List Nat
  /-- The thread that is to unlink the old array. -/
  last : Option Nat
  g : Ghost

def upd {α β : Type} [DecidableEq α] (f : α → β) (a : α) (x : β) : α → β := fun y => if y = a then x else f y

def upd2 {β : Type} (f : Nat → Nat → β) (a b : Nat) (x : β) : Nat → Nat → β := fun y z => if y = a ∧ z = b then x else f y z

def St.init : St :=
  { cnt := fun _ => 0, msg := fun l _ => ⟨l.f.first, .zero⟩, view := fun _ => .zero, lockView := fun _ => .zero,
    own := fun _ => none, dead := fun _ => false, ph := fun _ => .idle, act := fun _ => none, pc := fun _ => .idle,
    helping := [], last := none,
    g := ⟨fun _ _ => .free, fun _ _ => 0, fun _ _ => 0, fun _ _ => 0, fun _ _ => 0, fun _ _ => 0, fun _ _ => 0,
      fun _ => [], fun _ _ => none, fun _ _ => false⟩ }

/-- The newest value. -/
def St.now (s : St) (l : Loc) : Val := (s.msg l (s.cnt l)).val

/-- Thread `t` writes; `rel` says whether its view comes with the value. -/
def St.write (s : St) (t : Nat) (l : Loc) (v : Val) (rel : Bool) : St :=
  { s with
    cnt := upd s.cnt l (s.cnt l + 1),
    msg := fun l' k => if l' = l ∧ k = s.cnt l + 1 then
      ⟨v, if rel then upd (s.view t) l (s.cnt l + 1) else .zero⟩ else s.msg l' k,
    view := upd s.view t (upd (s.view t) l (s.cnt l + 1)) }

/-- Thread `t` loads the value at position `k` and takes over the view `w` that comes with it. -/
def St.see (s : St) (t : Nat) (l : Loc) (k : Nat) (w : View) : St :=
  { s with view := upd s.view t (View.join (upd (s.view t) l k) w) }

/-- The value at position `k` may be loaded by `t`. -/
def St.can (s : St) (t : Nat) (l : Loc) (k : Nat) : Prop := s.view t l ≤ k ∧ k ≤ s.cnt l

def St.phase (s : St) (t : Nat) (p : Phase) : St := { s with ph := upd s.ph t p }

def St.at (s : St) (t : Nat) (p : RPc) : St := { s with pc := upd s.pc t p }

/-- One step of a thread. `H` gives the partial hash of a key. `m` says whether `len` is stored with `Release` and loaded
with `Acquire`; in the code it is not (bucket.rs 139, 171, 227, 366-367). -/
inductive Step (H : Nat → Nat) (m : Bool) : St → St → Prop
  /-- Threads communicate by other means. -/
  | sync (s t u) : Step H m s { s with view := upd s.view u (View.join (s.view u) (s.view t)) }
  /-- The lock of a bucket. -/
  | lock {s t b} : s.own b = none →
      Step H m s { s with own := upd s.own b (some t), view := upd s.view t (View.join (s.view t) (s.lockView b)) }
  | unlock {s t b} : s.own b = some t → s.ph t = .idle →
      Step H m s { s with own := upd s.own b none, lockView := upd s.lockView b (s.view t) }
  -- insert, bucket.rs 142-178, insert_entry 436-460
  | insData {s t b i e} : s.own b = some t → s.ph t = .idle → s.dead b = false → (s.now ⟨b, .occ⟩).bit i = false →
      Step H m s { (s.write t ⟨b, .data i⟩ (.pair (some e)) false).phase t (.insHash b i e none) with
        g := { s.g with sl := upd2 s.g.sl b i .writing } }
  /-- `extract_from` (bucket.rs 329-368) begins like `insert`. -/
  | exData {s t b i e b' i'} : s.own b = some t → s.ph t = .idle → s.dead b = false →
      (s.now ⟨b, .occ⟩).bit i = false → s.own b' = some t → b' ≠ b → (s.now ⟨b', .occ⟩).bit i' = true →
      (s.now ⟨b', .rem⟩).bit i' = false → (s.now ⟨b', .data i'⟩).entry = some e →
      Step H m s { (s.write t ⟨b, .data i⟩ (.pair (some e)) false).phase t (.insHash b i e (some (b', i'))) with
        dead := upd s.dead b' true, g := { s.g with sl := upd2 s.g.sl b i .writing } }
  | insHash {s t b i e k} : s.ph t = .insHash b i e k →
      Step H m s { (s.write t ⟨b, .hash i⟩ (.num (H e)) false).phase t (.insOcc b i e k) with
        g := { s.g with hashed := upd2 s.g.hashed b i true } }
  /-- 456-459. -/
  | insOcc {s t b i e k} : s.ph t = .insOcc b i e k →
      Step H m s { (s.write t ⟨b, .occ⟩ (.bits (fun x => x == i || (s.now ⟨b, .occ⟩).bit x)) true).phase t
          (.insLen b i e k) with
        g := { s.g with sl := upd2 s.g.sl b i .used, born := upd2 s.g.born b i (s.cnt ⟨b, .occ⟩ + 1) } }
  /-- 171. -/
  | insLen {s t b i e k} : s.ph t = .insLen b i e k →
      Step H m s { (s.write t ⟨b, .len⟩ (.num ((s.now ⟨b, .len⟩).n + 1)) m).phase t
          (.after b i k) with
        g := { s.g with lenIx := upd2 s.g.lenIx b i (s.cnt ⟨b, .len⟩ + 1),
                        counted := upd s.g.counted b (i :: s.g.counted b) } }
  /-- The entry leaves the old bucket, 348-364. -/
  | out {s t b i c j} : s.ph t = .out b i c j →
      Step H m s { (s.write t ⟨b, .occ⟩ (.bits (fun x => !(x == i) && (s.now ⟨b, .occ⟩).bit x)) true).phase t
          (.outLen b i) with
        g := { s.g with sl := upd2 s.g.sl b i .moved, 
                        tgt := upd2 s.g.tgt b i (some ⟨c, j, s.g.born c j, s.g.lenIx c j, s.g.rc c j⟩) } }
  /-- 366-367. -/
  | outLen {s t b i} : s.ph t = .outLen b i →
      Step H m s { (s.write t ⟨b, .len⟩ (.num ((s.now ⟨b, .len⟩).n - 1)) m).phase t .idle with
        g := { s.g with counted := upd s.g.counted b ((s.g.counted b).erase i) } }
  /-- `mark_removed`, 219-250: first the length. -/
  | mark {s t b i} : s.own b = some t → s.ph t = .idle → s.dead b = false → (s.now ⟨b, .occ⟩).bit i = true →
      (s.now ⟨b, .rem⟩).bit i = false →
      Step H m s { (s.write t ⟨b, .len⟩ (.num ((s.now ⟨b, .len⟩).n - 1)) m).phase t (.mkHash b i) with
        g := { s.g with counted := upd s.g.counted b ((s.g.counted b).erase i) } }
  /-- Then the epoch takes the place of the partial hash (240-242). -/
  | mkHash {s t b i} (ep : Nat) : s.ph t = .mkHash b i →
      Step H m s { (s.write t ⟨b, .hash i⟩ (.num ep) false).phase t (.mkRem b i) with
        g := { s.g with hashed := upd2 s.g.hashed b i false } }
  | mkRem {s t b i} : s.ph t = .mkRem b i →
      Step H m s { (s.write t ⟨b, .rem⟩ (.bits (fun x => x == i || (s.now ⟨b, .rem⟩).bit x)) true).phase t .idle with
        g := { s.g with sl := upd2 s.g.sl b i .marked, mark := upd2 s.g.mark b i (s.cnt ⟨b, .rem⟩ + 1) } }
  /-- `drop_unreachable_entries`, 497-534: some of the slots that are marked. Epochs: all guards have seen the marks. -/
  | rcOcc {s t b D} : s.own b = some t → s.ph t = .idle → s.dead b = false →
      (∀ i, D i = true → (s.now ⟨b, .rem⟩).bit i = true) →
      (∀ i, D i = true → ∀ u v, s.act u = some v → s.g.mark b i ≤ v ⟨b, .rem⟩) →
      Step H m s { (s.write t ⟨b, .occ⟩ (.bits (fun x => !D x && (s.now ⟨b, .occ⟩).bit x)) true).phase t (.rcRem b D) with
        g := { s.g with
          sl := fun y i => if y = b ∧ D i = true then .recycling else s.g.sl y i,
          oc := fun y i => if y = b ∧ D i = true then s.cnt ⟨b, .occ⟩ + 1 else s.g.oc y i,
          floor := fun y i => if y = b ∧ D i = true then s.g.mark y i else s.g.floor y i } }
  | rcRem {s t b D} : s.ph t = .rcRem b D →
      Step H m s { (s.write t ⟨b, .rem⟩ (.bits (fun x => !D x && (s.now ⟨b, .rem⟩).bit x)) true).phase t (.rcDrop b D) with
        g := { s.g with
          sl := fun y i => if y = b ∧ D i = true then .free else s.g.sl y i,
          rc := fun y i => if y = b ∧ D i = true then s.cnt ⟨b, .rem⟩ + 1 else s.g.rc y i } }
  | rcDrop {s t b D i} : s.ph t = .rcDrop b D → D i = true →
      Step H m s ((s.write t ⟨b, .data i⟩ (.pair none) false).phase t (.rcDrop b (fun x => !(x == i) && D x)))
  | rcDone {s t b D} : s.ph t = .rcDrop b D → Step H m s (s.phase t .idle)
  -- lookups, search_entry 615-645 and search_data_block 686-722
  /-- A guard is created. Epochs: it has seen the marks of all entries that were dropped. -/
  | start {s t} : s.act t = none → (∀ b i, s.g.floor b i ≤ s.view t ⟨b, .rem⟩) →
      Step H m s { s with act := upd s.act t (some (s.view t)) }
  | stop {s t} : Step H m s { (s.at t .idle) with act := upd s.act t none }
  | search {s t v} (b e : Nat) : s.act t = some v → Step H m s (s.at t (.len b e))
  /-- 623. -/
  | lenZero {s t b e k} : s.pc t = .len b e → s.can t ⟨b, .len⟩ k → (s.msg ⟨b, .len⟩ k).val.n = 0 →
      Step H m s ((s.see t ⟨b, .len⟩ k (s.msg ⟨b, .len⟩ k).view).at t (.empty b e))
  | lenPos {s t b e k} : s.pc t = .len b e → s.can t ⟨b, .len⟩ k → (s.msg ⟨b, .len⟩ k).val.n ≠ 0 →
      Step H m s ((s.see t ⟨b, .len⟩ k (s.msg ⟨b, .len⟩ k).view).at t (.rem b e))
  /-- 697. -/
  | loadRem {s t b e k} : s.pc t = .rem b e → s.can t ⟨b, .rem⟩ k →
      Step H m s ((s.see t ⟨b, .rem⟩ k (s.msg ⟨b, .rem⟩ k).view).at t (.occ b e (s.msg ⟨b, .rem⟩ k).val.bit k))
  | loadOcc {s t b e f r k} : s.pc t = .occ b e f r → s.can t ⟨b, .occ⟩ k →
      Step H m s ((s.see t ⟨b, .occ⟩ k (s.msg ⟨b, .occ⟩ k).view).at t
        (.look b e (fun x => !f x && (s.msg ⟨b, .occ⟩ k).val.bit x) r))
  /-- A slot with the partial hash and the key (703-718). Cells are not atomic; whatever a racing read may give is in the
  history. -/
  | hit {s t b e bm r i kh kd} : s.pc t = .look b e bm r → bm i = true →
      s.can t ⟨b, .hash i⟩ kh → (s.msg ⟨b, .hash i⟩ kh).val.n = H e →
      s.can t ⟨b, .data i⟩ kd → (s.msg ⟨b, .data i⟩ kd).val.entry = some e → Step H m s (s.at t (.hit b e i))
  /-- No slot has both. -/
  | miss {s t b e bm r} : s.pc t = .look b e bm r →
      (∀ i, bm i = true → (∃ k, s.can t ⟨b, .hash i⟩ k ∧ (s.msg ⟨b, .hash i⟩ k).val.n ≠ H e) ∨
        ∃ k, s.can t ⟨b, .data i⟩ k ∧ (s.msg ⟨b, .data i⟩ k).val.entry ≠ some e) →
      Step H m s (s.at t (.miss b e))
  -- helping, hash_table.rs 1098-1158
  /-- `start_incremental_rehash`: `compare_exchange` with `Acquire`. -/
  | begin {s t} : t ∉ s.helping → s.last = none → (s.now ⟨0, .link⟩).n = 1 →
      Step H m s { s with
        cnt := upd s.cnt ⟨0, .helpers⟩ (s.cnt ⟨0, .helpers⟩ + 1),
        msg := fun l k => if l = ⟨0, .helpers⟩ ∧ k = s.cnt ⟨0, .helpers⟩ + 1 then
          ⟨.num ((s.now ⟨0, .helpers⟩).n + 1), (s.msg ⟨0, .helpers⟩ (s.cnt ⟨0, .helpers⟩)).view⟩ else s.msg l k,
        view := upd s.view t (View.join (upd (s.view t) ⟨0, .helpers⟩ (s.cnt ⟨0, .helpers⟩ + 1))
          (s.msg ⟨0, .helpers⟩ (s.cnt ⟨0, .helpers⟩)).view),
        helping := t :: s.helping }
  /-- `end_incremental_rehash`: `fetch_sub` with `Release`; whoever reaches 0 unlinks the old array (1135-1136). The value
  continues the release sequence of the one before. -/
  | «end» {s t} : t ∈ s.helping → s.ph t = .idle → (∀ b, s.own b ≠ some t) →
      Step H m s { s with
        cnt := upd s.cnt ⟨0, .helpers⟩ (s.cnt ⟨0, .helpers⟩ + 1),
        msg := fun l k => if l = ⟨0, .helpers⟩ ∧ k = s.cnt ⟨0, .helpers⟩ + 1 then
          ⟨.num ((s.now ⟨0, .helpers⟩).n - 1),
            View.join (upd (s.view t) ⟨0, .helpers⟩ (s.cnt ⟨0, .helpers⟩ + 1))
              (s.msg ⟨0, .helpers⟩ (s.cnt ⟨0, .helpers⟩)).view⟩ else s.msg l k,
        view := upd s.view t (upd (s.view t) ⟨0, .helpers⟩ (s.cnt ⟨0, .helpers⟩ + 1)),
        helping := s.helping.erase t,
        last := if (s.now ⟨0, .helpers⟩).n = 1 then some t else s.last }
  /-- `linked_array_var().swap((None, Tag::None), Release)` (1247). -/
  | unlink {s t} : s.last = some t →
      Step H m s ({ s with last := none }.write t ⟨0, .link⟩ (.num 0) true)
  /-- `linked_array` is loaded with `Acquire` and is null (bucket_array.rs 179). -/
  | noLink {s t v k} : s.act t = some v → s.can t ⟨0, .link⟩ k → (s.msg ⟨0, .link⟩ k).val.n = 0 →
      Step H m s (s.see t ⟨0, .link⟩ k (s.msg ⟨0, .link⟩ k).view)

/-- The states threads can get into. -/
inductive Reach (H : Nat → Nat) (m : Bool) : St → Prop
  | init : Reach H m .init
  | step {s s'} : Reach H m s → Step H m s s' → Reach H m s'

end Scc.Weak
