import Verif.Mist.Know

/-!
# Lookups without locks on a whole `HashIndex` under release/acquire memory

`peek_entry` (/repo/src/hash_table.rs 224-261; `peek`, `peek_with`, `contains` of `HashIndex`) beside the calls, relocations and resizes of
`Verif/Haze`. A lookup takes no lock: it loads the pointer to the current array, the link of that array, searches the bucket of the old array,
then the bucket of the current one, and loads the pointer again. Each of these may return an old value.

What a search of a bucket finds of one key is a read of a cell with a history (`Wr`): an entry for each call that took effect in that
bucket (`act`), and one for each relocation into it or out of it. A search returns the value at a position of the history that is
not older than what the thread knows, and it learns what was released with that entry: a bucket stores its bitmap of occupied slots with
`Release` (hash_table/bucket.rs) and a search loads it with `Acquire`.

Assumptions, next to those of `Verif/Haze`:

* That a search is such a read: `Verif/Weak` (C60) has a bucket in detail. Who saw that an entry was moved out does not find the new bucket as it
  was in the beginning (C60 needs that too).
* `OccupiedEntry::update` of `HashIndex` is left out: a lookup beside it may miss both copies (C20).
* Who finds the lock of an old bucket poisoned learns what was released with it (`Quiet.poison`), and the thread that removes a link knows what was
  released with all buckets of the old array (`unlink`). The code has `Release` only where those who relocate count (defect 27), so that this
  has to come from elsewhere.
* A lookup that finds null does not learn from it. Lookups that find the link set may go on with the old array even if they knew better.
-/

namespace Scc.Mist

open Scc.Haze

/-- An entry of the history of a key in a bucket: the access that made it, the value, whether it is a relocation, and what is released with it. -/
structure Wr where
  id : Nat
  val : Option Nat
  mv : Bool
  msg : View

/-- How the lookup got to the bucket of the current array. -/
inductive Src
  /-- The array has no link and never had. -/
  | direct
  /-- The link has been set to null. -/
  | unl
  /-- It has not found the key in the old bucket; `mo`: it has seen that this relocation moved it. -/
  | old (mo : Option Nat)

/-- Where a lookup of `k` is that began with the view `B`. -/
inductive Pk
  | idle
  /-- hash_table.rs 231: to load the pointer. -/
  | go (k : Nat) (B : View)
  /-- 233: it has array `v`, to load its link. -/
  | have (k : Nat) (B : View) (v : Nat)
  /-- 235-242: to search the old bucket. -/
  | old (k : Nat) (B : View) (v p : Nat)
  /-- 245-252: to search the current bucket. -/
  | cur (k : Nat) (B : View) (v : Nat) (src : Src)
  /-- 254: it has found nothing, at position `q` of the history. -/
  | chk (k : Nat) (B : View) (v q : Nat)
  | done (k : Nat) (B : View) (r : Option Nat)

structure Sys where
  s : State
  /-- The histories: array, key. -/
  h : Nat → Nat → List Wr
  /-- What is released where the link of an array is set to null. -/
  un : Nat → View → Prop
  pk : Nat → Pk

def Sys.init : Sys := ⟨State.init, fun _ _ => [], fun _ _ => False, fun _ => .idle⟩

/-- A step of `Verif/Haze` that changes no entry and no link. -/
structure Quiet (ix : Nat → Nat → Nat) (s s' : State) : Prop where
  crit : ∀ t x o v, s.pc t = .crit x o v → s'.pc t = .crit x o v
  mv : ∀ t v p i, s'.mp t = .kl v p i → s.mp t = .kl v p i
  unl : ∀ v, s'.unl v = s.unl v
  /-- Who goes on because the old bucket is dead knows what was released with it; who found the link removed knows what was released with that. -/
  poison : ∀ t x o v p, s.pc t = .at x o v → s'.pc t = .rdy x o v → s.prev v = some p →
    (∀ y, (s.bmsg p (ix p o.key)).ops y → (s'.tv t).ops y) ∨ (s.unl v = true ∧ ∀ y, (s.umsg v).ops y → (s'.tv t).ops y)

/-- The thread can find this position of the history: all entries it knows of are before it. -/
def Coh (h : Nat → Nat → List Wr) (V : View) (a k j : Nat) : Prop := ∀ i w, (h a k)[i]? = some w → V.ops w.id → i < j

def State.recv (s : State) (t : Nat) (U : View) : State := { s with tv := upd s.tv t ((s.tv t).join U) }
def State.send (s : State) (t : Nat) : State := { s with post := fun v => s.post v ∨ v = s.tv t }

/-- One more entry at this key. -/
def push (h : Nat → Nat → List Wr) (a k : Nat) (w : Wr) : Nat → Nat → List Wr := upd2 h a k (h a k ++ [w])

/-- hash_table.rs 963-991: each entry that is moved is written to the new bucket first and then removed from the old one. -/
def moveH (ix : Nat → Nat → Nat) (s : State) (h : Nat → Nat → List Wr) (t v p i : Nat) : Nat → Nat → List Wr := fun a k =>
  if ix p k = i ∧ s.val p k ≠ none then
    (if a = v then h v k ++ [⟨s.nid, s.val p k, true, s.tv t⟩] else if a = p then h p k ++ [⟨s.nid, none, true, s.tv t⟩] else h a k)
  else h a k

/-- hash_table.rs 1244-1252: as `Scc.Haze.Step.unlink`. -/
def State.unlink (s : State) (t v : Nat) : State := { s with unl := upd s.unl v true, umsg := upd s.umsg v ((s.umsg v).join (s.tv t)) }

/-- After a search of the old bucket that found the entry `w`. -/
def pkOld (k : Nat) (B : View) (v : Nat) (w : Wr) : Pk :=
  match w.val with
  | some x => .done k B (some x)
  | none => .cur k B v (.old (if w.mv then some w.id else none))

/-- After a search of the current bucket that found the entry `w` at position `q`. -/
def pkCur (k : Nat) (B : View) (v q : Nat) (w : Wr) : Pk :=
  match w.val with
  | some x => .done k B (some x)
  | none => .chk k B v q

inductive Step (ix : Nat → Nat → Nat) : Sys → Sys → Prop
  | quiet {S : Sys} {s' : State} (st : Haze.Step ix S.s s') (q : Quiet ix S.s s') : Step ix S { S with s := s' }
  /-- A call takes effect; what it knew before is released with it (not the call itself: it is not over, and a later lookup that has found the
  entry may miss it, C46). It stores an entry, removes one, or changes nothing. -/
  | act {S : Sys} {t x : Nat} {o : Op} {v : Nat} (h : S.s.pc t = .crit x o v)
      (hu : S.s.val v o.key = none ∨ (o.f (S.s.val v o.key)).1 = none ∨ (o.f (S.s.val v o.key)).1 = S.s.val v o.key) :
      Step ix S { S with s := (State.send S.s t).act ix t x o v, h := push S.h v o.key ⟨x, (o.f (S.s.val v o.key)).1, false, S.s.tv t⟩ }
  | move {S : Sys} {t v p i : Nat} (h : S.s.mp t = .mv v p i) (hw : ∀ b, Target ix v p i b → S.s.wl v b = none ∧ ∀ u, S.s.sl v b u = false) :
      Step ix S { S with s := (State.send S.s t).move ix t v p i, h := moveH ix S.s S.h t v p i }
  | unlink {S : Sys} {t v p : Nat} (h : S.s.mp t = .have v) (hp : S.s.prev v = some p) (hd : ∀ k, S.s.dead p (ix p k) = true)
      (hk : ∀ k y, (S.s.bmsg p (ix p k)).ops y → (S.s.tv t).ops y) :
      Step ix S { S with s := State.send (State.unlink S.s t v) t, un := fun a U => S.un a U ∨ (a = v ∧ U = S.s.tv t) }
  /-- A lookup begins. -/
  | start {S : Sys} {t : Nat} (k : Nat) (h : S.pk t = .idle) : Step ix S { S with s := State.send S.s t, pk := upd S.pk t (.go k (S.s.tv t)) }
  /-- hash_table.rs 231: it loads an array, -/
  | load {S : Sys} {t k : Nat} {B : View} {m : Nat} (h : S.pk t = .go k B) (hi : S.s.mp t = .idle) (ok : Ok S.s t m) (ha : S.s.isA m = true) :
      Step ix S { S with s := S.s.goto' t (.have m) (acq S.s t m), pk := upd S.pk t (.have k B m) }
  /-- or null. -/
  | null {S : Sys} {t k : Nat} {B : View} {m : Nat} (h : S.pk t = .go k B) (ok : Ok S.s t m) (ha : S.s.isA m = false) :
      Step ix S { S with pk := upd S.pk t (.done k B none) }
  /-- 233: the link: null from the beginning, -/
  | direct {S : Sys} {t k : Nat} {B : View} {v : Nat} (h : S.pk t = .have k B v) (hp : S.s.prev v = none) :
      Step ix S { S with pk := upd S.pk t (.cur k B v .direct) }
  /-- set to null, -/
  | past {S : Sys} {t k : Nat} {B : View} {v : Nat} {U : View} (h : S.pk t = .have k B v) (hu : S.un v U) :
      Step ix S { S with s := State.recv S.s t U, pk := upd S.pk t (.cur k B v .unl) }
  /-- or the old array. -/
  | link {S : Sys} {t k : Nat} {B : View} {v p : Nat} (h : S.pk t = .have k B v) (hp : S.s.prev v = some p) :
      Step ix S { S with pk := upd S.pk t (.old k B v p) }
  /-- 235-242: the search of the old bucket: as it was in the beginning, -/
  | old0 {S : Sys} {t k : Nat} {B : View} {v p : Nat} (h : S.pk t = .old k B v p) (hc : Coh S.h (S.s.tv t) p k 0) :
      Step ix S { S with pk := upd S.pk t (.cur k B v (.old none)) }
  /-- or at a later position. -/
  | old {S : Sys} {t k : Nat} {B : View} {v p j : Nat} {w : Wr} (h : S.pk t = .old k B v p) (hw : (S.h p k)[j]? = some w) (hc : Coh S.h (S.s.tv t) p k (j + 1)) :
      Step ix S { S with s := State.recv S.s t w.msg, pk := upd S.pk t (pkOld k B v w) }
  /-- 245-252: the search of the current bucket. -/
  | cur0 {S : Sys} {t k : Nat} {B : View} {v : Nat} {src : Src} (h : S.pk t = .cur k B v src) (hc : Coh S.h (S.s.tv t) v k 0)
      (hm : ∀ x, src = .old (some x) → ∀ i w, (S.h v k)[i]? = some w → w.id = x → i < 0) :
      Step ix S { S with pk := upd S.pk t (.chk k B v 0) }
  | cur {S : Sys} {t k : Nat} {B : View} {v j : Nat} {w : Wr} {src : Src} (h : S.pk t = .cur k B v src) (hw : (S.h v k)[j]? = some w)
      (hc : Coh S.h (S.s.tv t) v k (j + 1)) :
      Step ix S { S with s := State.recv S.s t w.msg, pk := upd S.pk t (pkCur k B v (j + 1) w) }
  /-- 254-257: the pointer is still the same, -/
  | same {S : Sys} {t k : Nat} {B : View} {v q : Nat} (h : S.pk t = .chk k B v q) (ok : Ok S.s t v) :
      Step ix S { S with pk := upd S.pk t (.done k B none) }
  /-- another array, -/
  | other {S : Sys} {t k : Nat} {B : View} {v q m : Nat} (h : S.pk t = .chk k B v q) (hi : S.s.mp t = .idle) (ok : Ok S.s t m) (ha : S.s.isA m = true) (hn : m ≠ v) :
      Step ix S { S with s := S.s.goto' t (.have m) (acq S.s t m), pk := upd S.pk t (.have k B m) }
  /-- or null. -/
  | gone {S : Sys} {t k : Nat} {B : View} {v q m : Nat} (h : S.pk t = .chk k B v q) (ok : Ok S.s t m) (ha : S.s.isA m = false) :
      Step ix S { S with pk := upd S.pk t (.done k B none) }
  | finish {S : Sys} {t k : Nat} {B : View} {r : Option Nat} (h : S.pk t = .done k B r) : Step ix S { S with pk := upd S.pk t .idle }

inductive Reach (ix : Nat → Nat → Nat) : Sys → Prop
  | init : Reach ix Sys.init
  | step {S S' : Sys} (h : Reach ix S) (st : Step ix S S') : Reach ix S'

/-! ## Specification -/

/-- `r` is the value of key `k` after some first part of the calls, and no call on `k` after that part happens before the lookup. -/
def Right (s : State) (k : Nat) (B : View) (r : Option Nat) : Prop :=
  ∃ l1 l2, flat s.log s.n = l1 ++ l2 ∧ after (fun _ => none) l1 k = r ∧ ∀ e ∈ l2, e.op.key = k → ¬B.ops e.id

end Scc.Mist
