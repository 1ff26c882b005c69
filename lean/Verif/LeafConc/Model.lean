import Verif.LeafConc.Spec
import Verif.Leaf.Seq

/-!
# A leaf shared by threads

Any number of threads run `insert`, `remove_if`, the read operations, `freeze` and `thaw` on one leaf
(/repo/src/tree_index/leaf.rs). Every access to the metadata word, and every write to a slot, is a step
of its own; a computation on a word that was loaded before is done at the step that uses it, on the
entries as they are then. Memory is sequentially consistent. `fetch_update` is one step: it either
changes the value it read or gives up on it.
-/

namespace Scc.LeafConc

open Scc.Leaf

variable {K V : Type} [KeyOrd K]

/-- The read operations on a leaf whose word is the one loaded at their beginning: `search_entry`,
`search_value` (leaf.rs 503-520), `max_less` (524-557), `min_greater_equal` (564-606), `max_entry`
(166-185), `Scanner` (865-1000), `is_empty` (143-156). -/
def ask (l : Leaf K V) : Query K → Ans K V
  | .search k => .entry (l.search k)
  | .below k => .entry (l.maxLessEntry k)
  | .atLeast k => .entry (l.minGreaterEqual k)
  | .max => .entry l.maxEntry
  | .iter => .entries l.toList
  | .isEmpty => .flag l.isEmpty

/-- Where a thread is. `w` is the word it works with. -/
inductive Pc (K V : Type)
  | idle
  /-- called -/
  | start (c : Call K V)
  /-- at the head of the loop of `insert` (leaf.rs 344) -/
  | ins (k : K) (v : V) (w : Word)
  /-- slot `i` is reserved, before `write` (leaf.rs 368) -/
  | resv (k : K) (v : V) (i : Nat) (w : Word)
  /-- at the head of the loop of `post_insert` (leaf.rs 647) -/
  | post (k : K) (v : V) (i : Nat) (w : Word)
  /-- before the `fetch_and` of `rollback` (leaf.rs 289) -/
  | roll (k : K) (v : V) (i : Nat)
  /-- `remove_if` after its load (leaf.rs 391) -/
  | rem (k : K) (c : V → Bool) (w : Word)
  /-- `remove_if` has found the key in slot `i`, at the head of its inner loop (leaf.rs 416) -/
  | remAt (k : K) (c : V → Bool) (i : Nat) (w : Word)
  /-- a read operation after its load -/
  | ask (q : Query K) (w : Word)
  | done (r : Res K V)

structure St (K V : Type) where
  l : Leaf K V
  pc : Nat → Pc K V

/-- A new leaf, nobody active. -/
def St.init : St K V := { l := Leaf.new, pc := fun _ => .idle }

def St.setPc (s : St K V) (t : Nat) (p : Pc K V) : St K V :=
  { s with pc := fun u => if u = t then p else s.pc u }

def St.setW (s : St K V) (w : Word) : St K V := { s with l := { s.l with w := w } }

/-- The leaf with the word `w` instead of its own. -/
def St.at (s : St K V) (w : Word) : Leaf K V := { s.l with w := w }

/-- One step of one thread. -/
inductive Step : St K V → Option (Event K V) → St K V → Prop
  | inv {s t c} : s.pc t = .idle → Step s (some (.inv t c)) (s.setPc t (.start c))
  | ret {s t r} : s.pc t = .done r → Step s (some (.ret t r)) (s.setPc t .idle)
  /-- leaf.rs 343 -/
  | insLoad {s t k v} : s.pc t = .start (.insert k v) → Step s none (s.setPc t (.ins k v s.l.w))
  /-- leaf.rs 345-346 -/
  | insRetired {s t k v w} : s.pc t = .ins k v w → retired w = true →
      Step s none (s.setPc t (.done (.ins .retired)))
  /-- leaf.rs 347-348 -/
  | insFrozen {s t k v w} : s.pc t = .ins k v w → retired w = false → frozen w = true →
      Step s none (s.setPc t (.done (.ins .frozen)))
  /-- leaf.rs 374-377 -/
  | insFull {s t k v w} : s.pc t = .ins k v w → retired w = false → frozen w = false →
      freeSlot w = none →
      Step s none (s.setPc t (.done (.ins
        (if ((s.at w).searchSlot k w).isSome then .duplicate else .full))))
  /-- leaf.rs 352-361: the exchange succeeds -/
  | insReserve {s t k v w i} : s.pc t = .ins k v w → retired w = false → frozen w = false →
      freeSlot w = some i → s.l.w = w →
      Step s none ((s.setW (augment w i removed)).setPc t (.resv k v i (augment w i removed)))
  /-- leaf.rs 362-365: it fails -/
  | insRetry {s t k v w i} : s.pc t = .ins k v w → retired w = false → frozen w = false →
      freeSlot w = some i → s.l.w ≠ w → Step s none (s.setPc t (.ins k v s.l.w))
  /-- leaf.rs 368 -/
  | write {s t k v i w} : s.pc t = .resv k v i w →
      Step s none ({ s with l := s.l.write i k v }.setPc t (.post k v i w))
  /-- leaf.rs 672-675 -/
  | postDup {s t k v i w} : s.pc t = .post k v i w → (s.at w).postWord k i w = none →
      Step s none (s.setPc t (.roll k v i))
  /-- leaf.rs 648-686, 694: the exchange succeeds -/
  | postOk {s t k v i w w'} : s.pc t = .post k v i w → (s.at w).postWord k i w = some w' →
      s.l.w = w → Step s none ((s.setW w').setPc t (.done (.ins .success)))
  /-- leaf.rs 687-689 -/
  | postAbort {s t k v i w w'} : s.pc t = .post k v i w → (s.at w).postWord k i w = some w' →
      s.l.w ≠ w → frozen s.l.w = true ∨ retired s.l.w = true → Step s none (s.setPc t (.roll k v i))
  /-- leaf.rs 690-691 -/
  | postRetry {s t k v i w w'} : s.pc t = .post k v i w → (s.at w).postWord k i w = some w' →
      s.l.w ≠ w → frozen s.l.w = false → retired s.l.w = false →
      Step s none (s.setPc t (.post k v i s.l.w))
  /-- leaf.rs 287-300; the entry is taken out before the slot is given back -/
  | roll {s t k v i} : s.pc t = .roll k v i →
      Step s none ((s.setW (clearSlot s.l.w i)).setPc t
        (.done (.ins (rollbackRes (clearSlot s.l.w i)))))
  /-- leaf.rs 391 -/
  | remLoad {s t k c} : s.pc t = .start (.remove k c) → Step s none (s.setPc t (.rem k c s.l.w))
  /-- leaf.rs 392-394 -/
  | remFrozen {s t k c w} : s.pc t = .rem k c w → frozen w = true →
      Step s none (s.setPc t (.done (.rem .frozen)))
  /-- leaf.rs 395-414, 474: the key is not found -/
  | remMiss {s t k c w} : s.pc t = .rem k c w → frozen w = false →
      (s.at w).searchSlot k w = none → Step s none (s.setPc t (.done (.rem .fail)))
  /-- leaf.rs 414 -/
  | remFound {s t k c w i} : s.pc t = .rem k c w → frozen w = false →
      (s.at w).searchSlot k w = some i → Step s none (s.setPc t (.remAt k c i w))
  /-- leaf.rs 417-420; the condition is a function of the value -/
  | remKeep {s t k c i w e} : s.pc t = .remAt k c i w → s.l.entry i = some e → c e.2 = false →
      Step s none (s.setPc t (.done (.rem .fail)))
  /-- leaf.rs 421-456: the exchange succeeds -/
  | remOk {s t k c i w e} : s.pc t = .remAt k c i w → s.l.entry i = some e → c e.2 = true → s.l.w = w →
      Step s none ((s.setW (removeWord w i)).setPc t
        (.done (.rem (if emptyBut w i then .retired else .success))))
  /-- leaf.rs 458-460: somebody else removed the entry -/
  | remGone {s t k c i w e} : s.pc t = .remAt k c i w → s.l.entry i = some e → c e.2 = true →
      s.l.w ≠ w → rank s.l.w i = removed → Step s none (s.setPc t (.done (.rem .fail)))
  /-- leaf.rs 461-463 -/
  | remFroze {s t k c i w e} : s.pc t = .remAt k c i w → s.l.entry i = some e → c e.2 = true →
      s.l.w ≠ w → rank s.l.w i ≠ removed → frozen s.l.w = true →
      Step s none (s.setPc t (.done (.rem .frozen)))
  /-- leaf.rs 464 -/
  | remRetry {s t k c i w e} : s.pc t = .remAt k c i w → s.l.entry i = some e → c e.2 = true →
      s.l.w ≠ w → rank s.l.w i ≠ removed → frozen s.l.w = false →
      Step s none (s.setPc t (.remAt k c i s.l.w))
  | askLoad {s t q} : s.pc t = .start (.ask q) → Step s none (s.setPc t (.ask q s.l.w))
  | askDone {s t q w} : s.pc t = .ask q w →
      Step s none (s.setPc t (.done (.ans (ask (s.at w) q))))
  /-- leaf.rs 210-220; also the first step of `freeze_and_distribute` (615-625), which takes the split
  for itself -/
  | freeze {s t} : s.pc t = .start .freeze →
      Step s none ({ s with l := s.l.freezeLeaf.1 }.setPc t (.done (.ok s.l.freezeLeaf.2)))
  /-- leaf.rs 123-133 -/
  | thaw {s t} : s.pc t = .start .thaw →
      Step s none ({ s with l := s.l.thawLeaf.1 }.setPc t (.done (.ok s.l.thawLeaf.2)))

/-- Executions all of whose states satisfy `Q`, and their observable events. -/
inductive ExecIn (Q : St K V → Prop) : St K V → List (Event K V) → St K V → Prop
  | nil {s} : Q s → ExecIn Q s [] s
  | tau {s es s' s''} : ExecIn Q s es s' → Step s' none s'' → Q s'' → ExecIn Q s es s''
  | event {s es s' e s''} : ExecIn Q s es s' → Step s' (some e) s'' → Q s'' →
      ExecIn Q s (es ++ [e]) s''

/-- Executions. -/
abbrev Exec (s : St K V) (es : List (Event K V)) (s' : St K V) : Prop := ExecIn (fun _ => True) s es s'

end Scc.LeafConc
