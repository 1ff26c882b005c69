import Verif.Mow.Model

/-!
# What calls beside `remove_range` are expected to do

A map from keys to values, operation by operation. Independent of the model apart from the types of operations and
answers.
-/

namespace Scc.Mow

variable {V : Type}

/-- `Does op o ans o'`: an operation on a key with value `o` answers `ans` and leaves `o'`. -/
inductive Does : Op V → Option V → Ans V → Option V → Prop
  | peek (o) : Does .peek o (.found o) o
  | insert (v) : Does (.insert v) none .inserted (some v)
  | duplicate (v w) : Does (.insert v) (some w) .duplicate (some w)
  | remove (w) : Does .remove (some w) (.removed true) none
  | absent : Does .remove none (.removed false) none

/-- `Legal m h m'`: the calls `h`, one after the other, on a map `m`, have the answers they should, and leave `m'`. -/
inductive Legal (m : Nat → Option V) : List (Ev V) → (Nat → Option V) → Prop
  | nil : Legal m [] m
  | snoc {h m' e o} : Legal m h m' → Does e.op (m' e.key) e.ans o →
      Legal m (h ++ [e]) (fun k => if k = e.key then o else m' k)

/-- What a user finds under a key who is led to the node while nobody changes it. -/
def St.look (s : St V) (k : Nat) : Option V :=
  match s.cell (route s.kids k) with
  | some c => s.map c k
  | none => none

/-- The calls on keys outside the range. -/
def outside (g : Cfg) (h : List (Ev V)) : List (Ev V) := h.filter fun e => !g.has e.key

end Scc.Mow
