/-!
# Specification of an LRU list: slots in order of recency

Independent of the model: only lists of slot numbers and histories.
-/

namespace Scc.Lru.Spec

/-- The slots on the list, most recently used first. -/
abbrev Order := List Nat

/-- Using a slot makes it the most recent one. -/
def touch (l : Order) (e : Nat) : Order := e :: l.filter (· ≠ e)

/-- Forgetting a slot. -/
def remove (l : Order) (e : Nat) : Order := l.filter (· ≠ e)

/-- The least recently used slot. -/
def victim (l : Order) : Option Nat := l.getLast?

/-- Dropping the least recently used slot. -/
def evict (l : Order) : Order := l.dropLast

/-- One operation on the list: use a slot, forget a slot, evict the least recently used slot. -/
inductive Op where
  | touch (e : Nat)
  | remove (e : Nat)
  | evict
  deriving DecidableEq, Repr

/-- One step of the specification with its result (the victim, for `evict` on a non-empty list). -/
def step (l : Order) : Op → Order × Option Nat
  | .touch e => (touch l e, none)
  | .remove e => (remove l e, none)
  | .evict => (evict l, victim l)

/-- Results of a sequence of operations. -/
def run (l : Order) : List Op → List (Option Nat)
  | [] => []
  | o :: os => (step l o).2 :: run (step l o).1 os

/-- A recorded event: slot `e` used, or slot `e` left the list (removed or evicted). -/
inductive Event where
  | used (e : Nat)
  | left (e : Nat)
  deriving DecidableEq, Repr

/-- The event recorded for an operation with a given result. -/
def eventOf : Op → Option Nat → List Event
  | .touch e, _ => [.used e]
  | .remove e, _ => [.left e]
  | .evict, some e => [.left e]
  | .evict, none => []

/-- Number of events since slot `e` was last used, `none` if `e` has not been used since it last
left.  The history has the most recent event first. -/
def age (e : Nat) : List Event → Option Nat
  | [] => none
  | .used x :: h => if x = e then some 0 else (age e h).map (· + 1)
  | .left x :: h => if x = e then none else (age e h).map (· + 1)

end Scc.Lru.Spec
