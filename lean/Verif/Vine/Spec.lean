import Verif.Vine.Model

/-!
# What iterators may do

The map is that of `Verif/Grove/Spec`: it changes with every entry that is added or taken away. For an iterator,
the entries that were in the map at some moment since its first call of `next` and those that were in it all the
time are remembered. Nothing here refers to nodes, leaves or pointers.
-/

namespace Scc.Vine

open Scc.Grove

local notation "Key" => Nat
local notation "Id" => Nat
local notation "Thr" => Nat

variable {V : Type}

/-- The map after a list of events, latest first. -/
def mapOf (es : List (IEv V)) : Key → Option V := (mon (IEv.calls es)).map

/-- What iterator `t` has yielded since it began, latest first. -/
def yields (t : Thr) : List (IEv V) → List (Key × V)
  | [] => []
  | .give t' k v :: es => if t' = t then (k, v) :: yields t es else yields t es
  | .start t' :: es => if t' = t then [] else yields t es
  | _ :: es => yields t es

/-- The entry was in the map at some moment since iterator `t` began. -/
def was (t : Thr) (k : Key) (v : V) : List (IEv V) → Prop
  | [] => False
  | .start t' :: es => mapOf es k = some v ∨ (t' ≠ t ∧ was t k v es)
  | e :: es => mapOf (e :: es) k = some v ∨ was t k v es

/-- The entry was in the map all the time since iterator `t` began. -/
def stays (t : Thr) (k : Key) (v : V) : List (IEv V) → Prop
  | [] => False
  | .start t' :: es => mapOf es k = some v ∧ (t' = t ∨ stays t k v es)
  | e :: es => mapOf (e :: es) k = some v ∧ stays t k v es

/-- C45: what an iterator has yielded ascends. -/
def Ascends (es : List (IEv V)) : Prop := ∀ t, (yields t es).Pairwise fun a b => b.1 < a.1

/-- C54: whenever an iterator yields an entry, that entry was in the map at some moment since the iterator began;
and when it ends, it has yielded all entries that were in the map all the time. -/
def Faithful : List (IEv V) → Prop
  | [] => True
  | .give t k v :: es => Faithful es ∧ was t k v es
  | .stop t :: es => Faithful es ∧ ∀ k v, stays t k v es → (k, v) ∈ yields t es
  | _ :: es => Faithful es

end Scc.Vine
