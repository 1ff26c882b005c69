import Verif.Tree.IterModel

/-!
# What a tree index is meant to be

A finite map from keys to values. Nothing here refers to leaves, nodes or links.
-/

namespace Scc.Tree

open Scc.Leaf (KeyOrd)

/-- The calls. -/
inductive TOp (K V : Type)
  | insert (k : K) (v : V)
  | remove (k : K)
  | removeIf (k : K) (cond : V → Bool)
  | removeRange (a b : Bd K)
  | peek (k : K)
  | clear

/-- The results: `Ok`/`Err` of `insert`, `bool` of `remove` and `remove_if`, `Option` of `peek`, nothing. -/
inductive TRes (V : Type)
  | ins (ok : Bool)
  | rem (b : Bool)
  | val (v : Option V)
  | unit
  deriving DecidableEq

namespace Spec

variable {K V : Type}

/-- A map. -/
abbrev Map (K V : Type) := K → Option V

def Map.empty : Map K V := fun _ => none

/-- A key within bounds. -/
def InBounds [KeyOrd K] (a b : Bd K) (k : K) : Prop :=
  (match a with
    | .incl s => KeyOrd.lt s k ∨ s = k
    | .excl s => KeyOrd.lt s k
    | .unb => True) ∧
  (match b with
    | .incl e => KeyOrd.lt k e ∨ k = e
    | .excl e => KeyOrd.lt k e
    | .unb => True)

open Classical in
/-- One call. -/
noncomputable def step [KeyOrd K] (m : Map K V) : TOp K V → Map K V × TRes V
  | .insert k v =>
    match m k with
    | some _ => (m, .ins false)
    | none => (fun j => if j = k then some v else m j, .ins true)
  | .remove k => (fun j => if j = k then none else m j, .rem (m k).isSome)
  | .removeIf k cond =>
    match m k with
    | some v => if cond v then (fun j => if j = k then none else m j, .rem true) else (m, .rem false)
    | none => (m, .rem false)
  | .removeRange a b => (fun j => if InBounds a b j then none else m j, .unit)
  | .peek k => (m, .val (m k))
  | .clear => (Map.empty, .unit)

/-- A sequence of calls: final contents and results. -/
noncomputable def calls [KeyOrd K] : Map K V → List (TOp K V) → Map K V × List (TRes V)
  | m, [] => (m, [])
  | m, o :: os => ((calls (step m o).1 os).1, (step m o).2 :: (calls (step m o).1 os).2)

/-- The list of all entries of a map in strictly ascending order. -/
def Enumerates [KeyOrd K] (m : Map K V) (xs : List (K × V)) : Prop :=
  xs.Pairwise (fun e e' => KeyOrd.lt e.1 e'.1) ∧ ∀ k v, (k, v) ∈ xs ↔ m k = some v

end Spec

/-! ## The same calls on the model -/

section

variable {K V : Type} [KeyOrd K]

/-- One call, every loop with at most `f` rounds; no result if that is too few. `remove` is `remove_if`
with a condition that always holds (tree_index.rs 350-355). -/
def Ix.call (f : Nat) (x : Ix K V) : TOp K V → Ix K V × Option (TRes V)
  | .insert k v => ((x.insert f k v).1, (x.insert f k v).2.map .ins)
  | .remove k => ((x.removeIf f k (fun _ => true)).1, (x.removeIf f k (fun _ => true)).2.map .rem)
  | .removeIf k cond => ((x.removeIf f k cond).1, (x.removeIf f k cond).2.map .rem)
  | .removeRange a b => (x.removeRange a b, some .unit)
  | .peek k => (x, some (.val ((x.peek k).map (fun e => e.2))))
  | .clear => (x.clear, some .unit)

/-- A sequence of calls. -/
def Ix.calls (f : Nat) : Ix K V → List (TOp K V) → Ix K V × List (Option (TRes V))
  | x, [] => (x, [])
  | x, o :: os => (((x.call f o).1.calls f os).1, (x.call f o).2 :: ((x.call f o).1.calls f os).2)

end

end Scc.Tree
