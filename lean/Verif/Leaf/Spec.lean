import Verif.Leaf.Model

/-!
# What a leaf is meant to be

A strictly ascending list of entries, the number of slots used up (removed entries keep their slot),
and two flags.
-/

namespace Scc.Leaf.Spec

open Scc.Leaf (KeyOrd InsRes RemRes)

variable {K V : Type} [KeyOrd K]

/-- Strictly ascending keys. -/
def Sorted (xs : List (K × V)) : Prop := xs.Pairwise (fun a b => KeyOrd.lt a.1 b.1)

structure SLeaf (K V : Type) where
  xs : List (K × V)
  used : Nat
  frozen : Bool
  retired : Bool

/-- The new leaf. -/
def SLeaf.new : SLeaf K V := { xs := [], used := 0, frozen := false, retired := false }

/-- The entry with key `k`. -/
def get (xs : List (K × V)) (k : K) : Option (K × V) :=
  xs.find? (fun e => !decide (KeyOrd.lt e.1 k) && !decide (KeyOrd.lt k e.1))

/-- The first entry whose key is at least `k`. -/
def atLeast (xs : List (K × V)) (k : K) : Option (K × V) := xs.find? (fun e => !decide (KeyOrd.lt e.1 k))

/-- The last entry whose key is less than `k`. -/
def below (xs : List (K × V)) (k : K) : Option (K × V) :=
  (xs.filter (fun e => decide (KeyOrd.lt e.1 k))).getLast?

/-- Put a new entry at its place. -/
def put (xs : List (K × V)) (k : K) (v : V) : List (K × V) :=
  xs.filter (fun e => decide (KeyOrd.lt e.1 k)) ++ (k, v) ::
    xs.filter (fun e => decide (KeyOrd.lt k e.1))

/-- Take out the entry with key `k`. -/
def del (xs : List (K × V)) (k : K) : List (K × V) :=
  xs.filter (fun e => decide (KeyOrd.lt e.1 k) || decide (KeyOrd.lt k e.1))

/-- Insertion into a leaf of `cap` slots. -/
def SLeaf.insert (cap : Nat) (s : SLeaf K V) (k : K) (v : V) : SLeaf K V × InsRes :=
  if s.retired then (s, .retired)
  else if s.frozen then (s, .frozen)
  else if (get s.xs k).isSome then (s, .duplicate)
  else if s.used < cap then ({ s with xs := put s.xs k v, used := s.used + 1 }, .success)
  else (s, .full)

/-- Conditional removal. A leaf that loses its last entry retires. -/
def SLeaf.removeIf (s : SLeaf K V) (k : K) (cond : V → Bool) : SLeaf K V × RemRes :=
  if s.frozen then (s, .frozen)
  else match get s.xs k with
    | none => (s, .fail)
    | some e =>
      if !cond e.2 then (s, .fail)
      else if (del s.xs k).isEmpty then ({ s with xs := [], retired := true }, .retired)
      else ({ s with xs := del s.xs k }, .success)

/-- Removal of every entry whose key is in the range. A leaf that loses its last entry retires. -/
def SLeaf.removeRange (s : SLeaf K V) (contains : K → Bool) : SLeaf K V :=
  if s.frozen then s
  else
    let ys := s.xs.filter (fun e => !contains e.1)
    { s with xs := ys, retired := s.retired || (ys.isEmpty && !s.xs.isEmpty) }

/-- A leaf filled with `xs` from its first slot on. -/
def SLeaf.packed (xs : List (K × V)) : SLeaf K V :=
  { xs := xs, used := xs.length, frozen := false, retired := false }

end Scc.Leaf.Spec
