import Verif.Leaf.Spec

/-!
# Specification of a leaf shared by threads

A sorted list with a budget of slots and two flags, used atomically. Each call is announced, takes
effect at one instant between its call and its return, and returns the result of that instant. A call
that leaves the leaf as it is may answer anything that was the right answer at some instant since it was
announced; such answers are collected in `obs`. Nothing here refers to words, ranks or slots.
-/

namespace Scc.LeafConc

open Scc.Leaf (KeyOrd InsRes RemRes)
open Scc.Leaf.Spec (SLeaf)

variable {K V : Type}

/-- Questions that change nothing. -/
inductive Query (K : Type)
  | search (k : K)
  | below (k : K)
  | atLeast (k : K)
  | max
  | iter
  | isEmpty

/-- Calls on a leaf. -/
inductive Call (K V : Type)
  | insert (k : K) (v : V)
  | remove (k : K) (cond : V → Bool)
  | ask (q : Query K)
  | freeze
  | thaw

/-- Answers to questions. -/
inductive Ans (K V : Type)
  | entry (e : Option (K × V))
  | entries (es : List (K × V))
  | flag (b : Bool)

/-- Results of calls. -/
inductive Res (K V : Type)
  | ins (r : InsRes)
  | rem (r : RemRes)
  | ans (a : Ans K V)
  | ok (b : Bool)

/-- What can be observed from outside. -/
inductive Event (K V : Type)
  | inv (t : Nat) (c : Call K V)
  | ret (t : Nat) (r : Res K V)

namespace Spec

open Scc.Leaf.Spec

variable [KeyOrd K]

/-- The answer to a question about a sorted list. -/
def ask (xs : List (K × V)) : Query K → Ans K V
  | .search k => .entry (get xs k)
  | .below k => .entry (below xs k)
  | .atLeast k => .entry (atLeast xs k)
  | .max => .entry xs.getLast?
  | .iter => .entries xs
  | .isEmpty => .flag xs.isEmpty

/-- A call alone on a leaf of fourteen slots. -/
def act (c : Call K V) (s : SLeaf K V) : SLeaf K V × Res K V :=
  match c with
  | .insert k v => ((s.insert 14 k v).1, .ins (s.insert 14 k v).2)
  | .remove k p => ((s.removeIf k p).1, .rem (s.removeIf k p).2)
  | .ask q => (s, .ans (ask s.xs q))
  | .freeze => ({ s with frozen := true }, .ok (!s.frozen))
  | .thaw => ({ s with frozen := false }, .ok s.frozen)

/-- What a thread is doing. -/
inductive Pc (K V : Type)
  | idle
  | pending (c : Call K V) (obs : Res K V → Prop)
  | done (r : Res K V)

structure St (K V : Type) where
  leaf : SLeaf K V
  pc : Nat → Pc K V

def St.init : St K V := { leaf := SLeaf.new, pc := fun _ => .idle }

def St.setPc (s : St K V) (t : Nat) (p : Pc K V) : St K V :=
  { s with pc := fun u => if u = t then p else s.pc u }

/-- Thread `u` has an insertion under way. -/
def St.inserting (s : St K V) (u : Nat) : Prop := ∃ k v obs, s.pc u = .pending (.insert k v) obs

/-- The slots used up and those that other insertions under way may have taken are all there are. -/
def St.crowded (s : St K V) (t : Nat) : Prop :=
  ∃ ts : List Nat, ts.Nodup ∧ t ∉ ts ∧ (∀ u ∈ ts, s.inserting u) ∧ 14 ≤ s.leaf.used + ts.length

/-- `r` is a right answer to the call `c` of thread `t` right now, and leaves the leaf as it is.
`spurious` is a licence to call a key a duplicate while the leaf is frozen. -/
def St.legal (spurious : Bool) (s : St K V) (t : Nat) (c : Call K V) (r : Res K V) : Prop :=
  act c s.leaf = (s.leaf, r) ∨
  (∃ k v, c = .insert k v ∧ r = .ins .full ∧ s.leaf.retired = false ∧ s.leaf.frozen = false ∧
    get s.leaf.xs k = none ∧ s.crowded t) ∨
  (spurious = true ∧ s.leaf.frozen = true ∧ r = .ins .duplicate ∧ ∃ k v, c = .insert k v)

/-- Every pending call notes the answers that are right now. -/
def St.observe (spurious : Bool) (s : St K V) : St K V :=
  { s with pc := fun t => match s.pc t with
    | .pending c obs => .pending c (fun r => obs r ∨ s.legal spurious t c r)
    | p => p }

/-- The atomic object. -/
inductive Step (spurious : Bool) : St K V → Option (Event K V) → St K V → Prop
  | inv {s t c} : s.pc t = .idle →
      Step spurious s (some (.inv t c)) (s.setPc t (.pending c (fun _ => False)))
  | observe {s} : Step spurious s none (s.observe spurious)
  /-- The call takes effect. -/
  | lin {s t c obs} : s.pc t = .pending c obs →
      Step spurious s none
        ({ s with leaf := (act c s.leaf).1 }.setPc t (.done (act c s.leaf).2))
  | ret {s t r} : s.pc t = .done r → Step spurious s (some (.ret t r)) (s.setPc t .idle)
  /-- The call returns an answer that was right at some instant. -/
  | retObs {s t c obs r} : s.pc t = .pending c obs → obs r →
      Step spurious s (some (.ret t r)) (s.setPc t .idle)

/-- Executions and their observable events. -/
inductive Exec (spurious : Bool) : St K V → List (Event K V) → St K V → Prop
  | nil {s} : Exec spurious s [] s
  | tau {s es s' s''} : Exec spurious s es s' → Step spurious s' none s'' → Exec spurious s es s''
  | event {s es s' e s''} : Exec spurious s es s' → Step spurious s' (some e) s'' →
      Exec spurious s (es ++ [e]) s''

end Spec

end Scc.LeafConc
