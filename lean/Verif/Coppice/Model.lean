import Verif.Grove.Linear

/-!
# `TreeIndex::clear` beside calls on single keys, with the trees in full

`clear` (/repo/src/tree_index.rs 132-136) exchanges the root for null. Here what has been reached from the root between two calls of `clear` is one
instance of the model of `Verif/Grove`, with its nodes, leaves, locks, splits and merges; the instances are numbered. Calls that have come into an
instance go on in it after `clear`, or begin again at the root (tree_index.rs 184-213, 262-289, 448-480), that is, in the present instance.

What `clear` does to the tree that it has taken out (node.rs 37-42, internal_node.rs 67-79, leaf_node.rs 85-97) concerns iterators only: leaves are
unlinked from their neighbours.

More is allowed here than the code does: steps at the root of an instance that has been taken out (so that a `compare_exchange` of the root may succeed
there, and a call may load that root after `clear`, if it began before); calls that run in the same thread at the same time; an instance that is
taken out although its root is null. `clear` is one step between its beginning and its end. Memory is sequentially consistent.
-/

namespace Scc.Coppice

variable {V : Type}

/-- What a call is asked to do. -/
inductive Act (V : Type)
  /-- `insert`, `remove_if`, `peek` -/
  | key (k : Nat) (o : Grove.Op V)
  | clear

/-- A call, and what it answers. -/
structure Rec (V : Type) where
  id : Nat
  act : Act V
  ans : Option (Grove.Ans V)

/-! ## Specification: an ordinary map -/

/-- What a call does to a map, and its answer; for `clear` there is none. -/
def Act.apply (m : Nat → Option V) : Act V → (Nat → Option V) × Option (Grove.Ans V)
  | .key k o => (fun j => if j = k then (o.act (m k)).2 else m j, some (o.act (m k)).1)
  | .clear => (fun _ => none, none)

/-- The calls one after the other from `m` to `m'`, with these answers. -/
inductive Legal : (Nat → Option V) → List (Rec V) → (Nat → Option V) → Prop
  | nil {m : Nat → Option V} : Legal m [] m
  | cons {m m' : Nat → Option V} {e : Rec V} {l : List (Rec V)} (hr : e.ans = (e.act.apply m).2) (h : Legal (e.act.apply m).1 l m') :
      Legal m (e :: l) m'

/-! ## Model -/

/-- Where a call is. -/
inductive Pc
  | new
  /-- To load the root. -/
  | go
  /-- In this instance. -/
  | in (v : Nat)
  /-- `clear` has exchanged the root. -/
  | out
  /-- It has returned, from this instance. -/
  | done (v : Option Nat)

structure St (V : Type) where
  /-- The number of the present instance. -/
  cur : Nat
  /-- The instances, -/
  tr : Nat → Grove.St V
  /-- and what happened in them, latest first. Calls take the place of threads. -/
  es : Nat → List (Grove.Ev V)
  /-- The call of `clear` that took this instance out. -/
  clr : Nat → Option Nat
  /-- What the calls are asked to do, -/
  ask : Nat → Act V
  /-- where they are, -/
  pc : Nat → Pc
  /-- and the number of the next. -/
  nid : Nat
  /-- What calls have returned. -/
  got : List (Nat × Option (Grove.Ans V))
  /-- `bef y x`: `x` had returned when `y` began. -/
  bef : Nat → Nat → Prop

def St.init : St V :=
  ⟨0, fun _ => .init, fun _ => [], fun _ => none, fun _ => .clear, fun _ => .new, 0, [], fun _ _ => False⟩

/-- Steps in instance `v` other than the beginnings and ends of calls; entries are added and taken away only by the calls that are there. -/
def Inner (pc : Nat → Pc) (v : Nat) : Grove.Ev V → Prop
  | .tau => True
  | .put x _ _ => pc x = .in v
  | .del x _ _ => pc x = .in v
  | _ => False

open Grove (upd) in
inductive Step : St V → St V → Prop
  | begin {s : St V} (a : Act V) :
      Step s { s with pc := upd s.pc s.nid .go, ask := upd s.ask s.nid a, nid := s.nid + 1, bef := upd s.bef s.nid fun x => ∃ r, (x, r) ∈ s.got }
  /-- A call is about to load the root of the present instance (/repo/src/tree_index.rs 185, 263, 449, 621). -/
  | enter {s : St V} {x k : Nat} {o : Grove.Op V} {T : Grove.St V} (h : s.pc x = .go) (ha : s.ask x = .key k o)
      (hs : Grove.Step (s.tr s.cur) (.call x k o) T) :
      Step s { s with tr := upd s.tr s.cur T, es := upd s.es s.cur (.call x k o :: s.es s.cur), pc := upd s.pc x (.in s.cur) }
  /-- A step in any instance (`Verif/Grove/Model.lean`). -/
  | work {s : St V} {v : Nat} {e : Grove.Ev V} {T : Grove.St V} (hs : Grove.Step (s.tr v) e T) (he : Inner s.pc v e) :
      Step s { s with tr := upd s.tr v T, es := upd s.es v (e :: s.es v) }
  /-- A call that begins again at the root, without having removed an entry (for those that have, see `leave` there), finds another instance
  (/repo/src/tree_index.rs 184, 262, 448). -/
  | move {s : St V} {x v : Nat} (h : s.pc x = .in v) (hv : v < s.cur) (ht : ((s.tr v).th x).pc = .top) (hr : ((s.tr v).th x).rm = false) :
      Step s { s with pc := upd s.pc x .go }
  /-- `clear` exchanges the root for null (/repo/src/tree_index.rs 133). -/
  | clear {s : St V} {x : Nat} (h : s.pc x = .go) (ha : s.ask x = .clear) :
      Step s { s with clr := upd s.clr s.cur (some x), cur := s.cur + 1, pc := upd s.pc x .out }
  /-- A call returns. -/
  | ret {s : St V} {x v : Nat} {a : Grove.Ans V} {T : Grove.St V} (h : s.pc x = .in v) (hs : Grove.Step (s.tr v) (.ret x a) T) :
      Step s { s with tr := upd s.tr v T, es := upd s.es v (.ret x a :: s.es v), pc := upd s.pc x (.done (some v)), got := (x, some a) :: s.got }
  | retClear {s : St V} {x : Nat} (h : s.pc x = .out) :
      Step s { s with pc := upd s.pc x (.done none), got := (x, none) :: s.got }

inductive Reach : St V → Prop
  | init : Reach .init
  | step {s s' : St V} (h : Reach s) (st : Step s s') : Reach s'

/-! ## Specification of an execution -/

/-- There is one order of calls in which no call comes before one that had returned when it began, and no call occurs twice. Only calls that have begun are in it, with
what they were asked to do, and every call that has returned, with its answer. An ordinary map that is given the calls in this order answers what they answered. -/
def Ordered (s : St V) : Prop := ∃ (l : List (Rec V)) (m : Nat → Option V),
  Legal (fun _ => none) l m ∧ (l.Pairwise fun e e' => ¬ s.bef e.id e'.id ∧ e.id ≠ e'.id) ∧
  (∀ e ∈ l, e.id < s.nid ∧ e.act = s.ask e.id) ∧ ∀ x r, (x, r) ∈ s.got → (⟨x, s.ask x, r⟩ : Rec V) ∈ l

end Scc.Coppice
