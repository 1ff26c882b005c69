/-!
# `TreeIndex::clear` beside calls on single keys

`clear` (/repo/src/tree_index.rs 132-136) exchanges the root for null and then unlinks the leaves of the tree it took out (node.rs 37-42,
internal_node.rs 67-79, leaf_node.rs 85-97), which iterators see, but not calls on single keys: the entries and the nodes of that tree stay as they
are. Calls that have loaded the old root go on in the old tree. Insertions make a new tree if they find null (tree_index.rs 224-238, 293-306); the root is also
set to null when the tree has no entries left and its root node has retired (node.rs 272-360).

Simplified: the calls on one tree act on it in one step each (that is C51 and C53, where trees are modelled in detail; the conditions stated
there apply). A new root of the same tree (`split_root`, or `cleanup_root` when one child is left) does not count as another root here. Loads of the
root are sequentially consistent. The names of the roots are numbers: each change of the pointer gives the next number.
-/

namespace Scc.Uproot

/-- A call: on one key, with any effect on it (`make`: it may insert), or `clear`. -/
inductive Op
  | key (k : Nat) (f : Option Nat → Option Nat × Option Nat) (make : Bool) (none : make = false → (f none).1 = none)
  | clear

/-- A call that has taken effect, and its result. -/
structure Ev where
  id : Nat
  op : Op
  res : Option Nat

def upd {α : Type} (f : Nat → α) (i : Nat) (x : α) : Nat → α := fun j => if j = i then x else f j

/-! ## Specification: an ordinary map -/

abbrev Map := Nat → Option Nat

def Map.empty : Map := fun _ => none

def Op.apply (m : Map) : Op → Map × Option Nat
  | .key k f _ _ => (upd m k (f (m k)).1, (f (m k)).2)
  | .clear => (Map.empty, none)

/-- The calls one after the other from `m` to `m'`, with these results. -/
inductive Legal : Map → List Ev → Map → Prop
  | nil {m : Map} : Legal m [] m
  | cons {m m' : Map} {e : Ev} {l : List Ev} (hr : e.res = (e.op.apply m).2) (h : Legal (e.op.apply m).1 l m') : Legal m (e :: l) m'

/-! ## Model -/

/-- Where a thread is. -/
inductive Pc
  | idle
  /-- To load the root: tree_index.rs 185, 263, 381, 449, 620, 686; 133 for `clear`. -/
  | go (x : Nat) (o : Op)
  /-- It has loaded root number `v`. -/
  | at (x : Nat) (k : Nat) (f : Option Nat → Option Nat × Option Nat) (make : Bool) (none : make = false → (f none).1 = none) (v : Nat)
  /-- It is about to return. -/
  | ret (x : Nat) (o : Op) (r : Option Nat)

structure St where
  /-- The number of the present root, -/
  n : Nat
  /-- which is a tree or null. -/
  isT : Nat → Bool
  /-- The contents of the trees. -/
  val : Nat → Map
  /-- The root node of the tree has retired. -/
  dead : Nat → Bool
  /-- What happened with this root, in the order of time; -/
  log : Nat → List Ev
  /-- the call of `clear` that took it out. -/
  clr : Nat → Option Nat
  pc : Nat → Pc
  nid : Nat
  /-- The calls that have returned, and what; -/
  got : List Ev
  /-- those that had returned when this one began. -/
  bef : Nat → Nat → Prop

/-- The call has returned. -/
def St.fin (s : St) (x : Nat) : Prop := ∃ e ∈ s.got, e.id = x

def St.init : St := ⟨0, fun _ => false, fun _ => Map.empty, fun _ => false, fun _ => [], fun _ => none, fun _ => .idle, 0, [], fun _ _ => False⟩

inductive Step : St → St → Prop
  | call {s : St} {t : Nat} (o : Op) (h : s.pc t = .idle) :
      Step s { s with pc := upd s.pc t (.go s.nid o), nid := s.nid + 1, bef := upd s.bef s.nid s.fin }
  /-- tree_index.rs 185, 263, 381, 449, 620, 686: the root is loaded. -/
  | load {s : St} {t x k : Nat} {f : Option Nat → Option Nat × Option Nat} {mk : Bool} {hn : mk = false → (f none).1 = none}
      (h : s.pc t = .go x (.key k f mk hn)) (ht : s.isT s.n = true) : Step s { s with pc := upd s.pc t (.at x k f mk hn s.n) }
  /-- 416, 477, 623, 689: it is null, and the call does not insert. -/
  | null {s : St} {t x k : Nat} {f : Option Nat → Option Nat × Option Nat} {mk : Bool} {hn : mk = false → (f none).1 = none}
      (h : s.pc t = .go x (.key k f mk hn)) (ht : s.isT s.n = false) (hm : mk = false) :
      Step s { s with pc := upd s.pc t (.ret x (.key k f mk hn) (f none).2), log := upd s.log s.n (s.log s.n ++ [⟨x, .key k f mk hn, (f none).2⟩]) }
  /-- 293-306: `compare_exchange` from null to a new tree; the call begins again. -/
  | create {s : St} {t x k : Nat} {f : Option Nat → Option Nat × Option Nat} {mk : Bool} {hn : mk = false → (f none).1 = none}
      (h : s.pc t = .go x (.key k f mk hn)) (ht : s.isT s.n = false) (hm : mk = true) :
      Step s { s with n := s.n + 1, isT := upd s.isT (s.n + 1) true }
  /-- 187, 265, 382, 451, 621, 687: the call takes effect in the tree, also if this is not the present one; nothing is inserted in a tree that has retired. -/
  | act {s : St} {t x k : Nat} {f : Option Nat → Option Nat × Option Nat} {mk : Bool} {hn : mk = false → (f none).1 = none} {v : Nat}
      (h : s.pc t = .at x k f mk hn v) (hd : s.dead v = true → (f none).1 = none) :
      Step s { s with
        pc := upd s.pc t (.ret x (.key k f mk hn) (f (s.val v k)).2)
        val := upd s.val v (upd (s.val v) k (f (s.val v k)).1)
        log := upd s.log v (s.log v ++ [⟨x, .key k f mk hn, (f (s.val v k)).2⟩]) }
  /-- 190-213, 268-289, 472: it begins again, without an effect. -/
  | retry {s : St} {t x k : Nat} {f : Option Nat → Option Nat × Option Nat} {mk : Bool} {hn : mk = false → (f none).1 = none} {v : Nat}
      (h : s.pc t = .at x k f mk hn v) : Step s { s with pc := upd s.pc t (.go x (.key k f mk hn)) }
  /-- The root node of an empty tree retires. -/
  | retire {s : St} (v : Nat) (h : ∀ k, s.val v k = none) : Step s { s with dead := upd s.dead v true }
  /-- node.rs 340: `cleanup_root` exchanges the root that has retired for null. -/
  | cleanup {s : St} (ht : s.isT s.n = true) (h : s.dead s.n = true) : Step s { s with n := s.n + 1, isT := upd s.isT (s.n + 1) false }
  /-- tree_index.rs 133: `clear` takes the tree out, -/
  | clear {s : St} {t x : Nat} (h : s.pc t = .go x .clear) (ht : s.isT s.n = true) :
      Step s { s with n := s.n + 1, isT := upd s.isT (s.n + 1) false, clr := upd s.clr s.n (some x), pc := upd s.pc t (.ret x .clear none) }
  /-- or finds null. -/
  | clear0 {s : St} {t x : Nat} (h : s.pc t = .go x .clear) (ht : s.isT s.n = false) :
      Step s { s with log := upd s.log s.n (s.log s.n ++ [⟨x, .clear, none⟩]), pc := upd s.pc t (.ret x .clear none) }
  | ret {s : St} {t x : Nat} {o : Op} {r : Option Nat} (h : s.pc t = .ret x o r) :
      Step s { s with pc := upd s.pc t .idle, got := s.got ++ [⟨x, o, r⟩] }

inductive Reach : St → Prop
  | init : Reach .init
  | step {s s' : St} (h : Reach s) (st : Step s s') : Reach s'

/-! ## The order -/

/-- What happened with one root: `clear` comes last. -/
def St.seg (s : St) (v : Nat) : List Ev := s.log v ++ (match s.clr v with | some x => [⟨x, .clear, none⟩] | none => [])

/-- All calls, root after root. -/
def St.flat (s : St) : Nat → List Ev
  | 0 => s.seg 0
  | v + 1 => s.flat v ++ s.seg (v + 1)

end Scc.Uproot
