import Verif.Grove.Spec

/-!
# The linked list of leaves of the tree index, and iterators, any number of threads

The model of `Verif/Grove/Model` with the linked list of the leaves and with any number of iterators
(`TreeIndex::iter`, /repo/src/tree_index.rs 769-776, 889-927). Calls and structural changes take the same steps
as there; some of them now have to wait until the thread that carries them out has changed the linked list, and
there are steps that change the linked list only.

The linked list is the trait `LinkedList` of the crate `sdd`, whose sources are not in /repo. What is assumed of
it (from its documentation and the comments in /repo):
* Every leaf has a word with a pointer to the next leaf and a tag. The tag says that the leaf is marked, or that
  it is deleted.
* `push_back` links a new leaf behind a leaf that is not deleted, and marks that leaf if asked to.
* `delete_self` sets the tag for deleted; the pointer stays.
* `next_ptr` follows the pointers to the first leaf that is not deleted, and may afterwards set the pointer of the
  leaf it started from to what it has found.
* `unmark` takes the mark away. `is_clear` tells that a leaf is neither marked nor deleted.

Every one of these accesses to a word is atomic here, and so is taking a snapshot of a leaf (`Scanner::new` loads
its metadata word, and entries are never overwritten).

Left out: everything that `Verif/Grove/Model` leaves out, but for `iter`; `Range`.
-/

namespace Scc.Vine

open Scc.Grove

local notation "Key" => Nat
local notation "Id" => Nat
local notation "Thr" => Nat

variable {V : Type}

/-- The linked list. -/
structure Lst where
  /-- the pointer to the next leaf -/
  link : Id → Option Id
  /-- the leaf is marked -/
  mark : Id → Bool
  /-- the leaf is deleted -/
  gone : Id → Bool
  /-- bookkeeping: the leaf was linked into the list -/
  lst : Id → Bool
  /-- `split_op.origin_leaf` of a leaf node (/repo/src/tree_index/leaf_node.rs 62) -/
  old : Id → Id
  /-- `rollback` of a leaf node has thawed the leaf and is about to unmark it (leaf_node.rs 714-721) -/
  late : Id → Bool

/-- There are no leaves. -/
def Lst.init : Lst :=
  { link := fun _ => none, mark := fun _ => false, gone := fun _ => false, lst := fun _ => false,
    old := fun _ => 0, late := fun _ => false }

/-- `push_back` of leaf `z` behind leaf `x`, with a mark. -/
def Lst.push (d : Lst) (x z : Id) : Lst :=
  { d with link := upd (upd d.link z (d.link x)) x (some z), mark := upd d.mark x true, lst := upd d.lst z true }

/-- `delete_self`. -/
def Lst.delete (d : Lst) (x : Id) : Lst := { d with gone := upd d.gone x true }

/-- `is_clear`. -/
def Lst.clear (d : Lst) (x : Id) : Bool := !d.mark x && !d.gone x

/-- What the thread that has locked node `n` must have done to the list before the step from `m` to `m'`, if that
step is its next one. -/
def Pass (d : Lst) (m m' : Mem V) (n : Id) : Prop :=
  match m.phase n, m'.phase n with
  /- `rollback` unlocks last (leaf_node.rs 721-726) -/
  | .free, .locked => d.late n = false
  /- `split_leaf` gets leaves that are still linked (leaf_node.rs 788-797: the pointer to the leaf has not
  changed; `coalesce` deletes a leaf from the list and changes the pointer under one lock) -/
  | .locked, .single _ x _ => d.gone x = false
  | .locked, .split _ (.leaf x) _ _ _ _ => d.gone x = false
  /- `coalesce` deletes first (leaf_node.rs 921-925) -/
  | .locked, .coal i => ∀ l, (m.node n).cell i = .to (.leaf l) → d.gone l = true
  /- `coalesce` deletes first (leaf_node.rs 954-961) -/
  | .locked, .locked => ∀ l, (m.node n).cell 0 = .to (.leaf l) → (m'.node n).cell 0 = .ret → d.gone l = true
  /- the leaf is deleted before its copy takes its place (leaf_node.rs 893-904) -/
  | .single _ x _, .locked => d.gone x = true
  /- both halves are linked first (leaf_node.rs 832-853) -/
  | .split _ (.leaf _) (.leaf xl) _ _ _, .ins _ _ _ _ _ _ _ => d.lst xl = true
  | .split _ (.leaf _) (.leaf xl) _ _ _, .full _ _ _ _ _ _ _ => d.lst xl = true
  /- the leaf is deleted before its lower half is thawed (leaf_node.rs 871-876) -/
  | .ins _ (.leaf x) _ _ _ _ false, .ins _ _ _ _ _ _ true => d.gone x = true
  /- `rollback` is not interrupted -/
  | .full _ (.leaf _) _ (.leaf xh) _ _ none, .full _ _ _ _ _ _ (some _) => d.gone xh = false
  /- `rollback` deletes both halves before it thaws the leaf (leaf_node.rs 708-716) -/
  | .full _ (.leaf _) (.leaf xl) _ _ _ none, .free => d.gone xl = true
  /- `commit` deletes the leaf before it thaws the halves (leaf_node.rs 644-665) -/
  | .fin 0 _ _ _ _, .fin 1 _ _ _ _ => d.gone (d.old n) = true
  | _, _ => True

/-- What a step from `m` to `m'` does to the bookkeeping of a leaf node: `split_leaf` stores the leaf in `split_op`
(leaf_node.rs 799-803), and `rollback` goes on with `unmark`. -/
def Lst.after (d : Lst) (m m' : Mem V) : Lst :=
  { d with
    old := fun n => match m.phase n, m'.phase n with
      | .locked, .single _ x _ => x
      | .locked, .split _ (.leaf x) _ _ _ _ => x
      | _, _ => d.old n,
    late := fun n => match m.phase n, m'.phase n with
      | .full _ (.leaf _) _ _ _ _ none, .free => true
      | _, _ => d.late n }

/-- A new leaf that is the only one in its list (leaf_node.rs 311-327). -/
def Lst.fresh (d : Lst) (l : Id) : Lst := { d with lst := upd d.lst l true }

/-- The steps that change the linked list only. -/
inductive Relink (m : Mem V) : Lst → Lst → Prop
  /-- the copy of a leaf is linked (leaf_node.rs 890-892) -/
  | pushCopy {d : Lst} (n i x y : Nat) (h : m.phase n = .single i x y) (hy : d.lst y = false)
    (hx : d.gone x = false) : Relink m d (d.push x y)
  /-- the upper half of a leaf is linked (leaf_node.rs 832-838) -/
  | pushHigh {d : Lst} (n i x xl xh : Nat) (mid : Key) (ch : List Ref)
    (h : m.phase n = .split i (.leaf x) (.leaf xl) (.leaf xh) mid ch) (hh : d.lst xh = false)
    (hx : d.gone x = false) : Relink m d (d.push x xh)
  /-- the lower half of a leaf is linked (leaf_node.rs 839-841) -/
  | pushLow {d : Lst} (n i x xl xh : Nat) (mid : Key) (ch : List Ref)
    (h : m.phase n = .split i (.leaf x) (.leaf xl) (.leaf xh) mid ch) (hh : d.lst xh = true)
    (hl : d.lst xl = false) (hx : d.gone x = false) : Relink m d (d.push x xl)
  /-- a leaf with a copy is deleted (leaf_node.rs 894-896) -/
  | delCopy {d : Lst} (n i x y : Nat) (h : m.phase n = .single i x y) (hy : d.lst y = true) :
    Relink m d (d.delete x)
  /-- a leaf that was split is deleted (leaf_node.rs 866-872) -/
  | delSplit {d : Lst} (n i x : Nat) (xl xh : Ref) (mid : Key) (ch : List Ref)
    (h : m.phase n = .ins i (.leaf x) xl xh mid ch false) : Relink m d (d.delete x)
  /-- `commit` deletes the leaf that was split (leaf_node.rs 644-648) -/
  | delCommit {d : Lst} (n xl xh nl nh : Nat) (h : m.phase n = .fin 0 xl xh nl nh) :
    Relink m d (d.delete (d.old n))
  /-- `rollback` deletes the upper half (leaf_node.rs 708-709) -/
  | delHigh {d : Lst} (n i x xl xh : Nat) (mid : Key) (ch : List Ref)
    (h : m.phase n = .full i (.leaf x) (.leaf xl) (.leaf xh) mid ch none) : Relink m d (d.delete xh)
  /-- `rollback` deletes the lower half (leaf_node.rs 710-711) -/
  | delLow {d : Lst} (n i x xl xh : Nat) (mid : Key) (ch : List Ref)
    (h : m.phase n = .full i (.leaf x) (.leaf xl) (.leaf xh) mid ch none) (hh : d.gone xh = true) :
    Relink m d (d.delete xl)
  /-- `coalesce` deletes a leaf that has retired (leaf_node.rs 922-924, 953-955) -/
  | delRet {d : Lst} (n j l : Nat) (h : m.phase n = .locked) (hj : j ∈ (m.node n).slots)
    (hc : (m.node n).cell j = .to (.leaf l)) (hr : (m.leaf l).retired = true) : Relink m d (d.delete l)
  /-- `rollback` takes the mark away (leaf_node.rs 718-721) -/
  | unmark {d : Lst} (n : Nat) (h : d.late n = true) :
    Relink m d { d with mark := upd d.mark (d.old n) false, late := upd d.late n false }
  /-- `next_ptr` skips a deleted leaf for good -/
  | skip {d : Lst} (a b : Nat) (h : d.link a = some b) (hg : d.gone b = true) :
    Relink m d { d with link := upd d.link a (d.link b) }

/-- The entries of a leaf in ascending order of the keys. -/
def Snap (l : Leaf V) (R : List (Key × V)) : Prop :=
  R.Pairwise (fun a b => a.1 < b.1) ∧ ∀ k v, (k, v) ∈ R ↔ l.get k = some v

/-- The places of the children in the order in which `min` looks at them: a leaf node returns the first leaf,
an internal node asks one child after the other (leaf_node.rs 183-213, internal_node.rs 161-195). -/
def Node.tour (N : Node) : List Nat :=
  if N.lv = 1 then [(N.kids.map Prod.snd ++ [0]).head?.getD 0] else N.kids.map Prod.snd ++ [0]

/-- Nodes whose `min` has called `min` of a child: the node, its version, and the places of the remaining
children. -/
abbrev Stack := List (Id × Nat × List Nat)

/-- Where an iterator is. `last` is the key that was yielded last. -/
inductive IPc (V : Type)
  /-- there is no iterator yet, or it has returned `None` -/
  | idle
  /-- before the load of the root (/repo/src/tree_index.rs 899-900) -/
  | top
  /-- `min` of node `n`, before the snapshot of its children -/
  | enter (n : Id) (st : Stack)
  /-- before the load of the pointer at the first place of `todo` -/
  | slot (n ver : Nat) (todo : List Nat) (st : Stack)
  /-- `r` was loaded; before `validate` -/
  | got (n ver : Nat) (r : Ref) (todo : List Nat) (st : Stack)
  /-- `min` of a child has returned `None` -/
  | none (st : Stack)
  /-- before `Scanner::new` of the first leaf -/
  | first (l : Id)
  /-- the scanner is in leaf `l`, with the entries `R` still to come -/
  | scan (l : Id) (R : List (Key × V)) (last : Option Key)
  /-- `jump` from leaf `c` (/repo/src/tree_index/leaf.rs 908-941): before the load of the pointer of leaf `a` -/
  | walk (c a : Id) (last : Option Key)
  /-- pointer `b` was loaded; before the load of its tag -/
  | look (c b : Id) (last : Option Key)
  /-- leaf `b` is not deleted; before `Scanner::new` -/
  | snap (c b : Id) (last : Option Key)
  /-- before `is_clear` of leaf `c` -/
  | check (c b : Id) (R : List (Key × V)) (last : Option Key)

/-- What happens in a step. -/
inductive IEv (V : Type)
  /-- something that iterators have no part in -/
  | base (e : Ev V)
  | tau
  /-- the first call of `next` begins -/
  | start (t : Thr)
  /-- `next` returns an entry -/
  | give (t : Thr) (k : Key) (v : V)
  /-- `next` returns `None` -/
  | stop (t : Thr)

/-- The steps of iterator `t`. -/
inductive Iter (m : Mem V) (d : Lst) (t : Thr) : IPc V → IEv V → IPc V → Prop
  | start : Iter m d t .idle (.start t) .top
  | empty (h : m.root = Option.none) : Iter m d t .top (.stop t) .idle
  | root (n : Id) (h : m.root = some n) : Iter m d t .top .tau (.enter n [])
  | enter (n : Id) (st : Stack) : Iter m d t (.enter n st) .tau (.slot n (m.ver n) (Node.tour (m.node n)) st)
  | fetch (n ver i : Nat) (r : Ref) (todo : List Nat) (st : Stack) (h : (m.node n).cell i = .to r) :
    Iter m d t (.slot n ver (i :: todo) st) .tau (.got n ver r todo st)
  /-- the key has just been removed -/
  | retry (n ver i : Nat) (todo : List Nat) (st : Stack) (hi : i ≠ 0) (h : ∀ r, (m.node n).cell i ≠ .to r) :
    Iter m d t (.slot n ver (i :: todo) st) .tau (.enter n st)
  /-- there is no unbounded child -/
  | null (n ver : Nat) (todo : List Nat) (st : Stack) (h : ∀ r, (m.node n).cell 0 ≠ .to r) :
    Iter m d t (.slot n ver (0 :: todo) st) .tau (.none st)
  | noneEnd : Iter m d t (.none []) (.stop t) .idle
  /-- it was the unbounded child -/
  | noneUp (n ver : Nat) (st : Stack) : Iter m d t (.none ((n, ver, []) :: st)) .tau (.none st)
  | noneNext (n ver i : Nat) (todo : List Nat) (st : Stack) :
    Iter m d t (.none ((n, ver, i :: todo) :: st)) .tau (.slot n ver (i :: todo) st)
  | invalid (n ver : Nat) (r : Ref) (todo : List Nat) (st : Stack) (h : m.ver n ≠ ver) :
    Iter m d t (.got n ver r todo st) .tau (.enter n st)
  | down (n ver c : Nat) (todo : List Nat) (st : Stack) (h : m.ver n = ver) :
    Iter m d t (.got n ver (.node c) todo st) .tau (.enter c ((n, ver, todo) :: st))
  | leaf (n ver l : Nat) (todo : List Nat) (st : Stack) (h : m.ver n = ver) :
    Iter m d t (.got n ver (.leaf l) todo st) .tau (.first l)
  | first (l : Id) (R : List (Key × V)) (h : Snap (m.leaf l) R) :
    Iter m d t (.first l) .tau (.scan l R Option.none)
  /-- `next` returns the next entry of the leaf -/
  | give (l : Id) (k : Key) (v : V) (R : List (Key × V)) (last : Option Key) :
    Iter m d t (.scan l ((k, v) :: R) last) (.give t k v) (.scan l R (some k))
  | jump (l : Id) (last : Option Key) : Iter m d t (.scan l [] last) .tau (.walk l l last)
  | next (c a b : Id) (last : Option Key) (h : d.link a = some b) :
    Iter m d t (.walk c a last) .tau (.look c b last)
  | last (c a : Id) (last : Option Key) (h : d.link a = Option.none) :
    Iter m d t (.walk c a last) (.stop t) .idle
  | deleted (c b b' : Id) (last : Option Key) (hg : d.gone b = true) (h : d.link b = some b') :
    Iter m d t (.look c b last) .tau (.look c b' last)
  | deletedLast (c b : Id) (last : Option Key) (hg : d.gone b = true) (h : d.link b = Option.none) :
    Iter m d t (.look c b last) (.stop t) .idle
  | valid (c b : Id) (last : Option Key) (hg : d.gone b = false) :
    Iter m d t (.look c b last) .tau (.snap c b last)
  | snap (c b : Id) (R : List (Key × V)) (last : Option Key) (h : Snap (m.leaf b) R) :
    Iter m d t (.snap c b last) .tau (.check c b R last)
  /-- the leaf is clear, or nothing was yielded yet: all entries of the next leaf are taken -/
  | clear (c b : Id) (R : List (Key × V)) (last : Option Key) (h : last = Option.none ∨ d.clear c = true)
    (hR : R ≠ []) : Iter m d t (.check c b R last) .tau (.scan b R last)
  | clearNext (c b : Id) (last : Option Key) (h : last = Option.none ∨ d.clear c = true) :
    Iter m d t (.check c b [] last) .tau (.walk c b last)
  /-- otherwise those that are not greater than the last key are skipped -/
  | compare (c b : Id) (R : List (Key × V)) (y : Key) (h : d.clear c = false)
    (hR : (R.dropWhile fun e => decide (e.1 ≤ y)) ≠ []) :
    Iter m d t (.check c b R (some y)) .tau (.scan b (R.dropWhile fun e => decide (e.1 ≤ y)) (some y))
  | compareNext (c b : Id) (R : List (Key × V)) (y : Key) (h : d.clear c = false)
    (hR : (R.dropWhile fun e => decide (e.1 ≤ y)) = []) :
    Iter m d t (.check c b R (some y)) .tau (.walk c b (some y))

/-- The state. -/
structure ISt (V : Type) where
  base : St V
  list : Lst
  it : Thr → IPc V

/-- A new index. -/
def ISt.init : ISt V := { base := .init, list := .init, it := fun _ => .idle }

/-- A step. -/
inductive IStep : ISt V → IEv V → ISt V → Prop
  /-- a step of a call that does not create a leaf -/
  | call {s : ISt V} {b : St V} {e : Ev V} (h : Call s.base e b) (hl : b.mem.nL = s.base.mem.nL) :
    IStep s (.base e) { s with base := b }
  /-- a step of a call that creates a leaf -/
  | leaf {s : ISt V} {b : St V} {e : Ev V} (h : Call s.base e b) (hl : b.mem.nL ≠ s.base.mem.nL) :
    IStep s (.base e) { s with base := b, list := s.list.fresh s.base.mem.nL }
  /-- a step of a structural change -/
  | change {s : ISt V} {m : Mem V}
    (h : Change (fun n => ∃ t, (s.base.th t).pc ≠ .idle ∧ n ∈ (s.base.th t).vis) s.base.mem m)
    (hp : ∀ n, Pass s.list s.base.mem m n) :
    IStep s (.base .tau) { s with base := { s.base with mem := m }, list := s.list.after s.base.mem m }
  /-- a change of the linked list -/
  | relink {s : ISt V} {d : Lst} (h : Relink s.base.mem s.list d) : IStep s .tau { s with list := d }
  /-- a step of an iterator -/
  | iter {s : ISt V} (t : Thr) {e : IEv V} {p : IPc V} (h : Iter s.base.mem s.list t (s.it t) e p) :
    IStep s e { s with it := upd s.it t p }

/-- Executions of a new index, with what happens in them, latest first. -/
inductive IRun : ISt V → List (IEv V) → Prop
  | init : IRun .init []
  | step {s s' : ISt V} {es : List (IEv V)} {e : IEv V} (r : IRun s es) (h : IStep s e s') : IRun s' (e :: es)

/-- What happens in calls. -/
def IEv.calls : List (IEv V) → List (Ev V)
  | [] => []
  | .base e :: es => e :: IEv.calls es
  | _ :: es => IEv.calls es

/-- Without the list and the iterators it is an execution of the model without these. -/
theorem IRun.base {s : ISt V} {es : List (IEv V)} (r : IRun s es) : Run s.base (IEv.calls es) := by
  induction r with
  | init => exact .init
  | @step s s' es e r h ih =>
    cases h with
    | call h hl => exact .step ih (.call h)
    | leaf h hl => exact .step ih (.call h)
    | change h hp => exact .step ih (.change h)
    | relink h => exact ih
    | @iter t _ _ h =>
      generalize s.it t = p at h
      cases h <;> exact ih

end Scc.Vine
