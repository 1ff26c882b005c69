/-!
# Point operations of `TreeIndex` in a leaf node under release/acquire/relaxed memory

One leaf node with its `children`, the pointers to its leaves, and the metadata words of the leaves. Every location has
the sequence of all values written to it, every thread a view of how far it must have seen each location, and a load may
return any value that is not older than that: the operational form of the fragment of the C++ and Rust memory model
without sequentially consistent accesses, fences and speculation. A store with `Release` attaches the view of the thread
to the value, a load with `Acquire` takes it over; `Relaxed` does neither. A read-modify-write (`compare_exchange`,
`fetch_update`, `fetch_and`, `swap`) reads the newest value, and what it writes carries on the view that came with that
value (release sequences), whatever its own ordering is.

Simplifications. A word of a leaf is what can be found in it and its two flags; the entries themselves are written before
the word that makes them reachable and never changed (C20, C23). Leaves have no capacity: a split may be made whenever the
lock is held. The node has its unbounded leaf from the start and is neither split nor retired itself; there is no
`remove_range` (C61); links between leaves are not there. The lock is a contract: who gets it takes over the view of
whoever released it. A call that has to retry goes back to `idle` and may begin again.
-/

namespace Scc.Twig

/-- The newest value of each location a thread must have seen: `children.metadata` (`m`), the pointer at each place (`c`),
the word of each leaf (`l`). `g` influences nothing: it says for each key how much of its history the thread knows, and is
passed on with the view. -/
structure View where
  m : Nat
  c : Nat → Nat
  l : Nat → Nat
  g : Nat → Nat

def View.zero : View := ⟨0, fun _ => 0, fun _ => 0, fun _ => 0⟩

def View.join (v w : View) : View :=
  ⟨max v.m w.m, fun i => max (v.c i) (w.c i), fun x => max (v.l x) (w.l x), fun k => max (v.g k) (w.g k)⟩

def upd {α : Type} (f : Nat → α) (i : Nat) (a : α) : Nat → α := fun j => if j = i then a else f j

def View.seeM (v : View) (n : Nat) : View := { v with m := max v.m n }
def View.seeC (v : View) (i c : Nat) : View := { v with c := upd v.c i (max (v.c i) c) }
def View.seeL (v : View) (x t : Nat) : View := { v with l := upd v.l x (max (v.l x) t) }
def View.know (v : View) (k j : Nat) : View := { v with g := upd v.g k (max (v.g k) j) }

/-- `children` of a leaf node (/repo/src/tree_index/leaf.rs 22-37, leaf_node.rs 24-36): which keys are reachable in which
slot, in ascending order, how many slots were taken, and how many keys were removed; all of it can be read off the
metadata word, since a slot that was taken never becomes free again. Slot `i` is place `i + 1`; place 0 is
`unbounded_child`. -/
structure Word where
  kids : List (Nat × Nat)
  used : Nat
  gone : Nat
  deriving DecidableEq

/-- The place of the least key that is not smaller, otherwise the unbounded child (/repo/src/tree_index/leaf.rs 559-606,
leaf_node.rs 118-148). -/
def route : List (Nat × Nat) → Nat → Nat
  | [], _ => 0
  | (b, q) :: r, k => if k ≤ b then q else route r k

/-- A key becomes reachable (/repo/src/tree_index/leaf.rs 644-696). -/
def put (b p : Nat) : List (Nat × Nat) → List (Nat × Nat)
  | [] => [(b, p)]
  | (d, q) :: r => if b < d then (b, p) :: (d, q) :: r else (d, q) :: put b p r

/-- A key is removed (/repo/src/tree_index/leaf.rs 381-475). -/
def cut (q : Nat) (l : List (Nat × Nat)) : List (Nat × Nat) := l.filter (fun e => e.2 != q)

/-- The metadata word of a leaf with what is reachable by it (/repo/src/tree_index/leaf.rs 22-37, 772-795). -/
structure Page where
  has : Nat → Option Nat
  frozen : Bool
  retired : Bool

/-- The calls: `peek`, `peek_with`, `contains`; `insert`; `remove`, `remove_if`. -/
inductive Op
  | get
  | ins (v : Nat)
  | del
  deriving DecidableEq

/-- Where a thread is. -/
inductive Pc
  | idle
  /-- `children.metadata` was read: value `n` of it. -/
  | sel (o : Op) (k n : Nat)
  /-- The pointer was read: value `c`, the leaf `x`. -/
  | got (o : Op) (k n c x : Nat)
  /-- `validate` succeeded. -/
  | ent (o : Op) (k n c x : Nat)
  /-- Has the lock of the node. -/
  | lock
  /-- Splitting: the leaf `x` at place `i` is frozen. -/
  | froze (i x : Nat)
  /-- The two new leaves are there. -/
  | made (i x b lo hi : Nat)
  /-- A slot of `children` was reserved. -/
  | resv (i x b lo hi p : Nat)
  /-- The lower leaf is reachable. -/
  | publ (i x lo hi : Nat)
  /-- The lower leaf can be changed. -/
  | thawn (i x hi : Nat)
  /-- A single new leaf is there. -/
  | one (i x y : Nat)
  /-- The key of the retired leaf at place `q` was removed. -/
  | drop (q : Nat)

/-- `mw n`, `cp i c`, `lw x t` are the values written to the locations, up to the newest ones `mn`, `cn i`, `ln x`, with
the views `mv`, `cv`, `lv`. Nothing depends on `hv`, `hn`, `hw`, `ver`, `dead`: `hv k` up to `hn k` are the values key `k`
had so far, `hw k j` what the thread that made value `j` of key `k` the newest one then knew of all keys, `ver x t k` says
which of them value `t` of leaf `x` shows, `dead x` that `x` was replaced or removed. -/
structure State where
  mn : Nat
  mw : Nat → Word
  mv : Nat → View
  cn : Nat → Nat
  cp : Nat → Nat → Option Nat
  cv : Nat → Nat → View
  ln : Nat → Nat
  lw : Nat → Nat → Page
  lv : Nat → Nat → View
  nl : Nat
  ver : Nat → Nat → Nat → Nat
  hn : Nat → Nat
  hv : Nat → Nat → Option Nat
  hw : Nat → Nat → Nat → Nat
  dead : Nat → Bool
  lockv : View
  holder : Option Nat
  pc : Nat → Pc
  tv : Nat → View

/-- A leaf node with an empty unbounded leaf (/repo/src/tree_index/leaf_node.rs 71-81, 311-327). -/
def State.init : State where
  mn := 0
  mw := fun _ => ⟨[], 0, 0⟩
  mv := fun _ => .zero
  cn := fun _ => 0
  cp := fun i _ => if i = 0 then some 0 else none
  cv := fun _ _ => .zero
  ln := fun _ => 0
  lw := fun _ _ => ⟨fun _ => none, false, false⟩
  lv := fun _ _ => .zero
  nl := 1
  ver := fun _ _ _ => 0
  hn := fun _ => 0
  hv := fun _ _ => none
  hw := fun _ _ _ => 0
  dead := fun _ => false
  lockv := .zero
  holder := none
  pc := fun _ => .idle
  tv := fun _ => .zero

namespace State

/-- The newest word of a leaf, the newest word of `children`, and where key `k` belongs in word `n`. -/
def page (s : State) (x : Nat) : Page := s.lw x (s.ln x)
def word (s : State) : Word := s.mw s.mn
def R (s : State) (n k : Nat) : Nat := route (s.mw n).kids k

/-- Thread `t` goes to `p` and has the view `v`. -/
def go (s : State) (t : Nat) (p : Pc) (v : View) : State := { s with pc := upd s.pc t p, tv := upd s.tv t v }

/-- A word is written to `children.metadata`. -/
def addWord (s : State) (w : Word) (v : View) : State :=
  { s with mn := s.mn + 1, mw := upd s.mw (s.mn + 1) w, mv := upd s.mv (s.mn + 1) v }

/-- A pointer is written to place `i`. -/
def addCell (s : State) (i : Nat) (p : Option Nat) (v : View) : State :=
  { s with cn := upd s.cn i (s.cn i + 1), cp := upd s.cp i (upd (s.cp i) (s.cn i + 1) p),
           cv := upd s.cv i (upd (s.cv i) (s.cn i + 1) v) }

/-- A word is written to leaf `x`. -/
def addPage (s : State) (x : Nat) (p : Page) (v : View) (r : Nat → Nat) : State :=
  { s with ln := upd s.ln x (s.ln x + 1), lw := upd s.lw x (upd (s.lw x) (s.ln x + 1) p),
           lv := upd s.lv x (upd (s.lv x) (s.ln x + 1) v), ver := upd s.ver x (upd (s.ver x) (s.ln x + 1) r) }

/-- The history of key `k` goes on. -/
def addHist (s : State) (k : Nat) (r : Option Nat) (w : Nat → Nat) : State :=
  { s with hn := upd s.hn k (s.hn k + 1), hv := upd s.hv k (upd (s.hv k) (s.hn k + 1) r),
           hw := upd s.hw k (upd (s.hw k) (s.hn k + 1) w) }

/-- The view of thread `t` with what comes with the newest word of leaf `x`, which it has just followed by another one. -/
def tl (s : State) (t x : Nat) : View := ((s.tv t).join (s.lv x (s.ln x))).seeL x (s.ln x + 1)

/-- The same for `children.metadata` … -/
def tm (s : State) (t : Nat) : View := ((s.tv t).join (s.mv s.mn)).seeM (s.mn + 1)

/-- … and for what a `Release` swap of the pointer at place `i` leaves: it does not acquire, but carries on what was
there. -/
def tc (s : State) (t i : Nat) : View := ((s.tv t).join (s.cv i (s.cn i))).seeC i (s.cn i + 1)

/-- A leaf that is not reachable yet gets its contents (/repo/src/tree_index/leaf.rs 187-197, 608-642). -/
def newLeaf (s : State) (y : Nat) (p : Page) (v : View) (r : Nat → Nat) : State :=
  { s with lw := upd s.lw y (upd (s.lw y) 0 p), lv := upd s.lv y (upd (s.lv y) 0 v),
           ver := upd s.ver y (upd (s.ver y) 0 r), nl := y + 1 }

def setDead (s : State) (x : Nat) : State := { s with dead := upd s.dead x true }

/-- The pointer of a slot is initialised before the slot becomes reachable. -/
def initCell (s : State) (p x : Nat) : State :=
  { s with cp := upd s.cp p (upd (s.cp p) 0 (some x)), cv := upd s.cv p (upd (s.cv p) 0 .zero) }

/-- Keys that belonged to place `q` now belong to another leaf, which never had them: what it shows is the newest value of
these keys (`s` is the state after `q` was removed). -/
def rever (s : State) (q : Nat) : State :=
  { s with ver := fun y u k => if s.R (s.mn - 1) k = q ∧ s.cp (s.R s.mn k) (s.cn (s.R s.mn k)) = some y then s.hn k
                               else s.ver y u k }

end State

/-- What can be observed of a step: a call of thread `t` finds `r` for key `k` and changes nothing (`saw`); it sets what
there is for key `k` to `r` (`set`); what thread `a` did happens before what thread `b` does next (`sync`). -/
inductive Label
  | tau
  | saw (t k : Nat) (r : Option Nat)
  | set (t k : Nat) (r : Option Nat)
  | sync (a b : Nat)

/-- A call that finds `r` and ends without changing anything: a lookup, an insertion that finds the key present, a removal
that does not find it, a `remove_if` whose condition is not met. -/
def Op.ends : Op → Option Nat → Prop
  | .get, _ => True
  | .ins _, r => r ≠ none
  | .del, _ => True

inductive Step : State → Label → State → Prop
  /-- `min_greater_equal` with an `Acquire` load of `children.metadata` (/repo/src/tree_index/leaf.rs 559-606). -/
  | sel {s : State} {t k n : Nat} {o : Op} : s.pc t = .idle → (s.tv t).m ≤ n → n ≤ s.mn →
      Step s .tau (s.go t (.sel o k n) (((s.tv t).join (s.mv n)).seeM n))
  /-- The pointer is loaded with `Acquire` (/repo/src/tree_index/leaf_node.rs 121, 141, 274, 311, 385, 404). -/
  | load {s : State} {t k n c x : Nat} {o : Op} : s.pc t = .sel o k n → (s.tv t).c (s.R n k) ≤ c → c ≤ s.cn (s.R n k) →
      s.cp (s.R n k) c = some x →
      Step s .tau (s.go t (.got o k n c x) (((s.tv t).join (s.cv (s.R n k) c)).seeC (s.R n k) c))
  /-- `validate` with a `Relaxed` load: the word is compared (/repo/src/tree_index/leaf.rs 199-204, leaf_node.rs 122, 143,
  276, 330, 387, 407). -/
  | valid {s : State} {t k n c x m : Nat} {o : Op} : s.pc t = .got o k n c x → (s.tv t).m ≤ m → m ≤ s.mn →
      s.mw m = s.mw n → Step s .tau (s.go t (.ent o k n c x) ((s.tv t).seeM m))
  /-- A null pointer, a failed validation, a frozen, full or retired leaf, or a lock that is taken: the call begins again
  (/repo/src/tree_index/leaf_node.rs 136-139, 299-308, 390-394, 401-402). -/
  | retry {s : State} {t k n : Nat} {o : Op} :
      (s.pc t = .sel o k n ∨ (∃ c x, s.pc t = .got o k n c x) ∨ ∃ c x, s.pc t = .ent o k n c x) →
      Step s .tau (s.go t .idle (s.tv t))
  /-- The word of the leaf is loaded with `Acquire`, and the call ends without a change
  (/repo/src/tree_index/leaf.rs 501-520, 343-378, 391-420, 470-475, 670-673). `remove_if` may have read a second, newer word when it
  returns `Fail` because the entry was removed (leaf.rs 457-460). -/
  | read {s : State} {t k n c x u u' : Nat} {o : Op} : s.pc t = .ent o k n c x → (s.tv t).l x ≤ u → u ≤ u' →
      u' ≤ s.ln x → o.ends ((s.lw x u).has k) →
      Step s (.saw t k ((s.lw x u).has k))
        (s.go t .idle (((((s.tv t).join (s.lv x u)).join (s.lv x u')).seeL x u').know k (s.ver x u k)))
  /-- An insertion reserves a slot: `compare_exchange` with `Acquire` (/repo/src/tree_index/leaf.rs 355-366). -/
  | reserve {s : State} {t k n c x v : Nat} : s.pc t = .ent (.ins v) k n c x → (s.page x).frozen = false →
      (s.page x).retired = false →
      Step s .tau ((s.addPage x (s.page x) ((s.lv x (s.ln x)).seeL x (s.ln x + 1)) (s.ver x (s.ln x))).go t
        (.ent (.ins v) k n c x) (s.tl t x))
  /-- It takes it back: `fetch_and` with `Release` (/repo/src/tree_index/leaf.rs 286-300). -/
  | undo {s : State} {t k n c x v : Nat} : s.pc t = .ent (.ins v) k n c x →
      Step s .tau ((s.addPage x (s.page x) (s.tl t x) (s.ver x (s.ln x))).go t (.ent (.ins v) k n c x)
        ((s.tv t).seeL x (s.ln x + 1)))
  /-- The same after the call has read what it returns: the word in which it found the key (/repo/src/tree_index/leaf.rs
  670-673) or in which the leaf was frozen or retired (687-688). It is allowed for every leaf that was ever reachable. -/
  | late {s : State} {t j c x : Nat} : s.pc t = .idle → c ≤ s.cn j → s.cp j c = some x →
      Step s .tau ((s.addPage x (s.page x) (s.tl t x) (s.ver x (s.ln x))).go t .idle ((s.tv t).seeL x (s.ln x + 1)))
  /-- It makes the entry reachable: `compare_exchange` with `AcqRel` (/repo/src/tree_index/leaf.rs 681-694). -/
  | ins {s : State} {t k n c x v : Nat} : s.pc t = .ent (.ins v) k n c x → (s.page x).frozen = false →
      (s.page x).retired = false → (s.page x).has k = none →
      Step s (.set t k (some v))
        (((s.addPage x ⟨upd (s.page x).has k (some v), false, false⟩ ((s.tl t x).know k (s.hn k + 1))
          (upd (s.ver x (s.ln x)) k (s.hn k + 1))).addHist k (some v)
          ((s.tl t x).know k (s.hn k + 1)).g).go t .idle ((s.tl t x).know k (s.hn k + 1)))
  /-- A removal: `compare_exchange` with `AcqRel`; the leaf retires with its last entry
  (/repo/src/tree_index/leaf.rs 415-466). -/
  | del {s : State} {t k n c x v : Nat} {r : Bool} : s.pc t = .ent .del k n c x → (s.page x).frozen = false →
      (s.page x).has k = some v → (r = true → ∀ d, d ≠ k → (s.page x).has d = none) →
      Step s (.set t k none)
        (((s.addPage x ⟨upd (s.page x).has k none, false, r⟩ ((s.tl t x).know k (s.hn k + 1))
          (upd (s.ver x (s.ln x)) k (s.hn k + 1))).addHist k none
          ((s.tl t x).know k (s.hn k + 1)).g).go t .idle ((s.tl t x).know k (s.hn k + 1)))
  /-- The lock of the node (/repo/src/tree_index/leaf_node.rs 780-789, 907-908, 920). -/
  | lock {s : State} {t : Nat} : s.pc t = .idle → s.holder = none →
      Step s .tau ({ s with holder := some t }.go t .lock ((s.tv t).join s.lockv))
  | unlock {s : State} {t : Nat} : s.pc t = .lock →
      Step s .tau ({ s with holder := none, lockv := s.tv t }.go t .idle (s.tv t))
  /-- A split begins: the pointer is loaded again with `Relaxed`, the leaf is frozen with `AcqRel`
  (/repo/src/tree_index/leaf_node.rs 786-815, leaf.rs 608-625). -/
  | freeze {s : State} {t i c x : Nat} : s.pc t = .lock → (s.tv t).c i ≤ c → c ≤ s.cn i → s.cp i c = some x →
      (s.page x).frozen = false →
      Step s .tau ((s.addPage x { s.page x with frozen := true } (s.tl t x) (s.ver x (s.ln x))).go t (.froze i x)
        (s.tl t x))
  /-- It is given up: `thaw` with `Release` (/repo/src/tree_index/leaf_node.rs 806-811, leaf.rs 121-133). -/
  | abort {s : State} {t i x : Nat} : s.pc t = .froze i x →
      Step s .tau ((s.addPage x { s.page x with frozen := false } (s.tl t x) (s.ver x (s.ln x))).go t .lock
        ((s.tv t).seeL x (s.ln x + 1)))
  /-- The entries go to two new leaves, neither of which is empty; the lower one is frozen
  (/repo/src/tree_index/leaf.rs 627-641, leaf_node.rs 813-847). The frozen leaf has not changed since it was frozen. -/
  | make {s : State} {t i x b d : Nat} : s.pc t = .froze i x → (s.page x).has b ≠ none → b < d →
      (s.page x).has d ≠ none →
      Step s .tau (((s.newLeaf s.nl ⟨fun k => if k ≤ b then (s.page x).has k else none, true, false⟩ .zero
          (s.ver x (s.ln x))).newLeaf (s.nl + 1) ⟨fun k => if k ≤ b then none else (s.page x).has k, false, false⟩ .zero
          (s.ver x (s.ln x))).go t (.made i x b s.nl (s.nl + 1)) (s.tv t))
  /-- A slot of `children` is reserved: `compare_exchange` with `Acquire` (/repo/src/tree_index/leaf.rs 355-366,
  leaf_node.rs 849-852). -/
  | resv {s : State} {t i x b lo hi : Nat} : s.pc t = .made i x b lo hi →
      Step s .tau ((s.addWord { s.word with used := s.word.used + 1 } ((s.mv s.mn).seeM (s.mn + 1))).go t
        (.resv i x b lo hi (s.word.used + 1)) (s.tm t))
  /-- The lower leaf becomes reachable: `compare_exchange` with `AcqRel` (/repo/src/tree_index/leaf.rs 681-694). -/
  | publ {s : State} {t i x b lo hi p : Nat} : s.pc t = .resv i x b lo hi p →
      Step s .tau ((((s.initCell p lo).addWord { s.word with kids := put b p s.word.kids } (s.tm t)).setDead x).go t
        (.publ i x lo hi) (s.tm t))
  /-- It can be changed: `thaw` with `Release` (/repo/src/tree_index/leaf_node.rs 874-876, leaf.rs 121-133). -/
  | thaw {s : State} {t i x lo hi : Nat} : s.pc t = .publ i x lo hi →
      Step s .tau ((s.addPage lo { s.page lo with frozen := false } (s.tl t lo) (s.ver lo (s.ln lo))).go t
        (.thawn i x hi) ((s.tv t).seeL lo (s.ln lo + 1)))
  /-- The upper leaf takes the place of the old one: `swap` with `Release` (/repo/src/tree_index/leaf_node.rs 878-884). -/
  | swap {s : State} {t i x hi : Nat} : s.pc t = .thawn i x hi →
      Step s .tau ((s.addCell i (some hi) (s.tc t i)).go t .lock ((s.tv t).seeC i (s.cn i + 1)))
  /-- All entries go to one new leaf (/repo/src/tree_index/leaf_node.rs 885-892) … -/
  | make1 {s : State} {t i x : Nat} : s.pc t = .froze i x →
      Step s .tau ((s.newLeaf s.nl ⟨(s.page x).has, false, false⟩ .zero (s.ver x (s.ln x))).go t (.one i x s.nl)
        (s.tv t))
  /-- … which takes the place of the old one (/repo/src/tree_index/leaf_node.rs 894-903). -/
  | swap1 {s : State} {t i x y : Nat} : s.pc t = .one i x y →
      Step s .tau (((s.addCell i (some y) (s.tc t i)).setDead x).go t .lock ((s.tv t).seeC i (s.cn i + 1)))
  /-- `coalesce` finds a retired leaf: the words and pointers loaded are not older than the view of the thread, which has
  the lock; the key is removed with `AcqRel` (/repo/src/tree_index/leaf_node.rs 920-929, leaf.rs 415-466). -/
  | drop {s : State} {t q c x u n : Nat} : s.pc t = .lock → (s.tv t).m ≤ n → n ≤ s.mn →
      q ∈ (s.mw n).kids.map Prod.snd → (s.tv t).c q ≤ c → c ≤ s.cn q → s.cp q c = some x → (s.tv t).l x ≤ u →
      u ≤ s.ln x → (s.lw x u).retired = true →
      Step s .tau (((((s.addWord { s.word with kids := cut q s.word.kids, gone := s.word.gone + 1 }
        ((s.tm t).join (s.lv x u))).rever q).setDead x)).go t (.drop q) (((s.tm t).join (s.lv x u)).seeL x u))
  /-- Then the pointer becomes null: `swap` with `Release` (/repo/src/tree_index/leaf_node.rs 931-933). -/
  | null {s : State} {t q : Nat} : s.pc t = .drop q →
      Step s .tau ((s.addCell q none (s.tc t q)).go t .lock ((s.tv t).seeC q (s.cn q + 1)))
  /-- Threads communicate by other means: joining a thread, a lock, a channel. -/
  | sync {s : State} {a b : Nat} : s.pc b = .idle →
      Step s (.sync a b) (s.go b .idle ((s.tv b).join (s.tv a)))

inductive Steps : State → State → Prop
  | refl (s : State) : Steps s s
  | step {s s' s'' : State} {l : Label} : Steps s s' → Step s' l s'' → Steps s s''

def Reach (s : State) : Prop := Steps .init s

end Scc.Twig
