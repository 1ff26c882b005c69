import Verif.Grove.Base

/-!
# The invariant of the shared objects
-/

namespace Scc.Grove

local notation "Key" => Nat
local notation "Id" => Nat
local notation "Thr" => Nat

variable {V : Type}

/-- A change whose lower half is in place and whose upper half is not. -/
def Phase.half : Phase → Option (Nat × Job)
  | .ins i x xl xh mid ch _ => some (i, ⟨x, xl, xh, mid, ch⟩)
  | _ => none

theorem Phase.half_job {p : Phase} {i : Nat} {J : Job} (h : p.half = some (i, J)) : p.job = some J := by
  cases p <;> simp [Phase.half, Phase.job] at h ⊢ <;> exact h.2

/-- Phases of obsolete nodes. -/
def Phase.over : Phase → Bool
  | .full _ _ _ _ _ _ (some _) => true
  | .fin _ _ _ _ _ => true
  | .gone => true
  | _ => false

/-- The lower half of this object is in place, and the key belongs to it. -/
def Cut (ph : Id → Phase) (x : Ref) (k : Key) : Prop :=
  ∃ n i J, (ph n).half = some (i, J) ∧ x ∈ J.ch ∧ k ≤ J.mid

structure Shape (R : Option Id) (N : Id → Node) (ph : Id → Phase) (nN nL : Nat) (D : Ref → Bool) : Prop where
  root_lt : ∀ r, R = some r → r < nN
  fresh : ∀ n, nN ≤ n → N n = Node.new ∧ ph n = .free
  cell_al : ∀ n i y, (N n).cell i = .to y → Alloc nN nL y
  lev : Lev N
  dead_al : ∀ y, D y = true → Alloc nN nL y
  lv_pos : ∀ n, 1 ≤ (N n).lv
  asc : ∀ n, Asc (N n).kids
  nodup : ∀ n, ((N n).kids.map Prod.snd).Nodup
  pos : ∀ n, ∀ e ∈ (N n).kids, e.2 ≠ 0 ∧ e.2 < (N n).used
  used_pos : ∀ n, 1 ≤ (N n).used
  unb : ∀ n, (N n).kids ≠ [] → ∃ y, (N n).cell 0 = .to y
  kid : ∀ n, ∀ e ∈ (N n).kids, ∃ y, (N n).cell e.2 = .to y

/-- What the map has is found on the search paths. -/
structure Mean (R : Option Id) (N : Id → Node) (L : Id → Leaf V) (A : Key → Option V) : Prop where
  leaf : ∀ k l, On R N k (.leaf l) → (L l).get k = A k
  null : ∀ k n, On R N k (.node n) → (∀ y, (N n).dest k ≠ .to y) → A k = none
  root : R = none → ∀ k, A k = none

structure Order (R : Option Id) (N : Id → Node) (L : Id → Leaf V) (ph : Id → Phase) : Prop where
  bound : ∀ n, Lit R N (.node n) → ∀ e ∈ (N n).kids, On R N e.1 (.node n) ∨ Cut ph (.node n) e.1
  above : ∀ n, Lit R N (.node n) → ∃ k, On R N k (.node n) ∧ ∀ e ∈ (N n).kids, e.1 < k
  entry : ∀ l k, Lit R N (.leaf l) → (L l).get k ≠ none → On R N k (.leaf l) ∨ Cut ph (.leaf l) k
  parent : ∀ n n' j j' y, Use R N n j → Use R N n' j' → (N n).cell j = .to y → (N n').cell j' = .to y →
    n = n' ∧ (j = j' ∨ ∃ b i, ph n = .move b i ∧ (j = i ∨ j' = i))

structure Dead (R : Option Id) (N : Id → Node) (L : Id → Leaf V) (F : Id → Bool) (ph : Id → Phase)
    (D : Ref → Bool) : Prop where
  over : ∀ n, D (.node n) = true → (ph n).over = true
  null : ∀ n, D (.node n) = true → (N n).cell 0 ≠ .null
  frozen : ∀ l, D (.leaf l) = true → F l = true
  half : ∀ y, D y = true → Lit R N y → ∃ n i J, (ph n).half = some (i, J) ∧ y ∈ J.ch
  empty : ∀ l, (L l).retired = true → (L l).m = []
  plan : ∀ n, D (.node n) = true → (ph n).plan ≠ none → ∃ u i J, (ph u).half = some (i, J) ∧ .node n ∈ J.ch

/-- Changes are nested properly. -/
structure Chain (ph : Id → Phase) : Prop where
  list : ∀ n J, (ph n).job = some J → ∃ ch', J.ch = J.x :: ch' ∧ (∀ l, J.x = .leaf l → ch' = []) ∧
    (∀ c, J.x = .node c → ∃ i x xl xh mid nl nh,
      ph c = .full i x xl xh mid ch' (some (nl, nh)) ∧ J.xl = .node nl ∧ J.xh = .node nh)
  uniq : ∀ n n' J J', (ph n).job = some J → (ph n').job = some J' → J.x = J'.x → n = n'

/-- Is an object retired? -/
def Retired (N : Id → Node) (L : Id → Leaf V) : Ref → Prop
  | .leaf l => (L l).retired = true
  | .node n => (N n).cell 0 = .ret

/-- The search path of `k2` meets the old and the new object, too. -/
def Same (R : Option Id) (N : Id → Node) (J : Job) (k : Key) (x y : Ref) (k2 : Key) : Prop :=
  On R N k2 x ∧ J.side k2 = J.side k ∧ Pair N k2 J.x (J.side k2) x y

/-- Old and new have the same content and the same children. -/
def Match (R : Option Id) (N : Id → Node) (L : Id → Leaf V) (F : Id → Bool) (J : Job) (k : Key) :
    Ref → Ref → Prop
  | .leaf l, .leaf l' => F l = true ∧ (L l').get k = (L l).get k ∧
      ∀ k2, (L l').get k2 ≠ none → Same R N J k (.leaf l) (.leaf l') k2
  | .node n, .node n' => (∃ w w', (N n).dest k = .to w ∧ (N n').dest k = .to w' ∧ (w = w' → w ∉ J.ch)) ∧
      (∀ e ∈ (N n').kids, Same R N J k (.node n) (.node n') e.1) ∧
      ∃ k2, (∀ e ∈ (N n').kids, e.1 < k2) ∧ Same R N J k (.node n) (.node n') k2
  | _, _ => False

/-- What holds for an old and a new object. -/
structure PairOk (R : Option Id) (N : Id → Node) (L : Id → Leaf V) (F : Id → Bool) (D : Ref → Bool)
    (nN nL : Nat) (src : Ref → Ref) (J : Job) (k : Key) (x y : Ref) : Prop where
  mem : x ∈ J.ch
  src : src y = x
  al : Alloc nN nL y
  lvl : lvl N y = lvl N x
  unlit : ¬ Lit R N y
  live : D y = false
  ret : ¬ Retired N L y
  same : Match R N L F J k x y

/-- What holds for a change that is under way, for the keys that satisfy `fil`. -/
structure JobOk (R : Option Id) (N : Id → Node) (L : Id → Leaf V) (F : Id → Bool) (D : Ref → Bool)
    (nN nL : Nat) (src : Ref → Ref) (J : Job) (fil : Key → Prop) (d : Bool) : Prop where
  pair : ∀ k x y, fil k → Pair N k J.x (J.side k) x y → PairOk R N L F D nN nL src J k x y
  inj : ∀ k k' x n n', fil k → fil k' → Pair N k J.x (J.side k) x (.node n) →
    Pair N k' J.x (J.side k') x (.node n') → (N n).dest k = (N n').dest k' →
    n = n' ∧ route (N n).kids k = route (N n').kids k'
  sep : ∀ k k' x y, fil k → fil k' → Pair N k J.x (J.side k) x y → Pair N k' J.x (J.side k') x y →
    J.side k = J.side k'
  dead : ∀ y ∈ J.ch, D y = d
  lit : d = false → ∀ y ∈ J.ch, Lit R N y
  frozen : ∀ l, .leaf l ∈ J.ch → F l = true
  fcl : ∀ k k', fil k → J.side k' = J.side k → fil k'

/-- The place of a change that can still be rolled back. -/
structure Site (R : Option Id) (N : Id → Node) (n i : Nat) (J : Job) : Prop where
  slot : i ∈ (N n).slots
  cell : (N n).cell i = .to J.x
  low : On R N J.mid (.node n) ∧ route (N n).kids J.mid = i
  high : ∃ k, J.mid < k ∧ On R N k (.node n) ∧ route (N n).kids k = i
  parent : ∀ y ∈ J.ch, ∀ q j, Use R N q j → (N q).cell j = .to y → q = n ∧ j = i ∨ .node q ∈ J.ch
  below : ∀ y ∈ J.ch, lvl N y < (N n).lv
  ne : J.xl ≠ J.xh

/-- The place of a change whose lower half is in place. -/
structure Half (R : Option Id) (N : Id → Node) (D : Ref → Bool) (n i : Nat) (J : Job) : Prop where
  slot : i ∈ (N n).slots
  cell : (N n).cell i = .to J.x
  live : D (.node n) = false
  only : ∀ k, route (N n).kids k = i → J.mid < k
  high : ∃ k, On R N k (.node n) ∧ route (N n).kids k = i
  parent : ∀ y ∈ J.ch, ∀ q j, Use R N q j → (N q).cell j = .to y → q = n ∧ j = i ∨ .node q ∈ J.ch
  below : ∀ y ∈ J.ch, lvl N y < (N n).lv
  low : ∃ j, Use R N n j ∧ (N n).cell j = .to J.xl
  lowLive : D J.xl = false

/-- A change of the root. -/
structure Top (R : Option Id) (N : Id → Node) (D : Ref → Bool) (nN : Nat) (src : Ref → Ref)
    (r n nl nh : Id) (mid : Key) (ch : List Ref) : Prop where
  root : R = some n
  lt : r < nN
  unlit : ¬ Lit R N (.node r)
  live : D (.node r) = false
  src : src (.node r) = .node r
  kids : (N r).kids = [(mid, 1)]
  low : (N r).cell 1 = .to (.node nl)
  high : (N r).cell 0 = .to (.node nh)
  parent : ∀ y ∈ ch, ∀ q j, Use R N q j → (N q).cell j = .to y → .node q ∈ ch
  ne : nl ≠ nh

/-- A leaf is replaced with a copy. -/
structure Copy (R : Option Id) (N : Id → Node) (L : Id → Leaf V) (F : Id → Bool) (D : Ref → Bool)
    (nL : Nat) (src : Ref → Ref) (n i x y : Nat) : Prop where
  slot : i ∈ (N n).slots
  cell : (N n).cell i = .to (.leaf x)
  use : Use R N n i
  frozen : F x = true
  live : D (.leaf x) = false
  al : y < nL
  unlit : ¬ Lit R N (.leaf y)
  live' : D (.leaf y) = false
  src : src (.leaf y) = .leaf x
  same : (L y).m = (L x).m
  ret : (L y).retired = false

structure Jobs (R : Option Id) (N : Id → Node) (L : Id → Leaf V) (F : Id → Bool) (D : Ref → Bool)
    (nN nL : Nat) (src : Ref → Ref) (ph : Id → Phase) : Prop where
  plan : ∀ n i J, (ph n).plan = some (i, J) → D (.node n) = false →
    JobOk R N L F D nN nL src J (fun _ => True) false ∧ Site R N n i J
  half : ∀ n i J, (ph n).half = some (i, J) →
    JobOk R N L F D nN nL src J (fun k => J.mid < k) true ∧ Half R N D n i J
  root : ∀ r n nl nh mid ch, ph r = .root n nl nh mid ch →
    JobOk R N L F D nN nL src ⟨.node n, .node nl, .node nh, mid, ch⟩ (fun _ => True) false ∧
    Top R N D nN src r n nl nh mid ch
  copy : ∀ n i x y, ph n = .single i x y → Copy R N L F D nL src n i x y

/-- The nodes with a pointer to this leaf are locked by the change of `n`. -/
def Hold (N : Id → Node) (ph : Id → Phase) (src : Ref → Ref) (n l : Nat) : Prop :=
  ∀ q j, (N q).cell j = .to (.leaf l) → ph q = .held ∧ src (.node q) = .node n

structure Locks (R : Option Id) (N : Id → Node) (D : Ref → Bool) (nN nL : Nat) (src : Ref → Ref)
    (ph : Id → Phase) : Prop where
  locked : ∀ n, ph n = .locked → Lit R N (.node n) ∨ (N n).cell 0 = .ret
  coal : ∀ n i, ph n = .coal i → Lit R N (.node n) ∧ i ≠ 0 ∧ (∀ e ∈ (N n).kids, e.2 ≠ i) ∧
    ∃ y, (N n).cell 0 = .to y
  move : ∀ n b i, ph n = .move b i → Lit R N (.node n) ∧ (∃ l, (N n).kids = l ++ [(b, i)]) ∧
    ∃ y, (N n).cell 0 = .to y ∧ (N n).cell i = .to y
  claim : ∀ n i x xl xh mid ch nl nh, ph n = .full i x xl xh mid ch (some (nl, nh)) →
    nl ≠ nh ∧ nl < nN ∧ nh < nN ∧ src (.node nl) = .node n ∧ src (.node nh) = .node n ∧
    ((N n).lv = 1 → ph nl = .held ∧ ph nh = .held)
  fin : ∀ n j xl xh nl nh, ph n = .fin j xl xh nl nh →
    nl ≠ nh ∧ nl < nN ∧ nh < nN ∧ src (.node nl) = .node n ∧ src (.node nh) = .node n ∧
    (j ≤ 2 → ph nl = .held) ∧ (j ≤ 3 → ph nh = .held)
  finLow : ∀ n xl xh nl nh, ph n = .fin 0 xl xh nl nh →
    xl < nL ∧ D (.leaf xl) = false ∧ D (src (.leaf xl)) = true ∧
      (∀ n' i J, (ph n').half = some (i, J) → src (.leaf xl) ∉ J.ch) ∧ Hold N ph src n xl
  finHigh : ∀ n j xl xh nl nh, ph n = .fin j xl xh nl nh → j ≤ 1 →
    xh < nL ∧ D (.leaf xh) = false ∧ D (src (.leaf xh)) = true ∧
      (∀ n' i J, (ph n').half = some (i, J) → src (.leaf xh) ∉ J.ch) ∧ Hold N ph src n xh
  hold : ∀ n i J l, (ph n).plan = some (i, J) → J.xl = .leaf l ∨ J.xh = .leaf l →
    l < nL ∧ D (.leaf l) = false ∧ src (.leaf l) = J.x ∧ Hold N ph src n l
  kind : ∀ n i J, (ph n).plan = some (i, J) → lvl N J.xl = lvl N J.x ∧ lvl N J.xh = lvl N J.x ∧
    (N n).lv = lvl N J.x + 1

/-- The invariant. `A` is the map, `src` tells what an object was created to replace. -/
structure Inv (m : Mem V) (A : Key → Option V) (src : Ref → Ref) : Prop where
  shape : Shape m.root m.node m.phase m.nN m.nL m.dead
  mean : Mean m.root m.node m.leaf A
  order : Order m.root m.node m.leaf m.phase
  dead : Dead m.root m.node m.leaf m.frozen m.phase m.dead
  chain : Chain m.phase
  jobs : Jobs m.root m.node m.leaf m.frozen m.dead m.nN m.nL src m.phase
  locks : Locks m.root m.node m.dead m.nN m.nL src m.phase

end Scc.Grove
