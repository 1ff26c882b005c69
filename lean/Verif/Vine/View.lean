import Verif.Grove.Base
import Verif.Vine.Model

/-!
# The leaves of the tree index and their linked list

What an iterator depends on: the leaves, the leaves that search paths lead to, and the changes that replace leaves.
-/

namespace Scc.Vine

open Scc.Grove

local notation "Key" => Nat
local notation "Id" => Nat
local notation "Thr" => Nat

variable {V : Type}

/-- How far the replacement of a leaf has got. -/
inductive Stage
  /-- with one copy -/
  | copy
  /-- with two halves -/
  | split
  /-- the lower half is in place -/
  | ins
  /-- and can be changed -/
  | thawed
  /-- the node of the leaf is full -/
  | full
  /-- and is being replaced, too -/
  | claimed
  /-- the nodes are replaced, the halves are still frozen -/
  | fin
  deriving DecidableEq, Repr

/-- The replacement of a leaf `x` with `xl` and `xh`. -/
structure LJob where
  x : Id
  xl : Id
  xh : Id
  st : Stage

/-- The replacement of a leaf that a node has to do with. `o` is the leaf in its `split_op`. -/
def ljob : Phase → Id → Option LJob
  | .single _ x y, _ => some ⟨x, y, y, .copy⟩
  | .split _ (.leaf x) (.leaf xl) (.leaf xh) _ _, _ => some ⟨x, xl, xh, .split⟩
  | .ins _ (.leaf x) (.leaf xl) (.leaf xh) _ _ false, _ => some ⟨x, xl, xh, .ins⟩
  | .ins _ (.leaf x) (.leaf xl) (.leaf xh) _ _ true, _ => some ⟨x, xl, xh, .thawed⟩
  | .full _ (.leaf x) (.leaf xl) (.leaf xh) _ _ none, _ => some ⟨x, xl, xh, .full⟩
  | .full _ (.leaf x) (.leaf xl) (.leaf xh) _ _ (some _), _ => some ⟨x, xl, xh, .claimed⟩
  | .fin 0 xl xh _ _, o => some ⟨o, xl, xh, .fin⟩
  | _, _ => none

/-- The leaves. -/
structure View (V : Type) where
  /-- the search path of a key leads to a leaf -/
  on : Key → Id → Prop
  get : Id → Key → Option V
  frozen : Id → Bool
  dead : Id → Bool
  ret : Id → Bool
  nL : Nat
  job : Id → Option LJob
  map : Key → Option V

/-- The leaves of the tree index. -/
def view (m : Mem V) (d : Lst) (A : Key → Option V) : View V :=
  { on := fun k l => On m.root m.node k (.leaf l), get := fun l => (m.leaf l).get, frozen := m.frozen,
    dead := fun l => m.dead (.leaf l), ret := fun l => (m.leaf l).retired, nL := m.nL,
    job := fun n => ljob (m.phase n) (d.old n), map := A }

/-- Some search path leads to a leaf. -/
def View.lit (w : View V) (l : Id) : Prop := ∃ k, w.on k l

/-- A leaf takes part in a replacement. -/
def LJob.mem (J : LJob) (l : Id) : Prop := l = J.x ∨ l = J.xl ∨ l = J.xh

/-- Leaf `x` is being replaced, and `z` is what it is replaced with. -/
def View.org (w : View V) (x z : Id) : Prop := ∃ n J, w.job n = some J ∧ J.x = x ∧ (z = J.xl ∨ z = J.xh)

/-- What is known of the leaves without the linked list. -/
structure World (w : View V) : Prop where
  uniq : ∀ k l l', w.on k l → w.on k l' → l = l'
  convex : ∀ k1 k2 k3 l, w.on k1 l → w.on k3 l → k1 ≤ k2 → k2 ≤ k3 → w.on k2 l
  al : ∀ k l, w.on k l → l < w.nL
  mean : ∀ k l, w.on k l → w.get l k = w.map k
  path : ∀ k, w.map k ≠ none → ∃ l, w.on k l
  deadLit : ∀ l, w.dead l = true → w.lit l → ∃ n J, w.job n = some J ∧ J.x = l
  empty : ∀ l k, w.ret l = true → w.get l k = none
  unlitL : ∀ n J, w.job n = some J → J.st = .copy ∨ J.st = .split ∨ J.st = .full → ¬ w.lit J.xl
  unlitH : ∀ n J, w.job n = some J → J.st ≠ .claimed → J.st ≠ .fin → ¬ w.lit J.xh
  litL : ∀ n J, w.job n = some J → J.st = .ins ∨ J.st = .thawed → w.lit J.xl
  live : ∀ n J, w.job n = some J → J.st = .copy ∨ J.st = .split ∨ J.st = .full → w.dead J.x = false
  litDead : ∀ n J, w.job n = some J → w.lit J.xl ∨ w.lit J.xh → w.dead J.x = true
  litX : ∀ n J, w.job n = some J → J.st = .copy → w.lit J.x
  same : ∀ n J k, w.job n = some J → J.st = .thawed → w.on k J.x → w.get J.xh k = w.get J.x k
  entry : ∀ l k, w.lit l → w.get l k ≠ none → w.on k l ∨ ∃ n J, w.job n = some J ∧ J.x = l
  first : ∀ l k, w.on 0 l → w.get l k ≠ none → w.on k l

/-- What is known of a replacement. `lt` is the order of the linked list. -/
structure JobL (w : View V) (d : Lst) (lt : Id → Id → Prop) (J : LJob) : Prop where
  alL : J.xl < w.nL
  alH : J.xh < w.nL
  lst : d.lst J.x = true
  neL : J.xl ≠ J.x
  neH : J.xh ≠ J.x
  one : J.st = .copy → J.xl = J.xh
  two : J.st ≠ .copy → J.xl ≠ J.xh
  lstC : J.st = .copy → d.gone J.x = true → d.lst J.xl = true
  lstS : J.st = .split → d.lst J.xl = true → d.lst J.xh = true
  lstO : J.st ≠ .copy → J.st ≠ .split → d.lst J.xl = true ∧ d.lst J.xh = true
  goneL : d.gone J.xl = true → J.st = .full ∧ d.gone J.xh = true
  goneH : d.gone J.xh = true → J.st = .full
  goneX : d.gone J.x = true → J.st = .copy ∨ J.st = .ins ∨ J.st = .thawed ∨ J.st = .fin
  goneT : J.st = .thawed → d.gone J.x = true
  ltL : d.lst J.xl = true → lt J.x J.xl
  ltH : d.lst J.xh = true → lt J.x J.xh
  ltLH : J.st ≠ .copy → d.lst J.xl = true → d.lst J.xh = true → lt J.xl J.xh
  froX : w.frozen J.x = true
  froL : J.st ≠ .copy → J.st ≠ .thawed → w.frozen J.xl = true
  froH : J.st = .full ∨ J.st = .claimed ∨ J.st = .fin → w.frozen J.xh = true
  deadX : J.st = .ins ∨ J.st = .thawed ∨ J.st = .fin → w.dead J.x = true
  liveX : J.st = .copy ∨ J.st = .split ∨ J.st = .full → w.dead J.x = false
  liveL : w.dead J.xl = false
  liveH : w.dead J.xh = false
  retL : J.st ≠ .thawed → w.ret J.xl = false
  retH : w.ret J.xh = false
  body1 : J.st = .copy → ∀ k, w.get J.xl k = w.get J.x k
  body2 : J.st ≠ .copy → ∃ mid e1 e2, e1 ≤ mid ∧ mid < e2 ∧ w.get J.x e1 ≠ none ∧ w.get J.x e2 ≠ none ∧
    (J.st ≠ .thawed → ∀ k, w.get J.xl k = if k ≤ mid then w.get J.x k else none) ∧
    ∀ k, w.get J.xh k = if mid < k then w.get J.x k else none

/-- The leaf is in the linked list. -/
def In (d : Lst) (l : Id) : Prop := d.lst l = true ∧ d.gone l = false

/-- Leaves that do not matter any more. -/
def Out (w : View V) (d : Lst) (c : Id) : Prop :=
  d.gone c = true ∨ (¬ w.lit c ∧ (∀ n J, w.job n = some J → ¬ J.mem c) ∧ ∀ k, w.get c k = none)

/-- The invariant of the linked list. -/
structure VInv (w : View V) (d : Lst) (lt : Id → Id → Prop) : Prop where
  alL : ∀ l, d.lst l = true → l < w.nL
  off : ∀ l, d.lst l = false → d.link l = none ∧ d.gone l = false
  irr : ∀ a, ¬ lt a a
  trans : ∀ a b c, lt a b → lt b c → lt a c
  tot : ∀ a b, d.lst a = true → d.lst b = true → lt a b ∨ a = b ∨ lt b a
  link : ∀ a b, d.link a = some b → d.lst b = true ∧ lt a b ∧
    ∀ c, d.lst c = true → lt a c → lt c b → d.gone c = true
  last : ∀ a, d.lst a = true → d.link a = none → ∀ c, d.lst c = true → lt a c → Out w d c
  jobs : ∀ n J, w.job n = some J → JobL w d lt J
  sep : ∀ n n' J J' l, w.job n = some J → w.job n' = some J' → J.mem l → J'.mem l → n = n'
  adj : ∀ n J a b z, w.job n = some J → J.mem a → J.mem b → d.lst a = true → d.lst b = true → d.lst z = true →
    ¬ J.mem z → (lt z a ↔ lt z b) ∧ (lt a z ↔ lt b z)
  lit : ∀ l, w.lit l → d.lst l = true ∧
    (d.gone l = true → w.dead l = true ∨ w.ret l = true ∨ ∃ n J, w.job n = some J ∧ J.st = .copy ∧ J.x = l)
  an : ∀ z k v, In d z → w.get z k = some v →
    w.on k z ∨ (∃ x, w.org x z ∧ w.on k x) ∨ ∃ y, w.org z y ∧ w.on k y ∧ w.get y k = w.get z k
  ord : ∀ k1 k2 l1 l2, k1 < k2 → w.on k1 l1 → w.on k2 l2 → l1 ≠ l2 → w.org l2 l1 ∨ (lt l1 l2 ∧ ¬ w.org l1 l2)
  litOrd : ∀ n J, w.job n = some J → w.lit J.xh → w.lit J.xl

/-- What happens to a replacement in a step of a structural change. -/
inductive Trans (w w' : View V) (d : Lst) : Option LJob → Option LJob → Prop
  | keep (o : Option LJob) : Trans w w' d o o
  | copy (x y : Id) (h1 : w.lit x) (h2 : w.dead x = false) (h3 : d.gone x = false) (h4 : w.nL ≤ y) (h5 : y < w'.nL)
    (h6 : w'.frozen x = true) (h7 : w'.get y = w.get x) (h8 : w'.ret y = false) (h9 : w'.dead y = false)
    (h10 : ∀ n J, w.job n = some J → ¬ J.mem x) : Trans w w' d none (some ⟨x, y, y, .copy⟩)
  | split (x xl xh mid e1 e2 : Id) (h1 : w.lit x) (h2 : w.dead x = false) (h3 : d.gone x = false) (h4 : w.nL ≤ xl)
    (h4' : xl < xh) (h5 : xh < w'.nL) (h6 : w'.frozen x = true) (hf : w'.frozen xl = true)
    (he : e1 ≤ mid ∧ mid < e2 ∧ w.get x e1 ≠ none ∧ w.get x e2 ≠ none)
    (h7 : ∀ k, w'.get xl k = if k ≤ mid then w.get x k else none)
    (h7' : ∀ k, w'.get xh k = if mid < k then w.get x k else none)
    (h8 : w'.ret xl = false ∧ w'.ret xh = false) (h9 : w'.dead xl = false ∧ w'.dead xh = false)
    (h10 : ∀ n J, w.job n = some J → ¬ J.mem x) : Trans w w' d none (some ⟨x, xl, xh, .split⟩)
  | copied (x y : Id) (h1 : d.gone x = true) (h2 : w'.dead x = true) : Trans w w' d (some ⟨x, y, y, .copy⟩) none
  | ins (x xl xh : Id) (h1 : d.lst xl = true) (h2 : w'.dead x = true) :
    Trans w w' d (some ⟨x, xl, xh, .split⟩) (some ⟨x, xl, xh, .ins⟩)
  | thaw (x xl xh : Id) (h1 : d.gone x = true) : Trans w w' d (some ⟨x, xl, xh, .ins⟩) (some ⟨x, xl, xh, .thawed⟩)
  | swap (x xl xh : Id) : Trans w w' d (some ⟨x, xl, xh, .thawed⟩) none
  | full (x xl xh : Id) (h1 : d.lst xl = true) (h2 : w'.frozen xh = true) :
    Trans w w' d (some ⟨x, xl, xh, .split⟩) (some ⟨x, xl, xh, .full⟩)
  | roll (x xl xh : Id) (h1 : d.gone xl = true) (h2 : ¬ w'.lit xl) (h3 : ¬ w'.lit xh) :
    Trans w w' d (some ⟨x, xl, xh, .full⟩) none
  | claim (x xl xh : Id) (h1 : d.gone xh = false) :
    Trans w w' d (some ⟨x, xl, xh, .full⟩) (some ⟨x, xl, xh, .claimed⟩)
  | unclaim (x xl xh : Id) :
    Trans w w' d (some ⟨x, xl, xh, .claimed⟩) (some ⟨x, xl, xh, .full⟩)
  | fin (x xl xh : Id) (h1 : w'.dead x = true) :
    Trans w w' d (some ⟨x, xl, xh, .claimed⟩) (some ⟨x, xl, xh, .fin⟩)
  | done (x xl xh : Id) (h1 : d.gone x = true) : Trans w w' d (some ⟨x, xl, xh, .fin⟩) none

/-- What a step of a structural change does to the leaves. -/
structure Shift (w w' : View V) (d : Lst) : Prop where
  nL : w.nL ≤ w'.nL
  map : w'.map = w.map
  get : ∀ l, l < w.nL → w'.get l = w.get l
  ret : ∀ l, l < w.nL → w'.ret l = w.ret l
  dead : ∀ l, w.dead l = true → w'.dead l = true
  /-- only leaves that are being replaced become obsolete -/
  kill : ∀ l, w'.dead l = true → w.dead l = true ∨ ∃ n J, w.job n = some J ∧ J.x = l
  /-- leaves that are replaced stay frozen -/
  froX : ∀ n J, w.job n = some J → w'.job n ≠ none → w'.frozen J.x = true
  froL : ∀ n J J', w.job n = some J → w'.job n = some J' → J'.st ≠ .thawed → w.frozen J.xl = true →
    w'.frozen J.xl = true
  froH : ∀ n J, w.job n = some J → w'.job n ≠ none → w.frozen J.xh = true → w'.frozen J.xh = true
  job : ∃ n, (∀ c, c ≠ n → w'.job c = w.job c) ∧ Trans w w' d (w.job n) (w'.job n)
  to : ∀ k x, w.on k x → w'.on k x ∨ (w'.dead x = true ∧ ∃ y, w.org x y ∧ w'.on k y ∧ w.get y k = w.get x k) ∨
    (w.ret x = true ∧ w.map k = none ∧ ¬ w'.lit x)
  of : ∀ l, w'.lit l → (∃ k, w.on k l ∧ w'.on k l) ∨
    ((∀ k, w'.on k l → ∃ x, w.org x l ∧ w.on k x) ∧ ∀ k, w.get l k ≠ none → w'.on k l)
  low : ∀ k1 k2 x y, x ≠ y → w.on k2 x → w'.on k2 y → w'.on k1 x → k2 < k1

end Scc.Vine
