import Verif.Twig.Model

/-!
# What calls may observe

A map whose keys have histories and whose readers know parts of them. It is independent of nodes, leaves, words and views:
only the labels are shared with the model.
-/

namespace Scc.Twig

/-- Key `k` had the values `val k 0`, …, `val k (n k)`, the first of them `none`; who wrote value `j` of `k` knew
`src k j` of all keys; thread `t` knows `know t`: it will not find older values. -/
structure Reg where
  n : Nat → Nat
  val : Nat → Nat → Option Nat
  src : Nat → Nat → Nat → Nat
  know : Nat → Nat → Nat

def Reg.init : Reg := ⟨fun _ => 0, fun _ _ => none, fun _ _ _ => 0, fun _ _ => 0⟩

inductive Reg.Step : Reg → Label → Reg → Prop
  /-- Nothing happens, except that threads may come to know more. -/
  | tau {r : Reg} {f : Nat → Nat → Nat} : (∀ t k, r.know t k ≤ f t k) → (∀ t k, f t k ≤ r.n k) →
      Reg.Step r .tau { r with know := f }
  /-- A call that changes nothing finds a value that is not older than what the thread knows. From then on the thread knows
  this value, and what the one who wrote it knew. -/
  | saw {r : Reg} {t k j : Nat} {w : Nat → Nat} : r.know t k ≤ j → j ≤ r.n k → (∀ d, r.know t d ≤ w d) →
      (∀ d, r.src k j d ≤ w d) → j ≤ w k → (∀ d, w d ≤ r.n d) → Reg.Step r (.saw t k (r.val k j)) { r with know := upd r.know t w }
  /-- A call that changes something acts on the newest value: an insertion if there is none, a removal if there is one. -/
  | set {r : Reg} {t k : Nat} {v : Option Nat} {w : Nat → Nat} : (v = none ↔ r.val k (r.n k) ≠ none) →
      (∀ d, r.know t d ≤ w d) → (∀ d, r.src k (r.n k) d ≤ w d) → w k = r.n k + 1 → (∀ d, d ≠ k → w d ≤ r.n d) →
      Reg.Step r (.set t k v) { n := upd r.n k (r.n k + 1), val := upd r.val k (upd (r.val k) (r.n k + 1) v),
                                src := upd r.src k (upd (r.src k) (r.n k + 1) w), know := upd r.know t w }
  /-- Thread `b` comes to know what thread `a` knows. -/
  | sync {r : Reg} {a b : Nat} : Reg.Step r (.sync a b) { r with know := upd r.know b (fun d => max (r.know b d) (r.know a d)) }

def Reg.Run : Reg → List Label → Reg → Prop
  | r, [], r' => r' = r
  | r, l :: tr, r' => ∃ m, Reg.Step r l m ∧ Reg.Run m tr r'

/-- The values key `k` was set to. -/
def vals (k : Nat) : List Label → List (Option Nat)
  | [] => []
  | .set _ d v :: tr => if d = k then v :: vals k tr else vals k tr
  | _ :: tr => vals k tr

/-- All values key `k` has had. -/
def hist (k : Nat) (tr : List Label) : List (Option Nat) := none :: vals k tr

/-- Runs of the model. -/
def Run : State → List Label → State → Prop
  | s, [], s' => s' = s
  | s, l :: tr, s' => ∃ m, Step s l m ∧ Run m tr s'

theorem vals_append (k : Nat) (a b : List Label) : vals k (a ++ b) = vals k a ++ vals k b := by
  induction a with
  | nil => rfl
  | cons e a ih =>
    cases e with
    | set t d v =>
      show (if d = k then v :: vals k (a ++ b) else vals k (a ++ b)) = (if d = k then v :: vals k a else vals k a) ++ vals k b
      split <;> simp [ih]
    | _ => exact ih

theorem Reg.Run.append {r r' : Reg} {a b : List Label} : Reg.Run r (a ++ b) r' ↔ ∃ m, Reg.Run r a m ∧ Reg.Run m b r' := by
  induction a generalizing r with
  | nil => exact ⟨fun h => ⟨r, rfl, h⟩, fun ⟨m, h1, h2⟩ => by cases h1; exact h2⟩
  | cons e a ih =>
    constructor
    · rintro ⟨m, h1, h2⟩
      obtain ⟨m', h3, h4⟩ := ih.mp h2
      exact ⟨m', ⟨m, h1, h3⟩, h4⟩
    · rintro ⟨m', ⟨m, h1, h3⟩, h4⟩
      exact ⟨m, h1, ih.mpr ⟨m', h3, h4⟩⟩

theorem Run.append {r r' : State} {a b : List Label} : Run r (a ++ b) r' ↔ ∃ m, Run r a m ∧ Run m b r' := by
  induction a generalizing r with
  | nil => exact ⟨fun h => ⟨r, rfl, h⟩, fun ⟨m, h1, h2⟩ => by cases h1; exact h2⟩
  | cons e a ih =>
    constructor
    · rintro ⟨m, h1, h2⟩
      obtain ⟨m', h3, h4⟩ := ih.mp h2
      exact ⟨m', ⟨m, h1, h3⟩, h4⟩
    · rintro ⟨m', ⟨m, h1, h3⟩, h4⟩
      exact ⟨m, h1, ih.mpr ⟨m', h3, h4⟩⟩

end Scc.Twig
