/-!
# Specification of a bucket: a finite map

Independent of the bucket model: a map is a function `K → Option V`; an operation reads a key or
replaces what is stored under it by a function of what was stored before. `insert`, `upsert`,
`update`, `remove_if`, `entry` are all of this form.
-/

namespace Scc.Bucket.Spec

variable {K V : Type}

/-- Operations on a map. -/
inductive Op (K V : Type) where
  /-- Return the value of the key. -/
  | read (k : K)
  /-- Store `f old` under the key (absent = `none`) and return the old value. -/
  | modify (k : K) (f : Option V → Option V)

/-- Point update. -/
def set [DecidableEq K] (m : K → Option V) (k : K) (v : Option V) : K → Option V :=
  fun k' => if k' = k then v else m k'

/-- One operation: the new map and the value reported. -/
def step [DecidableEq K] (m : K → Option V) : Op K V → (K → Option V) × Option V
  | .read k => (m, m k)
  | .modify k f => (set m k (f (m k)), m k)

/-- A run: the final map and all reported values. -/
def run [DecidableEq K] (m : K → Option V) : List (Op K V) → (K → Option V) × List (Option V)
  | [] => (m, [])
  | op :: ops =>
    let (m', r) := step m op
    let (m'', rs) := run m' ops
    (m'', r :: rs)

/-- `n` keys are present in the map. -/
def HasSize (m : K → Option V) (n : Nat) : Prop :=
  ∃ ks : List K, ks.Nodup ∧ (∀ k, k ∈ ks ↔ m k ≠ none) ∧ ks.length = n

/-- `insert`: keep an existing value. -/
def insertFn (v : V) : Option V → Option V
  | some w => some w
  | none => some v

/-- `upsert`: always the new value. -/
def upsertFn (v : V) : Option V → Option V := fun _ => some v

/-- `remove_if`: drop the value if the condition holds (the condition may also modify it). -/
def removeIfFn (c : V → V × Bool) : Option V → Option V
  | some w => if (c w).2 then none else some (c w).1
  | none => none

/-- A list that names every entry of the map exactly once. -/
def Enumerates (l : List (K × V)) (m : K → Option V) : Prop :=
  (l.map (·.1)).Nodup ∧ ∀ k v, m k = some v ↔ (k, v) ∈ l

/-- What a pass of a closure over a list of entries does: the closure sees each entry in turn, may
change the value and says whether to keep it. The final closure state and the surviving entries. -/
def pass {σ : Type} (f : σ → K × V → σ × V × Bool) : σ → List (K × V) → σ × List (K × V)
  | s, [] => (s, [])
  | s, e :: es =>
    let r := pass f (f s e).1 es
    (r.1, if (f s e).2.2 then (e.1, (f s e).2.1) :: r.2 else r.2)

end Scc.Bucket.Spec
