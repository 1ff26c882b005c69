import Verif.Grove.Model

/-!
# What calls of `insert`, `remove_if` and `peek` may do

The events of an execution are compared with a map. The map changes with every entry that is added or taken
away. For every call that is running, all that its key was mapped to at some moment since the call began is
remembered, and how many entries the call has added or taken away. Nothing here refers to nodes, leaves or
pointers.
-/

namespace Scc.Grove

local notation "Key" => Nat
local notation "Id" => Nat
local notation "Thr" => Nat

variable {V : Type}

/-- The map, and the calls that are running. -/
structure Mon (V : Type) where
  map : Key → Option V
  /-- the call of a thread -/
  cur : Thr → Option (Key × Op V)
  /-- what the key of the call was mapped to since the call began -/
  seen : Thr → Option V → Prop
  /-- the number of entries added or taken away by the call -/
  eff : Thr → Nat

/-- In the beginning. -/
def Mon.init : Mon V :=
  { map := fun _ => none, cur := fun _ => none, seen := fun _ _ => False, eff := fun _ => 0 }

/-- The key of the call of `t` is mapped to `o` from now on. -/
def Mon.assign (M : Mon V) (t : Thr) (k : Key) (o : Option V) : Mon V :=
  { M with map := upd M.map k o,
           seen := fun t' x => M.seen t' x ∨ (∃ op, M.cur t' = some (k, op)) ∧ x = o,
           eff := upd M.eff t (M.eff t + 1) }

/-- After an event. -/
def Mon.next (M : Mon V) : Ev V → Mon V
  | .tau => M
  | .call t k o =>
    { M with cur := upd M.cur t (some (k, o)), seen := upd M.seen t (fun x => x = M.map k),
             eff := upd M.eff t 0 }
  | .put t k v => M.assign t k (some v)
  | .del t k _ => M.assign t k none
  | .ret t _ => { M with cur := upd M.cur t none }

/-- After the events of a list, latest first. -/
def mon : List (Ev V) → Mon V
  | [] => .init
  | e :: es => (mon es).next e

/-- May a call return this answer? `seen` is what its key was mapped to at some moment of the call, `eff` the
number of entries it has added or taken away. -/
def Op.may (o : Op V) (a : Ans V) (seen : Option V → Prop) (eff : Nat) : Prop :=
  match o, a with
  | .peek, .found r => eff = 0 ∧ seen r
  | .insert _, .inserted => eff = 1
  | .insert _, .duplicate => eff = 0 ∧ ∃ w, seen (some w)
  | .remove _, .removed true => 1 ≤ eff
  | .remove c, .removed false => eff = 0 ∧ (seen none ∨ ∃ w, seen (some w) ∧ c w = false)
  | _, _ => False

/-- May this happen?
* An entry is added only by a call of `insert` with this key and value that has not added one yet, and only
  if the map has no entry with the key.
* An entry is taken away only by a call of `remove_if` with this key, only if it is in the map, and only if it
  satisfies the condition. -/
def Mon.ok (M : Mon V) : Ev V → Prop
  | .tau => True
  | .call t _ _ => M.cur t = none
  | .put t k v => M.cur t = some (k, .insert v) ∧ M.map k = none ∧ M.eff t = 0
  | .del t k v => M.map k = some v ∧ ∃ c, M.cur t = some (k, .remove c) ∧ c v = true
  | .ret t a => ∃ k o, M.cur t = some (k, o) ∧ o.may a (M.seen t) (M.eff t)

/-- Everything in a list of events, latest first, may happen. -/
def Legal : List (Ev V) → Prop
  | [] => True
  | e :: es => Legal es ∧ (mon es).ok e

/-- No call takes away more than one entry. -/
def Once : List (Ev V) → Prop
  | [] => True
  | e :: es => Once es ∧ (∀ t k v, e = .del t k v → (mon es).eff t = 0)

end Scc.Grove
