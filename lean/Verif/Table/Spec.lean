import Verif.Table.Model

/-!
# Specification of the concurrent hash map

An atomic finite map used by threads. A call is announced (`inv`), takes effect at one instant
(`lin`, or `abort` for a try call that gives up), and returns (`ret`) the result fixed at that instant.
A pending call may be dropped, or end with a panic of user code. A traversal is a sequence of instants, each of which presents some of
the keys to the closure. Nothing in this file refers to buckets, arrays or locks.
-/

namespace Scc.Table.Spec

open Scc.Table (Op Event)

variable {K V R : Type}

/-- What a thread is doing. -/
inductive Pc (K V R : Type)
  | idle
  | pending (o : Op K V R)
  | done (r : Option R)
  | walking (upd : K → V → Option V) (seen : K → List V)

/-- A finite map shared by threads. -/
structure St (K V R : Type) where
  map : K → Option V
  pc : Nat → Pc K V R

/-- The empty map, nobody active. -/
def St.init : St K V R := { map := fun _ => none, pc := fun _ => .idle }

def St.setPc (s : St K V R) (t : Nat) (p : Pc K V R) : St K V R :=
  { s with pc := fun u => if u = t then p else s.pc u }

/-- The map with `k` bound to `v`, or unbound. -/
def St.put [DecidableEq K] (s : St K V R) (k : K) (v : Option V) : St K V R :=
  { s with map := fun k' => if k' = k then v else s.map k' }

/-- The closure `upd` replaces or removes each entry with a key in `S`. -/
def St.sweep (s : St K V R) (S : K → Bool) (upd : K → V → Option V) : St K V R :=
  { s with map := fun k => if S k then (s.map k).bind (upd k) else s.map k }

/-- The atomic object. -/
inductive Step [DecidableEq K] : St K V R → Option (Event K V R) → St K V R → Prop
  | inv {s t o} : s.pc t = .idle → Step s (some (.inv t o)) (s.setPc t (.pending o))
  /-- The call takes effect. -/
  | lin {s t o} : s.pc t = .pending o →
      Step s none ((s.put o.key (o.f (s.map o.key)).1).setPc t (.done (some (o.f (s.map o.key)).2)))
  /-- The call takes effect and evicts another entry. -/
  | linEvict {s t o f k v} : s.pc t = .pending o → o.evict = some f → s.map o.key = none → k ≠ o.key →
      s.map k = some v →
      Step s none (((s.put k none).put o.key (o.f none).1).setPc t (.done (some (f k v))))
  /-- A try call gives up: no effect. -/
  | abort {s t o} : s.pc t = .pending o → o.tryOp = true → Step s none (s.setPc t (.done none))
  | ret {s t r} : s.pc t = .done r → Step s (some (.ret t r)) (s.setPc t .idle)
  /-- A pending call is dropped: no effect. -/
  | cancel {s t o} : s.pc t = .pending o → Step s (some (.cancel t)) (s.setPc t .idle)
  | tvInv {s t u} : s.pc t = .idle →
      Step s (some (.tvInv t u)) (s.setPc t (.walking u (fun _ => [])))
  /-- A traversal presents the entries with keys in `S`. -/
  | tvSweep {s t u seen} (S : K → Bool) : s.pc t = .walking u seen →
      Step s none ((s.sweep S u).setPc t
        (.walking u (fun k => if S k then seen k ++ (s.map k).toList else seen k)))
  | tvRet {s t u seen} : s.pc t = .walking u seen → Step s (some (.tvRet t seen)) (s.setPc t .idle)
  | tvCancel {s t u seen} : s.pc t = .walking u seen → Step s (some (.tvCancel t)) (s.setPc t .idle)
  /-- A call unwinds because user code panics: no effect. -/
  | panic {s t o} : s.pc t = .pending o → Step s (some (.panic t)) (s.setPc t .idle)
  /-- A traversal unwinds when the entries with keys in `S` have been presented. -/
  | tvPanic {s t u seen} (S : K → Bool) : s.pc t = .walking u seen →
      Step s (some (.tvPanic t)) ((s.sweep S u).setPc t .idle)
  | helpPanic {s t} : s.pc t = .idle → Step s (some (.helpPanic t)) s
  /-- An internal activity is dropped. -/
  | helpCancel {s t} : s.pc t = .idle → Step s (some (.helpCancel t)) s

/-- Executions of the atomic object and their sequences of events. -/
inductive Exec [DecidableEq K] : St K V R → List (Event K V R) → St K V R → Prop
  | nil {s} : Exec s [] s
  | tau {s es s' s''} : Exec s es s' → Step s' none s'' → Exec s es s''
  | event {s es s' e s''} : Exec s es s' → Step s' (some e) s'' → Exec s (es ++ [e]) s''

/-! ## The calls of the API -/

/-- Calls of `HashMap` on one key, with the closures they take. -/
inductive Call (K V A : Type)
  | insert (k : K) (v : V)
  | upsert (k : K) (v : V)
  | update (k : K) (f : V → V × A)
  | removeIf (k : K) (p : V → V × Bool)
  | remove (k : K)
  | read (k : K) (f : V → A)
  | contains (k : K)
  | tryInsert (k : K) (v : V)

/-- Results of calls. -/
inductive Res (V A : Type)
  /-- `insert`: `Ok(())` or `Err((key, value))` -/
  | inserted (ok : Bool)
  /-- `upsert`, `remove_if`, `remove`: the old value -/
  | old (v : Option V)
  /-- `update`, `read`: the result of the closure -/
  | answer (a : Option A)
  | found (b : Bool)

/-- The key of a call. -/
def Call.key {A : Type} : Call K V A → K
  | .insert k _ | .upsert k _ | .update k _ | .removeIf k _ | .remove k | .read k _ | .contains k
  | .tryInsert k _ => k

/-- What the documentation of `HashMap` promises for each call, on the value bound to its key:
insert (/repo/src/hash_map.rs 546-573) leaves a present key alone; upsert (597-628) replaces and returns
the old value; update (655-686) applies the closure to a present value; remove_if (908-940) applies the
predicate, which may change the value, and removes if it says so; read (1038-1066) and contains leave
the map unchanged. -/
def Call.run {A : Type} : Call K V A → Option V → Option V × Res V A
  | .insert _ v, none | .tryInsert _ v, none => (some v, .inserted true)
  | .insert _ _, some w | .tryInsert _ _, some w => (some w, .inserted false)
  | .upsert _ v, w => (some v, .old w)
  | .update _ _, none => (none, .answer none)
  | .update _ f, some w => (some (f w).1, .answer (some (f w).2))
  | .removeIf _ _, none => (none, .old none)
  | .removeIf _ p, some w =>
      if (p w).2 then (none, .old (some (p w).1)) else (some (p w).1, .old none)
  | .remove _, w => (none, .old w)
  | .read _ f, w => (w, .answer (w.map f))
  | .contains _, w => (w, .found w.isSome)

/-- Does the call allocate the table if necessary? -/
def Call.create {A : Type} : Call K V A → Bool
  | .insert .. | .upsert .. | .tryInsert .. => true
  | _ => false

/-- Does the call take a shared lock? -/
def Call.readOnly {A : Type} : Call K V A → Bool
  | .read .. | .contains .. => true
  | _ => false

/-- The call as an operation of the table model. `create` follows the choice of `writer_sync` (insert,
/repo/src/hash_map.rs 564-573; upsert 614-628), `optional_writer_sync` (update 672-686, remove_if
926-940) and `reader_sync` (read 1054-1066, contains); `tryInsert` is `try_entry`
(/repo/src/hash_map.rs 370-386) followed by filling a vacant entry. -/
def Call.op {A : Type} (c : Call K V A) : Op K V (Res V A) where
  key := c.key
  f := c.run
  create := c.create
  readOnly := c.readOnly
  tryOp := match c with | .tryInsert .. => true | _ => false
  absent := by cases c <;> simp [Call.create, Call.run]
  same := by cases c <;> simp [Call.readOnly, Call.run]

end Scc.Table.Spec
