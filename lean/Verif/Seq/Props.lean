import Verif.Seq.Hist

/-!
# Properties of a container used by one thread (C10, C11, C15, C47)
-/

set_option linter.unusedSectionVars false

namespace Scc.Seq

open Scc.Index hiding bucketLen
open Scc.Bucket

variable {K V : Type}

/-! ## Sample operations -/

/-- `insert` (/repo/src/hash_map.rs 564-575). -/
def insertAct (v : V) : Option V → Act V
  | some _ => .keep
  | none => .put v

/-- `upsert` (/repo/src/hash_map.rs 614-622). -/
def upsertAct (v : V) : Option V → Act V := fun _ => .put v

/-- `remove` (/repo/src/hash_map.rs 879-886). -/
def removeAct : V → Act V := fun _ => .del

/-- The identity as hash function, for sample executions. -/
def sampleCfg (t : Kind) : Cfg Nat := ⟨t, fun k => k % 2 ^ 64, 2 ^ 62⟩

theorem sampleCfg_ok (t : Kind) : (sampleCfg t).Ok := fun k => Nat.mod_lt k (by decide)

/-- No reader is around. -/
def sampleEnv : Env := ⟨fun _ => false, 0⟩

/-- Insert the keys, one after the other. -/
def insertAll (t : Kind) (ks : List Nat) (T : Option (Tbl Nat Nat)) : Option (Tbl Nat Nat) :=
  ks.foldl (fun T k => T.bind fun T => (modifyOp (sampleCfg t) sampleEnv T k (insertAct k)).map (·.1)) T

/-! ## C47: a finite map, through all resizes -/

section
variable [DecidableEq K] {c : Cfg K}

theorem withCapacity_enum (n : Nat) :
    Spec.Enumerates ((Tbl.withCapacity n : Tbl K V).entries c) (fun _ => none) := by
  rw [(withCapacity_ok (c := c) n).2.1]
  exact ⟨List.nodup_nil, fun k v => by simp⟩

/-- C47. Every sequence of operations on a fresh container can be carried out, and whatever the
container reports along the way is what a finite map that starts out empty reports; at the end the
entries in the container are those of the map, each once. The hash function is arbitrary, and so are
the epochs the operations meet. -/
theorem c47_finite_map (hc : c.Ok) (n : Nat) (ops : List (Env × Op K V))
    (hv : ∀ o ∈ ops, o.2.Valid c.kind) :
    (∃ (h : List (Op K V × Out K V)) (T : Tbl K V),
      Runs c (Tbl.withCapacity n) h T ∧ h.map (·.1) = ops.map (·.2)) ∧
    ∀ (h : List (Op K V × Out K V)) (T : Tbl K V), Runs c (Tbl.withCapacity n) h T →
      ∃ m, MapRuns (fun _ => none) h m ∧ Spec.Enumerates (T.entries c) m :=
  ⟨runs_total hc ops _ (withCapacity_ok n).1 hv,
    fun _ _ r => (runs_ok hc (withCapacity_ok n).1 r).2.1 _ (withCapacity_enum n)⟩

/-- Sixteen inserts into a small `HashMap`, a removal and a reserve are a history of the kind the
theorem speaks about. -/
def sampleOps : List (Env × Op Nat Nat) :=
  ((List.range 16).map fun k => (sampleEnv, Op.modify k (insertAct k))) ++
    [(sampleEnv, Op.alter 3 removeAct), (sampleEnv, Op.reserve 1000)]

example : ∃ (h : List (Op Nat Nat × Out Nat Nat)) (T : Tbl Nat Nat),
    Runs (sampleCfg .map) (Tbl.withCapacity 0) h T ∧ h.map (·.1) = sampleOps.map (·.2) :=
  (c47_finite_map (sampleCfg_ok .map) 0 sampleOps (by
    intro o h
    simp only [sampleOps, List.mem_append, List.mem_map, List.mem_cons, List.not_mem_nil,
      or_false] at h
    rcases h with ⟨k, _, rfl⟩ | rfl | rfl <;> trivial)).1

/-! ## C10: retain and clear on the whole container -/

/-- C10. On a container with any history behind it, `retain` calls the closure exactly once per entry,
keeps exactly the entries for which it returned true, with the value it left, and hands the state of
the closure from one call to the next. -/
theorem c10_table_retain (hc : c.Ok) {n : Nat} {h : List (Op K V × Out K V)} {T : Tbl K V}
    (r : Runs c (Tbl.withCapacity n) h T) (env : Env) {σ : Type} (f : σ → K × V → σ × V × Bool) (s : σ)
    (hf : c.kind = .index → ∀ s e, (f s e).2.1 = e.2) :
    ∃ T' l, retainOp c env T f s = some (T', (Spec.pass f s l).1, l) ∧ l.Perm (T.entries c) ∧
      ((T.entries c).map (·.1)).Nodup ∧ (T'.entries c).Perm (Spec.pass f s l).2 := by
  have ok := (runs_ok hc (withCapacity_ok n).1 r).1
  obtain ⟨T', l, h1, _, h3, h4, _⟩ := retainOp_ok f hc env hf T s ok
  exact ⟨T', l, h1, h3.symm, ok.nodup, h4⟩

/-- `clear` is `retain` with the closure that keeps nothing (/repo/src/hash_map.rs 1380-1382). -/
def clearOp (c : Cfg K) (env : Env) (T : Tbl K V) : Option (Tbl K V) :=
  (retainOp c env T (fun (s : Unit) e => (s, e.2, false)) ()).map (·.1)

/-- C10. `clear` leaves the container empty. -/
theorem c10_table_clear (hc : c.Ok) {n : Nat} {h : List (Op K V × Out K V)} {T : Tbl K V}
    (r : Runs c (Tbl.withCapacity n) h T) (env : Env) :
    ∃ T', clearOp c env T = some T' ∧ T'.entries c = [] := by
  obtain ⟨T', l, h1, _, _, h4⟩ :=
    c10_table_retain hc r env (fun (s : Unit) e => (s, e.2, false)) () (fun _ _ _ => rfl)
  refine ⟨T', by unfold clearOp; rw [h1]; rfl, ?_⟩
  have : ∀ l : List (K × V), (Spec.pass (fun (s : Unit) e => (s, e.2, false)) () l).2 = [] := by
    intro l
    induction l with
    | nil => rfl
    | cons e es ih => simpa [Spec.pass] using ih
  rw [this] at h4
  exact h4.eq_nil

/-! ## C11: traversal with a cursor -/

/-- C11, the part that holds. Whatever the user decides to remove on the way, the traversal ends; it
presents every entry of the container at least once and nothing else; the container afterwards holds
exactly the entries the user did not remove, no entry being removed twice; and if from one step to the
next the container never shrinks to less than half its capacity, then every entry is presented exactly
once. What is missing is the last sentence without its condition; see `c11_repeats`. -/
theorem c11_traversal_partial (hc : c.Ok) {n : Nat} {h : List (Op K V × Out K V)} {T : Tbl K V}
    (r : Runs c (Tbl.withCapacity n) h T) (env : Nat → Env) (rm : Nat → Bool) :
    ∃ fuel T' L, traversal c env rm fuel T = some (T', L) ∧
      (∀ e, e ∈ L.map (·.entry) ↔ e ∈ T.entries c) ∧
      (((L.filter (·.removed)).map (·.entry)) ++ T'.entries c).Perm (T.entries c) ∧
      ((∀ i a b, L[i]? = some a → L[i + 1]? = some b → a.capacity ≤ 2 * b.capacity) →
        (L.map (·.entry)).Perm (T.entries c)) := by
  have ok := (runs_ok hc (withCapacity_ok n).1 r).1
  obtain ⟨fuel, T', L, h1, _, h3, h4, h5, h6⟩ := traversal_ok hc env rm T ok
  refine ⟨fuel, T', L, h1, h3, h4, fun hg => h6 ?_⟩
  clear h1 h3 h4 h5 h6
  induction L with
  | nil => trivial
  | cons a l ih =>
    cases l with
    | nil => trivial
    | cons b l =>
      exact ⟨hg 0 a b rfl rfl, ih fun i x y hx hy => hg (i + 1) x y hx hy⟩

end

/-- The container of the counterexample to C11: capacity is reserved for 256 entries, sixteen keys are
inserted, and the reservation is given up. -/
def c11Table : Option (Tbl Nat Nat) :=
  (insertAll .map (List.range 15 ++ [2 ^ 61])
    (some (reserveOp (sampleCfg .map) (Tbl.withCapacity 0) 256).1)).map fun T =>
      unreserveOp (sampleCfg .map) T 256

/-- The keys presented and the capacities seen. -/
def c11Run (rm : Nat → Bool) : Option (List (Nat × Nat × Bool)) :=
  c11Table.bind fun T =>
    (traversal (sampleCfg .map) (fun _ => sampleEnv) rm 100 T).map fun q =>
      q.2.map fun p => (p.entry.1, p.capacity, p.removed)

set_option maxRecDepth 100000 in
/-- C11 fails: sixteen entries, the sixteenth step is a removal, and the first fifteen entries are
presented a second time. When the removal empties a bucket the container shrinks to an eighth, and the
traversal resumes at the start of the coarser bucket that covers what it has already presented.
(/repo/src/hash_table.rs 1610-1647, 709-722.) -/
theorem c11_repeats :
    (c11Table.map fun T => (T.entries (sampleCfg .map)).length) = some 16 ∧
    (c11Run fun i => i == 16).map (fun l => l.map (·.1)) =
      some (List.range 15 ++ [2 ^ 61] ++ List.range 15) := by
  decide +kernel

set_option maxRecDepth 100000 in
/-- The condition of `c11_traversal_partial` is met when the same container is traversed without
removing anything, and when all entries but the last one are removed. -/
example :
    (c11Run fun _ => false).map (fun l => l.map (·.1)) = some (List.range 15 ++ [2 ^ 61]) ∧
    (c11Run fun i => i < 16).map (fun l => l.map (·.1)) = some (List.range 15 ++ [2 ^ 61]) := by
  decide +kernel

/-! ## C15: no pair is lost, none is dropped twice -/

section
variable [DecidableEq K] {c : Cfg K}

/-- C15 for one thread. Take any history of operations on a fresh container and drop the container at
that point, no matter how far a resize has got. Then the pairs handed to the container are, as a
multiset, those handed back to the caller, those the container itself dropped on the way (entries a
`HashIndex` removed and later reclaimed) and those dropped with the container. In particular none is
leaked and none is dropped twice. Not covered: eviction by `HashCache`, threads. -/
theorem c15_dropped_once_partial (hc : c.Ok) {n : Nat} {h : List (Op K V × Out K V)} {T : Tbl K V}
    (r : Runs c (Tbl.withCapacity n) h T) :
    ((h.flatMap fun x => taken c.kind x.1 x.2) ++ T.gone ++ dropTable c T).Perm
      (h.flatMap fun x => given c.kind x.1 x.2) := by
  obtain ⟨ok0, _, hcell, hgone⟩ := withCapacity_ok (K := K) (V := V) (c := c) n
  obtain ⟨ok, _, hp⟩ := runs_ok hc ok0 r
  rw [hcell, hgone, List.append_nil, List.append_nil] at hp
  have hd := dropTable_ok T ok
  rw [perm_iff] at *
  intro x
  have z1 := hp x
  have z2 := hd x
  simp only [cnt_append] at *
  omega

end

set_option maxRecDepth 100000 in
/-- A `HashIndex` dropped in the middle of a resize: sixteen pairs went in, key 3 was removed, and all
sixteen are dropped with the container, some of them with the old array. -/
example :
    (((insertAll .index (List.range 16)
      (some (reserveOp (sampleCfg .index) (Tbl.withCapacity 0) 256).1)).bind fun T =>
        (alterOp (sampleCfg .index) sampleEnv T 3 removeAct).map fun r =>
          unreserveOp (sampleCfg .index) r.1 256).map fun T =>
        ((T.arr.map fun w => w.old.isSome), (dropTable (sampleCfg .index) T).length, T.gone.length)) =
      some (some true, 16, 0) := by
  decide +kernel

end Scc.Seq
