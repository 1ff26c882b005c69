import Verif.Seq.Props

/-!
# The cursor of a whole `HashIndex` (C43)
-/

namespace Scc.Seq

open Scc.Bucket

section
variable {K V : Type} [DecidableEq K] {c : Cfg K}

/-- C43, the part that holds of a whole `HashIndex`. Nobody else modifies the index, and the visitor
leaves or removes the entries it is at but does not call `update`. Whatever happened to the index before,
also in the middle of a resize, the walk from `begin` ends, presents every entry and nothing else, and
leaves exactly the entries that were not removed. Every entry is presented exactly once if the capacity
does not fall to less than half from one step to the next. Missing: `update` (`Scc.Bucket.c43_index_update_skips` shows that it fails) and the
last sentence without its condition (`c11_repeats`). -/
theorem c43_cursor_partial (hc : c.Ok) (_hk : c.kind = .index) {n : Nat}
    {h : List (Op K V × Out K V)} {T : Tbl K V} (r : Runs c (Tbl.withCapacity n) h T)
    (env : Nat → Env) (rm : Nat → Bool) :
    ∃ fuel T' L, traversal c env rm fuel T = some (T', L) ∧
      (∀ e, e ∈ L.map (·.entry) ↔ e ∈ T.entries c) ∧
      (((L.filter (·.removed)).map (·.entry)) ++ T'.entries c).Perm (T.entries c) ∧
      ((∀ i a b, L[i]? = some a → L[i + 1]? = some b → a.capacity ≤ 2 * b.capacity) →
        (L.map (·.entry)).Perm (T.entries c)) :=
  c11_traversal_partial hc r env rm

end

/-- The index of the example: thirteen keys, one of them far from the others. -/
def c43Table : Option (Tbl Nat Nat) :=
  (insertAll .index (List.range 12 ++ [2 ^ 61]) (some (Tbl.withCapacity 0)))

/-- The keys presented, and the keys that remain. -/
def c43Run (rm : Nat → Bool) : Option (List Nat × List Nat) :=
  c43Table.bind fun T =>
    (traversal (sampleCfg .index) (fun _ => sampleEnv) rm 100 T).map fun q =>
      (q.2.map fun p => p.entry.1, (q.1.entries (sampleCfg .index)).map (·.1))

set_option maxRecDepth 100000 in
/-- A walk that removes every third entry: all are presented once, the others remain. -/
example : c43Run (fun i => i % 3 == 0) =
    some (List.range 12 ++ [2 ^ 61], [0, 1, 3, 4, 6, 7, 9, 10, 2 ^ 61]) := by
  decide +kernel

end Scc.Seq
