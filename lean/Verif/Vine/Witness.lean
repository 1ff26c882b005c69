import Verif.Vine.Exec
import Verif.Vine.Spec

/-!
# Executions in which iterators of the tree index yield a key twice, or an entry that was removed long ago

Nodes count as full after a few children here: the model leaves open how many children fill a node.
-/

namespace Scc.Vine

open Scc.Grove

local notation "Key" => Nat
local notation "Id" => Nat
local notation "Thr" => Nat

instance decWas (t : Thr) (k : Key) (v : Nat) : (es : List (IEv Nat)) → Decidable (was t k v es)
  | [] => isFalse (fun h => h)
  | .start t' :: es => by
    have := decWas t k v es
    unfold was
    exact inferInstance
  | .base e :: es => by
    have := decWas t k v es
    unfold was
    exact inferInstance
  | .tau :: es => by
    have := decWas t k v es
    unfold was
    exact inferInstance
  | .give t' k' v' :: es => by
    have := decWas t k v es
    unfold was
    exact inferInstance
  | .stop t' :: es => by
    have := decWas t k v es
    unfold was
    exact inferInstance

/-- What can be seen from outside of what changes the map and of iterators. -/
inductive Seen
  | put (k v : Nat)
  | del (k v : Nat)
  | start (t : Thr)
  | give (t k v : Nat)
  | stop (t : Thr)
  deriving DecidableEq

/-- What can be seen from outside. -/
def IEv.view : IEv Nat → Option Seen
  | .base (.put _ k v) => some (.put k v)
  | .base (.del _ k v) => some (.del k v)
  | .start t => some (.start t)
  | .give t k v => some (.give t k v)
  | .stop t => some (.stop t)
  | _ => none

/-- An insertion into a tree of height `d`, and structural steps. -/
def ins (t k d : Nat) : List Act := [.call t k (.insert (k * 10)), .go t (3 * d + 3)]
def c (l : List Chg) : List Act := l.map Act.chg

/-- A leaf of node `n` is split, and the halves are linked. -/
def half (n i mid k : Nat) : List Act := c [.halve n i mid k] ++ [.rel (.pushHigh n), .rel (.pushLow n)]

/-- The split of leaf node `n` is over. -/
def fin (n : Nat) : List Act :=
  [.rel (.delCommit n)] ++ c [.finLow n, .finHigh n, .finLowNode n, .finHighNode n]

/-- Thread 9 iterates, and has yielded 10 and 20 when thread 2 splits the leaf. Thread 9 loads the pointer to the
lower half. Thread 2 finds the leaf node full, deletes the halves, and takes away the mark of the leaf. Thread 9 finds
the leaf clear, and takes all entries of the lower half. -/
def rollback : List Act :=
  [.call 1 10 (.insert 100), .go 1 7, .call 1 20 (.insert 200), .go 1 6,
   .it 9 8,
   .call 2 30 (.insert 300), .go 2 4, .lock 2 0] ++ half 0 0 10 20 ++
  [.it 9 4, .chg (.full 0), .rel (.delHigh 0), .rel (.delLow 0), .chg (.rollLeaf 0), .rel (.unmark 0), .it 9 2]

set_option maxRecDepth 100000 in
/-- C45 does not hold beside concurrent calls: an iterator yields 10, 20 and 10 again, and nothing was ever removed. -/
theorem c45_rollback : ∃ (s : ISt Nat) (es : List (IEv Nat)), IRun s es ∧ ¬ Ascends es ∧
    es.reverse.filterMap IEv.view =
      [.put 10 100, .put 20 200, .start 9, .give 9 10 100, .give 9 20 200, .give 9 10 100] := by
  have h : ((playB rollback .init []).map fun x => (yields 9 x.2, x.2.reverse.filterMap IEv.view)) =
      some ([(10, 100), (20, 200), (10, 100)],
      [.put 10 100, .put 20 200, .start 9, .give 9 10 100, .give 9 20 200, .give 9 10 100]) := by
    decide +kernel
  match he : playB rollback .init [], h with
  | some (s, es), h =>
    simp only [Option.map_some, Option.some.injEq, Prod.mk.injEq] at h
    refine ⟨s, es, playB_sound he .init, fun ha => ?_, h.2⟩
    have := ha 9
    rw [h.1] at this
    simp at this

/-- The tree has three levels of nodes. Thread 2 splits the first internal node below the root, which is node 6: it
has added the lower half, node 11, to the root, and stops before it has put the upper half in the place of node 6.
Thread 3 splits leaf node 1 below node 11, and removes all entries there: node 11 retires, and stays in the root
because thread 2 has locked it. Thread 9 begins to iterate. `min` of node 11 is `None`, so it goes on with node 6,
the first child of which is still node 1, with the leaf that was split. -/
def stale : List Act :=
  [.call 1 10 (.insert 100), .go 1 7] ++ ins 1 20 1 ++ ins 1 30 1 ++ ins 1 40 1 ++
  [.call 2 35 .peek, .go 2 4, .lock 2 0] ++ half 0 0 20 30 ++ c [.full 0, .rootClaim 0, .rootSwap 3] ++ fin 0 ++
  c [.unlock 3] ++ [.go 2 2] ++
  [.call 2 35 .peek, .go 2 7, .lock 2 2] ++ half 2 0 30 40 ++ c [.full 2] ++ [.lock 2 3] ++
  c [.claim 3 0 0, .full 3, .rootClaim 1, .rootSwap 8] ++ fin 2 ++ c [.unlock 8] ++ [.go 2 2] ++ ins 1 25 3 ++
  [.call 2 27 .peek, .go 2 10, .lock 2 4] ++ half 4 0 25 30 ++ c [.full 4] ++ [.lock 2 6] ++ c [.claim 6 0 0, .full 6] ++
  [.lock 2 8] ++ c [.claim 8 1 0, .insert 8] ++
  [.call 3 15 .peek, .go 3 10, .lock 3 1] ++ half 1 0 10 20 ++ c [.full 1] ++ [.lock 3 11] ++
  c [.claim 11 0 0, .insert 11, .thaw 11, .swap 11] ++ fin 1 ++ c [.unlock 11] ++ [.go 3 2] ++
  [.call 3 10 (.remove fun _ => true), .go 3 11, .lock 3 13, .rel (.delRet 13 0)] ++ c [.retire 13, .unlock 13] ++
  [.lock 3 11] ++ c [.unlink 11 0, .clear 11, .unlock 11] ++ [.go 3 2] ++
  [.call 3 20 (.remove fun _ => true), .go 3 11, .lock 3 14, .rel (.delRet 14 0)] ++ c [.retire 14, .unlock 14] ++
  [.lock 3 11] ++ c [.retire 11, .unlock 11] ++ [.go 3 2] ++
  [.it 9 17]

set_option maxRecDepth 100000 in
/-- C54 does not hold: an iterator yields an entry that was removed before the iterator began. -/
theorem c54_stale : ∃ (s : ISt Nat) (es : List (IEv Nat)), IRun s es ∧ ¬ Faithful es ∧
    es.reverse.filterMap IEv.view =
      [.put 10 100, .put 20 200, .put 30 300, .put 40 400, .put 25 250, .del 10 100, .del 20 200, .start 9,
       .give 9 10 100] := by
  have h : ((playB stale .init []).map fun x =>
      ((iterB x.1.base.mem x.1.list 9 (x.1.it 9)).map fun y => y.1.view, decide (was 9 10 100 x.2),
        x.2.reverse.filterMap IEv.view)) =
      some (some (some (.give 9 10 100)), false,
      [.put 10 100, .put 20 200, .put 30 300, .put 40 400, .put 25 250, .del 10 100, .del 20 200, .start 9]) := by
    decide +kernel
  match he : playB stale .init [], h with
  | some (s, es), h =>
    simp only [Option.map_some, Option.some.injEq, Prod.mk.injEq, Option.map_eq_some_iff] at h
    obtain ⟨⟨⟨e, p⟩, hi, hv⟩, hw, hl⟩ := h
    have hg : e = .give 9 10 100 := by
      cases e <;> simp [IEv.view] at hv
      · rename_i e; cases e <;> simp at hv
      · simp [hv]
    subst hg
    refine ⟨_, _, .step (playB_sound he .init) (.iter 9 (iterB_sound hi)), fun hf => ?_, ?_⟩
    · exact of_decide_eq_false hw hf.2
    · rw [List.reverse_cons, List.filterMap_append, hl]
      rfl

end Scc.Vine
