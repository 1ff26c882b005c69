import Verif.Vine.Model

/-!
# Executions in which no leaf loses its mark
-/

namespace Scc.Vine

open Scc.Grove

local notation "Thr" => Nat

variable {V : Type}

/-- Executions in which `rollback` has not yet taken away the mark of any leaf (/repo/src/tree_index/leaf_node.rs
718-721). -/
inductive Firm : ISt V → List (IEv V) → Prop
  | init : Firm .init []
  | step {s s' : ISt V} {es : List (IEv V)} {e : IEv V} (r : Firm s es) (h : IStep s e s')
    (hm : ∀ l, s.list.mark l = true → s'.list.mark l = true) : Firm s' (e :: es)

theorem Firm.run {s : ISt V} {es : List (IEv V)} (r : Firm s es) : IRun s es := by
  induction r with
  | init => exact .init
  | step _ h _ ih => exact .step ih h

end Scc.Vine
