import Verif.Vine.Witness

/-!
# Iterators beside `TreeIndex::clear`

`clear` (/repo/src/tree_index.rs 132-136) takes the root out and then goes through the nodes of the tree. It stores null without a tag as the link of every leaf that
it finds in a leaf node (leaf_node.rs 85-97): not only the link is lost, but also that the leaf is marked or deleted.
-/

namespace Scc.Vine

open Scc.Grove

local notation "Key" => Nat
local notation "Id" => Nat
local notation "Thr" => Nat

variable {V : Type}

/-- A leaf below a node (internal_node.rs 67-79, leaf_node.rs 85-97). -/
inductive Below (m : Mem V) : Id → Id → Prop
  | leaf {n i l : Nat} (h : (m.node n).cell i = .to (.leaf l)) : Below m n l
  | node {n i c l : Nat} (h : (m.node n).cell i = .to (.node c)) (hl : Below m c l) : Below m n l

/-- `link_ref().swap((None, Tag::None), _)`. -/
def Lst.wipe (d : Lst) (l : Id) : Lst := { d with link := upd d.link l none, mark := upd d.mark l false, gone := upd d.gone l false }

/-- Executions with calls of `clear`; `R` are the roots that were taken out. -/
inductive WRun : (Id → Prop) → ISt V → List (IEv V) → Prop
  | init : WRun (fun _ => False) .init []
  | step {R : Id → Prop} {s s' : ISt V} {es : List (IEv V)} {e : IEv V} (r : WRun R s es) (h : IStep s e s') : WRun R s' (e :: es)
  /-- `clear` takes the root out (tree_index.rs 133), -/
  | take {R : Id → Prop} {s : ISt V} {es : List (IEv V)} (n : Id) (r : WRun R s es) (h : s.base.mem.root = some n) :
    WRun (fun x => R x ∨ x = n) { s with base := { s.base with mem := { s.base.mem with root := none } } } es
  /-- and unlinks a leaf below it. -/
  | wipe {R : Id → Prop} {s : ISt V} {es : List (IEv V)} (n l : Id) (r : WRun R s es) (hn : R n) (hl : Below s.base.mem n l) :
    WRun R { s with list := s.list.wipe l } es

theorem WRun.of {s : ISt V} {es : List (IEv V)} (r : IRun s es) : WRun (fun _ => False) s es := by
  induction r with
  | init => exact .init
  | step _ h ih => exact .step ih h

/-- Thread 9 iterates, and has yielded 10 and 20 when thread 2 splits the leaf; thread 9 loads the pointer to the lower half, and its entries. -/
def before : List Act :=
  [.call 1 10 (.insert 100), .go 1 7, .call 1 20 (.insert 200), .go 1 6,
   .it 9 8,
   .call 2 30 (.insert 300), .go 2 4, .lock 2 0] ++ half 0 0 10 20 ++ [.it 9 4]

/-- Then thread 3 calls `clear`. -/
def cleared (s : ISt Nat) : ISt Nat :=
  { s with base := { s.base with mem := { s.base.mem with root := none } }, list := s.list.wipe 0 }

/-- Two steps of iterator `t`. -/
def two (s : ISt Nat) (t : Thr) : Option (IEv Nat × IEv Nat × ISt Nat) :=
  (iterB s.base.mem s.list t (s.it t)).bind fun x =>
    (iterB s.base.mem s.list t x.2).map fun y => (x.1, y.1, { s with it := upd (upd s.it t x.2) t y.2 })

theorem two_sound {s s' : ISt Nat} {t : Thr} {e e' : IEv Nat} (h : two s t = some (e, e', s')) : ∃ s1, IStep s e s1 ∧ IStep s1 e' s' := by
  simp only [two, Option.bind_eq_some_iff, Option.map_eq_some_iff] at h
  obtain ⟨x, hx, y, hy, h⟩ := h
  simp only [Prod.mk.injEq] at h
  obtain ⟨h1, h2, h3⟩ := h
  subst h1; subst h2; subst h3
  refine ⟨_, .iter t (iterB_sound (p := s.it t) (by rw [hx])), ?_⟩
  have h2 := IStep.iter (s := { s with it := upd s.it t x.2 }) t (e := y.1) (p := y.2) (by
    show Iter s.base.mem s.list t (upd s.it t x.2 t) y.1 y.2
    have : upd s.it t x.2 t = x.2 := by simp [upd]
    rw [this]
    exact iterB_sound (by rw [hy]))
  exact h2

set_option maxRecDepth 100000 in
/-- C45 does not hold beside `clear`: thread 9 finds the leaf clear, as `clear` has taken the mark away, and yields 10, 20 and 10 again. -/
theorem c45_clear : ∃ (R : Id → Prop) (s : ISt Nat) (es : List (IEv Nat)), WRun R s es ∧ ¬ Ascends es ∧
    es.reverse.filterMap IEv.view =
      [.put 10 100, .put 20 200, .start 9, .give 9 10 100, .give 9 20 200, .give 9 10 100] := by
  have h : ((playB before .init []).bind fun x => (two (cleared x.1) 9).map fun y =>
      (decide (x.1.base.mem.root = some 0 ∧ (x.1.base.mem.node 0).cell 0 = .to (.leaf 0)), yields 9 (y.2.1 :: y.1 :: x.2),
        (y.2.1 :: y.1 :: x.2).reverse.filterMap IEv.view)) =
      some (true, [(10, 100), (20, 200), (10, 100)], [.put 10 100, .put 20 200, .start 9, .give 9 10 100, .give 9 20 200, .give 9 10 100]) := by
    decide +kernel
  match he : playB before .init [], h with
  | some (s, es), h =>
    simp only [Option.bind_some, Option.map_eq_some_iff] at h
    obtain ⟨⟨e, e', s'⟩, hi, hv⟩ := h
    simp only [Prod.mk.injEq] at hv
    obtain ⟨h1, h2, h3⟩ := hv
    have h1 := of_decide_eq_true h1
    obtain ⟨s1, g1, g2⟩ := two_sound hi
    have r0 : WRun _ (cleared s) es := .wipe 0 0 (.take 0 (WRun.of (playB_sound he .init)) h1.1) (.inr rfl) (.leaf h1.2)
    refine ⟨_, s', _, .step (.step r0 g1) g2, fun ha => ?_, h3⟩
    have := ha 9
    rw [h2] at this
    simp at this

end Scc.Vine
