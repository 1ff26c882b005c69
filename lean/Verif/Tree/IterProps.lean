import Verif.Tree.Props

/-!
# Iterators that are called again after the end, or while the tree changes (C35, C36, C45)

All three properties are false. Each negation is a concrete run of the model; what holds is stated beside
it.
-/

set_option linter.unusedSimpArgs false
set_option linter.unusedSectionVars false
set_option linter.unusedVariables false

namespace Scc.Tree

open Scc.Leaf Scc.Leaf.Spec
open Scc.Tree.Spec (Map InBounds Enumerates)

variable {K V : Type} [KeyOrd K]

/-- `n` further states of an iterator over a tree that is left alone. -/
def Ix.iterState (x : Ix K V) : Nat → Option Scn → Option Scn
  | 0, it => it
  | n + 1, it => x.iterState n (x.iterNext it).1

/-- The same for a `Range`. -/
def Ix.rangeState (x : Ix K V) (a b : Bd K) (f : Nat) : Nat → Rng → Rng
  | 0, r => r
  | n + 1, r => x.rangeState a b f n (x.rangeNext x.hp a b f r).1

/-! ## C35: iterators are not fused -/

/-- The property is false for every tree that is not empty: after all entries and `None`, `Iter` starts
again with the first entry. -/
theorem c35_iter_restarts {f : Nat} (hf : 2 ≤ f) (os : List (TOp K V)) {k : K} {v : V}
    (hk : (Spec.calls Map.empty os).1 k = some v) :
    ∃ xs e, xs.head? = some e ∧ Enumerates (Spec.calls Map.empty os).1 xs ∧
      ((Ix.new : Ix K V).calls f os).1.iterCalls (xs.length + 2) none = xs.map some ++ [none, some e] := by
  have h := (calls_holds hf os (holds_new (K := K) (V := V))).1
  have hm := (h.enum.2 k v).2 hk
  have h1 := iterCalls_spec h.inv 1 _ none (iterAt_new _)
  generalize ((Ix.new : Ix K V).calls f os).1 = x at *
  cases hx : x.toList with
  | nil => rw [hx] at hm; cases hm
  | cons e R =>
    refine ⟨e :: R, e, rfl, by rw [← hx]; exact h.enum, ?_⟩
    rw [hx] at h1
    rw [show (e :: R).length + 2 = (e :: R).length + 1 + 1 by omega, h1]
    rcases iterNext_spec h.inv (iterAt_new x) with ⟨h2, _⟩ | ⟨it, e', R', h2, h3, _⟩
    · rw [hx] at h2; cases h2
    · rw [hx] at h2
      injection h2 with h2 _
      show _ ++ none :: (x.iterNext none).2 :: x.iterCalls 0 _ = _
      rw [h3, ← h2]
      rfl

example : (Spec.calls Map.empty [TOp.insert 5 6]).1 5 = some 6 := by simp [Spec.calls, Spec.step, Map.empty]

/-- What holds: on a tree that is left alone the results are the entries and `None`, over and over; on an
empty tree all results are `None`. The property asks for `None` for ever in all cases. -/
theorem c35_iter_partial {f : Nat} (hf : 2 ≤ f) (os : List (TOp K V)) :
    ∃ xs, Enumerates (Spec.calls Map.empty os).1 xs ∧
      (∀ n, ((Ix.new : Ix K V).calls f os).1.iterCalls (xs.length + 1 + n) none =
        xs.map some ++ none :: ((Ix.new : Ix K V).calls f os).1.iterCalls n none) ∧
      (xs = [] → ∀ n, ((Ix.new : Ix K V).calls f os).1.iterCalls n none = List.replicate n none) := by
  have h := (calls_holds hf os (holds_new (K := K) (V := V))).1
  have h1 := fun n => iterCalls_spec h.inv n _ none (iterAt_new _)
  refine ⟨_, h.enum, h1, ?_⟩
  intro hx n
  rw [hx] at h1
  induction n with
  | zero => rfl
  | succ n ih =>
    have := h1 n
    simp only [List.length_nil, List.map_nil, List.nil_append] at this
    rw [show n + 1 = 0 + 1 + n by omega, this, ih, show 0 + 1 + n = n + 1 by omega]
    rfl

/-- Three entries. -/
def small : Ix Nat Nat := ((Ix.new : Ix Nat Nat).calls 2 [.insert 10 1, .insert 20 2, .insert 30 3]).1

set_option maxRecDepth 100000 in
/-- The property is false for `Range`: `range(20..)` over three entries yields `20`, `30`, `None`, and
then `10`, a key below its lower bound. -/
theorem c35_range_restarts :
    (small.rangeCalls (.incl 20) .unb 4 4 Rng.new).map (fun r => r.map (fun r => r.map (fun e => e.1))) =
      [some (some 20), some (some 30), some none, some (some 10)] ∧ ¬ InBounds (.incl 20) .unb 10 := by
  refine ⟨by decide +kernel, ?_⟩
  rintro ⟨h, _⟩
  revert h
  simp only [KeyOrd.lt]
  decide

/-- What holds for `Range`: until the first `None`, no key outside the bounds. -/
theorem c35_range_partial {f : Nat} (hf : 2 ≤ f) (os : List (TOp K V)) (a b : Bd K) :
    ∃ (n N : Nat), ∀ g, N ≤ g → ∃ xs : List (K × V),
      ((Ix.new : Ix K V).calls f os).1.rangeCalls a b g (n + 1) Rng.new =
        xs.map (fun e => some (some e)) ++ [some none] ∧ ∀ e ∈ xs, InBounds a b e.1 := by
  obtain ⟨xs, _, h1, N, h2⟩ := c33_range hf os a b
  exact ⟨xs.length, N, fun g hg => ⟨xs, h2 g hg, fun e he => ((h1 e.1 e.2).1 he).2⟩⟩

/-! ## C36: keys outside the bounds -/

set_option maxRecDepth 100000 in
/-- The property is false. A thread calls `next` on `range(..=15)` over `10`, `20`, `30`; after it has
copied the metadata word of the leaf, and before it reads the largest key of the leaf, another thread
removes `20` and `30`. The largest key is then `10`, so that the upper bound is not checked on this leaf,
and the copy still has `20`, which is what the second call yields. -/
theorem c36_upper_bound_race :
    let y := ((small.removeIf 2 20 (fun _ => true)).1.removeIf 2 30 (fun _ => true)).1
    let r := small.rangeNext y.hp .unb (.incl 15) 4 Rng.new
    let q := y.rangeNext y.hp .unb (.incl 15) 4 r.1
    r.2.map (fun e => e.map (fun e => e.1)) = some (some 10) ∧
    q.2.map (fun e => e.map (fun e => e.1)) = some (some 20) ∧ ¬ InBounds .unb (.incl 15) 20 := by
  refine ⟨by decide +kernel, by decide +kernel, ?_⟩
  rintro ⟨_, h⟩
  revert h
  simp only [KeyOrd.lt]
  decide

/-- A tree with an internal node and three leaf nodes: keys `0, 10, .., 3990`. -/
def large : Ix Nat Nat :=
  ((Ix.new : Ix Nat Nat).calls 2 ((List.range 400).map (fun i => .insert (i * 10) i))).1

/-- The keys from `1000` to `3500` removed, and `1700` inserted. -/
def largeAfter : Ix Nat Nat :=
  (large.calls 2 [.removeRange (.incl 1000) (.incl 3500), .insert 1700 0]).1

set_option maxRecDepth 100000 in
/-- The property is false for the lower bound as well, even for one thread: `range(2000..)` has yielded
`2000`; then all keys from `1000` to `3500` are removed and `1700` is inserted. The leaf the iterator is in
has been dropped together with its node, without being marked as deleted; `1700` went into the leaf that
follows the dropped ones. The iterator goes on with the dropped leaves up to `3370` and then yields `1700`. -/
theorem c36_lower_bound_remove_range :
    let r := large.rangeNext large.hp (.incl 2000) .unb 400 Rng.new
    r.2.map (fun e => e.map (fun e => e.1)) = some (some 2000) ∧
    ((largeAfter.rangeCalls (.incl 2000) .unb 400 138 r.1).drop 136).map
      (fun r => r.map (fun r => r.map (fun e => e.1))) = [some (some 3370), some (some 1700)] ∧
    ¬ InBounds (.incl 2000) .unb 1700 := by
  simp only []
  rw [← and_assoc]
  refine ⟨by decide +kernel, ?_⟩
  rintro ⟨h, _⟩
  revert h
  simp only [KeyOrd.lt]
  decide

/-- What holds: no key outside the bounds is yielded, up to the first `None`, by a `Range` over a tree that
is left alone. The property asks for the same while other threads change the tree. -/
theorem c36_undisturbed_partial {f : Nat} (hf : 2 ≤ f) (os : List (TOp K V)) (a b : Bd K) :
    ∃ (n N : Nat), ∀ g, N ≤ g → ∃ xs : List (K × V),
      ((Ix.new : Ix K V).calls f os).1.rangeCalls a b g (n + 1) Rng.new =
        xs.map (fun e => some (some e)) ++ [some none] ∧ ∀ e ∈ xs, InBounds a b e.1 :=
  c35_range_partial hf os a b

/-! ## C45: ascending order while the tree changes between calls -/

set_option maxRecDepth 100000 in
/-- The property is false: the same tree and changes as above, after `iter()` has yielded the keys up to
`2000`. The next calls yield `2010` to `3370`, all removed, and then `1700`. -/
theorem c45_not_ascending :
    let it := large.iterState 201 none
    (it.bind (fun s => (s.get large.hp).map (fun e => e.1))) = some 2000 ∧
    ((largeAfter.iterCalls 138 it).drop 136).map (fun r => r.map (fun e => e.1)) =
      [some 3370, some 1700] := by
  simp only []
  decide +kernel

/-- What holds: ascending order over a tree that is left alone. The property asks for the same while the
tree changes between the calls. -/
theorem c45_undisturbed_partial {f : Nat} (hf : 2 ≤ f) (os : List (TOp K V)) :
    ∃ xs : List (K × V), xs.Pairwise (fun e e' => KeyOrd.lt e.1 e'.1) ∧
      ((Ix.new : Ix K V).calls f os).1.iterCalls (xs.length + 1) none = xs.map some ++ [none] := by
  obtain ⟨xs, h1, h2⟩ := c32_iter hf os
  exact ⟨xs, h1.1, h2⟩

end Scc.Tree
