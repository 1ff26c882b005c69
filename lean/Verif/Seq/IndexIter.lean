import Verif.Seq.EntryProps

/-!
# The iterator of `HashIndex` on an index nobody modifies (C22)
-/

set_option linter.unusedSectionVars false
set_option linter.unusedSimpArgs false
set_option linter.unusedVariables false

namespace Scc.Seq

open Scc.Index hiding bucketLen
open Scc.Bucket

variable {K V : Type}

/-! ## Model -/

/-- `Iter` (/repo/src/hash_index.rs 105-117): the array being scanned (`none` before the first call),
the bucket index, whether a bucket is held, and the cursor in it. -/
structure IdxIter where
  arr : Option Side
  index : Nat
  held : Bool
  ptr : Ptr

/-- `HashIndex::iter` (/repo/src/hash_index.rs 1171-1180). -/
def IdxIter.new : IdxIter := ⟨none, 0, false, Ptr.null⟩

/-- The array on a side. -/
def Two.side (w : Two K V) : Side → Option (Arr K V)
  | .cur => some w.cur
  | .old => w.old

/-- The loop in `Iter::next` (/repo/src/hash_index.rs 2116-2163) on an index that is not modified, so
that the array scanned is either the current one or the one linked to it. The result `none` means that
the loop did not end within `fuel` rounds, or that the array is gone. -/
def iterLoopNext (t : Kind) (w : Two K V) : Nat → Side → Nat → Bool → Ptr →
    Option (IdxIter × Option (K × V))
  | 0, _, _, _, _ => none
  | fuel + 1, s, i, held, p =>
    match w.side s with
    | none => none
    | some a =>
      let q := (a.bkt i).moveToNext t p
      if held ∧ q.2 then
        match (a.bkt i).get q.1 with
        | none => none
        | some e => some (⟨some s, i, true, q.1⟩, some e)
      else if i + 1 = 2 ^ a.lg then
        match s with
        | .cur => some (⟨some .cur, 0, false, Ptr.null⟩, none)
        | .old => iterLoopNext t w fuel .cur 0 true Ptr.null
      else iterLoopNext t w fuel s (i + 1) true Ptr.null

/-- `Iter::next` (/repo/src/hash_index.rs 2099-2165). -/
def iterNext (c : Cfg K) (T : Tbl K V) (it : IdxIter) : Option (IdxIter × Option (K × V)) :=
  match T.arr with
  | none => some (it, none)
  | some w =>
    let fuel := 2 ^ w.cur.lg + (match w.old with | some o => 2 ^ o.lg | none => 0) + 1
    match it.arr with
    | some s => iterLoopNext c.kind w fuel s it.index it.held it.ptr
    | none =>
      match w.old with
      | some _ => iterLoopNext c.kind w fuel .old it.index true it.ptr
      | none => iterLoopNext c.kind w fuel .cur it.index true it.ptr

/-- `n` calls of `next`. -/
def iterCalls (c : Cfg K) (T : Tbl K V) : Nat → IdxIter → Option (IdxIter × List (Option (K × V)))
  | 0, it => some (it, [])
  | n + 1, it =>
    match iterNext c T it with
    | none => none
    | some (it', o) => (iterCalls c T n it').map fun r => (r.1, o :: r.2)

/-! ## What is still to come -/

section
variable {c : Cfg K}

/-- The entries of the buckets from `i` on. -/
def Arr.from (c : Cfg K) (a : Arr K V) (i : Nat) : List (K × V) :=
  (List.range' i (2 ^ a.lg - i)).flatMap fun j => (a.bkt j).entries c.kind

theorem from_zero (a : Arr K V) : a.from c 0 = a.entries c := by
  unfold Arr.from Arr.entries
  rw [List.range_eq_range']; rfl

theorem from_step (a : Arr K V) {i : Nat} (h : i < 2 ^ a.lg) :
    a.from c i = (a.bkt i).entries c.kind ++ a.from c (i + 1) := by
  unfold Arr.from
  obtain ⟨n, hn⟩ : ∃ n, 2 ^ a.lg - i = n + 1 := ⟨2 ^ a.lg - i - 1, by omega⟩
  rw [hn, List.range'_succ, List.flatMap_cons]
  congr 3
  omega

theorem from_end (a : Arr K V) {i : Nat} (h : 2 ^ a.lg ≤ i) : a.from c i = [] := by
  unfold Arr.from
  rw [Nat.sub_eq_zero_of_le h]; rfl

/-- What follows after the array on a side. -/
def after (c : Cfg K) (w : Two K V) : Side → List (K × V)
  | .cur => []
  | .old => w.cur.entries c

/-- What the iterator has still to yield before it says `None`. -/
def left (c : Cfg K) (w : Two K V) (a : Arr K V) (s : Side) (i : Nat) (held : Bool) (p : Ptr) :
    List (K × V) :=
  (if held then remaining c.kind (a.bkt i) p else []) ++ a.from c (i + 1) ++ after c w s

/-- Rounds of the loop that are needed at most. -/
def rounds (w : Two K V) (a : Arr K V) (s : Side) (i : Nat) : Nat :=
  2 ^ a.lg - i + (match s with | .cur => 0 | .old => 2 ^ w.cur.lg)

theorem side_wf {w : Two K V} (ok : w.Ok c) {s : Side} {a : Arr K V} (h : w.side s = some a) :
    ArrWf c a := by
  cases s with
  | cur => cases h; exact ok.cur.wf
  | old => exact (ok.old a h).wf

theorem iterLoopNext_ok {w : Two K V} (ok : w.Ok c) (fuel : Nat) (s : Side) (i : Nat) (held : Bool)
    (p : Ptr) {a : Arr K V} (hs : w.side s = some a) (hi : i < 2 ^ a.lg) (hf : rounds w a s i ≤ fuel) :
    (left c w a s i held p = [] ∧
      iterLoopNext c.kind w fuel s i held p = some (⟨some .cur, 0, false, Ptr.null⟩, none)) ∨
    ∃ e s' i' p' a', iterLoopNext c.kind w fuel s i held p = some (⟨some s', i', true, p'⟩, some e) ∧
      w.side s' = some a' ∧ i' < 2 ^ a'.lg ∧ left c w a s i held p = e :: left c w a' s' i' true p' := by
  induction fuel generalizing s i held p a with
  | zero => unfold rounds at hf; omega
  | succ fuel ih =>
    have wa := side_wf ok hs
    unfold iterLoopNext
    rw [hs]
    simp only
    have hm := moveToNext_ok (wa.wf i) p
    by_cases hfound : held = true ∧ ((a.bkt i).moveToNext c.kind p).2 = true
    · rw [if_pos hfound]
      rcases hm with ⟨_, h2, _⟩ | ⟨e, rest, h1, h2, h3, h4⟩
      · rw [h2] at hfound; exact absurd hfound.2 (by simp)
      · right
        rw [pointsTo_get h3]
        refine ⟨e, s, i, _, a, rfl, hs, hi, ?_⟩
        unfold left
        rw [hfound.1]
        simp only [if_true]
        rw [h1, h4]
        rfl
    · rw [if_neg hfound]
      have hleft : left c w a s i held p = a.from c (i + 1) ++ after c w s := by
        unfold left
        cases held with
        | false => rfl
        | true =>
          rcases hm with ⟨h1, _, _⟩ | ⟨e, rest, _, h2, _⟩
          · simp only [if_true]; rw [h1]; rfl
          · exact absurd ⟨rfl, h2⟩ hfound
      rw [hleft]
      by_cases hlast : i + 1 = 2 ^ a.lg
      · rw [if_pos hlast, from_end a (by omega)]
        cases s with
        | cur => left; exact ⟨rfl, rfl⟩
        | old =>
          have hpos := Nat.two_pow_pos w.cur.lg
          have := ih .cur 0 true Ptr.null (a := w.cur) rfl hpos (by
            unfold rounds at hf ⊢; simp only at hf ⊢; omega)
          have hl : left c w w.cur .cur 0 true Ptr.null = w.cur.entries c := by
            unfold left after
            simp only [if_true, List.append_nil]
            rw [remaining_null (ok.cur.wf.wf 0), ← from_step w.cur hpos, from_zero]
          rw [hl] at this
          simpa [after] using this
      · rw [if_neg hlast]
        have := ih s (i + 1) true Ptr.null hs (by omega) (by unfold rounds at hf ⊢; omega)
        have hl : left c w a s (i + 1) true Ptr.null = a.from c (i + 1) ++ after c w s := by
          unfold left
          simp only [if_true]
          rw [remaining_null (wa.wf (i + 1)), ← from_step a (by omega)]
        rw [hl] at this
        exact this

/-- The state of an iterator that has not finished, and what it has still to yield. -/
inductive Going (c : Cfg K) (T : Tbl K V) : IdxIter → List (K × V) → Prop
  | none (it : IdxIter) (h : T.arr = none) : Going c T it []
  | fresh (w : Two K V) (h : T.arr = some w) :
    Going c T IdxIter.new ((match w.old with | some o => o.entries c | none => []) ++ w.cur.entries c)
  | at (w : Two K V) (h : T.arr = some w) (s : Side) (a : Arr K V) (i : Nat) (held : Bool) (p : Ptr)
    (hs : w.side s = some a) (hi : i < 2 ^ a.lg) : Going c T ⟨some s, i, held, p⟩ (left c w a s i held p)

/-- The state after the first `None`. -/
def finished : IdxIter := ⟨some .cur, 0, false, Ptr.null⟩

theorem iterNext_ok {T : Tbl K V} (ok : T.Ok c) {it : IdxIter} {l : List (K × V)} (g : Going c T it l) :
    (l = [] ∧ ∃ it', iterNext c T it = some (it', none) ∧ (T.arr ≠ none → it' = finished)) ∨
    ∃ e l' it', l = e :: l' ∧ iterNext c T it = some (it', some e) ∧ Going c T it' l' := by
  have key : ∀ (w : Two K V), T.arr = some w → ∀ (s : Side) (a : Arr K V) (i : Nat) (held : Bool)
      (p : Ptr) (fuel : Nat), w.side s = some a → i < 2 ^ a.lg → rounds w a s i ≤ fuel →
      (left c w a s i held p = [] ∧
        ∃ it', iterLoopNext c.kind w fuel s i held p = some (it', none) ∧
          (T.arr ≠ none → it' = finished)) ∨
      ∃ e l' it', left c w a s i held p = e :: l' ∧
        iterLoopNext c.kind w fuel s i held p = some (it', some e) ∧ Going c T it' l' := by
    intro w hw s a i held p fuel hs hi hf
    rcases iterLoopNext_ok (ok.two w hw) fuel s i held p hs hi hf with ⟨h1, h2⟩ | ⟨e, s', i', p', a', h1, h2, h3, h4⟩
    · exact Or.inl ⟨h1, _, h2, fun _ => rfl⟩
    · exact Or.inr ⟨e, _, _, h4, h1, .at w hw s' a' i' true p' h2 h3⟩
  cases g with
  | none it h => left; exact ⟨rfl, it, by unfold iterNext; rw [h], fun h' => absurd h h'⟩
  | fresh w h =>
    unfold iterNext
    rw [h]
    simp only [IdxIter.new]
    have okw := ok.two w h
    cases ho : w.old with
    | none =>
      simp only
      have := key w h .cur w.cur 0 true Ptr.null (2 ^ w.cur.lg + 0 + 1) rfl (Nat.two_pow_pos _)
        (by have := Nat.two_pow_pos w.cur.lg; unfold rounds; simp only; omega)
      have hl : left c w w.cur .cur 0 true Ptr.null = [] ++ w.cur.entries c := by
        unfold left after
        simp only [if_true, List.append_nil, List.nil_append]
        rw [remaining_null (okw.cur.wf.wf 0), ← from_step w.cur (Nat.two_pow_pos _), from_zero]
      rw [hl] at this
      simpa [h] using this
    | some o =>
      simp only
      have := key w h .old o 0 true Ptr.null (2 ^ w.cur.lg + 2 ^ o.lg + 1) ho (Nat.two_pow_pos _)
        (by have := Nat.two_pow_pos o.lg; unfold rounds; simp only; omega)
      have hl : left c w o .old 0 true Ptr.null = o.entries c ++ w.cur.entries c := by
        unfold left after
        simp only [if_true]
        rw [remaining_null ((okw.old o ho).wf.wf 0), ← from_step o (Nat.two_pow_pos _), from_zero]
      rw [hl] at this
      simpa [h] using this
  | «at» w h s a i held p hs hi =>
    unfold iterNext
    rw [h]
    simp only
    have := key w h s a i held p
      (2 ^ w.cur.lg + (match w.old with | some o => 2 ^ o.lg | none => 0) + 1) hs hi (by
        unfold rounds
        cases s with
        | cur => cases hs; simp only; omega
        | old =>
          have ho : w.old = some a := hs
          rw [ho]; simp only; omega)
    simpa [h] using this

theorem iterCalls_ok {T : Tbl K V} (ok : T.Ok c) {it : IdxIter} {l : List (K × V)} (g : Going c T it l) :
    ∃ it', iterCalls c T (l.length + 1) it = some (it', l.map some ++ [none]) ∧
      (T.arr ≠ none → it' = finished) := by
  induction l generalizing it with
  | nil =>
    rcases iterNext_ok ok g with ⟨_, it', h, hf⟩ | ⟨e, l', it', h, _⟩
    · exact ⟨it', by simp only [List.length_nil, iterCalls, h]; rfl, hf⟩
    · cases h
  | cons e l ih =>
    rcases iterNext_ok ok g with ⟨h, _⟩ | ⟨e', l', it', h, h2, h3⟩
    · cases h
    · cases h
      obtain ⟨it2, h4, hf⟩ := ih h3
      refine ⟨it2, ?_, hf⟩
      rw [List.length_cons, iterCalls, h2]
      simp only [h4, Option.map_some, List.map_cons, List.cons_append]

/-! ## C22 -/

/-- The entries in the order in which the iterator yields them. -/
def order (c : Cfg K) (T : Tbl K V) : List (K × V) :=
  match T.arr with
  | some w => (match w.old with | some o => o.entries c | none => []) ++ w.cur.entries c
  | none => []

theorem order_perm (T : Tbl K V) : (order c T).Perm (T.entries c) := by
  unfold order Tbl.entries Two.entries
  cases T.arr with
  | none => exact List.Perm.refl _
  | some w => exact List.perm_append_comm

theorem order_going (T : Tbl K V) : Going c T IdxIter.new (order c T) := by
  unfold order
  cases h : T.arr with
  | none => exact .none _ h
  | some w => exact .fresh w h

variable [DecidableEq K]

/-- C22, the part that holds: on an index with any history behind it and not modified meanwhile, also in
the middle of a resize, a fresh iterator yields every entry exactly once and then `None`. Missing: that
it returns `None` ever after; see `c22_resumes`. -/
theorem c22_complete_partial (hc : c.Ok) {n : Nat} {h : List (Op K V × Out K V)} {T : Tbl K V}
    (r : Runs c (Tbl.withCapacity n) h T) :
    ∃ (l : List (K × V)) (it : IdxIter), l.Perm (T.entries c) ∧ ((T.entries c).map (·.1)).Nodup ∧
      iterCalls c T (l.length + 1) IdxIter.new = some (it, l.map some ++ [none]) := by
  have ok := (runs_ok hc (withCapacity_ok n).1 r).1
  obtain ⟨it, h1, _⟩ := iterCalls_ok ok (order_going (c := c) T)
  exact ⟨order c T, it, order_perm T, ok.nodup, h1⟩

/-- C22 fails: on every index that has an entry outside the first bucket of its current array, the
iterator does not stay exhausted. The call after the first `None` yields an entry again, one that had
been yielded before. (/repo/src/hash_index.rs 2128-2137: the bucket index is reset to 0 but the array is
kept, so the next call goes on with bucket 1.) -/
theorem c22_resumes (hc : c.Ok) {n : Nat} {h : List (Op K V × Out K V)} {T : Tbl K V}
    (r : Runs c (Tbl.withCapacity n) h T) {w : Two K V} (hw : T.arr = some w) {e : K × V}
    (he : e ∈ w.cur.entries c) (hb : bucketIndex w.cur.lg (c.hash e.1) ≠ 0) :
    ∃ (l : List (K × V)) (it it' : IdxIter) (e' : K × V), iterCalls c T (l.length + 1) IdxIter.new = some (it, l.map some ++ [none]) ∧
      iterNext c T it = some (it', some e') ∧ e' ∈ l := by
  have ok := (runs_ok hc (withCapacity_ok n).1 r).1
  obtain ⟨it, h1, h2⟩ := iterCalls_ok ok (order_going (c := c) T)
  have h2 := h2 (by rw [hw]; simp)
  subst h2
  have okw := ok.two w hw
  have g : Going c T finished (left c w w.cur .cur 0 false Ptr.null) :=
    .at w hw .cur w.cur 0 false Ptr.null rfl (Nat.two_pow_pos _)
  have hl : left c w w.cur .cur 0 false Ptr.null = w.cur.from c 1 := by
    unfold left after; simp
  rw [hl] at g
  have hmem : e ∈ w.cur.from c 1 := by
    have h3 := he
    rw [← from_zero, from_step w.cur (Nat.two_pow_pos _), List.mem_append] at h3
    rcases h3 with h3 | h3
    · exact absurd (okw.cur.wf.placed 0 e h3) hb
    · exact h3
  rcases iterNext_ok ok g with ⟨h3, _⟩ | ⟨e', l', it', h3, h4, _⟩
  · rw [h3] at hmem; cases hmem
  · refine ⟨order c T, finished, it', e', h1, h4, ?_⟩
    have h5 : e' ∈ w.cur.entries c := by
      rw [← from_zero, from_step w.cur (Nat.two_pow_pos _), List.mem_append]
      right; rw [h3]; exact List.mem_cons_self ..
    unfold order
    rw [hw]
    exact List.mem_append_right _ h5

end

/-- An index with four entries, two in each of its two buckets. -/
def c22Table : Option (Tbl Nat Nat) :=
  insertAll .index [0, 1, 2 ^ 63, 2 ^ 63 + 1] (some (Tbl.withCapacity 0))

set_option maxRecDepth 100000 in
/-- C22 fails on a concrete index: nine calls of `next` on an index with four entries. -/
theorem c22_not_fused :
    (c22Table.bind fun T => (iterCalls (sampleCfg .index) T 9 IdxIter.new).map fun r =>
      r.2.map fun o => o.map (·.1)) =
      some [some 0, some 1, some (2 ^ 63), some (2 ^ 63 + 1), none,
        some (2 ^ 63), some (2 ^ 63 + 1), none, some (2 ^ 63)] := by
  decide +kernel

end Scc.Seq
