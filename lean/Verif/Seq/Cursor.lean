import Verif.Seq.Ops

/-!
# Cursor traversal: `begin`, `next`, `remove_and`
-/

set_option linter.unusedSectionVars false
set_option linter.unusedSimpArgs false
set_option linter.unusedVariables false

namespace Scc.Seq

open Scc.Index hiding bucketLen
open Scc.Bucket

variable {K V : Type}

/-- The entries whose bucket of an array of `2 ^ lg` buckets is `j` or later. -/
def fut (c : Cfg K) (lg j : Nat) (l : List (K × V)) : List (K × V) :=
  l.filter fun e => decide (j ≤ bucketIndex lg (c.hash e.1))

section
variable {c : Cfg K}

theorem fut_perm {lg j : Nat} {l l' : List (K × V)} (h : l.Perm l') :
    (fut c lg j l).Perm (fut c lg j l') := h.filter _

theorem fut_append {lg j : Nat} {l l' : List (K × V)} :
    fut c lg j (l ++ l') = fut c lg j l ++ fut c lg j l' := List.filter_append ..

theorem fut_all {lg j : Nat} {l : List (K × V)} (h : ∀ e ∈ l, j ≤ bucketIndex lg (c.hash e.1)) :
    fut c lg j l = l := List.filter_eq_self.2 fun e he => by simpa using h e he

theorem fut_none {lg j : Nat} {l : List (K × V)} (h : ∀ e ∈ l, bucketIndex lg (c.hash e.1) < j) :
    fut c lg j l = [] := List.filter_eq_nil_iff.2 fun e he => by have := h e he; simp; omega

theorem fut_congr {lg j lg' j' : Nat} {l : List (K × V)}
    (h : ∀ e ∈ l, j ≤ bucketIndex lg (c.hash e.1) ↔ j' ≤ bucketIndex lg' (c.hash e.1)) :
    fut c lg j l = fut c lg' j' l := List.filter_congr fun e he => by simp [h e he]

theorem mem_fut {lg j : Nat} {l : List (K × V)} {e : K × V} :
    e ∈ fut c lg j l ↔ e ∈ l ∧ j ≤ bucketIndex lg (c.hash e.1) := by
  unfold fut; simp

/-- The cursor is at a bucket of the current array that is prepared. -/
structure At (c : Cfg K) (T : Tbl K V) (x : Cur) (w : Two K V) : Prop where
  ok : T.Ok c
  arr : T.arr = some w
  side : x.side = .cur
  idx : x.idx < 2 ^ w.cur.lg
  clean : w.Clean c x.idx

/-- The entries the cursor has still to present. -/
def pending (c : Cfg K) (w : Two K V) (x : Cur) : List (K × V) :=
  remaining c.kind (w.cur.bkt x.idx) x.ptr ++ fut c w.cur.lg (x.idx + 1) (w.entries c)

theorem tbl_entries {T : Tbl K V} {w : Two K V} (h : T.arr = some w) : T.entries c = w.entries c := by
  unfold Tbl.entries; rw [h]

/-- From bucket `j` on: the entries of bucket `j`, then those of the later buckets. -/
theorem fut_step {T : Tbl K V} (ok : T.Ok c) {w : Two K V} (hw : T.arr = some w) {j : Nat}
    (hj : j < 2 ^ w.cur.lg) (cl : w.Clean c j) :
    (fut c w.cur.lg j (T.entries c)).Perm
      ((w.cur.bkt j).entries c.kind ++ fut c w.cur.lg (j + 1) (T.entries c)) := by
  obtain ⟨E, C, r⟩ := ready_cur ok hw hj cl
  refine (fut_perm r.entries).trans ?_
  rw [fut_append, fut_all (fun e he => by rw [r.placed e he]; exact Nat.le_refl _)]
  refine List.Perm.append_left _ ?_
  refine List.Perm.trans ?_ (fut_perm r.entries).symm
  rw [fut_append, fut_none (l := (w.cur.bkt j).entries c.kind)
    (fun e he => by rw [r.placed e he]; exact Nat.lt_succ_self _), List.nil_append]
  rw [fut_congr (l := E) (lg' := w.cur.lg) (j' := j + 1)]
  intro e he
  have := r.others e he
  constructor
  · intro h; omega
  · intro h; omega

theorem seek_ok (hc : c.Ok) (recent : Nat → Bool) (n j : Nat) (T : Tbl K V) (ok : T.Ok c) {w : Two K V}
    (hw : T.arr = some w) (hn : j + n = 2 ^ w.cur.lg) :
    ∃ T' w' r, seek c recent n j T = some (T', r) ∧ Keeps c T T' ∧ T'.arr = some w' ∧
      w'.cur.lg = w.cur.lg ∧
      (r = none → fut c w.cur.lg j (T.entries c) = []) ∧
      (∀ x, r = some x → At c T' x w' ∧ ∃ e, PointsTo c.kind (w'.cur.bkt x.idx) x.ptr e ∧
        (fut c w.cur.lg j (T.entries c)).Perm (e :: pending c w' x)) := by
  induction n generalizing j T w with
  | zero =>
    refine ⟨T, w, none, rfl, Keeps.refl ok, hw, rfl, fun _ => ?_, fun x h => by cases h⟩
    apply fut_none
    intro e he
    have := bucketIndex_lt (lg := w.cur.lg) (hash := c.hash e.1)
      (by have := (ok.two w hw).cur.wf.lg_le; omega) (hc e.1)
    omega
  | succ n ih =>
    have hj : j < 2 ^ w.cur.lg := by omega
    obtain ⟨T1, w1, h1, hw1, hl, k1, cl, ho⟩ := prepare_ok hc recent T ok hw hj
    have hj1 : j < 2 ^ w1.cur.lg := by rw [hl]; exact hj
    obtain ⟨E, C, r⟩ := ready_cur k1.ok hw1 hj1 cl
    have hs := fut_step k1.ok hw1 hj1 cl
    have hp : (fut c w.cur.lg j (T.entries c)).Perm (fut c w1.cur.lg j (T1.entries c)) := by
      rw [hl]; exact fut_perm k1.entries.symm
    unfold seek
    rw [h1]
    simp only [r.bucket]
    rcases moveToNext_ok r.wf Ptr.null with ⟨m1, m2, _⟩ | ⟨e, rest, m1, m2, m3, m4⟩
    · rw [remaining_null r.wf] at m1
      simp only [m2, Bool.false_eq_true, if_false]
      obtain ⟨T2, w2, r2, i1, i2, i3, i4, i5, i6⟩ := ih (j + 1) T1 k1.ok hw1 (by rw [hl]; omega)
      rw [m1, List.nil_append] at hs
      refine ⟨T2, w2, r2, i1, k1.trans i2, i3, i4.trans hl, ?_, ?_⟩
      · intro h
        have := hp.trans hs
        rw [i5 h] at this
        exact this.eq_nil
      · intro x h
        obtain ⟨a1, e, a2, a3⟩ := i6 x h
        exact ⟨a1, e, a2, (hp.trans hs).trans a3⟩
    · rw [remaining_null r.wf] at m1
      simp only [m2, if_true]
      refine ⟨T1, w1, _, rfl, k1, hw1, hl, (fun h => by cases h), ?_⟩
      intro x h
      cases h
      refine ⟨⟨k1.ok, hw1, rfl, hj1, cl⟩, e, m3, ?_⟩
      refine (hp.trans hs).trans ?_
      unfold pending
      rw [m1, m4, tbl_entries hw1]
      exact List.Perm.refl _

theorem filter_split {α : Type} (p q : α → Bool) (l : List α) (h : ∀ x, p x = true → q x = true) :
    (l.filter q).Perm ((l.filter fun x => q x && !p x) ++ l.filter p) := by
  induction l with
  | nil => exact List.Perm.refl _
  | cons x xs ih =>
    have := h x
    cases hq : q x <;> cases hp : p x <;> simp [List.filter_cons, hq, hp] at this ⊢
    · exact ih
    · exact ih
    · exact (ih.cons x).trans List.perm_middle.symm

/-- Translating a position to an array of another length: everything pending stays pending; entries
that have been passed already may come back, but none if the array is at least half as long and the
bucket just left is empty. -/
theorem fut_translate (hc : c.Ok) {lg lg1 i j : Nat} (l : List (K × V)) (h1 : lg ≤ 57) (h2 : lg1 ≤ 57)
    (hj : j = if 2 ^ lg = 0 ∨ 2 ^ lg = 2 ^ lg1 then i + 1
      else (fromIndexToRange (2 ^ lg) (2 ^ lg1) (i + 1)).1) :
    ∃ D, (fut c lg1 j l).Perm (D ++ fut c lg (i + 1) l) ∧ (∀ e ∈ D, e ∈ l) ∧
      (lg ≤ lg1 + 1 → (∀ e ∈ l, bucketIndex lg (c.hash e.1) ≠ i) → D = []) := by
  have hpos : 2 ^ lg ≠ 0 := Nat.pos_iff_ne_zero.1 (Nat.two_pow_pos _)
  have key : ∀ e : K × V, i + 1 ≤ bucketIndex lg (c.hash e.1) → j ≤ bucketIndex lg1 (c.hash e.1) := by
    intro e he
    rw [hj]
    split
    · rename_i h
      rcases h with h | h
      · exact absurd h hpos
      · rw [← (Nat.pow_right_inj (by omega)).1 h]; exact he
    · rename_i h
      have hne : lg ≠ lg1 := fun h' => h (Or.inr (by rw [h']))
      rcases Nat.lt_or_gt_of_ne hne with hlt | hgt
      · rw [range_grow hlt]
        rw [bucketIndex_prefix (Nat.le_of_lt hlt) (by omega)] at he
        have := (Nat.le_div_iff_mul_le (Nat.two_pow_pos _)).1 he
        exact this
      · rw [range_shrink (Nat.le_of_lt hgt)]
        rw [bucketIndex_prefix (Nat.le_of_lt hgt) (by omega)]
        exact Nat.div_le_div_right he
  refine ⟨l.filter fun e => decide (j ≤ bucketIndex lg1 (c.hash e.1)) &&
    !decide (i + 1 ≤ bucketIndex lg (c.hash e.1)), ?_, ?_, ?_⟩
  · exact filter_split _ _ l fun e he => by simpa using key e (by simpa using he)
  · intro e he; exact (List.mem_filter.1 he).1
  · intro hr hne
    apply List.filter_eq_nil_iff.2
    intro e he h
    simp only [Bool.and_eq_true, decide_eq_true_eq, Bool.not_eq_true', decide_eq_false_iff_not] at h
    obtain ⟨ha, hb⟩ := h
    have hni := hne e he
    rw [hj] at ha
    split at ha
    · rename_i h
      rcases h with h | h
      · exact absurd h hpos
      · rw [← (Nat.pow_right_inj (by omega)).1 h] at ha; omega
    · rename_i h
      have hne : lg ≠ lg1 := fun h' => h (Or.inr (by rw [h']))
      rcases Nat.lt_or_gt_of_ne hne with hlt | hgt
      · rw [range_grow hlt] at ha
        rw [bucketIndex_prefix (Nat.le_of_lt hlt) (by omega)] at hb
        exact hb ((Nat.le_div_iff_mul_le (Nat.two_pow_pos _)).2 ha)
      · have : lg = lg1 + 1 := by omega
        subst this
        rw [range_shrink (Nat.le_of_lt hgt)] at ha
        rw [bucketIndex_prefix (Nat.le_of_lt hgt) (by omega)] at ha
        have h3 : lg1 + 1 - lg1 = 1 := by omega
        rw [h3] at ha
        simp only [Nat.pow_one] at ha
        omega

/-- The step `next`. -/
theorem nextOp_ok (hc : c.Ok) (env : Env) (T : Tbl K V) (x : Cur) {w : Two K V} (a : At c T x w) :
    ∃ T' r, nextOp c env T x = some (T', r) ∧ Keeps c T T' ∧
      (r = none → pending c w x = []) ∧
      (∀ x', r = some x' → ∃ w' e D, At c T' x' w' ∧ PointsTo c.kind (w'.cur.bkt x'.idx) x'.ptr e ∧
        (D ++ pending c w x).Perm (e :: pending c w' x') ∧ (∀ e ∈ D, e ∈ T.entries c) ∧
        (T.capacity ≤ 2 * T'.capacity → D = []) ∧
        ((w.cur.bkt x.idx).entries c.kind ≠ [] → D = [])) := by
  obtain ⟨E, C, r⟩ := ready_cur a.ok a.arr a.idx a.clean
  have hte := tbl_entries (c := c) a.arr
  unfold nextOp
  rw [a.side, r.bucket]
  simp only
  rcases moveToNext_ok r.wf x.ptr with ⟨m1, m2, _⟩ | ⟨e, rest, m1, m2, m3, m4⟩
  · simp only [m2, Bool.false_eq_true, if_false]
    rw [r.sideLen]
    have hpend : pending c w x = fut c w.cur.lg (x.idx + 1) (T.entries c) := by
      unfold pending; rw [m1, hte]; rfl
    rw [hpend]
    have hk := shrinkIfEmpty_keeps T a.ok .cur x.idx
    have hb : T.bucket .cur x.idx = some (w.cur.bkt x.idx) := r.bucket
    by_cases hlast : x.idx + 1 = 2 ^ w.cur.lg
    · rw [if_pos hlast]
      refine ⟨_, none, rfl, hk, fun _ => ?_, fun x' h => by cases h⟩
      apply fut_none
      intro e he
      rw [hlast]
      exact bucketIndex_lt (by have := (a.ok.two w a.arr).cur.wf.lg_le; omega) (hc e.1)
    · rw [if_neg hlast]
      have hilt := a.idx
      -- the arrays after the attempt to shrink
      have shape : shrinkIfEmpty c T .cur x.idx = T ∨
          ((shrinkIfEmpty c T .cur x.idx).arr = none ∧ T.entries c = []) ∨
          ((w.cur.bkt x.idx).entries c.kind = [] ∧
            ∃ lg, (shrinkIfEmpty c T .cur x.idx).arr = some ⟨Arr.new lg, some w.cur⟩) := by
        unfold shrinkIfEmpty
        rw [hb]
        simp only
        split
        · rename_i hz
          rcases tryShrink_shape T a.ok x.idx with h | h | ⟨a', lg, h, h'⟩
          · exact Or.inl h
          · exact Or.inr (Or.inl h)
          · refine Or.inr (Or.inr ⟨len_nil r.wf hz.1, lg, ?_⟩)
            rw [a.arr] at h
            cases h; exact h'
        · exact Or.inl rfl
      have hlg := (a.ok.two w a.arr).cur.wf.lg_le
      generalize shrinkIfEmpty c T .cur x.idx = T1 at *
      rcases shape with h | ⟨h, h'⟩ | ⟨hz, lg1, h⟩
      · subst h
        unfold seekFrom
        rw [a.arr]
        simp only [or_true, if_true]
        obtain ⟨T2, w2, r2, i1, i2, i3, i4, i5, i6⟩ := seek_ok hc env.recent
          (2 ^ w.cur.lg - (x.idx + 1)) (x.idx + 1) T1 a.ok a.arr (by omega)
        refine ⟨T2, r2, i1, i2, i5, ?_⟩
        intro x' hx'
        obtain ⟨a1, e, a2, a3⟩ := i6 x' hx'
        exact ⟨w2, e, [], a1, a2, a3, (fun e h => by cases h), fun _ => rfl, fun _ => rfl⟩
      · unfold seekFrom
        rw [h]
        refine ⟨T1, none, rfl, hk, fun _ => ?_, fun x' h => by cases h⟩
        rw [h']; rfl
      · unfold seekFrom
        rw [h]
        simp only
        generalize hj : (if 2 ^ w.cur.lg = 0 ∨ 2 ^ w.cur.lg = 2 ^ (Arr.new lg1 : Arr K V).lg then x.idx + 1
          else (fromIndexToRange (2 ^ w.cur.lg) (2 ^ (Arr.new lg1 : Arr K V).lg) (x.idx + 1)).1) = j
        have hlg1 : lg1 ≤ 57 := (hk.ok.two _ h).cur.wf.lg_le
        have hlge : (Arr.new lg1 : Arr K V).lg = lg1 := rfl
        rw [hlge] at hj
        obtain ⟨D, d1, d2, d3⟩ := fut_translate (c := c) hc (T.entries c) hlg hlg1 hj.symm
        have hjle : j ≤ 2 ^ lg1 := by
          rw [← hj]
          split
          · rename_i h
            rcases h with h | h
            · have := Nat.two_pow_pos w.cur.lg; omega
            · rw [← h]; omega
          · have hb := c05_range_bounds (a := w.cur.lg) (b := lg1) (i := x.idx + 1) (by omega)
            omega
        obtain ⟨T2, w2, r2, i1, i2, i3, i4, i5, i6⟩ := seek_ok hc env.recent
          (2 ^ lg1 - j) j T1 hk.ok h (by show j + (2 ^ lg1 - j) = 2 ^ lg1; omega)
        have hfp : (fut c lg1 j (T1.entries c)).Perm (D ++ fut c w.cur.lg (x.idx + 1) (T.entries c)) :=
          (fut_perm hk.entries).trans d1
        refine ⟨T2, r2, i1, hk.trans i2, ?_, ?_⟩
        · intro hn
          have h5 : fut c lg1 j (T1.entries c) = [] := i5 hn
          rw [h5] at hfp
          exact (List.append_eq_nil_iff.1 hfp.symm.eq_nil).2
        · intro x' hx'
          obtain ⟨a1, e, a2, a3⟩ := i6 x' hx'
          refine ⟨w2, e, D, a1, a2, hfp.symm.trans a3, d2, ?_, fun h => absurd hz h⟩
          intro hcap
          apply d3
          · unfold Tbl.capacity at hcap
            rw [a.arr, i3] at hcap
            simp only [numSlots] at hcap
            have h6 : w2.cur.lg = lg1 := i4
            rw [h6] at hcap
            have h7 : 2 ^ w.cur.lg ≤ 2 ^ (lg1 + 1) := by
              rw [Nat.pow_succ]
              simp only [Index.bucketLen] at hcap
              omega
            exact (Nat.pow_le_pow_iff_right (by omega)).1 h7
          · intro e he
            rcases List.mem_append.1 (r.entries.mem_iff.1 he) with h | h
            · rw [hz] at h; cases h
            · exact r.others e h
  · simp only [m2, if_true]
    refine ⟨T, _, rfl, Keeps.refl a.ok, fun h => (by cases h), ?_⟩
    intro x' h
    cases h
    refine ⟨w, e, [], ⟨a.ok, a.arr, rfl, a.idx, a.clean⟩, m3, ?_, (fun e h => by cases h), fun _ => rfl, fun _ => rfl⟩
    unfold pending
    simp only
    rw [m1, m4]
    exact List.Perm.refl _

theorem getAt_ok {T : Tbl K V} {x : Cur} {w : Two K V} (a : At c T x w) {e : K × V}
    (hp : PointsTo c.kind (w.cur.bkt x.idx) x.ptr e) : getAt T x = some e ∧ e ∈ T.entries c := by
  obtain ⟨E, C, r⟩ := ready_cur a.ok a.arr a.idx a.clean
  unfold getAt
  rw [a.side, r.bucket]
  exact ⟨pointsTo_get hp, r.entries.mem_iff.2 (List.mem_append_left _ (PointsTo.mem r.wf hp))⟩

/-- The pairs `remove_and` hands back. -/
def takenOut (t : Kind) (e : K × V) : List (K × V) := if t = .index then [] else [e]

/-- The step `remove_and`. -/
theorem removeAndOp_ok (hc : c.Ok) (env : Env) (T : Tbl K V) (x : Cur) {w : Two K V} (a : At c T x w)
    {e : K × V} (hp : PointsTo c.kind (w.cur.bkt x.idx) x.ptr e) :
    ∃ T' r, removeAndOp c env T x = some (T', if c.kind = .index then none else some e, r) ∧
      T'.Ok c ∧ (T.entries c).Perm (e :: T'.entries c) ∧
      (takenOut c.kind e ++ T'.cells ++ T'.gone).Perm (T.cells ++ T.gone) ∧ T'.minCap = T.minCap ∧
      (r = none → pending c w x = []) ∧
      (∀ x', r = some x' → ∃ w' e' D, At c T' x' w' ∧ PointsTo c.kind (w'.cur.bkt x'.idx) x'.ptr e' ∧
        (D ++ pending c w x).Perm (e' :: pending c w' x') ∧ (∀ y ∈ D, y ∈ T'.entries c) ∧
        (T.capacity ≤ 2 * T'.capacity → D = [])) := by
  obtain ⟨E, C, r⟩ := ready_cur a.ok a.arr a.idx a.clean
  have okw := a.ok.two w a.arr
  -- common part: the bucket without the entry
  have key : ∀ (b' : Bucket K V) (p' : Ptr), Wf c.kind c.hash b' →
      ((w.cur.bkt x.idx).entries c.kind).Perm (e :: b'.entries c.kind) →
      (takenOut c.kind e ++ b'.cells).Perm (w.cur.bkt x.idx).cells →
      remaining c.kind b' p' = remaining c.kind (w.cur.bkt x.idx) x.ptr →
      ∃ T' r', nextOp c env (T.setBucket x.side x.idx b') { x with ptr := p' } = some (T', r') ∧
        T'.Ok c ∧ (T.entries c).Perm (e :: T'.entries c) ∧
        (takenOut c.kind e ++ T'.cells ++ T'.gone).Perm (T.cells ++ T.gone) ∧ T'.minCap = T.minCap ∧
        (r' = none → pending c w x = []) ∧
        (∀ x', r' = some x' → ∃ w' e' D, At c T' x' w' ∧
          PointsTo c.kind (w'.cur.bkt x'.idx) x'.ptr e' ∧
          (D ++ pending c w x).Perm (e' :: pending c w' x') ∧ (∀ y ∈ D, y ∈ T'.entries c) ∧
          (T.capacity ≤ 2 * T'.capacity → D = [])) := by
    intro b' p' wb' h1 h2 h3
    have hpl : ∀ y ∈ b'.entries c.kind, bucketIndex w.cur.lg (c.hash y.1) = x.idx := fun y hy =>
      r.placed y (h1.mem_iff.2 (List.mem_cons_of_mem _ hy))
    obtain ⟨p1, p2, p3, p4, p5, p6, p7⟩ := r.put b' wb' hpl
    have hset : T.setBucket .cur x.idx b' = { T with arr := some { w with cur := w.cur.set x.idx b' } } := by
      unfold Tbl.setBucket; rw [a.arr]
    rw [a.side]
    have hent : (T.entries c).Perm (e :: (T.setBucket .cur x.idx b').entries c) := by
      have q1 := r.entries
      rw [perm_iff] at *
      intro y
      have z1 := q1 y
      have z2 := h1 y
      have z3 := p2 y
      simp only [cnt_append, cnt_cons] at *
      omega
    have hcell : (takenOut c.kind e ++ (T.setBucket .cur x.idx b').cells).Perm T.cells := by
      have q1 := r.cells
      rw [perm_iff] at *
      intro y
      have z1 := q1 y
      have z2 := h2 y
      have z3 := p3 y
      simp only [cnt_append, cnt_cons] at *
      omega
    have ok1 : (T.setBucket .cur x.idx b').Ok c := by
      refine ⟨p1, ?_⟩
      have := nodup_perm hent.symm a.ok.nodup
      rw [List.map_cons, List.nodup_cons] at this
      exact this.2
    have hcap1 : (T.setBucket .cur x.idx b').capacity = T.capacity := by
      rw [hset]
      unfold Tbl.capacity
      rw [a.arr]
      rfl
    have hat : At c (T.setBucket .cur x.idx b') { side := .cur, idx := x.idx, ptr := p' }
        { w with cur := w.cur.set x.idx b' } := by
      refine ⟨ok1, by rw [hset], rfl, a.idx, ?_⟩
      intro o ho e he
      exact a.clean o ho e he
    obtain ⟨T', r', n1, n2, n3, n4⟩ := nextOp_ok hc env (T.setBucket .cur x.idx b') _ hat
    have hpend : (pending c { w with cur := w.cur.set x.idx b' }
        { side := .cur, idx := x.idx, ptr := p' }).Perm (pending c w x) := by
      unfold pending
      simp only
      rw [set_bkt, if_pos rfl, h3]
      refine List.Perm.append_left _ ?_
      have e1 : Two.entries c { w with cur := w.cur.set x.idx b' } =
          (T.setBucket .cur x.idx b').entries c := by rw [hset]; rfl
      rw [e1]
      have q := fut_perm (c := c) (lg := w.cur.lg) (j := x.idx + 1) (tbl_entries (c := c) a.arr ▸ hent)
      refine List.Perm.trans ?_ q.symm
      unfold fut
      rw [List.filter_cons_of_neg]
      · exact List.Perm.refl _
      · rw [r.placed e (PointsTo.mem r.wf hp)]
        simp
    refine ⟨T', r', n1, n2.ok, hent.trans (n2.entries.symm.cons e), ?_, n2.minCap.trans p5, ?_, ?_⟩
    · have q := n2.mem
      rw [perm_iff] at *
      intro y
      have z1 := q y
      have z2 := hcell y
      rw [p4] at z1
      simp only [cnt_append, cnt_cons] at *
      omega
    · intro h
      have := n3 h
      rw [this] at hpend
      exact hpend.symm.eq_nil
    · intro x' hx'
      obtain ⟨w', e', D, d1, d2, d3, d4, d5, d6⟩ := n4 x' hx'
      refine ⟨w', e', D, d1, d2, ((hpend.symm.append_left D).trans d3), ?_, ?_⟩
      · intro y hy; exact n2.entries.mem_iff.2 (d4 y hy)
      · intro h; rw [hcap1] at d5; exact d5 h
  unfold removeAndOp
  rw [a.side, r.bucket]
  simp only
  by_cases ht : c.kind = .index
  · rw [if_pos ht, if_pos ht]
    obtain ⟨m1, m2⟩ := markRemoved_ok (ht ▸ r.wf) env.epoch (ht ▸ hp)
    obtain ⟨T', r', k1, k2⟩ := key ((w.cur.bkt x.idx).markRemoved x.ptr env.epoch) x.ptr (ht ▸ m1)
      (ht ▸ m2) (by unfold takenOut; rw [if_pos ht, markRemoved_cells]; exact List.Perm.refl _)
      (markRemoved_remaining r.wf env.epoch hp)
    have hx : ({ x with ptr := x.ptr } : Cur) = x := rfl
    rw [a.side] at k1
    have hx' : ({ side := .cur, idx := x.idx, ptr := x.ptr } : Cur) = x := by rw [← a.side]
    rw [hx'] at k1
    rw [k1]
    exact ⟨T', r', rfl, k2⟩
  · rw [if_neg ht, if_neg ht]
    obtain ⟨b', p', m1, m2, m3⟩ := remove_ok r.wf hp
    rw [m1]
    simp only
    obtain ⟨T', r', k1, k2⟩ := key b' p' m2 m3
      (by unfold takenOut; rw [if_neg ht]; exact (remove_cells r.wf hp m1).symm)
      (remove_remaining r.wf hp m1)
    rw [a.side] at k1
    rw [k1]
    exact ⟨T', r', rfl, k2⟩

end

end Scc.Seq
