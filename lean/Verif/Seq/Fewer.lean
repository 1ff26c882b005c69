import Verif.Seq.Resize

/-!
# C49: when a removal does not make the table bigger
-/

set_option linter.unusedSectionVars false
set_option linter.unusedSimpArgs false
set_option linter.unusedVariables false

namespace Scc.Seq

open Scc.Index hiding bucketLen
open Scc.Bucket

variable {K V : Type}

section
variable {c : Cfg K}

theorem sum_lt_const {f : Nat → Nat} {b : Nat} (l : List Nat) (h : ∀ d ∈ l, f d ≤ b) : (l.map f).sum ≤ l.length * b := by
  induction l with
  | nil => exact Nat.zero_le _
  | cons x l ih =>
    simp only [List.map_cons, List.sum_cons, List.length_cons]
    have := h x (List.mem_cons_self ..)
    have := ih fun d hd => h d (List.mem_cons_of_mem _ hd)
    rw [Nat.add_mul]; omega

/-- If no bucket has 26 entries, the estimate is below thirteen sixteenths of the capacity. -/
theorem sample_lt {lg i : Nat} (h1 : 1 ≤ lg) (h2 : lg ≤ 57) (hi : i < 2 ^ lg) {len : Nat → Nat} (h : ∀ j, j < 2 ^ lg → len j ≤ 25) :
    sample lg i len < numSlots (2 ^ lg) / 16 * 13 := by
  obtain ⟨hb, _, hlen⟩ := c40_sample_indices h1 h2 hi
  obtain ⟨k, hk, hkl⟩ := sampleSize_pow h1 h2
  have s := sum_lt_const (f := len) _ (fun d hd => h d (hb d hd))
  unfold sample numSlots Index.bucketLen
  rw [hlen, hk] at s
  rw [hk]
  have he : 2 ^ k * 2 = 2 ^ (k + 1) := by rw [Nat.pow_succ]
  have hm : 2 * 2 ^ k * (2 ^ lg / (2 ^ k * 2)) = 2 ^ lg := by
    rw [Nat.mul_comm 2, he, Nat.pow_div hkl (by omega), ← Nat.pow_add]
    congr 1; omega
  have s2 : ((sampledIndices lg i).map len).sum * (2 ^ lg / (2 ^ k * 2)) ≤ 2 * 2 ^ k * 25 * (2 ^ lg / (2 ^ k * 2)) :=
    Nat.mul_le_mul_right _ s
  have e : 2 * 2 ^ k * 25 * (2 ^ lg / (2 ^ k * 2)) = 25 * (2 * 2 ^ k * (2 ^ lg / (2 ^ k * 2))) := by
    rw [Nat.mul_comm (2 * 2 ^ k) 25, Nat.mul_assoc]
  rw [e, hm] at s2
  have := Nat.two_pow_pos lg
  omega

/-- With at most eight buckets, the estimate is exact. -/
theorem sample_exact {lg i : Nat} (h1 : 1 ≤ lg) (h3 : lg ≤ 3) (hi : i < 2 ^ lg) (a : Arr K V) (hlg : a.lg = lg) :
    sample lg i a.lens = a.total := by
  unfold sample Arr.total
  rw [hlg]
  obtain rfl | rfl | rfl : lg = 1 ∨ lg = 2 ∨ lg = 3 := by omega
  · obtain rfl | rfl : i = 0 ∨ i = 1 := by simp at hi; omega
    · rw [show sampledIndices 1 0 = [0, 1] by decide, show List.range (2 ^ 1) = [0, 1] by decide, show 2 ^ 1 / (sampleSize 1 * 2) = 1 by decide]
      simp
    · rw [show sampledIndices 1 1 = [1, 0] by decide, show List.range (2 ^ 1) = [0, 1] by decide, show 2 ^ 1 / (sampleSize 1 * 2) = 1 by decide]
      simp; omega
  · have d : ∀ i, i < 4 → sampledIndices 2 i = if i < 2 then [0, 1, 2, 3] else [2, 3, 0, 1] := by decide
    rw [d i (by simpa using hi), show List.range (2 ^ 2) = [0, 1, 2, 3] by decide, show 2 ^ 2 / (sampleSize 2 * 2) = 1 by decide]
    split <;> (simp; try omega)
  · have d : ∀ i, i < 8 → sampledIndices 3 i =
        if i < 4 then [0, 1, 2, 3, 4, 5, 6, 7] else [4, 5, 6, 7, 0, 1, 2, 3] := by decide
    rw [d i (by simpa using hi), show List.range (2 ^ 3) = [0, 1, 2, 3, 4, 5, 6, 7] by decide, show 2 ^ 3 / (sampleSize 3 * 2) = 1 by decide]
    split <;> (simp; try omega)

theorem total_length {a : Arr K V} (w : ArrWf c a) : a.total = (a.entries c).length := by
  unfold Arr.total Arr.entries
  rw [List.length_flatMap]
  congr 1
  apply List.map_congr_left
  intro i _
  exact (w.wf i).len

theorem lens_count [DecidableEq K] {a : Arr K V} (w : ArrWf c a) {j : Nat} (hj : j < 2 ^ a.lg) :
    a.lens j ≤ (a.entries c).countP (fun e => bucketIndex a.lg (c.hash e.1) == j) := by
  have p := entries_at (c := c) hj
  rw [p.countP_eq, List.countP_append]
  have e : ((a.bkt j).entries c.kind).countP (fun e => bucketIndex a.lg (c.hash e.1) == j) = ((a.bkt j).entries c.kind).length := by
    rw [List.countP_eq_length]
    intro x hx
    simpa using w.placed j x hx
  rw [e, ← (w.wf j).len]
  exact Nat.le_add_right _ _

/-- Few enough: fewer than thirteen sixteenths of the capacity with at most eight buckets, or never 26 entries in one bucket. -/
def FewIn (a : Arr K V) : Prop := (a.lg ≤ 3 ∧ a.total < numSlots (2 ^ a.lg) / 16 * 13) ∨ ∀ j, j < 2 ^ a.lg → a.lens j ≤ 25

theorem tryShrink_le (q : PowMax c) {m : Nat} {T : Tbl K V} (l : Lims c m T) {w : Two K V} (hT : T.arr = some w) {i : Nat} (hi : i < 2 ^ w.cur.lg)
    (hf : w.old = none → FewIn w.cur) : (tryShrink c T i).capacity ≤ T.capacity := by
  obtain ⟨a, old⟩ := w
  obtain ⟨g1, g2⟩ := l.lg q hT
  have hcap := tbl_capacity hT
  simp only at g1 g2 hi hf hcap
  unfold tryShrink
  rw [hT]
  cases old with
  | some o => exact Nat.le_refl _
  | none =>
    simp only
    split
    · rename_i hs
      have he : sample a.lg i a.lens < numSlots (2 ^ a.lg) / 16 * 13 := by
        rcases hf rfl with ⟨h3, ht⟩ | h
        · rw [sample_exact g1 h3 hi a rfl]; exact ht
        · exact sample_lt g1 g2 hi h
      rcases tryResize_cap q l hT i with ⟨h0, _, _⟩ | h | h
      · rw [h0]; exact Nat.zero_le _
      · rw [h]; exact Nat.le_refl _
      · have hv := l.cap _ hT
        simp only at hv
        have hm := Nat.le_of_lt hs.1
        rw [h, hcap]
        exact newCapacity_le hv he hm
    · exact Nat.le_refl _

section
variable [DecidableEq K]

/-- The bucket of a hash value in a table of the given capacity. -/
def bucketOf (cap hash : Nat) : Nat := hash / (2 ^ 64 / (cap / 32))

theorem bucketOf_eq {lg x : Nat} (h : lg ≤ 57) : bucketOf (numSlots (2 ^ lg)) x = bucketIndex lg x := by
  unfold bucketOf numSlots Index.bucketLen bucketIndex
  rw [Nat.mul_div_cancel _ (by omega), Nat.pow_div (by omega) (by omega), Nat.shiftRight_eq_div_pow]

/-- C49 (removals), in full: "an operation that does not insert anything never makes the table bigger". This is false (`c49_remove_violated`). What
holds, after any history and for every hash function: the table does not become bigger if its capacity is at most 256 and less than thirteen
sixteenths of it are in use, or if no bucket is to hold 26 entries or more. -/
theorem c49_remove_partial (hc : c.Ok) (hmax : c.maxCap = 2 ^ 62) {n : Nat} {h : List (Op K V × Out K V)}
    {T T' : Tbl K V} (r : Runs c (Tbl.withCapacity n) h T) (env : Env) (k : K) (f : V → Act V) {out : Out K V} (e : Exec c env T (.alter k f) out T')
    (ha : (T.capacity ≤ 256 ∧ (T.entries c).length * 16 < T.capacity * 13) ∨
      ∀ b, (T.entries c).countP (fun e => bucketOf T.capacity (c.hash e.1) == b) ≤ 25) : T'.capacity ≤ T.capacity := by
  have q : PowMax c := ⟨62, by omega, by omega, hmax⟩
  have l0 := withCapacity_lims (c := c) (V := V) n hmax
  have l1 : Lims c 0 (Tbl.withCapacity n : Tbl K V) :=
    ⟨l0.min, l0.cap, Nat.zero_le _, fun _ => rfl, fun _ _ => Nat.zero_le _⟩
  have l2 := runs_lims q l1 r
  have ok := (runs_ok hc (withCapacity_ok n).1 r).1
  obtain ⟨o, h1, _⟩ := e
  unfold alterOp at h1
  cases hT : T.arr with
  | none =>
    rw [show optWriter c env.recent T (c.hash k) = some (T, none) by unfold optWriter; rw [hT]] at h1
    cases h1
    exact Nat.le_refl _
  | some w =>
    have g := l2.lg q hT
    have hi : bucketIndex w.cur.lg (c.hash k) < 2 ^ w.cur.lg := bucketIndex_lt (by omega) (hc k)
    obtain ⟨T1, w1, p1, p2, p3, p4, _, _⟩ := prepare_ok hc env.recent T ok hT hi
    rw [show optWriter c env.recent T (c.hash k) = some (T1, some (bucketIndex w.cur.lg (c.hash k))) by
      unfold optWriter; rw [hT]; simp only [p1, Option.map_some]] at h1
    simp only at h1
    have c1 := (prepare_cap p1).1
    have lm := prepare_lims l2 p1
    have w1ok := p4.ok.two w1 p2
    have hcap := tbl_capacity hT
    have few : w1.old = none → FewIn w1.cur := by
      intro ho
      have ee : T1.entries c = w1.cur.entries c := by
        unfold Tbl.entries Two.entries
        rw [p2]; simp only [ho, List.append_nil]
      have pe := p4.entries
      rw [ee] at pe
      unfold FewIn
      rw [p3]
      rcases ha with ⟨h256, hl⟩ | ha
      · left
        rw [hcap] at h256 hl
        refine ⟨?_, ?_⟩
        · unfold numSlots Index.bucketLen at h256
          rcases Nat.lt_or_ge 3 w.cur.lg with h4 | h4
          · have : 2 ^ 4 ≤ 2 ^ w.cur.lg := Nat.pow_le_pow_right (by omega) h4
            omega
          · exact h4
        · rw [total_length w1ok.cur.wf, pe.length_eq]
          unfold numSlots Index.bucketLen at hl ⊢
          omega
      · right
        intro j hj
        refine Nat.le_trans (lens_count w1ok.cur.wf (by rw [p3]; exact hj)) ?_
        rw [pe.countP_eq, p3]
        have := ha j
        rw [hcap] at this
        simpa only [bucketOf_eq g.2] using this
    generalize bucketIndex w.cur.lg (c.hash k) = i at *
    unfold applyAt at h1
    split at h1
    · cases h1
    · rename_i b hb
      split at h1
      · cases h1
      · rename_i b' r' hact
        simp only at h1
        split at h1
        · cases h1
          have hs : T1.setBucket .cur i b' = { T1 with arr := some { w1 with cur := w1.cur.set i b' } } := by
            unfold Tbl.setBucket; rw [p2]
          rw [← c1]
          unfold shrinkIfEmpty
          split
          · rename_i b2 hb2
            split
            · rename_i h0
              have hlen : b'.len = 0 := by
                have : b2 = b' := by
                  unfold Tbl.bucket at hb2
                  rw [hs] at hb2
                  simp only at hb2
                  split at hb2
                  · cases hb2
                  · cases hb2
                    rw [set_bkt, if_pos rfl]
                rw [← this]; exact h0.1
              have lm2 : Lims c 0 { T1.setBucket .cur i b' with gone := (T1.setBucket .cur i b').gone ++ b.actGone c.kind c.hash env k (Act.onSome f) } :=
                (setBucket_lims lm _ _ _).gone _
              have hle := tryShrink_le (i := i) q lm2 (w := { w1 with cur := w1.cur.set i b' }) (by simp only; rw [hs])
                (by show i < 2 ^ w1.cur.lg; rw [p3]; exact hi) (by
                  intro ho
                  have hls : ∀ j, (w1.cur.set i b').lens j ≤ w1.cur.lens j := by
                    intro j
                    unfold Arr.lens
                    rw [set_bkt]
                    split
                    · rw [hlen]; exact Nat.zero_le _
                    · exact Nat.le_refl _
                  rcases few ho with ⟨h3, ht⟩ | hf
                  · exact .inl ⟨h3, Nat.lt_of_le_of_lt (list_sum_le _ fun j _ => hls j) ht⟩
                  · exact .inr fun j hj => Nat.le_trans (hls j) (hf j hj))
              refine Nat.le_trans hle ?_
              exact Nat.le_of_eq (setBucket_cap T1 .cur i b')
            · exact Nat.le_of_eq (setBucket_cap T1 .cur i b')
          · exact Nat.le_of_eq (setBucket_cap T1 .cur i b')
        · cases h1
          rw [← c1]
          exact Nat.le_of_eq (setBucket_cap T1 .cur i b')

end
end

/-- Beside `c49_remove_partial`: its premises hold of a new table. -/
example : ∃ (h : List (Op Nat Nat × Out Nat Nat)) (T T' : Tbl Nat Nat) (out : Out Nat Nat),
    Runs turnCfg (Tbl.withCapacity 100) h T ∧ Exec turnCfg sampleEnv T (.alter 7 fun _ => .del) out T' ∧
      T.capacity ≤ 256 ∧ (T.entries turnCfg).length * 16 < T.capacity * 13 := by
  obtain ⟨out, T', h⟩ := exec_total turnCfg_ok sampleEnv (Tbl.withCapacity 100) (withCapacity_ok 100).1
    (.alter 7 fun _ => .del : Op Nat Nat) trivial
  exact ⟨[], _, T', out, .nil _, h, by decide +kernel, by decide +kernel⟩

end Scc.Seq
