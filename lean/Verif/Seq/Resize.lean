import Verif.Seq.Limits
import Verif.Seq.Props

/-!
# C49: which way an operation resizes the table
-/

set_option linter.unusedSectionVars false
set_option linter.unusedSimpArgs false
set_option linter.unusedVariables false

namespace Scc.Seq

open Scc.Index hiding bucketLen
open Scc.Bucket

variable {K V : Type}

section
variable {c : Cfg K}

theorem Lims.lg {m : Nat} {T : Tbl K V} (q : PowMax c) (l : Lims c m T) {w : Two K V}
    (hw : T.arr = some w) : 1 ≤ w.cur.lg ∧ w.cur.lg ≤ 57 := by
  obtain ⟨E, h6, hE, hmax⟩ := q
  obtain ⟨_, h1, h2⟩ := l.cap w hw
  rw [hmax] at h2
  have e : numSlots (2 ^ w.cur.lg) = 2 ^ (w.cur.lg + 5) := by
    unfold numSlots Index.bucketLen; rw [Nat.pow_add]
  rw [e] at h1 h2
  have a1 : 6 ≤ w.cur.lg + 5 :=
    (Nat.pow_le_pow_iff_right (a := 2) (by omega)).1 (by simpa using h1)
  have a2 := (Nat.pow_le_pow_iff_right (a := 2) (by omega)).1 h2
  omega

theorem doubleLoop_ge (est mx fuel n : Nat) : n ≤ doubleLoop est mx fuel n := by
  induction fuel generalizing n with
  | zero => exact Nat.le_refl _
  | succ fuel ih =>
    unfold doubleLoop
    split
    · split
      · exact Nat.le_refl _
      · exact Nat.le_trans (by omega) (ih (n * 2))
    · exact Nat.le_refl _

/-- Above an eighth of the capacity, the capacity chosen is not smaller. -/
theorem newCapacity_ge {cap mn mx est : Nat} (h : est > cap / 8) : cap ≤ newCapacity cap mn mx est := by
  unfold newCapacity
  split
  · split
    · exact Nat.le_refl _
    · exact Nat.le_trans (Nat.le_max_right _ _) (doubleLoop_ge _ _ _ _)
  · rw [if_neg (by omega)]
    exact Nat.le_refl _

/-- Below thirteen sixteenths of the capacity, with the minimum met, the capacity chosen is not bigger. -/
theorem newCapacity_le {cap mn mx est : Nat} (hv : ValidCapacity mx cap) (h : est < cap / 16 * 13) (hm : mn ≤ cap) :
    newCapacity cap mn mx est ≤ cap := by
  unfold newCapacity
  rw [if_neg (by omega)]
  split
  · obtain ⟨⟨k, hk⟩, h64, _⟩ := hv
    rw [hk]
    apply nextPow2_le
    have : minimumCapacity = 64 := rfl
    omega
  · exact Nat.le_refl _

theorem tryResize_cap (q : PowMax c) {m : Nat} {T : Tbl K V} (l : Lims c m T) {a : Arr K V} (hT : T.arr = some ⟨a, none⟩)
    (i : Nat) :
    (tryResize c T i).capacity = 0 ∧ sample a.lg i a.lens = 0 ∧ T.minCap = 0 ∨ tryResize c T i = T ∨
    (tryResize c T i).capacity = newCapacity (numSlots (2 ^ a.lg)) T.minCap c.maxCap (sample a.lg i a.lens) := by
  obtain ⟨E, h6, hE, hmax⟩ := q
  unfold tryResize
  rw [hT]
  simp only
  have hcap := l.cap _ hT
  simp only at hcap
  rw [hmax] at hcap
  have hmin := l.min
  rw [hmax] at hmin
  split
  · rename_i h0
    split
    · left; exact ⟨rfl, h0⟩
    · right; left; rfl
  · split
    · right; right
      rw [hmax]
      obtain ⟨v1, v2⟩ := c06_resize_valid (est := sample a.lg i a.lens) hE hcap hmin
      obtain ⟨n1, n2⟩ := numSlots_log2 _ h6 hE v1.2.2
      show numSlots (2 ^ log2ArrayLen _) = _
      exact n2 v1
    · right; left; rfl

theorem list_sum_le {f g : Nat → Nat} (l : List Nat) (h : ∀ d ∈ l, f d ≤ g d) : (l.map f).sum ≤ (l.map g).sum := by
  induction l with
  | nil => exact Nat.le_refl _
  | cons x l ih =>
    simp only [List.map_cons, List.sum_cons]
    have := h x (List.mem_cons_self ..)
    have := ih fun d hd => h d (List.mem_cons_of_mem _ hd)
    omega

/-- The window of `try_enlarge` and `try_shrink` from an aligned bucket is the first window of `sample`. -/
theorem sample_aligned {lg i : Nat} (h1 : 1 ≤ lg) (h2 : lg ≤ 57) (hi : i < 2 ^ lg)
    (ha : i % sampleSize lg = 0) (a : Arr K V) (hlg : a.lg = lg) :
    ∃ j, (∀ d, d < sampleSize lg → j + d < 2 ^ lg) ∧
      sample lg i a.lens = (sumLens a i (sampleSize lg) +
        ((List.range (sampleSize lg)).map fun d => a.lens (j + d)).sum) * (2 ^ lg / (sampleSize lg * 2)) ∧
      2 ^ lg / (sampleSize lg * 2) * (2 * sampleSize lg) = 2 ^ lg := by
  obtain ⟨k, hk, hkl⟩ := sampleSize_pow h1 h2
  have h64 : i < 2 ^ 64 := Nat.lt_of_lt_of_le hi (Nat.pow_le_pow_right (by omega) (by omega))
  have hm := and_not64 h64 (k := k) (by omega)
  rw [hk] at ha ⊢
  have hd : i / 2 ^ k * 2 ^ k = i := Nat.div_mul_cancel (Nat.dvd_of_mod_eq_zero ha)
  have hlgk : 2 ^ lg = 2 ^ (lg - k) * 2 ^ k := by rw [← Nat.pow_add]; congr 1; omega
  have hpos : 0 < 2 ^ k := Nat.two_pow_pos k
  have hle : 2 ^ k ≤ 2 ^ lg := Nat.pow_le_pow_right (by omega) (by omega)
  have hsum : i + 2 ^ k ≤ 2 ^ lg := by
    have hq : i / 2 ^ k < 2 ^ (lg - k) := by
      apply Nat.div_lt_of_lt_mul; rw [Nat.mul_comm, ← hlgk]; exact hi
    have : (i / 2 ^ k + 1) * 2 ^ k ≤ 2 ^ lg := by rw [hlgk]; exact Nat.mul_le_mul_right _ hq
    rw [Nat.add_mul, Nat.one_mul, hd] at this
    exact this
  refine ⟨if i = 0 then 2 ^ lg - 2 ^ k else 0, ?_, ?_, ?_⟩
  · intro d hd'
    by_cases h0 : i = 0
    · rw [if_pos h0]; omega
    · rw [if_neg h0]; omega
  · unfold sample sampledIndices sumLens
    simp only [hk, hm, hd, List.map_append, List.map_map, List.sum_append, Function.comp_def]
    congr 2
    apply congrArg List.sum
    apply List.map_congr_left
    intro d hd'
    rw [List.mem_range] at hd'
    rw [hlg, Nat.mod_eq_of_lt (by omega)]
  · have : 2 ^ k * 2 = 2 ^ (k + 1) := by rw [Nat.pow_succ]
    rw [Nat.mul_comm 2, this, Nat.pow_div hkl (by omega), ← Nat.pow_add]
    congr 1; omega

/-- With at most eight buckets, everything is sampled. -/
theorem sample_small {lg i : Nat} (h1 : 1 ≤ lg) (h3 : lg ≤ 3) (hi : i < 2 ^ lg) (a : Arr K V) (hlg : a.lg = lg) :
    sumLens a i (sampleSize lg) ≤ sample lg i a.lens := by
  have s1 : sampleSize 1 = 1 := by decide
  have s2 : sampleSize 2 = 2 := by decide
  have s3 : sampleSize 3 = 4 := by decide
  unfold sumLens sample
  rw [hlg]
  have r1 : List.range 1 = [0] := by decide
  have r2 : List.range 2 = [0, 1] := by decide
  have r4 : List.range 4 = [0, 1, 2, 3] := by decide
  obtain rfl | rfl | rfl : lg = 1 ∨ lg = 2 ∨ lg = 3 := by omega
  · obtain rfl | rfl : i = 0 ∨ i = 1 := by simp at hi; omega
    · rw [show sampledIndices 1 0 = [0, 1] by decide, s1, r1]
      simp
    · rw [show sampledIndices 1 1 = [1, 0] by decide, s1, r1]
      simp
  · have d : ∀ i, i < 4 → sampledIndices 2 i = if i < 2 then [0, 1, 2, 3] else [2, 3, 0, 1] := by decide
    rw [d i (by simpa using hi), s2, r2]
    obtain rfl | rfl | rfl | rfl : i = 0 ∨ i = 1 ∨ i = 2 ∨ i = 3 := by simp at hi; omega
    all_goals (simp <;> omega)
  · have d : ∀ i, i < 8 → sampledIndices 3 i =
        if i < 4 then [0, 1, 2, 3, 4, 5, 6, 7] else [4, 5, 6, 7, 0, 1, 2, 3] := by decide
    rw [d i (by simpa using hi), s3, r4]
    obtain rfl | rfl | rfl | rfl | rfl | rfl | rfl | rfl :
      i = 0 ∨ i = 1 ∨ i = 2 ∨ i = 3 ∨ i = 4 ∨ i = 5 ∨ i = 6 ∨ i = 7 := by simp at hi; omega
    all_goals (simp <;> omega)

/-- Where the sampled windows agree: the table has at most eight buckets, or the bucket number is a
multiple of the sample size. -/
def Aligned (lg i : Nat) : Prop := lg ≤ 3 ∨ i % sampleSize lg = 0

theorem tryEnlarge_grows (q : PowMax c) {m : Nat} {T : Tbl K V} (l : Lims c m T) {w : Two K V} (hT : T.arr = some w) {i : Nat}
    (hi : i < 2 ^ w.cur.lg) (ha : Aligned w.cur.lg i ∨ T.capacity ≤ T.minCap) :
    T.capacity ≤ (tryEnlarge c T i).capacity ∧ ∃ w', (tryEnlarge c T i).arr = some w' := by
  have main : T.capacity ≤ (tryEnlarge c T i).capacity := by
    obtain ⟨a, old⟩ := w
    obtain ⟨g1, g2⟩ := l.lg q hT
    simp only at g1 g2 hi ha
    have hcap := tbl_capacity hT
    simp only at hcap
    unfold tryEnlarge
    rw [hT]
    cases old with
    | some o => exact Nat.le_refl _
    | none =>
      simp only
      split
      · rename_i hs
        have hs' : sumLens a i (sampleSize a.lg) > sampleSize a.lg * 2 * 13 := hs
        have hpos : 0 < T.capacity := by
          rw [hcap]; unfold numSlots Index.bucketLen
          have := Nat.two_pow_pos a.lg; omega
        rcases ha with ha | ha
        · have hest : sample a.lg i a.lens > T.capacity / 8 := by
            rw [hcap]
            unfold numSlots Index.bucketLen
            rcases ha with h3 | ha
            · have := sample_small g1 h3 hi a rfl
              have e1 : a.lg = 1 ∨ a.lg = 2 ∨ a.lg = 3 := by omega
              have s1 : sampleSize 1 = 1 := by decide
              have s2 : sampleSize 2 = 2 := by decide
              have s3 : sampleSize 3 = 4 := by decide
              rcases e1 with e1 | e1 | e1
              · rw [e1, s1] at hs'; rw [e1] at this ⊢; rw [s1] at this; omega
              · rw [e1, s2] at hs'; rw [e1] at this ⊢; rw [s2] at this; omega
              · rw [e1, s3] at hs'; rw [e1] at this ⊢; rw [s3] at this; omega
            · obtain ⟨j, _, x1, x2⟩ := sample_aligned g1 g2 hi ha a rfl
              rw [x1]
              generalize hM : 2 ^ a.lg / (sampleSize a.lg * 2) = M at *
              have hM0 : 0 < M := by
                rcases Nat.eq_zero_or_pos M with h | h
                · rw [h] at x2
                  have := Nat.two_pow_pos a.lg
                  omega
                · exact h
              have y1 : sumLens a i (sampleSize a.lg) * M ≤ (sumLens a i (sampleSize a.lg) +
                  ((List.range (sampleSize a.lg)).map fun d => a.lens (j + d)).sum) * M :=
                Nat.mul_le_mul_right _ (Nat.le_add_right _ _)
              have y2 : (sampleSize a.lg * 2 * 13) * M < sumLens a i (sampleSize a.lg) * M :=
                Nat.mul_lt_mul_of_pos_right hs' hM0
              have y3 : (sampleSize a.lg * 2 * 13) * M = 13 * 2 ^ a.lg := by
                rw [← x2, Nat.mul_comm (sampleSize a.lg * 2) 13, Nat.mul_assoc, Nat.mul_comm M,
                  Nat.mul_comm 2]
              omega
          rcases tryResize_cap q l hT i with ⟨_, h0, _⟩ | h | h
          · omega
          · rw [h]; exact Nat.le_refl _
          · rw [h, ← hcap]; exact newCapacity_ge hest
        · rcases tryResize_cap q l hT i with ⟨_, _, h0⟩ | h | h
          · omega
          · rw [h]; exact Nat.le_refl _
          · rw [h]
            obtain ⟨E, h6, hE, hmax⟩ := q
            have hcp := l.cap _ hT
            have hmin := l.min
            rw [hmax] at hcp hmin ⊢
            exact Nat.le_trans ha (c06_resize_valid hE hcp hmin).2
      · exact Nat.le_refl _
  refine ⟨main, ?_⟩
  cases hA : (tryEnlarge c T i).arr with
  | some w' => exact ⟨w', rfl⟩
  | none =>
    rw [capacity_none hA] at main
    have := capacity_pos hT
    omega

section
variable [DecidableEq K]

theorem prepare_cap {recent : Nat → Bool} {T T' : Tbl K V} {i : Nat} (h : prepare c recent T i = some T') :
    T'.capacity = T.capacity ∧ T'.minCap = T.minCap ∧
      ∀ w, T.arr = some w → ∃ w', T'.arr = some w' ∧ w'.cur.lg = w.cur.lg := by
  unfold prepare at h
  split at h
  · rename_i hn
    cases h
    exact ⟨rfl, rfl, fun w hw => by rw [hn] at hw; cases hw⟩
  · rename_i w hw
    split at h
    · cases h
    · rename_i w1 g1 h1
      obtain ⟨z, h2, h3⟩ := Option.map_eq_some_iff.1 h
      cases h3
      have e : z.1.cur.lg = w.cur.lg := (dedup_lg h2).trans (incrementalRehash_lg h1)
      refine ⟨?_, rfl, ?_⟩
      · rw [tbl_capacity hw, ← e]; rfl
      · intro w' hw'
        rw [hw] at hw'; cases hw'
        exact ⟨z.1, rfl, e⟩

/-- The bucket number of a hash value in a table of the given capacity, with the number of buckets. -/
def AlignedAt (cap hash : Nat) : Prop :=
  cap ≤ 256 ∨ hash / (2 ^ 64 / (cap / 32)) % sampleSize (Nat.log2 (cap / 32)) = 0

theorem alignedAt_iff {lg x : Nat} (h : lg ≤ 57) (ha : AlignedAt (numSlots (2 ^ lg)) x) :
    Aligned lg (bucketIndex lg x) := by
  unfold AlignedAt at ha
  have e : numSlots (2 ^ lg) / 32 = 2 ^ lg := by
    unfold numSlots Index.bucketLen; exact Nat.mul_div_cancel _ (by omega)
  rw [e, Nat.log2_two_pow] at ha
  rcases ha with ha | ha
  · left
    have : (2 : Nat) ^ lg ≤ 2 ^ 3 := by unfold numSlots Index.bucketLen at ha; omega
    exact (Nat.pow_le_pow_iff_right (by omega)).1 this
  · right
    rw [bucketIndex_eq, ← Nat.pow_div (by omega) (by omega)]
    exact ha

theorem writer_grows (q : PowMax c) (hc : c.Ok) {m : Nat} {recent : Nat → Bool} {T : Tbl K V} {h : Nat} (hh : h < 2 ^ 64) (l : Lims c m T)
    (ha : T.capacity ≤ T.minCap ∨ AlignedAt T.capacity h) {r : Tbl K V × Side × Nat}
    (e : writer c recent T h = some r) : T.capacity ≤ r.1.capacity := by
  by_cases h0 : T.capacity = 0
  · rw [h0]; exact Nat.zero_le _
  have round : ∀ {r : Tbl K V × Option (Side × Nat)}, writerRound c recent T h = some r →
      T.capacity ≤ r.1.capacity ∧ r.2 ≠ none := by
    intro r e
    have l0 := create_lims q l
    have c0 : T.capacity ≤ (create T).capacity ∧ (create T).minCap = T.minCap ∧
        (T.capacity ≠ 0 → create T = T) := by
      cases hT : T.arr with
      | none => rw [capacity_none hT]; exact ⟨Nat.zero_le _, by unfold create; rw [hT], fun h => absurd rfl h⟩
      | some w =>
        have : create T = T := by unfold create; rw [hT]
        rw [this]; exact ⟨Nat.le_refl _, rfl, fun _ => rfl⟩
    obtain ⟨c1, c2, c3⟩ := c0
    unfold writerRound at e
    split at e
    · cases e
    · rename_i w0 hw0
      simp only at e
      split at e
      · cases e
      · rename_i T1 h1
        have l1 := prepare_lims l0 h1
        obtain ⟨p1, p2, p3⟩ := prepare_cap h1
        obtain ⟨w1, hw1, hlg⟩ := p3 w0 hw0
        have g := l1.lg q hw1
        have hi : bucketIndex w0.cur.lg h < 2 ^ w1.cur.lg := by
          rw [hlg]; exact bucketIndex_lt (by omega) hh
        split at e
        · cases e
        · rename_i w hw
          rw [hw1] at hw; cases hw
          split at e
          · have hal : Aligned w1.cur.lg (bucketIndex w0.cur.lg h) ∨ T1.capacity ≤ T1.minCap := by
              rw [c3 h0] at p1 p2 hw0
              rcases ha with ha | ha
              · right; omega
              · left
                rw [tbl_capacity hw0, ← hlg] at ha
                rw [← hlg]
                exact alignedAt_iff g.2 ha
            obtain ⟨x1, w2, x2⟩ := tryEnlarge_grows q l1 hw1 hi hal
            split at e
            · rename_i hn; rw [x2] at hn; cases hn
            · split at e
              · cases e; exact ⟨by simp only; omega, by simp⟩
              · cases e; exact ⟨by simp only; omega, by simp⟩
          · cases e; exact ⟨by simp only; omega, by simp⟩
  unfold writer at e
  split at e
  · cases e
  · rename_i T1 s i h1; cases e; exact (round h1).1
  · rename_i T1 h1; exact absurd rfl (round h1).2

theorem applyAt_cap {env : Env} {T : Tbl K V} {s : Side} {i : Nat} {k : K} {f : Option V → Act V}
    {r : Tbl K V × Option V} (hd : ∀ o, f o ≠ .del) (e : applyAt c env T s i k f = some r) :
    r.1.capacity = T.capacity := by
  unfold applyAt at e
  split at e
  · cases e
  · split at e
    · cases e
    · rename_i b b' r' _
      simp only at e
      have : Act.removes f r' = false := by
        unfold Act.removes
        split
        · rename_i h _; exact absurd (by assumption) (hd _)
        · rfl
      rw [if_neg (by rw [this]; simp)] at e
      cases e
      show (T.setBucket s i b').capacity = T.capacity
      exact setBucket_cap T s i b'

/-! ## C49 -/

/-- C49 (insertions), in full: "an operation that does not remove anything never makes the table smaller".
This is false (`c49_insert_violated`). What holds, after any history and for every hash function: the table
does not become smaller if its capacity is at most 256, or at most the minimum capacity in force, or if
the bucket of the key is at a multiple of the sample size. -/
theorem c49_insert_partial (hc : c.Ok) (hmax : c.maxCap = 2 ^ 62) {n : Nat} {h : List (Op K V × Out K V)}
    {T T' : Tbl K V} (r : Runs c (Tbl.withCapacity n) h T) (env : Env) (k : K) (f : Option V → Act V)
    (hd : ∀ o, f o ≠ .del) {out : Out K V} (e : Exec c env T (.modify k f) out T')
    (ha : T.capacity ≤ T.minCap ∨ AlignedAt T.capacity (c.hash k)) : T.capacity ≤ T'.capacity := by
  have q : PowMax c := ⟨62, by omega, by omega, hmax⟩
  have l0 := withCapacity_lims (c := c) (V := V) n hmax
  have l1 : Lims c 0 (Tbl.withCapacity n : Tbl K V) :=
    ⟨l0.min, l0.cap, Nat.zero_le _, fun _ => rfl, fun _ _ => Nat.zero_le _⟩
  have l2 := runs_lims q l1 r
  obtain ⟨o, h1, _⟩ := e
  unfold modifyOp at h1
  split at h1
  · cases h1
  · rename_i T1 s i h2
    have := writer_grows q hc (hc k) l2 ha h2
    have h3 := applyAt_cap hd h1
    simp only at h3 this
    omega

end
end

/-- Sixteen buckets; sampling is started only by key 1000. -/
def turnHash (k : Nat) : Nat := if k = 1000 then 3 * 2 ^ 60 else k % 16 * 2 ^ 60 + (k / 16 % 100 * 4 + 1)

def turnCfg : Cfg Nat := ⟨.map, turnHash, 2 ^ 62⟩

theorem turnCfg_ok : turnCfg.Ok := by
  intro k
  show turnHash k < 2 ^ 64
  unfold turnHash
  split <;> omega

/-- The operations of the samples: reserve, insert the keys, return the reservation. -/
def turnOps (ks : List Nat) : List (Op Nat Nat) :=
  [.reserve 512] ++ ks.map (fun k => .modify k (insertAct k)) ++ [.unreserve 512]

/-- Runs them. -/
def turnTable (ks : List Nat) : Option (Tbl Nat Nat) :=
  (ks.foldl (fun T k => T.bind fun T => (modifyOp turnCfg sampleEnv T k (insertAct k)).map (·.1))
    (some (reserveOp turnCfg (Tbl.withCapacity 0) 512).1)).map fun T => unreserveOp turnCfg T 512

/-- The tables of the samples are reached by histories. -/
theorem turnTable_runs (ks : List Nat) {T : Tbl Nat Nat} (h : turnTable ks = some T) :
    ∃ h : List (Op Nat Nat × Out Nat Nat), h.map (·.1) = turnOps ks ∧
      Runs turnCfg (Tbl.withCapacity 0) h T := by
  have ins : ∀ (ks : List Nat) (S U : Tbl Nat Nat),
      ks.foldl (fun T k => T.bind fun T => (modifyOp turnCfg sampleEnv T k (insertAct k)).map (·.1))
        (some S) = some U →
      ∀ (tail : List (Op Nat Nat × Out Nat Nat)) (W : Tbl Nat Nat), Runs turnCfg U tail W →
      ∃ h : List (Op Nat Nat × Out Nat Nat),
        h.map (·.1) = ks.map (fun k => Op.modify k (insertAct k)) ++ tail.map (·.1) ∧ Runs turnCfg S h W := by
    intro ks
    induction ks with
    | nil => intro S U h tail W r; cases h; exact ⟨tail, rfl, r⟩
    | cons k ks ih =>
      intro S U h tail W r
      rw [List.foldl_cons] at h
      cases hm : modifyOp turnCfg sampleEnv S k (insertAct k) with
      | none =>
        exfalso
        simp only [Option.bind_some, hm, Option.map_none] at h
        have none_fold : ∀ (ks : List Nat), ks.foldl (fun T k => T.bind fun T =>
            (modifyOp turnCfg sampleEnv T k (insertAct k)).map (·.1)) (none : Option (Tbl Nat Nat)) = none := by
          intro ks; induction ks with
          | nil => rfl
          | cons _ _ ih => rw [List.foldl_cons]; exact ih
        rw [none_fold] at h; cases h
      | some p =>
        simp only [Option.bind_some, hm, Option.map_some] at h
        obtain ⟨h', x1, x2⟩ := ih p.1 U h tail W r
        exact ⟨(.modify k (insertAct k), .value p.2) :: h', by simp [x1],
          .cons sampleEnv trivial ⟨p.2, hm, rfl⟩ x2⟩
  unfold turnTable at h
  obtain ⟨U, h1, h2⟩ := Option.map_eq_some_iff.1 h
  obtain ⟨h', x1, x2⟩ := ins ks _ U h1 [(.unreserve 512, .unit)] T
    (.cons sampleEnv trivial ⟨h2, rfl⟩ (.nil T))
  exact ⟨(.reserve 512, .unit) :: h', by simp [turnOps, x1], .cons sampleEnv trivial ⟨rfl, rfl⟩ x2⟩

/-- 31 keys of bucket 3 and 25 of each of the buckets 4, 5 and 6. -/
def turnKeys : List Nat :=
  (List.range 31).map (fun j => 16 * j + 3) ++
    (List.range 25).flatMap fun j => [16 * j + 4, 16 * j + 5, 16 * j + 6]

set_option maxRecDepth 100000 in
/-- C49, violated by insertions: a `HashMap` of capacity 512 holds 106 entries; inserting one more makes it
shrink to capacity 128. `try_enlarge` finds the buckets 3 to 6 crowded; `try_resize` then samples the
buckets 0 to 3 and 12 to 15, of which only bucket 3 holds anything. -/
theorem c49_insert_violated :
    ((turnTable turnKeys).bind fun T =>
      (modifyOp turnCfg sampleEnv T 1000 (insertAct 1)).map fun r =>
        (T.capacity, r.1.capacity, (r.1.entries turnCfg).length)) = some (512, 128, 107) := by
  decide +kernel

set_option maxRecDepth 100000 in
/-- C49, violated by removals: a `HashMap` of capacity 512 holds 211 entries; removing one makes it grow to
capacity 1024. `try_shrink` finds the buckets 3 to 6 empty; `try_resize` then samples the buckets 0 to 3
and 12 to 15, and the buckets 0, 1 and 2 hold 70 entries each. -/
theorem c49_remove_violated :
    ((turnTable ((List.range 70).flatMap (fun j => [16 * j, 16 * j + 1, 16 * j + 2]) ++ [3])).bind fun T =>
      (alterOp turnCfg sampleEnv T 3 fun _ => .del).map fun r =>
        (T.capacity, r.1.capacity, (r.1.entries turnCfg).length)) = some (512, 1024, 210) := by
  decide +kernel

/-- Beside `c49_insert_partial`: its premises hold of a new table. -/
example : ∃ (h : List (Op Nat Nat × Out Nat Nat)) (T T' : Tbl Nat Nat) (out : Out Nat Nat),
    Runs turnCfg (Tbl.withCapacity 100) h T ∧ Exec turnCfg sampleEnv T (.modify 7 (insertAct 1)) out T' ∧
      AlignedAt T.capacity (turnHash 7) := by
  obtain ⟨out, T', h⟩ := exec_total turnCfg_ok sampleEnv (Tbl.withCapacity 100) (withCapacity_ok 100).1
    (.modify 7 (insertAct 1) : Op Nat Nat) trivial
  exact ⟨[], _, T', out, .nil _, h, Or.inl (by decide +kernel)⟩

end Scc.Seq
