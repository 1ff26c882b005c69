import Verif.Seq.Resize
import Verif.Seq.CacheSmall

/-!
# C49 for `HashCache`: storing an entry does not make the cache smaller

A cache at its maximum capacity is not resized by `put`, `replace` and the entry API at all.
-/

set_option linter.unusedSectionVars false
set_option linter.unusedSimpArgs false
set_option linter.unusedVariables false

namespace Scc.Seq

open Scc.Index hiding bucketLen
open Scc.Bucket

variable {K V : Type}

section
variable [DecidableEq K] {c : Cfg K}

/-- A cache at its maximum capacity is not resized to make room. -/
theorem writer_full (hk : c.kind = .cache) {recent : Nat → Bool} {T : Tbl K V} {h : Nat} (h0 : T.capacity ≠ 0) (hm : c.maxCap ≤ T.capacity)
    {r : Tbl K V × Side × Nat} (e : writer c recent T h = some r) : r.1.capacity = T.capacity := by
  have round : ∀ {r : Tbl K V × Option (Side × Nat)}, writerRound c recent T h = some r → r.1.capacity = T.capacity ∧ r.2 ≠ none := by
    intro r e
    have hc : create T = T := by
      cases hT : T.arr with
      | none => exact absurd (capacity_none hT) h0
      | some w => unfold create; rw [hT]
    unfold writerRound at e
    rw [hc] at e
    split at e
    · cases e
    · rename_i w0 hw0
      simp only at e
      split at e
      · cases e
      · rename_i T1 h1
        obtain ⟨p1, p2, p3⟩ := prepare_cap h1
        split at e
        · cases e
        · rename_i w hw
          have hf : ¬ ((c.kind ≠ .cache ∨ numSlots (2 ^ w.cur.lg) < c.maxCap) ∧ w.cur.lens (bucketIndex w0.cur.lg h) ≥ bucketLen - 1 ∧
              initiateSampling w.cur.lg h = true) := by
            rintro ⟨h2 | h2, -⟩
            · exact h2 hk
            · rw [← tbl_capacity hw, p1] at h2
              omega
          rw [if_neg hf] at e
          cases e
          exact ⟨p1, by simp⟩
  unfold writer at e
  split at e
  · cases e
  · rename_i T1 s i h1; cases e; exact (round h1).1
  · rename_i T1 h1; exact absurd rfl (round h1).2

theorem cacheAt_cap {env : Env} {T : Tbl K V} {s : Side} {i : Nat} {k : K} {touch : Bool} {f : Option V → Act V}
    {r : Tbl K V × Option V × Option (K × V)} (hd : ∀ o, f o ≠ .del) (e : cacheAt c env T s i k touch f = some r) : r.1.capacity = T.capacity := by
  unfold cacheAt at e
  split at e
  · cases e
  · split at e
    · cases e
    · rename_i b b' o ev _
      simp only at e
      have : Act.removes f o = false := by
        unfold Act.removes
        split
        · rename_i h _; exact absurd (by assumption) (hd _)
        · rfl
      rw [if_neg (by rw [this]; simp)] at e
      cases e
      show (T.setBucket s i b').capacity = T.capacity
      exact setBucket_cap T s i b'

/-- The limits hold after any history. -/
theorem cacheRuns_new_lims {hash : K → Nat} (hc : ∀ k, hash k < 2 ^ 64) {minCap maxCap : Nat} {h : List (CacheOp K V × CacheOut K V)} {T : Tbl K V}
    (r : CacheRuns (cacheCfg hash minCap maxCap) (Tbl.withCapacity minCap) h T) : Lims (cacheCfg hash minCap maxCap) 0 T := by
  have q := (cacheLim_of hc minCap maxCap).pow
  have G := grown_new (V := V) hc minCap maxCap
  exact cacheRuns_lims q ⟨G.lim.min, G.lim.cap, Nat.zero_le _, fun _ => rfl, fun _ _ => Nat.zero_le _⟩ r

/-- C49 (insertions) for `HashCache`, in full: "a call that stores an entry and removes none but by eviction never makes the cache smaller". What is shown, after any
history and for every hash function: the cache does not become smaller if it is at its maximum capacity, or its capacity is at most 256, or at most the minimum capacity,
or if the bucket of the key is at a multiple of the sample size. At the maximum capacity it stays as it is.

Missing: larger caches below their maximum capacity, where the two samples may disagree as in `c49_insert_violated`. -/
theorem c49_cache_partial {hash : K → Nat} (hc : ∀ k, hash k < 2 ^ 64) {minCap maxCap : Nat} {h : List (CacheOp K V × CacheOut K V)} {T T' : Tbl K V}
    (r : CacheRuns (cacheCfg hash minCap maxCap) (Tbl.withCapacity minCap) h T) (env : Env) (k : K) (f : Option V → Act V)
    (hd : ∀ o, f o ≠ .del) {out : CacheOut K V} (e : CacheExec (cacheCfg hash minCap maxCap) env T (.entry k f) out T') :
    (T.capacity = (cacheWithCapacity minCap maxCap).2.2 → T'.capacity = T.capacity) ∧
    (T.capacity ≤ T.minCap ∨ AlignedAt T.capacity (hash k) → T.capacity ≤ T'.capacity) := by
  have q := cacheLim_of hc minCap maxCap
  have l := cacheRuns_new_lims hc r
  obtain ⟨o, ev, h1, _⟩ := e
  unfold cacheEntryOp at h1
  split at h1
  · cases h1
  · rename_i T1 s i h2
    have h3 := cacheAt_cap hd h1
    simp only at h3
    refine ⟨fun hm => ?_, fun ha => ?_⟩
    · obtain ⟨E, e1, e2, e3⟩ := q.pow
      have e3 : (cacheWithCapacity minCap maxCap).2.2 = 2 ^ E := e3
      have := Nat.two_pow_pos E
      have h4 := writer_full rfl (by omega) (by rw [hm]; exact Nat.le_refl _) h2
      rw [h3]; exact h4
    · have := writer_grows q.pow q.ok (hc k) l ha h2
      simp only at this
      omega

end

set_option maxRecDepth 100000 in
/-- A cache at its maximum capacity, 64, in which the last store evicts: all premises of `c49_cache_partial` are met, with both conditions. -/
example : ((putObs (cacheCfg halfHash 10 20) sampleEnv (Tbl.withCapacity 10) firstKeys).bind fun r =>
      (cacheEntryOp (cacheCfg halfHash 10 20) sampleEnv r.1 32 (insertAct 32)).map fun t => (r.1.capacity, t.1.capacity, t.2)) =
      some (64, 64, none, some (0, 0)) := by
  decide +kernel

end Scc.Seq
