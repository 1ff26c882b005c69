import Verif.Seq.CacheFull
import Verif.Seq.Fewer

/-!
# C49 for `HashCache`: removing an entry does not make the cache bigger
-/

set_option linter.unusedSectionVars false
set_option linter.unusedSimpArgs false
set_option linter.unusedVariables false

namespace Scc.Seq

open Scc.Index hiding bucketLen
open Scc.Bucket

variable {K V : Type}

section
variable [DecidableEq K]

/-- C49 (removals) for `HashCache`, in full: "a call that does not insert anything never makes the cache bigger". What is shown, after any history, for every hash
function, and for `get` (`touch`), `remove`, `remove_if` and what is done with an entry that was got: the cache does not become bigger if it is at its maximum capacity,
or if its capacity is at most 256 and less than thirteen sixteenths of it are in use, or if no bucket is to hold 26 entries or more.

Missing: other caches, where the two samples may disagree as in `c49_remove_violated`. -/
theorem c49_cache_remove_partial {hash : K → Nat} (hh : ∀ k, hash k < 2 ^ 64) {minCap maxCap : Nat} {h : List (CacheOp K V × CacheOut K V)} {T T' : Tbl K V}
    (r : CacheRuns (cacheCfg hash minCap maxCap) (Tbl.withCapacity minCap) h T) (env : Env) (k : K) (f : V → Act V) {out : CacheOut K V}
    (e : CacheExec (cacheCfg hash minCap maxCap) env T (.get k f) out T' ∨ CacheExec (cacheCfg hash minCap maxCap) env T (.alter k f) out T')
    (ha : T.capacity = (cacheWithCapacity minCap maxCap).2.2 ∨
      (T.capacity ≤ 256 ∧ (T.entries (cacheCfg hash minCap maxCap)).length * 16 < T.capacity * 13) ∨
      ∀ b, (T.entries (cacheCfg hash minCap maxCap)).countP (fun e => bucketOf T.capacity (hash e.1) == b) ≤ 25) : T'.capacity ≤ T.capacity := by
  have q := (cacheLim_of hh minCap maxCap).pow
  have hc : (cacheCfg hash minCap maxCap).Ok := cacheCfg_ok hh minCap maxCap
  have l2 := cacheRuns_new_lims hh r
  have ok := (cacheRuns_ok rfl hc (withCapacity_ok minCap).1 (withCapacity_allLru minCap) r).1
  have l3 : Lims (cacheCfg hash minCap maxCap) 0 T' := by
    rcases e with e | e
    · exact cacheExec_lims q l2 e
    · exact cacheExec_lims q l2 e
  rcases ha with ha | ha
  · cases hT : T'.arr with
    | none => rw [capacity_none hT]; exact Nat.zero_le _
    | some w =>
      have := (l3.cap w hT).2.2
      rw [tbl_capacity hT, ha]
      exact this
  have e : ∃ touch o, cacheAlterOp (cacheCfg hash minCap maxCap) env T k touch f = some (T', o) := by
    rcases e with ⟨o, h1, _⟩ | ⟨o, h1, _⟩
    · exact ⟨_, _, h1⟩
    · exact ⟨_, _, h1⟩
  obtain ⟨touch, o, h1⟩ := e
  have hash_eq : (cacheCfg hash minCap maxCap).hash = hash := rfl
  generalize cacheCfg hash minCap maxCap = c at *
  subst hash_eq
  unfold cacheAlterOp at h1
  cases hT : T.arr with
  | none =>
    rw [show optWriter c env.recent T (c.hash k) = some (T, none) by unfold optWriter; rw [hT]] at h1
    cases h1
    exact Nat.le_refl _
  | some w =>
    have g := l2.lg q hT
    have hi : bucketIndex w.cur.lg (c.hash k) < 2 ^ w.cur.lg := bucketIndex_lt (by omega) (hc k)
    obtain ⟨T1, w1, p1, p2, p3, p4, _, _⟩ := prepare_ok hc env.recent T ok hT hi
    rw [show optWriter c env.recent T (c.hash k) = some (T1, some (bucketIndex w.cur.lg (c.hash k))) by
      unfold optWriter; rw [hT]; simp only [p1, Option.map_some]] at h1
    simp only at h1
    have c1 := (prepare_cap p1).1
    have lm := prepare_lims l2 p1
    have w1ok := p4.ok.two w1 p2
    have hcap := tbl_capacity hT
    have few : w1.old = none → FewIn w1.cur := by
      intro ho
      have ee : T1.entries c = w1.cur.entries c := by
        unfold Tbl.entries Two.entries
        rw [p2]; simp only [ho, List.append_nil]
      have pe := p4.entries
      rw [ee] at pe
      unfold FewIn
      rw [p3]
      rcases ha with ⟨h256, hl⟩ | ha
      · left
        rw [hcap] at h256 hl
        refine ⟨?_, ?_⟩
        · unfold numSlots Index.bucketLen at h256
          rcases Nat.lt_or_ge 3 w.cur.lg with h4 | h4
          · have : 2 ^ 4 ≤ 2 ^ w.cur.lg := Nat.pow_le_pow_right (by omega) h4
            omega
          · exact h4
        · rw [total_length w1ok.cur.wf, pe.length_eq]
          unfold numSlots Index.bucketLen at hl ⊢
          omega
      · right
        intro j hj
        refine Nat.le_trans (lens_count w1ok.cur.wf (by rw [p3]; exact hj)) ?_
        rw [pe.countP_eq, p3]
        have := ha j
        rw [hcap] at this
        simpa only [bucketOf_eq g.2] using this
    generalize bucketIndex w.cur.lg (c.hash k) = i at *
    obtain ⟨⟨T2, o2, ev⟩, h1, h2⟩ := Option.map_eq_some_iff.1 h1
    cases h2
    unfold cacheAt at h1
    split at h1
    · cases h1
    · rename_i b hb
      split at h1
      · cases h1
      · rename_i b' o' ev' hact
        simp only at h1
        rw [← c1]
        split at h1
        · cases h1
          have hs : T1.setBucket .cur i b' = { T1 with arr := some { w1 with cur := w1.cur.set i b' } } := by
            unfold Tbl.setBucket; rw [p2]
          show (shrinkIfEmpty c (T1.setBucket .cur i b') .cur i).capacity ≤ T1.capacity
          unfold shrinkIfEmpty
          split
          · rename_i b2 hb2
            split
            · rename_i h0
              have hlen : b'.len = 0 := by
                have : b2 = b' := by
                  unfold Tbl.bucket at hb2
                  rw [hs] at hb2
                  simp only at hb2
                  split at hb2
                  · cases hb2
                  · cases hb2
                    rw [set_bkt, if_pos rfl]
                rw [← this]; exact h0.1
              have hle := tryShrink_le (i := i) q (setBucket_lims lm .cur i b') (w := { w1 with cur := w1.cur.set i b' }) (by rw [hs])
                (by show i < 2 ^ w1.cur.lg; rw [p3]; exact hi) (by
                  intro ho
                  have hls : ∀ j, (w1.cur.set i b').lens j ≤ w1.cur.lens j := by
                    intro j
                    unfold Arr.lens
                    rw [set_bkt]
                    split
                    · rw [hlen]; exact Nat.zero_le _
                    · exact Nat.le_refl _
                  rcases few ho with ⟨h3, ht⟩ | hf
                  · exact .inl ⟨h3, Nat.lt_of_le_of_lt (list_sum_le _ fun j _ => hls j) ht⟩
                  · exact .inr fun j hj => Nat.le_trans (hls j) (hf j hj))
              exact Nat.le_trans hle (Nat.le_of_eq (setBucket_cap T1 .cur i b'))
            · exact Nat.le_of_eq (setBucket_cap T1 .cur i b')
          · exact Nat.le_of_eq (setBucket_cap T1 .cur i b')
        · cases h1
          exact Nat.le_of_eq (setBucket_cap T1 .cur i b')

end

/-- Beside `c49_cache_remove_partial`: its premises hold of a new cache. -/
example : ∃ (h : List (CacheOp Nat Nat × CacheOut Nat Nat)) (T T' : Tbl Nat Nat) (out : CacheOut Nat Nat),
    CacheRuns (cacheCfg halfHash 10 20) (Tbl.withCapacity 10) h T ∧ CacheExec (cacheCfg halfHash 10 20) sampleEnv T (.alter 7 fun _ => .del) out T' ∧
      T.capacity = (cacheWithCapacity 10 20).2.2 := by
  obtain ⟨out, T', h⟩ := cacheExec_total rfl (cacheCfg_ok halfHash_lt 10 20) sampleEnv (Tbl.withCapacity 10) (withCapacity_ok 10).1
    (withCapacity_allLru 10) (.alter 7 fun _ => .del : CacheOp Nat Nat)
  exact ⟨[], _, T', out, .nil _, h, by decide +kernel⟩

end Scc.Seq
