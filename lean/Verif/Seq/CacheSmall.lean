import Verif.Seq.Limits
import Verif.Seq.CacheLru

/-!
# C25, C26, C38: the smallest caches, and the size of a cache read back
-/

set_option linter.unusedSectionVars false
set_option linter.unusedSimpArgs false
set_option linter.unusedVariables false

namespace Scc.Seq

open Scc.Index hiding bucketLen
open Scc.Bucket

variable {K V : Type}

/-- A history of a `HashCache` with what is observed along the way; nothing is assumed about resizing. -/
inductive ObsRuns [DecidableEq K] (c : Cfg K) : Tbl K V → List (Obs K V) → Tbl K V → Prop
  | nil (T : Tbl K V) : ObsRuns c T [] T
  | cons {T T1 T' : Tbl K V} {h : List (Obs K V)} {op : CacheOp K V} {out : CacheOut K V} (env : Env)
    (e : CacheExec c env T op out T1) (r : ObsRuns c T1 h T') :
    ObsRuns c T (⟨op, out, T.capacity, T1.capacity⟩ :: h) T'

section
variable [DecidableEq K]

theorem lims_cap64 {c : Cfg K} {T : Tbl K V} (h : c.maxCap = 64) (l : Lims c 0 T) :
    T.capacity = 0 ∨ T.capacity = 64 := by
  cases hT : T.arr with
  | none => exact Or.inl (capacity_none hT)
  | some w =>
    right
    rw [tbl_capacity hT]
    have := l.cap w hT
    rw [h] at this
    exact Nat.le_antisymm this.2.2 this.2.1

theorem obsRuns_small {c : Cfg K} (q : PowMax c) (h64 : c.maxCap = 64) {T T' : Tbl K V}
    {h : List (Obs K V)} (l : Lims c 0 T) (r : ObsRuns c T h T') :
    GrowRuns c T h T' ∧ NoResize h ∧ Lims c 0 T' := by
  induction r with
  | nil T => exact ⟨.nil T, (fun x hx => by cases hx), l⟩
  | @cons T T1 T' h op out env e r ih =>
    have l1 := cacheExec_lims q l e
    obtain ⟨x1, x2, x3⟩ := ih l1
    have c0 := lims_cap64 h64 l
    have c1 := lims_cap64 h64 l1
    refine ⟨.cons env e (by omega) x1, ?_, x3⟩
    intro x hx
    rcases List.mem_cons.1 hx with h | h
    · subst h
      show T.capacity = 0 ∨ T1.capacity = T.capacity ∨ T1.capacity = 0
      omega
    · exact x2 x h

/-- Not more than 32 entries share a bucket. -/
theorem grown_class {c : Cfg K} (q : CacheLim c) {T : Tbl K V} {L : List K} (G : Grown c T L) (k : K) :
    (bucketEntries c.hash T.capacity (T.entries c) k).length ≤ 32 := by
  cases hT : T.arr with
  | none => rw [entries_none hT]; exact Nat.zero_le _
  | some w =>
    have okw := G.ok.two w hT
    have hlg : w.cur.lg ≤ 64 := by have := okw.cur.wf.lg_le; omega
    have hlg' : w.cur.lg ≤ 63 := by have := okw.cur.wf.lg_le; omega
    have := room_class q.kind q.ok okw (G.fine.some w hT).room
      (bucketIndex_lt (lg := w.cur.lg) (by omega) (q.ok k))
    have hd : ∀ x : K, decide (SameBucket T.capacity (c.hash x) (c.hash k)) =
        (bucketIndex w.cur.lg (c.hash x) == bucketIndex w.cur.lg (c.hash k)) := by
      intro x
      rw [capacity_some hT, Bool.eq_iff_iff]
      simp [sameBucket_iff hlg]
    have hE : bucketEntries c.hash T.capacity (T.entries c) k = (w.entries c).filter fun e =>
        bucketIndex w.cur.lg (c.hash e.1) == bucketIndex w.cur.lg (c.hash k) := by
      unfold bucketEntries Tbl.entries
      rw [hT]
      apply List.filter_congr
      intro x _; exact hd x.1
    rw [hE]
    exact this

/-- A cache with a maximum capacity of at most 64 has a maximum capacity of 64. -/
theorem small_max {minCap maxCap : Nat} (h1 : minCap ≤ 64) (h2 : maxCap ≤ 64) :
    (cacheWithCapacity minCap maxCap).2.2 = 64 := by
  have hm : (mapWithCapacity minCap).2 ≤ 64 := by
    unfold mapWithCapacity
    by_cases h0 : minCap = 0
    · rw [if_pos h0]; exact Nat.zero_le _
    · rw [if_neg h0]
      show numSlots (arrayLen minCap) ≤ 64
      rw [← log2ArrayLen_spec]
      exact (numSlots_log2 minCap (E := 6) (by omega) (by omega) (by simpa using h1)).1.2.2
  show nextPow2 (min (max (max maxCap (mapWithCapacity minCap).2) minimumCapacity) maxCapacityLimit) = 64
  have e : min (max (max maxCap (mapWithCapacity minCap).2) minimumCapacity) maxCapacityLimit = 64 := by
    have a : minimumCapacity = 64 := rfl
    have b : maxCapacityLimit = 2 ^ 62 := rfl
    rw [a, b]; omega
  rw [e]; decide

theorem small_lims {hash : K → Nat} {minCap maxCap : Nat} (h1 : minCap ≤ 64) (h2 : maxCap ≤ 64) :
    PowMax (cacheCfg hash minCap maxCap) ∧
      Lims (cacheCfg hash minCap maxCap) 0 (Tbl.withCapacity minCap : Tbl K V) := by
  have e : (cacheCfg hash minCap maxCap).maxCap = 2 ^ 6 := small_max h1 h2
  refine ⟨⟨6, by omega, by omega, e⟩, ?_⟩
  unfold Tbl.withCapacity
  have n1 := (numSlots_log2 minCap (E := 6) (by omega) (by omega) (by simpa using h1)).1
  by_cases h0 : minCap = 0
  · rw [if_pos h0]
    exact ⟨Nat.zero_le _, (fun w h => by cases h), Nat.zero_le _, fun _ => rfl, fun w h => by cases h⟩
  · rw [if_neg h0]
    refine ⟨by rw [e]; exact n1.2.2, ?_, Nat.zero_le _, fun _ => rfl, fun _ _ => Nat.zero_le _⟩
    intro w hw
    cases hw
    rw [e]; exact n1

/-- C26 in full for the smallest caches: whatever is done with a cache of maximum capacity 64, it never
holds more than 64 entries, whatever the hash function. -/
theorem c26_small {hash : K → Nat} (hc : ∀ k, hash k < 2 ^ 64) {minCap maxCap : Nat} (h1 : minCap ≤ 64)
    (h2 : maxCap ≤ 64) {h : List (Obs K V)} {T : Tbl K V}
    (r : ObsRuns (cacheCfg hash minCap maxCap) (Tbl.withCapacity minCap) h T) :
    (T.entries (cacheCfg hash minCap maxCap)).length ≤ T.capacity ∧ T.capacity ≤ 64 ∧
    ∀ k, (bucketEntries hash 64 (T.entries (cacheCfg hash minCap maxCap)) k).length ≤ 32 := by
  obtain ⟨q, l⟩ := small_lims (K := K) (V := V) (hash := hash) h1 h2
  obtain ⟨x1, x2, x3⟩ := obsRuns_small q (small_max h1 h2) l r
  obtain ⟨y1, y2, _⟩ := c26_capacity hc x1
  rw [small_max h1 h2] at y2
  refine ⟨y1, y2, fun k => ?_⟩
  have q' := cacheLim_of hc minCap maxCap
  have G := growRuns_ok q' (grown_new hc minCap maxCap) x1
  rcases lims_cap64 (small_max h1 h2) x3 with c0 | c0
  · rw [entries_none (cap_zero_arr c0)]; exact Nat.zero_le _
  · have := grown_class q' G k
    rw [c0] at this
    exact this

/-- C25 in full for the smallest caches: whatever was done with a cache of maximum capacity 64, a store
under a new key evicts exactly if 32 entries share its bucket, and it evicts the least recently put or
gotten one of them. -/
theorem c25_small {hash : K → Nat} (hc : ∀ k, hash k < 2 ^ 64) {minCap maxCap : Nat} (h1 : minCap ≤ 64)
    (h2 : maxCap ≤ 64) {h : List (Obs K V)} {T T' : Tbl K V}
    (r : ObsRuns (cacheCfg hash minCap maxCap) (Tbl.withCapacity minCap) h T) (env : Env) (k : K)
    (f : Option V → Act V) {o : Option V} {ev : Option (K × V)}
    (e : CacheExec (cacheCfg hash minCap maxCap) env T (.entry k f) (.put o ev) T') :
    (ev ≠ none ↔ o = none ∧ (∃ v, f none = .put v) ∧
      (bucketEntries hash 64 (T.entries (cacheCfg hash minCap maxCap)) k).length = 32) ∧
    ∀ x, ev = some x → x ∈ bucketEntries hash 64 (T.entries (cacheCfg hash minCap maxCap)) k ∧
      (∀ y ∈ T.entries (cacheCfg hash minCap maxCap), y.1 ∈ recency h) ∧
      (bucketPart hash 64 (recency h) k).getLast? = some x.1 := by
  obtain ⟨q, l⟩ := small_lims (K := K) (V := V) (hash := hash) h1 h2
  have hm : (cacheCfg hash minCap maxCap).maxCap = 64 := small_max h1 h2
  obtain ⟨x1, x2, x3⟩ := obsRuns_small q hm l r
  have c0 := lims_cap64 hm x3
  have c1 := lims_cap64 hm (cacheExec_lims q x3 e)
  obtain ⟨y1, y2⟩ := c25_evicts_partial hc x1 env k f e (by omega)
  rcases c0 with c0 | c0
  · have hE := entries_none (c := cacheCfg hash minCap maxCap) (cap_zero_arr c0)
    have hb : ∀ n, bucketEntries hash n (T.entries (cacheCfg hash minCap maxCap)) k = [] := by
      intro n; rw [hE]; rfl
    rw [hb] at y1 y2 ⊢
    exact ⟨y1, fun x hx => by cases (y2 x hx).1⟩
  · rw [c0] at y1 y2
    refine ⟨y1, fun x hx => ?_⟩
    subst hx
    obtain ⟨z1, z2⟩ := c25_lru_partial hc x1 x2 env k f e (by omega)
    rw [c0] at z2
    exact ⟨(y2 x rfl).1, z1, z2⟩

theorem nodup_le {l l' : List K} (hn : l.Nodup) (h : ∀ x ∈ l, x ∈ l') : l.length ≤ l'.length := by
  induction l generalizing l' with
  | nil => exact Nat.zero_le _
  | cons x l ih =>
    rw [List.nodup_cons] at hn
    have hx := h x (List.mem_cons_self ..)
    have := ih (l' := l'.erase x) hn.2 fun y hy =>
      (List.mem_erase_of_ne (fun e : y = x => hn.1 (e ▸ hy))).2 (h y (List.mem_cons_of_mem _ hy))
    rw [List.length_erase_of_mem hx] at this
    have hp := List.length_pos_of_mem hx
    rw [List.length_cons]
    omega

theorem cacheRuns_obs {c : Cfg K} {T T' : Tbl K V} {h : List (CacheOp K V × CacheOut K V)}
    (r : CacheRuns c T h T') : ∃ h', ObsRuns c T h' T' := by
  induction r with
  | nil T => exact ⟨[], .nil T⟩
  | cons env e r ih =>
    obtain ⟨h', x⟩ := ih
    exact ⟨_, .cons env e x⟩

/-! ## C38 -/

/-- C38, violated in general: whatever the hash function is, reading back pairs from a format that
announces no length, or one of at most 64, gives a cache of at most 64 entries; if there are more
different keys, some are evicted on the way. -/
theorem c38_cache_deserialize_limit {hash : K → Nat} (hc : ∀ k, hash k < 2 ^ 64) (env : Env) {hint : Nat}
    (h64 : hint ≤ 64) (l : List (K × V)) {U : Tbl K V} {evs : List (K × V)}
    (h : cacheDeserialize hash env hint l = some (U, evs)) :
    (U.entries (cacheCfg hash 0 hint)).length ≤ 64 ∧
    ((l.map (·.1)).Nodup → 64 < l.length → evs ≠ []) := by
  obtain ⟨hist, r⟩ := putAll_runs env l h
  obtain ⟨h', r'⟩ := cacheRuns_obs r
  obtain ⟨x1, x2, _⟩ := c26_small hc (by omega) h64 r'
  refine ⟨by omega, fun hn hl hev => ?_⟩
  obtain ⟨U', evs', m, y1, y2, y3, y4, y5, y6⟩ := c38_cache_from_iter_partial hc env 0 hint l
  have y1' : cacheDeserialize hash env hint l = some (U', evs') := y1
  rw [h] at y1'
  cases y1'
  subst hev
  have : ∀ e ∈ l, e.1 ∈ (U.entries (cacheCfg hash 0 hint)).map (·.1) := by
    intro e he
    rcases y4 e.1 e.2 he with h | ⟨_, h⟩
    · obtain ⟨v, hv⟩ := Option.ne_none_iff_exists'.1 h
      exact List.mem_map.2 ⟨_, (y2.2 _ _).1 hv, rfl⟩
    · cases h
  have hle := nodup_le hn (fun k hk => by
    obtain ⟨e, he, rfl⟩ := List.mem_map.1 hk
    exact this e he)
  simp only [List.length_map] at hle
  omega

end

set_option maxRecDepth 100000 in
/-- Beside C25 and C26 in full: the premises are met by a cache of requested capacity 10 and maximum 20;
the 33rd key of a bucket evicts the first. -/
example : ((putObs (cacheCfg halfHash 10 20) sampleEnv (Tbl.withCapacity 10) firstKeys).bind fun r =>
      (cacheEntryOp (cacheCfg halfHash 10 20) sampleEnv r.1 32 (insertAct 32)).map fun t => t.2) =
      some (none, some (0, 0)) := by
  decide +kernel

theorem growRuns_obs [DecidableEq K] {c : Cfg K} {T T' : Tbl K V} {h : List (Obs K V)}
    (r : GrowRuns c T h T') : ObsRuns c T h T' := by
  induction r with
  | nil T => exact .nil T
  | cons env e g r ih => exact .cons env e ih

set_option maxRecDepth 100000 in
/-- C38: 80 evenly distributed pairs are read back without an announced length: sixteen are lost. With
the length announced nothing is lost, nor if an iterator announces an upper bound on its length. -/
theorem c38_cache_hint_sample :
    ((cacheDeserialize eightHash sampleEnv 0 ((List.range 80).map fun k => (k, k))).map fun q =>
      (q.2.length, (q.1.entries (cacheCfg eightHash 0 0)).length)) = some (16, 64) ∧
    ((cacheDeserialize eightHash sampleEnv 80 ((List.range 80).map fun k => (k, k))).map fun q =>
      (q.2.length, (q.1.entries (cacheCfg eightHash 0 80)).length)) = some (0, 80) ∧
    ((cacheFromIter eightHash sampleEnv 0 (some 80) ((List.range 80).map fun k => (k, k))).map fun q =>
      (q.2.length, (q.1.entries (cacheCfg eightHash 0 100)).length)) = some (0, 80) := by
  decide +kernel

end Scc.Seq
