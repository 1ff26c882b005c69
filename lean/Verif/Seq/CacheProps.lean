import Verif.Seq.Conv
import Verif.Seq.CacheHist

/-!
# `HashCache` used by one thread: contents, memory, conversions (C48, C15, C38)
-/

set_option linter.unusedSectionVars false
set_option linter.unusedSimpArgs false
set_option linter.unusedVariables false

namespace Scc.Seq

open Scc.Index hiding bucketLen
open Scc.Bucket

variable {K V : Type}

/-! ## Model -/

/-- Putting the pairs of a list one after the other; also the pairs evicted. -/
def putAll [DecidableEq K] (c : Cfg K) (env : Env) : Tbl K V → List (K × V) →
    Option (Tbl K V × List (K × V))
  | T, [] => some (T, [])
  | T, e :: es =>
    match cacheEntryOp c env T e.1 (insertAct e.2) with
    | none => none
    | some (T1, _, ev) => (putAll c env T1 es).map fun r => (r.1, ev.toList ++ r.2)

/-- `FromIterator` of a `HashCache` (/repo/src/hash_cache.rs 1278-1290): `lower` and `upper` are the size
hint. -/
def cacheFromIter [DecidableEq K] (hash : K → Nat) (env : Env) (lower : Nat) (upper : Option Nat)
    (l : List (K × V)) : Option (Tbl K V × List (K × V)) :=
  putAll (cacheCfg hash lower (capacityFromSizeHint lower upper)) env (Tbl.withCapacity lower) l

/-- Deserialisation of a `HashCache` (/repo/src/serde.rs 302-312); `hint` is the length the format
announces, at most `MAX_CAPACITY`. -/
def cacheDeserialize [DecidableEq K] (hash : K → Nat) (env : Env) (hint : Nat) (l : List (K × V)) :
    Option (Tbl K V × List (K × V)) :=
  putAll (cacheCfg hash 0 hint) env (Tbl.withCapacity 0) l

/-- `Serialize` of a `HashCache` (/repo/src/serde.rs 335-355, /repo/src/hash_cache.rs 1156-1158): the
number announced first, and the pairs written. -/
def cacheSerializeOp (c : Cfg K) (env : Env) (T : Tbl K V) : Option (Nat × List (K × V)) :=
  (iterOp c env T).map fun r => (c.maxCap, r.2)

section
variable [DecidableEq K] {c : Cfg K}

theorem cacheCfg_ok {hash : K → Nat} (hc : ∀ k, hash k < 2 ^ 64) (a b : Nat) :
    (cacheCfg hash a b).Ok := hc

/-! ## C48: contents -/

/-- C48. Every sequence of operations on a fresh `HashCache`, of any minimum and maximum capacity, can be
carried out, and whatever it reports along the way is what a finite map reports that starts out empty
and may lose one entry when a new key is put, if it reports that entry; at the end the entries in the
cache are those of the map, each once. -/
theorem c48_cache_map {hash : K → Nat} (hc : ∀ k, hash k < 2 ^ 64) (minCap maxCap : Nat)
    (ops : List (Env × CacheOp K V)) :
    (∃ (h : List (CacheOp K V × CacheOut K V)) (T : Tbl K V),
      CacheRuns (cacheCfg hash minCap maxCap) (Tbl.withCapacity minCap) h T ∧
        h.map (·.1) = ops.map (·.2)) ∧
    ∀ (h : List (CacheOp K V × CacheOut K V)) (T : Tbl K V),
      CacheRuns (cacheCfg hash minCap maxCap) (Tbl.withCapacity minCap) h T →
      ∃ m, CacheMapRuns (fun _ => none) h m ∧
        Spec.Enumerates (T.entries (cacheCfg hash minCap maxCap)) m :=
  ⟨cacheRuns_total rfl (cacheCfg_ok hc _ _) ops _ (withCapacity_ok minCap).1 (withCapacity_allLru minCap),
    fun _ _ r => (cacheRuns_ok rfl (cacheCfg_ok hc _ _) (withCapacity_ok minCap).1 (withCapacity_allLru minCap) r).2.2.1 _
      (withCapacity_enum minCap)⟩

/-! ## C15: memory -/

/-- C15 for a `HashCache` and one thread. Take any history of operations on a fresh cache and drop the
cache at that point, no matter how far a resize has got. Then the pairs handed to the cache are, as a
multiset, those handed back to the caller, evicted ones included, and those dropped with the cache. The
cache drops nothing by itself. Not covered: threads. -/
theorem c15_cache_dropped_once_partial {hash : K → Nat} (hc : ∀ k, hash k < 2 ^ 64) {minCap maxCap : Nat}
    {h : List (CacheOp K V × CacheOut K V)} {T : Tbl K V}
    (r : CacheRuns (cacheCfg hash minCap maxCap) (Tbl.withCapacity minCap) h T) :
    ((h.flatMap fun x => cacheTaken x.1 x.2) ++ T.gone ++ dropTable (cacheCfg hash minCap maxCap) T).Perm
      (h.flatMap fun x => cacheGiven x.1 x.2) := by
  obtain ⟨ok0, _, hcell, hgone⟩ :=
    withCapacity_ok (K := K) (V := V) (c := cacheCfg hash minCap maxCap) minCap
  obtain ⟨ok, _, _, hp⟩ := cacheRuns_ok rfl (cacheCfg_ok hc _ _) ok0 (withCapacity_allLru minCap) r
  rw [hcell, hgone, List.append_nil, List.append_nil] at hp
  have hd := dropTable_ok T ok
  rw [perm_iff] at *
  intro x
  have z1 := hp x
  have z2 := hd x
  simp only [cnt_append] at *
  omega

/-! ## C38: conversions -/

/-- C38. Comparing two `HashCache`s, with any histories behind them and possibly with different hash
functions: the answer is whether they hold the same contents. -/
theorem c38_cache_eq [DecidableEq V] {hash hash' : K → Nat} (hc : ∀ k, hash k < 2 ^ 64)
    (hc' : ∀ k, hash' k < 2 ^ 64) {a b a' b' : Nat} {h h' : List (CacheOp K V × CacheOut K V)}
    {T U : Tbl K V} (r : CacheRuns (cacheCfg hash a b) (Tbl.withCapacity a) h T)
    (r' : CacheRuns (cacheCfg hash' a' b') (Tbl.withCapacity a') h' U) {m m' : K → Option V}
    (e : Spec.Enumerates (T.entries (cacheCfg hash a b)) m)
    (e' : Spec.Enumerates (U.entries (cacheCfg hash' a' b')) m') (env : Env) :
    ∃ q, eqOp (cacheCfg hash a b) (cacheCfg hash' a' b') env T U = some q ∧ (q = true ↔ m = m') :=
  eqOp_ok (cacheCfg_ok hc _ _) (cacheCfg_ok hc' _ _) (cacheRuns_ok rfl (cacheCfg_ok hc _ _) (withCapacity_ok a).1 (withCapacity_allLru a) r).1
    (cacheRuns_ok rfl (cacheCfg_ok hc' _ _) (withCapacity_ok a').1 (withCapacity_allLru a') r').1 e e' env

theorem putAll_ok (hk : c.kind = .cache) (hc : c.Ok) (env : Env) (l : List (K × V)) (T : Tbl K V)
    (ok : T.Ok c) (lo : AllLru T) {m : K → Option V} (e : Spec.Enumerates (T.entries c) m) :
    ∃ U evs m', putAll c env T l = some (U, evs) ∧ U.Ok c ∧ AllLru U ∧
      Spec.Enumerates (U.entries c) m' ∧
      (∀ k v, m' k = some v → m k = some v ∨ (k, v) ∈ l) ∧
      (∀ k v, (m k = some v ∨ (k, v) ∈ l) → m' k ≠ none ∨ ∃ v', (k, v') ∈ evs) ∧
      (∀ y ∈ evs, m y.1 = some y.2 ∨ y ∈ l) ∧
      (evs = [] → ∀ k, m' k = (m k).or (firstWins l k)) := by
  induction l generalizing T m with
  | nil =>
    exact ⟨T, [], m, rfl, ok, lo, e, fun k v h => Or.inl h,
      fun k v h => Or.inl (by rcases h with h | h; · rw [h]; simp
                              · cases h),
      (fun y h => by cases h), fun _ k => by cases m k <;> rfl⟩
  | cons x l ih =>
    obtain ⟨T1, o, ev, R, h1, h2⟩ := cacheEntryOp_ok hk hc T ok lo env x.1 (insertAct x.2)
    obtain ⟨h3, h4, h5⟩ := h2.enum e
    have step : ∃ m1, Spec.Enumerates (T1.entries c) m1 ∧
        (∀ k v, m1 k = some v → m k = some v ∨ (k, v) = x) ∧
        (∀ k v, (m k = some v ∨ (k, v) = x) → m1 k ≠ none ∨ ∃ y, ev = some y ∧ y.1 = k) ∧
        (∀ y, ev = some y → m y.1 = some y.2) ∧
        (ev = none → ∀ k, m1 k = (m k).or (if k = x.1 then some x.2 else none)) := by
      cases ev with
      | none =>
        have e1 := h4 rfl
        refine ⟨_, e1, ?_, ?_, (fun y h => by cases h), ?_⟩
        · intro k v hv
          unfold Spec.set at hv
          split at hv
          · rename_i hkx; subst hkx
            rw [← h3] at hv
            cases hm : m x.1 with
            | none => rw [hm] at hv; exact Or.inr (Prod.ext rfl (Option.some.inj hv).symm)
            | some v' => rw [hm] at hv; exact Or.inl hv
          · exact Or.inl hv
        · intro k v hv
          left
          unfold Spec.set
          split
          · rename_i hkx
            rw [← h3]
            cases hm : m x.1 <;> simp [insertAct, Act.res]
          · rename_i hkx
            rcases hv with hv | hv
            · rw [hv]; simp
            · rw [← hv] at hkx; exact absurd rfl hkx
        · intro _ k
          unfold Spec.set
          split
          · rename_i hkx; subst hkx
            rw [← h3]
            cases hm : m x.1 <;> simp [insertAct, Act.res]
          · cases m k <;> rfl
      | some y =>
        obtain ⟨h6, _⟩ := h2.evicts (by simp)
        subst h6
        obtain ⟨h7, h8⟩ := h5 y rfl
        have hyx : y.1 ≠ x.1 := h2.other y (by simp)
        refine ⟨_, h8, ?_, ?_, (fun y' h => by cases h; exact h7), (fun h => by cases h)⟩
        · intro k v hv
          unfold Spec.set at hv
          split at hv
          · rename_i hkx; subst hkx
            exact Or.inr (Prod.ext rfl (Option.some.inj hv).symm)
          · split at hv
            · cases hv
            · exact Or.inl hv
        · intro k v hv
          unfold Spec.set
          split
          · left; simp [insertAct, Act.res]
          · split
            · rename_i hky; right; exact ⟨y, rfl, hky.symm⟩
            · rename_i hkx _
              rcases hv with hv | hv
              · left; rw [hv]; simp
              · rw [← hv] at hkx; exact absurd rfl hkx
    obtain ⟨m1, e1, s1, s2, s3, s4⟩ := step
    obtain ⟨U, evs, m', i1, i2, i3, i4, i5, i6, i7, i8⟩ := ih T1 h2.ok h2.lru e1
    refine ⟨U, ev.toList ++ evs, m', by simp only [putAll, h1, i1, Option.map_some], i2, i3, i4, ?_, ?_, ?_, ?_⟩
    · intro k v hv
      rcases i5 k v hv with h | h
      · rcases s1 k v h with h | h
        · exact Or.inl h
        · exact Or.inr (h ▸ List.mem_cons_self)
      · exact Or.inr (List.mem_cons_of_mem _ h)
    · intro k v hv
      have fin : (m1 k ≠ none ∨ ∃ v', (k, v') ∈ ev.toList ++ evs) ∨ (k, v) ∈ l := by
        have hv' : (m k = some v ∨ (k, v) = x) ∨ (k, v) ∈ l := by
          rcases hv with h | h
          · exact Or.inl (Or.inl h)
          · rcases List.mem_cons.1 h with h | h
            · exact Or.inl (Or.inr h)
            · exact Or.inr h
        rcases hv' with h | h
        · left
          rcases s2 k v h with h | ⟨y, h, hy⟩
          · exact Or.inl h
          · right; refine ⟨y.2, List.mem_append_left _ ?_⟩
            rw [h, ← hy]; simp
        · exact Or.inr h
      have lift : (m' k ≠ none ∨ ∃ v', (k, v') ∈ evs) → m' k ≠ none ∨ ∃ v', (k, v') ∈ ev.toList ++ evs := by
        rintro (h | ⟨v', h⟩)
        · exact Or.inl h
        · exact Or.inr ⟨v', List.mem_append_right _ h⟩
      rcases fin with (h | h) | h
      · obtain ⟨w, hw⟩ := Option.ne_none_iff_exists'.1 h
        exact lift (i6 k w (Or.inl hw))
      · exact Or.inr h
      · exact lift (i6 k v (Or.inr h))
    · intro y hy
      rcases List.mem_append.1 hy with h | h
      · left
        cases ev with
        | none => cases h
        | some z =>
          have : y = z := by simpa using h
          subst this; exact s3 _ rfl
      · rcases i7 y h with h | h
        · rcases s1 _ _ h with h | h
          · exact Or.inl h
          · exact Or.inr (h ▸ List.mem_cons_self)
        · exact Or.inr (List.mem_cons_of_mem _ h)
    · intro hev k
      have hev' := List.append_eq_nil_iff.1 hev
      have : ev = none := by cases ev with
        | none => rfl
        | some z => simp at hev'
      rw [i8 hev'.2 k, s4 this k, firstWins_cons]
      cases m k with
      | some v => rfl
      | none =>
        by_cases hkx : x.1 = k
        · rw [if_pos hkx.symm]; simp [Spec.set, hkx]
        · rw [if_neg (fun h => hkx h.symm)]; unfold Spec.set; rw [if_neg (fun h => hkx h.symm)]; rfl

/-- C38 for `FromIterator` and deserialisation of a `HashCache`, in full: "the first pair with a key
counts". This is false when pairs are evicted on the way (`c38_cache_from_iter_violated`). What holds
for every sequence, every hash function and every size hint: everything in the cache comes from the
sequence; every key of the sequence is in the cache or was evicted at some point; and if nothing was
evicted the contents are exactly what the sequence says, the first pair with a key counting. -/
theorem c38_cache_from_iter_partial {hash : K → Nat} (hc : ∀ k, hash k < 2 ^ 64) (env : Env)
    (minCap maxCap : Nat) (l : List (K × V)) :
    ∃ U evs m, putAll (cacheCfg hash minCap maxCap) env (Tbl.withCapacity minCap) l = some (U, evs) ∧
      Spec.Enumerates (U.entries (cacheCfg hash minCap maxCap)) m ∧
      (∀ k v, m k = some v → (k, v) ∈ l) ∧
      (∀ k v, (k, v) ∈ l → m k ≠ none ∨ ∃ v', (k, v') ∈ evs) ∧
      (∀ y ∈ evs, y ∈ l) ∧
      (evs = [] → m = firstWins l) := by
  obtain ⟨U, evs, m, h1, _, _, h4, h5, h6, h7, h8⟩ := putAll_ok (c := cacheCfg hash minCap maxCap) rfl hc env
    l (Tbl.withCapacity minCap) (withCapacity_ok minCap).1 (withCapacity_allLru minCap)
    (withCapacity_enum minCap)
  refine ⟨U, evs, m, h1, h4, ?_, ?_, ?_, ?_⟩
  · intro k v h
    rcases h5 k v h with h | h
    · cases h
    · exact h
  · intro k v h; exact h6 k v (Or.inr h)
  · intro y h
    rcases h7 y h with h | h
    · cases h
    · exact h
  · intro h; funext k; rw [h8 h k]; rfl

/-- C38 for serialisation of a `HashCache`, as far as it holds: the pairs written are the contents, each
once. The number announced is not their number (`c38_cache_serialize_violated`), and reading the pairs
back may evict some of them (`c38_cache_deserialize_violated`). -/
theorem c38_cache_serialize_partial {hash : K → Nat} (hc : ∀ k, hash k < 2 ^ 64) {a b : Nat}
    {h : List (CacheOp K V × CacheOut K V)} {T : Tbl K V}
    (r : CacheRuns (cacheCfg hash a b) (Tbl.withCapacity a) h T) {m : K → Option V}
    (e : Spec.Enumerates (T.entries (cacheCfg hash a b)) m) (env : Env) :
    ∃ len l, cacheSerializeOp (cacheCfg hash a b) env T = some (len, l) ∧ Spec.Enumerates l m := by
  obtain ⟨T1, l, h1, _, h3⟩ := iterOp_ok (c := cacheCfg hash a b) hc env T
    (cacheRuns_ok rfl (cacheCfg_ok hc _ _) (withCapacity_ok a).1 (withCapacity_allLru a) r).1
  exact ⟨_, l, by unfold cacheSerializeOp; rw [h1]; rfl, enum_perm h3.symm e⟩

end

/-! ## Violations and witnesses -/

/-- The hash function of the sample executions: keys from 1000 on go to the upper half. -/
def halfHash (k : Nat) : Nat := (k / 1000 % 2) * 2 ^ 63 + k % 1000

theorem halfHash_lt (k : Nat) : halfHash k < 2 ^ 64 := by
  unfold halfHash; omega

theorem putAll_runs [DecidableEq K] {c : Cfg K} (env : Env) (l : List (K × V)) {T U : Tbl K V}
    {evs : List (K × V)} (h : putAll c env T l = some (U, evs)) :
    ∃ hist : List (CacheOp K V × CacheOut K V), CacheRuns c T hist U := by
  induction l generalizing T U evs with
  | nil => cases h; exact ⟨[], .nil _⟩
  | cons e es ih =>
    unfold putAll at h
    split at h
    · cases h
    · rename_i T1 o ev h1
      obtain ⟨r, h2, h3⟩ := Option.map_eq_some_iff.1 h
      cases h3
      obtain ⟨hist, h4⟩ := ih h2
      exact ⟨_, .cons env (op := .entry e.1 (insertAct e.2)) ⟨o, ev, h1, rfl⟩ h4⟩

set_option maxRecDepth 100000 in
/-- C38, violated: a `HashCache` is built from an iterator without a size hint that yields the keys 0 to
32 and then key 0 again with value 77. All keys fall into one bucket of 32 slots, so key 0 is evicted and
then put again: the cache holds 77 for key 0 and not the first value. -/
theorem c38_cache_from_iter_violated :
    ((cacheFromIter halfHash sampleEnv 0 none (((List.range 33).map fun k => (k, k)) ++ [(0, 77)])).bind
      fun r => (readOp (cacheCfg halfHash 0 (capacityFromSizeHint 0 none)) sampleEnv r.1 0).map (·.2)) =
        some (some 77) ∧
    firstWins (((List.range 33).map fun k => (k, k)) ++ [(0, 77)]) 0 = some 0 := by
  decide +kernel

set_option maxRecDepth 100000 in
/-- C38, violated: a `HashCache` that holds one pair announces 128 pairs when serialised, and writes
one. Formats that put the length in front of the pairs produce output that cannot be read back. -/
theorem c38_cache_serialize_violated :
    ((putAll (cacheCfg halfHash 0 100) sampleEnv (Tbl.withCapacity 0) [(1, 10)]).bind fun r =>
      cacheSerializeOp (cacheCfg halfHash 0 100) sampleEnv r.1) = some (128, [(1, 10)]) := by
  decide +kernel

/-- The last digits of a key select one of eight parts. -/
def eightHash (k : Nat) : Nat := (k % 8) * 2 ^ 61 + k / 8 % 2 ^ 61

theorem eightHash_lt (k : Nat) : eightHash k < 2 ^ 64 := by
  unfold eightHash; omega

/-- Keys of the first four of eight parts. -/
def lowKeys : List (Nat × Nat) := (List.range 36).map fun k => (k / 4 * 8 + k % 4, k)

set_option maxRecDepth 100000 in
/-- C38, violated: a `HashCache` of minimum capacity 256 holds 36 pairs, none of which was ever evicted.
When they are read back from a format that does not announce a length, with the same hash function, the
maximum capacity of the new cache is 64, and four of the pairs are evicted. -/
theorem c38_cache_deserialize_violated :
    ((putAll (cacheCfg eightHash 256 256) sampleEnv (Tbl.withCapacity 256) lowKeys).bind fun r =>
      (cacheSerializeOp (cacheCfg eightHash 256 256) sampleEnv r.1).bind fun s =>
        (cacheDeserialize eightHash sampleEnv 0 s.2).map fun q =>
          (r.2.length, s.2.length, q.2.length, (q.1.entries (cacheCfg eightHash 0 0)).length)) =
      some (0, 36, 4, 32) := by
  decide +kernel

set_option maxRecDepth 100000 in
/-- The histories of C48 and C15 include evictions: 34 pairs are put, two come back as evicted, 32 are
dropped with the cache. -/
example :
    ((putAll (cacheCfg halfHash 0 0) sampleEnv (Tbl.withCapacity 0) ((List.range 34).map fun k => (k, k))).map
      fun r => (r.2, (dropTable (cacheCfg halfHash 0 0) r.1).length)) = some ([(0, 0), (1, 1)], 32) := by
  decide +kernel

example : ∃ (h : List (CacheOp Nat Nat × CacheOut Nat Nat)) (T : Tbl Nat Nat),
    CacheRuns (cacheCfg halfHash 0 0) (Tbl.withCapacity 0) h T ∧
      h.map (·.1) = [CacheOp.entry 5 (insertAct 7), CacheOp.get 5 fun _ => .del] := by
  have := (c48_cache_map halfHash_lt 0 0
    [(sampleEnv, CacheOp.entry 5 (insertAct 7)), (sampleEnv, CacheOp.get 5 fun _ => .del)]).1
  simpa using this

end Scc.Seq
