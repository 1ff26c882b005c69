import Verif.Seq.CacheUse

/-!
# C25, C26: evictions and the size of a `HashCache`
-/

set_option linter.unusedSectionVars false
set_option linter.unusedSimpArgs false
set_option linter.unusedVariables false

namespace Scc.Seq

open Scc.Index hiding bucketLen
open Scc.Bucket

variable {K V : Type}

/-- Spec: two hash values belong to the same bucket of a table of the given capacity. A table of capacity
`cap` has `cap / 32` buckets, and each takes an equal share of the 64-bit hash values. -/
def SameBucket (cap x y : Nat) : Prop := x / (2 ^ 64 / (cap / 32)) = y / (2 ^ 64 / (cap / 32))

instance (cap x y : Nat) : Decidable (SameBucket cap x y) := inferInstanceAs (Decidable (_ = _))

section
variable [DecidableEq K] {c : Cfg K}

theorem sameBucket_iff {lg x y : Nat} (h : lg ≤ 64) :
    SameBucket (32 * 2 ^ lg) x y ↔ bucketIndex lg x = bucketIndex lg y := by
  unfold SameBucket
  rw [bucketIndex_eq, bucketIndex_eq, Nat.mul_div_cancel_left _ (by omega), Nat.pow_div h (by omega)]

/-- The keys of a list that belong to the bucket of `k`. -/
def bucketPart (hash : K → Nat) (cap : Nat) (L : List K) (k : K) : List K :=
  L.filter fun x => decide (SameBucket cap (hash x) (hash k))

/-- The entries that share the bucket of `k`. -/
def bucketEntries (hash : K → Nat) (cap : Nat) (E : List (K × V)) (k : K) : List (K × V) :=
  E.filter fun e => decide (SameBucket cap (hash e.1) (hash k))

theorem put_evicts (q : CacheLim c) {T : Tbl K V} {L : List K} (G : Grown c T L) (env : Env) (k : K)
    (f : Option V → Act V) {T' : Tbl K V} {o : Option V} {ev : Option (K × V)}
    (h : cacheEntryOp c env T k f = some (T', o, ev)) (g : T.capacity ≤ T'.capacity ∨ T'.capacity = 0) :
    (ev ≠ none ↔ o = none ∧ (∃ v, f none = .put v) ∧
      (bucketEntries c.hash T.capacity (T.entries c) k).length = 32) ∧
    ∀ e, ev = some e → e ∈ bucketEntries c.hash T.capacity (T.entries c) k ∧
      (bucketPart c.hash T.capacity L k ≠ [] → (bucketPart c.hash T.capacity L k).getLast? = some e.1) := by
  obtain ⟨x1, x2, x3, x4⟩ := cacheEntryOp_fine q G.ok G.lim G.fine env k f h g
  cases hT : T.arr with
  | none =>
    have h0 := capacity_none hT
    rw [x3 h0]
    refine ⟨⟨fun h => absurd rfl h, ?_⟩, fun e h => by cases h⟩
    rintro ⟨_, _, h2⟩
    rw [entries_none hT] at h2
    simp [bucketEntries] at h2
  | some w =>
    have hcap := capacity_some hT
    have hlg : w.cur.lg ≤ 64 := by have := (G.ok.two w hT).cur.wf.lg_le; omega
    obtain ⟨y1, y2⟩ := x4 w.cur.lg hcap
    have hd : ∀ x : K, decide (SameBucket T.capacity (c.hash x) (c.hash k)) =
        (bucketIndex w.cur.lg (c.hash x) == bucketIndex w.cur.lg (c.hash k)) := by
      intro x
      rw [hcap, Bool.eq_iff_iff]
      simp [sameBucket_iff hlg]
    have hE : bucketEntries c.hash T.capacity (T.entries c) k = (T.entries c).filter fun e =>
        bucketIndex w.cur.lg (c.hash e.1) == bucketIndex w.cur.lg (c.hash k) := by
      unfold bucketEntries
      apply List.filter_congr
      intro x _; exact hd x.1
    have hP : bucketPart c.hash T.capacity L k =
        part c.hash w.cur.lg L (bucketIndex w.cur.lg (c.hash k)) := by
      unfold bucketPart part
      apply List.filter_congr
      intro x _; exact hd x
    rw [hE, hP]
    refine ⟨y1, fun e he => ?_⟩
    obtain ⟨z1, z2, z3⟩ := y2 e he
    exact ⟨List.mem_filter.2 ⟨z1, by simpa using z2⟩, z3⟩

/-! ## C26 -/

/-- C26: a `HashCache` that has never shrunk holds at most `capacity()` entries, whatever the hash
function, and `capacity()` is at most the maximum capacity; `len()` reports at most `capacity()`; and no
bucket has overflow space. -/
theorem c26_capacity {hash : K → Nat} (hc : ∀ k, hash k < 2 ^ 64) {minCap maxCap : Nat}
    {h : List (Obs K V)} {T : Tbl K V}
    (r : GrowRuns (cacheCfg hash minCap maxCap) (Tbl.withCapacity minCap) h T) :
    (T.entries (cacheCfg hash minCap maxCap)).length ≤ T.capacity ∧
    T.capacity ≤ (cacheWithCapacity minCap maxCap).2.2 ∧
    (∀ env T' n, lenOp (cacheCfg hash minCap maxCap) env T = some (T', n) → n ≤ T.capacity) ∧
    ∀ w, T.arr = some w → (∀ i, (w.cur.bkt i).links = []) ∧
      ∀ o, w.old = some o → ∀ i, o.dead i = false → (o.bkt i).links = [] := by
  have q := cacheLim_of hc minCap maxCap
  have G := growRuns_ok q (grown_new hc minCap maxCap) r
  have hlen := room_capacity q.kind q.ok G.ok fun w hw => (G.fine.some w hw).room
  refine ⟨hlen, ?_, ?_, ?_⟩
  · cases hT : T.arr with
    | none => rw [capacity_none hT]; exact Nat.zero_le _
    | some w =>
      have := (G.lim.cap w hT).2.2
      unfold Tbl.capacity
      rw [hT]; exact this
  · intro env T' n hl
    obtain ⟨T2, h2, _⟩ := lenOp_ok q.ok T G.ok env
    rw [hl] at h2
    cases h2
    exact hlen
  · intro w hw
    have rm := (G.fine.some w hw).room
    exact ⟨rm.cur, fun o ho => (rm.old o ho).old⟩

/-- C26: in whatever state a bucket is, storing a new key does not allocate overflow space. -/
theorem c26_put_no_overflow {hash : K → Nat} {b : Bucket K V} (w : Wf .cache hash b) (lo : LruOk b)
    (nd : ((b.entries .cache).map (·.1)).Nodup) (env : Env) (k : K) (touch : Bool) (f : Option V → Act V)
    {b' : Bucket K V} {ev : Option (K × V)} (h : b.cacheAct hash env k touch f = some (b', none, ev)) :
    b'.links = b.links := by
  unfold Bucket.cacheAct at h
  simp only at h
  split at h
  · split at h
    · cases h
    · split at h
      · cases h
      · cases h
      · obtain ⟨r, h1, h2⟩ := Option.map_eq_some_iff.1 h
        cases h2
  · split at h
    · split at h
      · cases h
      · rename_i b1 ev1 he
        cases h
        obtain ⟨b2, ev2, x1, x2, x3, x4, x5, x6, x7⟩ := evictHead_ok w lo
        rw [he] at x1
        cases x1
        rw [touch_links]
        exact (insert_main env.recent _ _ x7).1.trans (evictHead_links he)
    · cases h; rfl

/-- The premises of `c26_put_no_overflow` hold of a new bucket. -/
example (hash : K → Nat) : Wf .cache hash (Bucket.empty : Bucket K V) ∧ LruOk (Bucket.empty : Bucket K V) ∧
    (((Bucket.empty : Bucket K V).entries .cache).map (·.1)).Nodup :=
  ⟨empty_wf _ _, empty_lruOk, by rw [empty_entries]; exact List.nodup_nil⟩

/-! ## C25 -/

/-- C25, for a cache that has never shrunk: `put` (and the other ways to store under a key) evicts exactly
if the key is absent, a value is to be stored, and 32 entries share the key's bucket; it reports the
evicted pair, which is one of those entries; and if any of the keys of the bucket was put or looked up
since the last resize, it is the least recent one of those.

Missing from C25: after a resize the entries that were not used since then are not evicted first (see
`c25_violated`), and histories in which the table shrinks. -/
theorem c25_evicts_partial {hash : K → Nat} (hc : ∀ k, hash k < 2 ^ 64) {minCap maxCap : Nat}
    {h : List (Obs K V)} {T T' : Tbl K V}
    (r : GrowRuns (cacheCfg hash minCap maxCap) (Tbl.withCapacity minCap) h T) (env : Env) (k : K)
    (f : Option V → Act V) {o : Option V} {ev : Option (K × V)}
    (e : CacheExec (cacheCfg hash minCap maxCap) env T (.entry k f) (.put o ev) T')
    (g : T.capacity ≤ T'.capacity ∨ T'.capacity = 0) :
    (ev ≠ none ↔ o = none ∧ (∃ v, f none = .put v) ∧
      (bucketEntries hash T.capacity (T.entries (cacheCfg hash minCap maxCap)) k).length = 32) ∧
    ∀ x, ev = some x → x ∈ bucketEntries hash T.capacity (T.entries (cacheCfg hash minCap maxCap)) k ∧
      (bucketPart hash T.capacity (recency h) k ≠ [] →
        (bucketPart hash T.capacity (recency h) k).getLast? = some x.1) := by
  have q := cacheLim_of hc minCap maxCap
  have G := growRuns_ok q (grown_new hc minCap maxCap) r
  obtain ⟨o', ev', h1, h2⟩ := e
  cases h2
  exact put_evicts q G env k f h1 g

/-- C25, if the table was never resized: all keys present are in the order of use, and the evicted key is
the least recently put or gotten one of its bucket. -/
theorem c25_lru_partial {hash : K → Nat} (hc : ∀ k, hash k < 2 ^ 64) {minCap maxCap : Nat}
    {h : List (Obs K V)} {T T' : Tbl K V}
    (r : GrowRuns (cacheCfg hash minCap maxCap) (Tbl.withCapacity minCap) h T) (hn : NoResize h)
    (env : Env) (k : K) (f : Option V → Act V) {o : Option V} {x : K × V}
    (e : CacheExec (cacheCfg hash minCap maxCap) env T (.entry k f) (.put o (some x)) T')
    (g : T.capacity ≤ T'.capacity ∨ T'.capacity = 0) :
    (∀ y ∈ T.entries (cacheCfg hash minCap maxCap), y.1 ∈ recency h) ∧
    (bucketPart hash T.capacity (recency h) k).getLast? = some x.1 := by
  have q := cacheLim_of hc minCap maxCap
  have G0 : Grown (cacheCfg hash minCap maxCap) (Tbl.withCapacity minCap : Tbl K V) [] := grown_new hc _ _
  have hcov := growRuns_cover (L := []) q G0.ok G0.lru r hn
    (by rw [(withCapacity_ok minCap).2.1]; intro e h; cases h)
  refine ⟨hcov, ?_⟩
  obtain ⟨_, h2⟩ := c25_evicts_partial hc r env k f e g
  obtain ⟨h3, h4⟩ := h2 x rfl
  apply h4
  unfold bucketEntries at h3
  obtain ⟨h5, h6⟩ := List.mem_filter.1 h3
  intro h0
  have : x.1 ∈ bucketPart hash T.capacity (recency h) k := List.mem_filter.2 ⟨hcov x h5, h6⟩
  rw [h0] at this
  cases this

/-! ## Witnesses -/

/-- Stores the pairs one after the other and notes what is observed; fails if the table shrinks. -/
def putObs (c : Cfg K) (env : Env) : Tbl K V → List (K × V) → Option (Tbl K V × List (Obs K V))
  | T, [] => some (T, [])
  | T, e :: es =>
    match cacheEntryOp c env T e.1 (insertAct e.2) with
    | none => none
    | some (T1, o, ev) =>
      if T.capacity ≤ T1.capacity then
        (putObs c env T1 es).map fun r =>
          (r.1, ⟨.entry e.1 (insertAct e.2), .put o ev, T.capacity, T1.capacity⟩ :: r.2)
      else none

theorem putObs_runs (env : Env) (l : List (K × V)) {T U : Tbl K V} {h : List (Obs K V)}
    (e : putObs c env T l = some (U, h)) : GrowRuns c T h U := by
  induction l generalizing T U h with
  | nil => cases e; exact .nil _
  | cons x xs ih =>
    unfold putObs at e
    split at e
    · cases e
    · rename_i T1 o ev h1
      split at e
      · rename_i hle
        obtain ⟨r, h2, h3⟩ := Option.map_eq_some_iff.1 e
        cases h3
        exact .cons env ⟨o, ev, h1, rfl⟩ (Or.inl hle) (ih h2)
      · cases e

end

/-- A check that a sample history was not resized. -/
def noResize {K V : Type} (h : List (Obs K V)) : Bool :=
  h.all fun x => decide (x.before = 0) || decide (x.after = x.before)

/-- The 32 keys of the sample execution; all belong to one bucket. -/
def firstKeys : List (Nat × Nat) := (List.range 32).map fun k => (k, k)

set_option maxRecDepth 100000 in
set_option synthInstance.maxSize 1000 in
/-- Beside C25 and C26: 32 keys of one bucket are put into a cache of maximum capacity 64; the 33rd evicts
key 0. -/
theorem c25_sample :
    ((putObs (cacheCfg halfHash 0 64) sampleEnv (Tbl.withCapacity 0) firstKeys).bind fun r =>
      (cacheEntryOp (cacheCfg halfHash 0 64) sampleEnv r.1 32 (insertAct 32)).map fun t =>
        (noResize r.2, r.1.capacity, t.1.capacity, t.2.1, t.2.2,
          (bucketPart halfHash r.1.capacity (recency r.2) 32).getLast?)) =
      some (true, 64, 64, none, some (0, 0), some 0) := by
  decide +kernel

example : ∃ (h : List (Obs Nat Nat)) (T T' : Tbl Nat Nat) (x : Nat × Nat),
    GrowRuns (cacheCfg halfHash 0 64) (Tbl.withCapacity 0) h T ∧ NoResize h ∧
    CacheExec (cacheCfg halfHash 0 64) sampleEnv T (.entry 32 (insertAct 32)) (.put none (some x)) T' ∧
    T.capacity ≤ T'.capacity := by
  obtain ⟨r, h1, h2⟩ := Option.bind_eq_some_iff.1 c25_sample
  obtain ⟨t, h3, h4⟩ := Option.map_eq_some_iff.1 h2
  simp only [Prod.mk.injEq] at h4
  obtain ⟨a1, a2, a3, a4, a5, _⟩ := h4
  refine ⟨r.2, r.1, t.1, (0, 0), putObs_runs _ _ h1, ?_, ⟨none, some (0, 0), ?_, rfl⟩, by omega⟩
  · intro x hx
    unfold noResize at a1
    have := List.all_eq_true.1 a1 x hx
    rcases (by simpa using this : x.before = 0 ∨ x.after = x.before) with h | h
    · exact Or.inl h
    · exact Or.inr (Or.inl h)
  · rw [h3, ← a4, ← a5]

/-- Puts, in this order, 22 keys of the upper and 32 keys of the lower half. -/
def unevenKeys : List (Nat × Nat) :=
  ((List.range 22).map fun k => (1000 + k, k)) ++ (List.range 32).map fun k => (k, k)

set_option maxRecDepth 100000 in
set_option synthInstance.maxSize 1000 in
/-- C25, violated: the puts make a cache grow from capacity 64 to 128; then key 5 is looked up, and the
next `put` evicts key 5, although the 31 other keys of its bucket were not used since. The entries moved
to the new array are not on the LRU list of their bucket, and `evict_lru_head` takes an entry that is not
on the list only if the list is empty. -/
theorem c25_violated :
    ((putObs (cacheCfg halfHash 0 128) sampleEnv (Tbl.withCapacity 0) unevenKeys).bind fun r =>
      (cacheAlterOp (cacheCfg halfHash 0 128) sampleEnv r.1 5 true (fun _ => .keep)).bind fun q =>
        (cacheEntryOp (cacheCfg halfHash 0 128) sampleEnv q.1 100 (insertAct 100)).map fun t =>
          (r.1.capacity, q.1.capacity, q.2,
            (bucketEntries halfHash q.1.capacity (q.1.entries (cacheCfg halfHash 0 128)) 100).length,
            t.2.2)) =
      some (128, 128, some 5, 32, some (5, 5)) := by
  decide +kernel

/-- The hash function of the next sample: sixteen classes. -/
def sixteenHash (k : Nat) : Nat := (k % 16) * 2 ^ 60 + k / 16 % 1000 * 256

/-- Keeps key 0 and the keys of the eight classes in the middle. -/
def keepMiddle (_ : Unit) (e : Nat × Nat) : Unit × Nat × Bool :=
  ((), e.2, e.1 == 0 || (4 ≤ e.1 % 16 && e.1 % 16 < 12))

set_option maxRecDepth 100000 in
set_option synthInstance.maxSize 1000 in
/-- The condition of C26 is needed: 250 puts make a cache grow to capacity 512; `retain` then keeps 127
entries, finds only key 0 in the buckets it samples, and shrinks the table to capacity 64. The cache
holds 127 entries, more than its capacity. -/
theorem c26_shrink_counterexample :
    ((putObs (cacheCfg sixteenHash 0 512) sampleEnv (Tbl.withCapacity 0)
        ((List.range 250).map fun k => (k, k))).bind fun r =>
      (retainOp (cacheCfg sixteenHash 0 512) sampleEnv r.1 keepMiddle ()).map fun t =>
        (r.1.capacity, t.1.capacity, (t.1.entries (cacheCfg sixteenHash 0 512)).length)) =
      some (512, 64, 127) := by
  decide +kernel

end Scc.Seq
