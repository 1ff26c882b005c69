import Verif.Index.Proof

/-!
# C05, C06, C40, C42: sizing and indexing
-/

namespace Scc.Index

/-! ## C05 -/

/-- **C05 (agreement).** For every 64-bit hash and every two array lengths `2^a`, `2^b`, the bucket
of the hash in one array lies in the range computed from its bucket in the other array. -/
theorem c05_hash_in_range {a b hash : Nat} (ha : a ≤ 64) (hb : b ≤ 64) :
    InRange (fromIndexToRange (2 ^ a) (2 ^ b) (bucketIndex a hash)) (bucketIndex b hash) := by
  by_cases h : a < b
  · rw [inRange_grow h]
    exact (bucketIndex_prefix (by omega) hb).symm
  · rw [inRange_shrink (by omega)]
    exact bucketIndex_prefix (by omega) ha

/-- **C05 (bounds).** The range of a valid bucket is non-empty and inside the other array, so no
access is out of bounds. -/
theorem c05_range_bounds {a b i : Nat} (hi : i < 2 ^ a) :
    (fromIndexToRange (2 ^ a) (2 ^ b) i).1 < (fromIndexToRange (2 ^ a) (2 ^ b) i).2 ∧
    (fromIndexToRange (2 ^ a) (2 ^ b) i).2 ≤ 2 ^ b := by
  by_cases h : a < b
  · rw [range_grow h]
    have hp : 0 < 2 ^ (b - a) := Nat.two_pow_pos _
    refine ⟨by simp only; omega, ?_⟩
    simp only
    have h1 : (i + 1) * 2 ^ (b - a) ≤ 2 ^ a * 2 ^ (b - a) := Nat.mul_le_mul_right _ hi
    rw [← Nat.pow_add, Nat.add_mul, Nat.one_mul] at h1
    have : a + (b - a) = b := by omega
    rwa [this] at h1
  · rw [range_shrink (by omega)]
    refine ⟨by simp only; omega, ?_⟩
    simp only
    have : i / 2 ^ (a - b) < 2 ^ b := by
      apply Nat.div_lt_of_lt_mul
      rw [← Nat.pow_add]
      have : a - b + b = a := by omega
      rwa [this]
    omega

/-- **C05 (duality).** Bucket `j` of the second array is in the range of bucket `i` of the first
exactly when `i` is in the range of `j`: moving old buckets to their targets and collecting the old
buckets of a target are inverse views of the same relation. -/
theorem c05_range_dual (a b i j : Nat) :
    InRange (fromIndexToRange (2 ^ a) (2 ^ b) i) j ↔
    InRange (fromIndexToRange (2 ^ b) (2 ^ a) j) i := by
  rcases Nat.lt_trichotomy a b with h | h | h
  · rw [inRange_grow h, inRange_shrink (by omega)]; exact eq_comm
  · subst h
    rw [inRange_shrink (by omega), inRange_shrink (by omega)]; simp; exact eq_comm
  · rw [inRange_grow h, inRange_shrink (by omega)]; exact eq_comm

/-- **C05 (disjointness).** When the other array is at least as large, ranges of different buckets
do not overlap. -/
theorem c05_range_disjoint {a b i i' j : Nat} (hab : a ≤ b)
    (h1 : InRange (fromIndexToRange (2 ^ a) (2 ^ b) i) j)
    (h2 : InRange (fromIndexToRange (2 ^ a) (2 ^ b) i') j) : i = i' := by
  rcases Nat.lt_or_eq_of_le hab with h | h
  · rw [inRange_grow h] at h1 h2; omega
  · subst h; rw [inRange_shrink (by omega)] at h1 h2
    simp at h1 h2; omega

/-- **C05 (coverage).** Every bucket of the other array is in the range of some valid bucket. -/
theorem c05_range_covers {a b j : Nat} (hj : j < 2 ^ b) :
    ∃ i, i < 2 ^ a ∧ InRange (fromIndexToRange (2 ^ a) (2 ^ b) i) j := by
  have hr := c05_range_bounds (a := b) (b := a) hj
  refine ⟨(fromIndexToRange (2 ^ b) (2 ^ a) j).1, by omega, ?_⟩
  rw [c05_range_dual]
  exact ⟨Nat.le_refl _, hr.1⟩

/-- **C05 (bucket bound).** The index of every hash is inside the array. -/
theorem c05_index_bound {capacity hash : Nat} (hh : hash < 2 ^ 64) :
    bucketIndex (log2ArrayLen capacity) hash < arrayLen capacity := by
  obtain ⟨k, hk, _, h57, _⟩ := arrayLen_pow capacity
  have := log2ArrayLen_spec capacity
  rw [← this]
  apply bucketIndex_lt _ hh
  rw [hk] at this
  have := (Nat.pow_right_inj (by omega)).1 this
  omega

example : InRange (fromIndexToRange (2 ^ 3) (2 ^ 6) (bucketIndex 3 0xdeadbeef12345678))
    (bucketIndex 6 0xdeadbeef12345678) := by decide
example : fromIndexToRange (2 ^ 3) (2 ^ 6) 6 = (48, 56) := by decide
example : fromIndexToRange (2 ^ 6) (2 ^ 3) 55 = (6, 7) := by decide

/-! ## C06 -/

/-- A capacity the table may have: a power of two between 64 and the maximum. -/
def ValidCapacity (maxCap c : Nat) : Prop := (∃ k, c = 2 ^ k) ∧ 64 ≤ c ∧ c ≤ maxCap

/-- **C06 (new table).** The capacity of a container created with any requested capacity is a power
of two, at least 64, at most `2^62`, and at least the request when the request is at most `2^62`. -/
theorem c06_new_capacity (capacity : Nat) :
    ValidCapacity (2 ^ 62) (numSlots (arrayLen capacity)) ∧
    (capacity ≤ 2 ^ 62 → capacity ≤ numSlots (arrayLen capacity)) := by
  obtain ⟨k, hk, h1, h57, hmin⟩ := arrayLen_pow capacity
  unfold numSlots bucketLen
  rw [hk]
  have he : 2 ^ k * 32 = 2 ^ (k + 5) := by rw [Nat.pow_add]
  refine ⟨⟨⟨k + 5, he⟩, ?_, ?_⟩, ?_⟩
  · rw [he]; exact Nat.pow_le_pow_right (n := 2) (i := 6) (by omega) (by omega)
  · rw [he]; exact Nat.pow_le_pow_right (by omega) (by omega)
  · intro hc; rw [Nat.min_eq_left hc] at hmin; exact hmin

/-- **C06 (not wasteful).** Requests above 32 get less than twice what they ask for. -/
theorem c06_new_capacity_tight {capacity : Nat} (h : 32 < capacity) (h2 : capacity ≤ 2 ^ 62) :
    numSlots (arrayLen capacity) < 2 * capacity := by
  obtain ⟨j, hj⟩ := nextPow2_isPow capacity
  have hlt := nextPow2_lt (n := capacity) (by omega)
  have hge := le_nextPow2 capacity
  have h6 : 6 ≤ j := by
    rw [hj] at hge
    have : 2 ^ 5 < 2 ^ j := by omega
    have := (Nat.pow_lt_pow_iff_right (a := 2) (by omega)).1 this
    omega
  unfold numSlots arrayLen bucketLen
  rw [Nat.min_eq_left h2, hj, minimumCapacity_eq, pow_max]
  have : max j 6 = j := by omega
  rw [this]
  have h5 : 2 ^ j / 32 * 32 ≤ 2 ^ j := Nat.div_mul_le_self _ _
  omega

/-- **C06 (resize).** Whatever the occupancy estimate says, the capacity chosen by a resize is again
a valid capacity, is at least the minimum capacity in force and at most the maximum. -/
theorem c06_resize_valid {capacity minCap maxE est : Nat} (hmaxE : maxE ≤ 62)
    (hc : ValidCapacity (2 ^ maxE) capacity) (hmin : minCap ≤ 2 ^ maxE) :
    ValidCapacity (2 ^ maxE) (newCapacity capacity minCap (2 ^ maxE) est) ∧
    minCap ≤ newCapacity capacity minCap (2 ^ maxE) est := by
  obtain ⟨⟨k, rfl⟩, h64, hle⟩ := hc
  have hk : k ≤ maxE := (Nat.pow_le_pow_iff_right (by omega)).1 hle
  obtain ⟨m, hm⟩ := nextPow2_isPow minCap
  have hmle : 2 ^ m ≤ 2 ^ maxE := hm ▸ nextPow2_le hmin
  have hmE : m ≤ maxE := (Nat.pow_le_pow_iff_right (by omega)).1 hmle
  have hmge : minCap ≤ 2 ^ m := hm ▸ le_nextPow2 minCap
  unfold newCapacity
  split
  · rename_i hcond
    split
    · rename_i heq
      exact ⟨⟨⟨k, rfl⟩, h64, hle⟩, heq ▸ hmin⟩
    · rw [hm, pow_max]
      obtain ⟨e', he, h1, h2, _, _⟩ := doubleLoop_spec est maxE 64 (max m k) (by omega) (by omega)
      rw [he]
      refine ⟨⟨⟨e', rfl⟩, ?_, Nat.pow_le_pow_right (by omega) h2⟩, ?_⟩
      · exact Nat.le_trans h64 (Nat.pow_le_pow_right (by omega) (by omega))
      · exact Nat.le_trans hmge (Nat.pow_le_pow_right (by omega) (by omega))
  · rename_i hcond
    split
    · rename_i h8
      rw [minimumCapacity_eq]
      have hbound : max (max (est * 2) minCap) (2 ^ 6) ≤ 2 ^ k := by omega
      obtain ⟨n, hn⟩ := nextPow2_isPow (max (max (est * 2) minCap) (2 ^ 6))
      have h1 := nextPow2_le hbound
      have h2 := le_nextPow2 (max (max (est * 2) minCap) (2 ^ 6))
      refine ⟨⟨⟨n, hn⟩, by omega, by omega⟩, by omega⟩
    · exact ⟨⟨⟨k, rfl⟩, h64, hle⟩, by omega⟩

/-- **C06 (cache limits).** The maximum capacity of a `HashCache` is a power of two between 64 and
`2^62`, is at least its capacity, and is at least the requested maximum if that is at most `2^62`. -/
theorem c06_cache_limits (minCap maxCap : Nat) :
    let r := cacheWithCapacity minCap maxCap
    (∃ k, r.2.2 = 2 ^ k ∧ k ≤ 62) ∧ 64 ≤ r.2.2 ∧ r.1 ≤ r.2.2 ∧ r.2.1 ≤ r.2.2 ∧
      (maxCap ≤ 2 ^ 62 → maxCap ≤ r.2.2) := by
  simp only [cacheWithCapacity, minimumCapacity_eq, maxCapacityLimit]
  have hslots : (mapWithCapacity minCap).1 = (mapWithCapacity minCap).2 ∧
      (mapWithCapacity minCap).2 ≤ 2 ^ 62 := by
    unfold mapWithCapacity
    split
    · simp
    · exact ⟨rfl, (c06_new_capacity minCap).1.2.2⟩
  generalize mapWithCapacity minCap = r at hslots
  obtain ⟨r1, r2⟩ := r
  simp only at hslots ⊢
  obtain ⟨rfl, hr⟩ := hslots
  obtain ⟨k, hk⟩ := nextPow2_isPow (min (max (max maxCap r1) (2 ^ 6)) (2 ^ 62))
  have h1 : nextPow2 (min (max (max maxCap r1) (2 ^ 6)) (2 ^ 62)) ≤ 2 ^ 62 :=
    nextPow2_le (Nat.min_le_right _ _)
  have h2 := le_nextPow2 (min (max (max maxCap r1) (2 ^ 6)) (2 ^ 62))
  refine ⟨⟨k, hk, (Nat.pow_le_pow_iff_right (a := 2) (by omega)).1 (hk ▸ h1)⟩, ?_, ?_, ?_, ?_⟩ <;> omega

example : ValidCapacity (2 ^ 62) 1024 := ⟨⟨10, rfl⟩, by decide, by decide⟩
example : numSlots (arrayLen 1000) = 1024 := by decide
example : newCapacity 1024 11000 (2 ^ 62) 5 = 16384 := by decide
example : newCapacity 1024 0 (2 ^ 62) 832 = 2048 := by decide
example : newCapacity 1024 0 (2 ^ 62) 100 = 256 := by decide
example : newCapacity 256 0 256 250 = 256 := by decide

/-! ## C40 -/

theorem sampleSize_pow {lg : Nat} (h1 : 1 ≤ lg) (h2 : lg ≤ 57) :
    ∃ k, sampleSize lg = 2 ^ k ∧ k + 1 ≤ lg := by
  have : ∀ lg, 1 ≤ lg → lg ≤ 57 → ∃ k, sampleSize lg = 2 ^ k ∧ k + 1 ≤ lg := by
    intro lg h1 h2
    obtain ⟨k, hk⟩ := nextPow2_isPow lg
    refine ⟨k, hk, ?_⟩
    have hlt := nextPow2_lt h1
    rw [hk] at hlt
    -- 2^k < 2 * lg ≤ 2^lg
    have : lg ≤ 2 ^ (lg - 1) := by
      have := Nat.lt_two_pow_self (n := lg - 1)
      omega
    have h3 : 2 * 2 ^ (lg - 1) = 2 ^ lg := by
      have : lg = (lg - 1) + 1 := by omega
      rw [this, Nat.pow_succ]; simp; omega
    have h4 : 2 ^ k < 2 ^ lg := by omega
    have := (Nat.pow_lt_pow_iff_right (a := 2) (by omega)).1 h4
    omega
  exact this lg h1 h2

/-- **C40 (in bounds, no double counting).** For every array length up to `2^57` buckets and every
valid starting index, all sampled buckets exist, no bucket is sampled twice, and exactly
`2 * sample_size` buckets are read. -/
theorem c40_sample_indices {lg i : Nat} (h1 : 1 ≤ lg) (h2 : lg ≤ 57) (hi : i < 2 ^ lg) :
    (∀ j ∈ sampledIndices lg i, j < 2 ^ lg) ∧ (sampledIndices lg i).Nodup ∧
    (sampledIndices lg i).length = 2 * sampleSize lg := by
  obtain ⟨k, hk, hkl⟩ := sampleSize_pow h1 h2
  have h64 : i < 2 ^ 64 := Nat.lt_of_lt_of_le hi (Nat.pow_le_pow_right (by omega) (by omega))
  have hm := and_not64 h64 (k := k) (by omega)
  have hpos : 0 < 2 ^ k := Nat.two_pow_pos k
  have hlg : 2 ^ lg = 2 ^ (lg - k) * 2 ^ k := by rw [← Nat.pow_add]; congr 1; omega
  have hq : i / 2 ^ k < 2 ^ (lg - k) := by
    apply Nat.div_lt_of_lt_mul; rw [Nat.mul_comm, ← hlg]; exact hi
  have htwo : 2 ≤ 2 ^ (lg - k) := by
    have := Nat.pow_le_pow_right (n := 2) (i := 1) (j := lg - k) (by omega) (by omega)
    simpa using this
  have hb1 : (i / 2 ^ k + 1) * 2 ^ k ≤ 2 ^ lg := by
    rw [hlg]; exact Nat.mul_le_mul_right _ hq
  have hb2 : 2 * 2 ^ k ≤ 2 ^ lg := by rw [hlg]; exact Nat.mul_le_mul_right _ htwo
  unfold sampledIndices
  simp only [hk, hm]
  generalize hA : i / 2 ^ k = q at *
  generalize hS : 2 ^ k = s at *
  generalize hL : 2 ^ lg = L at *
  have hqs : q = 0 ∨ s ≤ q * s := by
    rcases Nat.eq_zero_or_pos q with h | h
    · exact Or.inl h
    · exact Or.inr (Nat.le_mul_of_pos_left s h)
  have hq0 : q * s = 0 ↔ q = 0 := by
    constructor
    · intro h; rcases Nat.mul_eq_zero.1 h with h | h
      · exact h
      · omega
    · rintro rfl; simp
  rw [Nat.add_mul, Nat.one_mul] at hb1
  refine ⟨?_, ?_, by simp; omega⟩
  · intro j hj
    simp only [List.mem_append, List.mem_map, List.mem_range] at hj
    rcases hj with ⟨x, hx, rfl⟩ | ⟨x, hx, rfl⟩
    · omega
    · split <;> omega
  · rw [List.nodup_append]
    refine ⟨?_, ?_, ?_⟩
    · exact List.Pairwise.map _ (fun a b h => by simpa using h) List.nodup_range
    · exact List.Pairwise.map _ (fun a b h => by simpa using h) List.nodup_range
    · intro a ha b hb
      simp only [List.mem_map, List.mem_range] at ha hb
      obtain ⟨x, hx, rfl⟩ := ha
      obtain ⟨y, hy, rfl⟩ := hb
      by_cases h0 : q * s = 0
      · rw [if_pos h0, h0]; omega
      · rw [if_neg h0]
        have : ¬ q = 0 := fun h => h0 (hq0.2 h)
        omega

theorem sum_map_const {l : List Nat} {f : Nat → Nat} {c : Nat} (h : ∀ x ∈ l, f x = c) :
    (l.map f).sum = l.length * c := by
  induction l with
  | nil => simp
  | cons a l ih =>
    have h1 := ih (fun x hx => h x (by simp [hx]))
    simp only [List.map_cons, List.sum_cons, List.length_cons, h1, h a (by simp)]
    rw [Nat.add_mul]; omega

/-- **C40 (scaling).** If every bucket holds `c` entries, the estimate is exact: the total number
of entries `c * 2^lg`. -/
theorem c40_sample_exact_uniform {lg i c : Nat} {len : Nat → Nat} (h1 : 1 ≤ lg) (h2 : lg ≤ 57)
    (hi : i < 2 ^ lg) (hu : ∀ j, j < 2 ^ lg → len j = c) :
    sample lg i len = c * 2 ^ lg := by
  obtain ⟨hb, _, hlen⟩ := c40_sample_indices h1 h2 hi
  obtain ⟨k, hk, hkl⟩ := sampleSize_pow h1 h2
  unfold sample
  rw [sum_map_const (fun x hx => hu x (hb x hx)), hlen, hk]
  have he : 2 ^ k * 2 = 2 ^ (k + 1) := by rw [Nat.pow_succ]
  rw [he, Nat.pow_div hkl (by omega), Nat.mul_comm 2 (2 ^ k), he,
    Nat.mul_comm (2 ^ (k + 1)) c, Nat.mul_assoc, ← Nat.pow_add]
  congr 2; omega

/-- **C40 (empty).** The estimate of a table without entries is zero. -/
theorem c40_sample_zero {lg i : Nat} {len : Nat → Nat} (h : ∀ j, len j = 0) :
    sample lg i len = 0 := by
  unfold sample
  rw [sum_map_const (c := 0) (fun x _ => h x)]; simp

example : sampledIndices 4 9 = [8, 9, 10, 11, 0, 1, 2, 3] := by decide
example : sample 4 9 (fun _ => 3) = 48 := by decide

/-! ## C42 -/

/-- **C42 (reason to grow).** The capacity increases only if the minimum capacity demands it or the
estimated load is at least 13/16. -/
theorem c42_grow_reason {capacity minCap maxE est : Nat}
    (hc : ValidCapacity (2 ^ maxE) capacity)
    (hg : capacity < newCapacity capacity minCap (2 ^ maxE) est) :
    capacity < minCap ∨ 13 * capacity ≤ 16 * est := by
  by_cases hcond : capacity < minCap ∨ est ≥ capacity / 16 * 13
  · rcases hcond with h | h
    · exact Or.inl h
    · right
      obtain ⟨⟨k, rfl⟩, h64, hle⟩ := hc
      have hk6 : 6 ≤ k := (Nat.pow_le_pow_iff_right (a := 2) (by omega)).1 (show 2 ^ 6 ≤ 2 ^ k from h64)
      have : 2 ^ k = 2 ^ (k - 4) * 16 := by
        show _ = _ * 2 ^ 4
        rw [← Nat.pow_add]; congr 1; omega
      omega
  · exfalso
    unfold newCapacity at hg
    rw [if_neg hcond] at hg
    split at hg
    · rename_i h8
      obtain ⟨⟨k, rfl⟩, h64, hle⟩ := hc
      rw [minimumCapacity_eq] at hg
      have := nextPow2_le (n := max (max (est * 2) minCap) (2 ^ 6)) (k := k) (by omega)
      omega
    · omega

/-- **C42 (reason to shrink).** The capacity decreases only if the estimated load is at most 1/8. -/
theorem c42_shrink_reason {capacity minCap maxE est : Nat} (hmaxE : maxE ≤ 62)
    (hc : ValidCapacity (2 ^ maxE) capacity) (hmin : minCap ≤ 2 ^ maxE)
    (hg : newCapacity capacity minCap (2 ^ maxE) est < capacity) : 8 * est ≤ capacity := by
  unfold newCapacity at hg
  split at hg
  · exfalso
    split at hg
    · omega
    · obtain ⟨⟨k, rfl⟩, h64, hle⟩ := hc
      have hk : k ≤ maxE := (Nat.pow_le_pow_iff_right (by omega)).1 hle
      obtain ⟨m, hm⟩ := nextPow2_isPow minCap
      have hmle : 2 ^ m ≤ 2 ^ maxE := hm ▸ nextPow2_le hmin
      have hmE : m ≤ maxE := (Nat.pow_le_pow_iff_right (by omega)).1 hmle
      rw [hm, pow_max] at hg
      obtain ⟨e', he, h1, _⟩ := doubleLoop_spec est maxE 64 (max m k) (by omega) (by omega)
      rw [he] at hg
      have : 2 ^ k ≤ 2 ^ e' := Nat.pow_le_pow_right (by omega) (by omega)
      omega
  · split at hg
    · omega
    · omega

/-- **C42 (a resize settles).** Re-deciding with the same estimate and limits right after a resize
changes nothing: the policy never oscillates for a fixed set of entries. -/
theorem c42_resize_settles {capacity minCap maxE est : Nat} (hmaxE : maxE ≤ 62)
    (hc : ValidCapacity (2 ^ maxE) capacity) (hmin : minCap ≤ 2 ^ maxE) :
    let c' := newCapacity capacity minCap (2 ^ maxE) est
    newCapacity c' minCap (2 ^ maxE) est = c' := by
  simp only
  obtain ⟨hv, hge⟩ := c06_resize_valid (est := est) hmaxE hc hmin
  obtain ⟨m, hm⟩ := nextPow2_isPow minCap
  have hmle : 2 ^ m ≤ 2 ^ maxE := hm ▸ nextPow2_le hmin
  have hmE : m ≤ maxE := (Nat.pow_le_pow_iff_right (by omega)).1 hmle
  -- characterise the new capacity: either at the limit, or not overloaded and minimal
  have key : ∀ N, ValidCapacity (2 ^ maxE) N → minCap ≤ N →
      (N = 2 ^ maxE ∧ est > N / 8 ∨ (est < N / 16 * 13 ∧
        (est ≤ N / 8 → N = nextPow2 (max (max (est * 2) minCap) (2 ^ 6))))) →
      newCapacity N minCap (2 ^ maxE) est = N := by
    intro N hN hmN hcase
    obtain ⟨⟨n, rfl⟩, h64, hle⟩ := hN
    have hn6 : 6 ≤ n := (Nat.pow_le_pow_iff_right (a := 2) (by omega)).1 (show 2 ^ 6 ≤ 2 ^ n from h64)
    have h16 : 2 ^ n = 2 ^ (n - 4) * 16 := by
      show _ = _ * 2 ^ 4
      rw [← Nat.pow_add]; congr 1; omega
    unfold newCapacity
    rcases hcase with ⟨h1, h2⟩ | ⟨h1, h2⟩
    · rw [← h1]
      split
      · simp
      · rw [if_neg (by omega)]
    · rw [if_neg (by omega)]
      split
      · rename_i h8; rw [minimumCapacity_eq]; exact (h2 h8).symm
      · rfl
  apply key _ hv hge
  -- the case analysis of the first decision
  obtain ⟨⟨k, rfl⟩, h64, hle⟩ := hc
  have hk : k ≤ maxE := (Nat.pow_le_pow_iff_right (by omega)).1 hle
  have hk6 : 6 ≤ k := (Nat.pow_le_pow_iff_right (a := 2) (by omega)).1 (show 2 ^ 6 ≤ 2 ^ k from h64)
  have h16 : 2 ^ k = 2 ^ (k - 4) * 16 := by
    show _ = _ * 2 ^ 4
    rw [← Nat.pow_add]; congr 1; omega
  by_cases hcond : 2 ^ k < minCap ∨ est ≥ 2 ^ k / 16 * 13
  · by_cases heq : 2 ^ k = 2 ^ maxE
    · have hN : newCapacity (2 ^ k) minCap (2 ^ maxE) est = 2 ^ k := by
        unfold newCapacity; rw [if_pos hcond, if_pos heq]
      rw [hN]
      left; refine ⟨heq, ?_⟩
      rcases hcond with h | h
      · omega
      · omega
    · obtain ⟨e', he, h1, h2, h3, h4⟩ := doubleLoop_spec est maxE 64 (max m k) (by omega) (by omega)
      have hN : newCapacity (2 ^ k) minCap (2 ^ maxE) est = 2 ^ e' := by
        unfold newCapacity; rw [if_pos hcond, if_neg heq, hm, pow_max, he]
      rw [hN] at hge ⊢
      have hmin2 : minCap ≤ 2 ^ m := hm ▸ le_nextPow2 minCap
      have hcl : est ≤ 2 ^ e' / 8 → 2 ^ e' = nextPow2 (max (max (est * 2) minCap) (2 ^ 6)) := by
        intro h8
        rcases h4 with h4 | h4
        · -- no doubling happened: the capacity is the larger of the two powers
          have hek : e' = m ∧ k < m ∨ (e' = k ∧ m ≤ k) := by omega
          rcases hek with ⟨h5, h6⟩ | ⟨h5, h6⟩
          · subst h5
            apply Nat.le_antisymm
            · rw [← hm]
              obtain ⟨z, hz⟩ := nextPow2_isPow (max (max (est * 2) minCap) (2 ^ 6))
              rw [hz]; apply nextPow2_le; rw [← hz]
              exact Nat.le_trans (by omega) (le_nextPow2 _)
            · apply nextPow2_le
              have : 2 ^ 6 ≤ 2 ^ e' := Nat.pow_le_pow_right (by omega) (by omega)
              omega
          · exfalso
            subst h5
            rcases hcond with h | h
            · have : 2 ^ m ≤ 2 ^ e' := Nat.pow_le_pow_right (by omega) h6
              omega
            · omega
        · omega
      have he6 : 6 ≤ e' := by omega
      have h16' : 2 ^ e' = 2 ^ (e' - 4) * 16 := by
        show _ = _ * 2 ^ 4
        rw [← Nat.pow_add]; congr 1; omega
      have hpos := Nat.two_pow_pos (e' - 4)
      by_cases h8 : est ≤ 2 ^ e' / 8
      · right; exact ⟨by omega, hcl⟩
      · rcases h3 with h3 | h3
        · right; exact ⟨by omega, hcl⟩
        · left; exact ⟨by rw [h3], by omega⟩
  · by_cases h8 : est ≤ 2 ^ k / 8
    · have hN : newCapacity (2 ^ k) minCap (2 ^ maxE) est =
          nextPow2 (max (max (est * 2) minCap) (2 ^ 6)) := by
        unfold newCapacity; rw [if_neg hcond, if_pos h8, minimumCapacity_eq]
      rw [hN]
      right
      refine ⟨?_, fun _ => rfl⟩
      have h1 := le_nextPow2 (max (max (est * 2) minCap) (2 ^ 6))
      omega
    · have hN : newCapacity (2 ^ k) minCap (2 ^ maxE) est = 2 ^ k := by
        unfold newCapacity; rw [if_neg hcond, if_neg h8]
      rw [hN]
      right
      exact ⟨by omega, fun h => absurd h h8⟩

example : newCapacity (newCapacity 64 0 (2 ^ 62) 60) 0 (2 ^ 62) 60 = 128 := by decide
example : newCapacity 64 0 (2 ^ 62) 60 = 128 := by decide

end Scc.Index
