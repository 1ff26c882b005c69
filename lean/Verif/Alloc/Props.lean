import Verif.Alloc.Model

/-!
# C65: the memory of a hash table

Statement: whatever capacity is asked for and whatever the type of the entries is, the requests to the allocator obey its contract, every bucket
and every slot of a table is inside the memory it was given, aligned and apart from all others, the memory is given back as it was
asked for, and a failing construction leaves nothing behind.

* `c65_partial`: true if the entries have a size and the two sizes fit in `isize::MAX` (`Fits`); `c65_usual`: for 64 bits this is so
  for all capacities up to 2^40 and entries of up to 64 kB.
* `c65_zero_size`: entries without a size (`HashSet<()>`): the allocator is asked for 0 bytes, which is undefined behaviour.
* `c65_cache_huge`, `c65_map_huge`: for capacities above 2^61 the size of a `HashCache` is cut off to 128 bytes in release builds; that of a
  `HashMap` is more than `isize::MAX`.
* `c65_collect`: this happens when an iterator with a large upper bound is collected.
* `c65_short`, `c65_short64`: with large entries the size of the data blocks is cut off: all requests are valid, but most slots are outside the memory.
* `c65_leak`: if the size of the data blocks is too large, the panic leaves the buckets behind.
-/

namespace Scc.Alloc

open Scc.Index

/-- The statement. -/
structure Sound (c : Cfg) (capacity : Nat) : Prop where
  /-- All requests obey the contract of the allocator. -/
  requests : ∀ a1 a2 l, l ∈ (c.new capacity a1 a2).1 → l.Ok c.bits
  /-- A panic leaves nothing behind. -/
  panic : ∀ a1 a2 reqs lost, c.new capacity a1 a2 = (reqs, .panic lost) → lost = []
  /-- An array has the wanted length, all its buckets and slots are in its memory and aligned, and the memory is given back as it was asked for. -/
  done : ∀ p q reqs a, c.new capacity (some p) (some q) = (reqs, .done a) → ∃ l1 l2, reqs = [l1, l2] ∧
    (Answer c.bits l1 p → Answer c.bits l2 q →
      min capacity (2 ^ (c.bits - 2)) ≤ 32 * a.len ∧
      (∀ i, i < a.len → Within p l1 (c.bucketAt a i) c.sb ∧ c.bucketAt a i % 64 = 0) ∧
      (∀ i j, i < a.len → j < 32 → Within q l2 (c.slotAt a i j) c.es ∧ c.slotAt a i j % c.ea = 0) ∧
      c.drop a = some [(p, l1), (q, l2)])

/-- The sizes fit. -/
structure Fits (c : Cfg) (capacity : Nat) : Prop where
  pos : 0 < c.es
  buckets : (c.len capacity + 1) * c.sb < 2 ^ (c.bits - 1)
  blocks : 32 * c.es * c.len capacity + (c.ea - 1) < 2 ^ (c.bits - 1)

theorem len_pos (c : Cfg) (capacity : Nat) : 0 < c.len capacity := by
  unfold Cfg.len
  have := Nat.le_max_right (nextPow2 (min capacity (2 ^ (c.bits - 2)))) 64
  omega

theorem len_cap {c : Cfg} (capacity : Nat) : min capacity (2 ^ (c.bits - 2)) ≤ 32 * c.len capacity := by
  unfold Cfg.len
  obtain ⟨k, hk⟩ := nextPow2_isPow (min capacity (2 ^ (c.bits - 2)))
  have hle := le_nextPow2 (min capacity (2 ^ (c.bits - 2)))
  rw [hk] at hle ⊢
  have h64 : (64 : Nat) = 2 ^ 6 := by decide
  rw [h64, pow_max]
  have hd : (2 : Nat) ^ max k 6 = 32 * 2 ^ (max k 6 - 5) := by
    have : max k 6 = 5 + (max k 6 - 5) := by omega
    rw [this, Nat.pow_add]
    have : 5 + (max k 6 - 5) - 5 = max k 6 - 5 := by omega
    rw [this]
  have hmono : (2 : Nat) ^ k ≤ 2 ^ max k 6 := Nat.pow_le_pow_right (by decide) (Nat.le_max_left _ _)
  omega

theorem half_lt {n m : Nat} (hm : 1 ≤ m) (h : n < 2 ^ (m - 1)) : n < 2 ^ m := by
  have : (2 : Nat) ^ m = 2 ^ (m - 1) * 2 := by rw [← Nat.pow_succ]; congr 1; omega
  omega

theorem mul_fits {c : Cfg} (hw : c.Wf) {a b : Nat} (h : a * b < 2 ^ (c.bits - 1)) : c.mul a b = some (a * b) := by
  unfold Cfg.mul
  rw [if_pos (half_lt (by have := hw.bits; omega) h)]

theorem bucketLayout_fits {c : Cfg} {capacity : Nat} (hw : c.Wf) (hf : Fits c capacity) :
    c.bucketLayout (c.len capacity) = some ⟨(c.len capacity + 1) * c.sb, 1⟩ := by
  unfold Cfg.bucketLayout
  rw [mul_fits hw hf.buckets]; rfl

theorem blockLayout_fits {c : Cfg} {capacity : Nat} (hw : c.Wf) (hf : Fits c capacity) :
    c.blockLayout (c.len capacity) = some ⟨32 * c.es * c.len capacity, c.ea⟩ := by
  unfold Cfg.blockLayout
  rw [mul_fits hw (by have := hf.blocks; omega)]
  show (if _ then _ else _) = _
  rw [if_pos hf.blocks]

theorem alignOff_lt (p : Nat) : alignOff p < 64 := Nat.mod_lt _ (by decide)

theorem alignOff_spec (p : Nat) : (p + alignOff p) % 64 = 0 := by unfold alignOff; omega

/-- **C65.** The statement holds if the sizes fit. -/
theorem c65_partial {c : Cfg} {capacity : Nat} (hw : c.Wf) (hf : Fits c capacity) : Sound c capacity := by
  have h1 := bucketLayout_fits hw hf
  have h2 := blockLayout_fits hw hf
  have hsb : 64 ≤ c.sb ∧ c.sb % 64 = 0 := by rcases hw.sb with e | e <;> rw [e] <;> decide
  refine ⟨?_, ?_, ?_⟩
  · intro a1 a2 l hl
    have ok1 : (⟨(c.len capacity + 1) * c.sb, 1⟩ : Layout).Ok c.bits := ⟨Nat.mul_pos (by omega) (by omega), by
      show (c.len capacity + 1) * c.sb + 0 < _
      exact hf.buckets⟩
    have ok2 : (⟨32 * c.es * c.len capacity, c.ea⟩ : Layout).Ok c.bits :=
      ⟨Nat.mul_pos (Nat.mul_pos (by decide) hf.pos) (len_pos _ _), hf.blocks⟩
    unfold Cfg.new at hl
    simp only [h1] at hl
    cases a1 with
    | none => simp only [List.mem_singleton] at hl; rw [hl]; exact ok1
    | some p =>
      simp only [h2] at hl
      cases a2 with
      | none =>
        simp only [List.mem_cons, List.not_mem_nil, or_false] at hl
        rcases hl with e | e
        · rw [e]; exact ok1
        · rw [e]; exact ok2
      | some q =>
        simp only [List.mem_cons, List.not_mem_nil, or_false] at hl
        rcases hl with e | e
        · rw [e]; exact ok1
        · rw [e]; exact ok2
  · intro a1 a2 reqs lost h
    unfold Cfg.new at h
    simp only [h1] at h
    cases a1 with
    | none => simp only [Prod.mk.injEq, Out.panic.injEq] at h; exact h.2.symm
    | some p =>
      simp only [h2] at h
      cases a2 with
      | none => simp only [Prod.mk.injEq, Out.panic.injEq] at h; exact h.2.symm
      | some q => simp only [Prod.mk.injEq, reduceCtorEq, and_false] at h
  · intro p q reqs a h
    unfold Cfg.new at h
    simp only [h1, h2, Prod.mk.injEq, Out.done.injEq] at h
    obtain ⟨hr, ha⟩ := h
    refine ⟨_, _, hr.symm, fun _ hq => ?_⟩
    have hoff := alignOff_lt p
    have hu : toU16 (alignOff p) = alignOff p := if_pos (by omega)
    subst ha
    refine ⟨len_cap capacity, fun i hi => ?_, fun i j hi hj => ?_, ?_⟩
    · have hi : i < c.len capacity := hi
      have hm : (i + 1) * c.sb ≤ c.len capacity * c.sb := Nat.mul_le_mul_right _ hi
      rw [Nat.add_mul] at hm
      refine ⟨⟨?_, ?_⟩, ?_⟩
      · show p ≤ p + alignOff p + i * c.sb; omega
      · show p + alignOff p + i * c.sb + c.sb ≤ p + (c.len capacity + 1) * c.sb
        rw [Nat.add_mul]; omega
      · show (p + alignOff p + i * c.sb) % 64 = 0
        rw [Nat.add_mod, alignOff_spec, Nat.mul_mod, hsb.2]; simp
    · have hi : i < c.len capacity := hi
      have hm : (i + 1) * (32 * c.es) ≤ c.len capacity * (32 * c.es) := Nat.mul_le_mul_right _ hi
      have hn : (j + 1) * c.es ≤ 32 * c.es := Nat.mul_le_mul_right _ hj
      rw [Nat.add_mul] at hm hn
      refine ⟨⟨?_, ?_⟩, ?_⟩
      · show q ≤ q + i * (32 * c.es) + j * c.es; omega
      · show q + i * (32 * c.es) + j * c.es + c.es ≤ q + 32 * c.es * c.len capacity
        have : c.len capacity * (32 * c.es) = 32 * c.es * c.len capacity := Nat.mul_comm _ _
        omega
      · show (q + i * (32 * c.es) + j * c.es) % c.ea = 0
        have hq : q % c.ea = 0 := hq.2.1
        have he := hw.es
        rw [Nat.add_mod, Nat.add_mod q, hq, Nat.mul_mod i, Nat.mul_mod 32, he, Nat.mul_mod j, he]
        simp
    · unfold Cfg.drop
      simp only [h1, h2]
      rw [hu]
      have : p + alignOff p - alignOff p = p := by omega
      rw [this]

/-- Slots of different places do not overlap. -/
theorem c65_apart {c : Cfg} {a : Arr} {i j i' j' : Nat} (hj : j < 32) (hj' : j' < 32) (h : (i, j) ≠ (i', j')) :
    c.slotAt a i j + c.es ≤ c.slotAt a i' j' ∨ c.slotAt a i' j' + c.es ≤ c.slotAt a i j := by
  have key : ∀ i j i' j', j < 32 → 32 * i + j < 32 * i' + j' → c.slotAt a i j + c.es ≤ c.slotAt a i' j' := by
    intro i j i' j' hj hlt
    unfold Cfg.slotAt
    have e1 : i * (32 * c.es) + j * c.es = (32 * i + j) * c.es := by rw [Nat.add_mul, Nat.mul_comm 32 i, Nat.mul_assoc]
    have e2 : i' * (32 * c.es) + j' * c.es = (32 * i' + j') * c.es := by rw [Nat.add_mul, Nat.mul_comm 32 i', Nat.mul_assoc]
    have : (32 * i + j + 1) * c.es ≤ (32 * i' + j') * c.es := Nat.mul_le_mul_right _ hlt
    rw [Nat.add_mul (32 * i + j)] at this
    omega
  have hne : 32 * i + j ≠ 32 * i' + j' := fun e => h (by
    have : i = i' := by omega
    have : j = j' := by omega
    simp [*])
  rcases Nat.lt_or_gt_of_ne hne with e | e
  · exact .inl (key i j i' j' hj e)
  · exact .inr (key i' j' i j hj' e)

theorem len_le {c : Cfg} {capacity k : Nat} (h : capacity ≤ 2 ^ k) (hk : 6 ≤ k) : c.len capacity ≤ 2 ^ (k - 5) := by
  unfold Cfg.len
  have h1 : nextPow2 (min capacity (2 ^ (c.bits - 2))) ≤ 2 ^ k := nextPow2_le (Nat.le_trans (Nat.min_le_left _ _) h)
  have h2 : (64 : Nat) ≤ 2 ^ k := Nat.pow_le_pow_right (n := 2) (by decide) hk
  have h3 : max (nextPow2 (min capacity (2 ^ (c.bits - 2)))) 64 ≤ 2 ^ k := Nat.max_le.2 ⟨h1, h2⟩
  have hd : (2 : Nat) ^ k = 32 * 2 ^ (k - 5) := by
    have : k = 5 + (k - 5) := by omega
    rw [this, Nat.pow_add]
    have : 5 + (k - 5) - 5 = k - 5 := by omega
    rw [this]
  omega

/-- With 64 bits, all is well for capacities up to 2^40 and entries of up to 64 kB. -/
theorem c65_usual {c : Cfg} (hw : c.Wf) (hb : c.bits = 64) {capacity : Nat} (hc : capacity ≤ 2 ^ 40) (hp : 0 < c.es) (he : c.es ≤ 2 ^ 16) :
    Sound c capacity := by
  have hl := len_le (c := c) hc (by decide)
  have hle : c.ea ≤ c.es := Nat.le_of_dvd hp (Nat.dvd_of_mod_eq_zero hw.es)
  have hs : c.sb ≤ 128 := by rcases hw.sb with e | e <;> rw [e] <;> decide
  have h1 : (c.len capacity + 1) * c.sb ≤ (2 ^ (40 - 5) + 1) * 128 := Nat.mul_le_mul (by omega) hs
  have h2 : 32 * c.es * c.len capacity ≤ 32 * 2 ^ 16 * 2 ^ (40 - 5) := Nat.mul_le_mul (by omega) hl
  refine c65_partial hw ⟨hp, ?_, ?_⟩
  · rw [hb]
    exact Nat.lt_of_le_of_lt h1 (by decide)
  · rw [hb]
    have h3 : 32 * c.es * c.len capacity + (c.ea - 1) ≤ 32 * 2 ^ 16 * 2 ^ (40 - 5) + 2 ^ 16 := Nat.add_le_add h2 (by omega)
    exact Nat.lt_of_le_of_lt h3 (by decide)

/-- A 64-bit machine, `HashMap<u64, u64>`. -/
example : Sound ⟨64, false, 64, 16, 8⟩ 1000 :=
  c65_usual ⟨by decide, .inl rfl, by decide, rfl, by decide⟩ rfl (by decide) (by decide) (by decide)

example : (⟨64, false, 64, 16, 8⟩ : Cfg).new 1000 (some 4100) (some 8192) = ([⟨33 * 64, 1⟩, ⟨16384, 8⟩], .done ⟨4160, 8192, 32, 60⟩) := by
  decide +kernel

/-- How `new` ends if both requests are answered. -/
theorem new_done {c : Cfg} {capacity p q : Nat} {l1 l2 : Layout} (h1 : c.bucketLayout (c.len capacity) = some l1)
    (h2 : c.blockLayout (c.len capacity) = some l2) :
    c.new capacity (some p) (some q) = ([l1, l2], .done ⟨p + alignOff p, q, c.len capacity, toU16 (alignOff p)⟩) := by
  unfold Cfg.new
  simp only [h1, h2]

/-! ## Violations -/

/-- Entries without a size, `HashSet<()>`: 0 bytes are requested, on every machine, for every capacity for which the buckets can be allocated. -/
theorem c65_zero_size {c : Cfg} (hw : c.Wf) (he : c.es = 0) {capacity p : Nat} {l : Layout} (hl : c.bucketLayout (c.len capacity) = some l)
    (a2 : Option Nat) (hea : c.ea < 2 ^ (c.bits - 1)) : ⟨0, c.ea⟩ ∈ (c.new capacity (some p) a2).1 ∧ ¬ Layout.Ok c.bits ⟨0, c.ea⟩ := by
  refine ⟨?_, fun h => Nat.lt_irrefl 0 h.1⟩
  have h2 : c.blockLayout (c.len capacity) = some ⟨0, c.ea⟩ := by
    unfold Cfg.blockLayout Cfg.mul
    rw [he]
    simp only [Nat.mul_zero, Nat.zero_mul]
    rw [if_pos (Nat.pow_pos (by decide))]
    show (if _ then _ else _) = _
    rw [if_pos (by have := hw.ea; omega)]
  unfold Cfg.new
  simp only [hl, h2]
  cases a2 <;> simp

/-- `HashSet<()>` with 64 bits. -/
theorem c65_set_of_unit (checks : Bool) (a2 : Option Nat) :
    ∃ l, l ∈ ((⟨64, checks, 64, 0, 1⟩ : Cfg).new 1 (some 64) a2).1 ∧ ¬ l.Ok 64 := by
  refine ⟨⟨0, 1⟩, c65_zero_size (c := ⟨64, checks, 64, 0, 1⟩) ⟨(by show 16 ≤ 64 ∧ 64 ≤ 64; decide), .inl rfl, Nat.one_pos, rfl, (by show 32 * 0 < 2 ^ 63; decide)⟩ rfl (l := ⟨192, 1⟩) ?_ a2
    (by show 1 < 2 ^ 63; decide)⟩
  cases checks <;> decide +kernel

theorem len_huge {c : Cfg} (hb : 8 ≤ c.bits) {capacity : Nat} (h : 2 ^ (c.bits - 3) < capacity) : c.len capacity = 2 ^ (c.bits - 7) := by
  unfold Cfg.len
  have hm : 2 ^ (c.bits - 3) < min capacity (2 ^ (c.bits - 2)) := by
    have : (2 : Nat) ^ (c.bits - 3) < 2 ^ (c.bits - 2) := Nat.pow_lt_pow_right (by decide) (by omega)
    omega
  have h1 : nextPow2 (min capacity (2 ^ (c.bits - 2))) = 2 ^ (c.bits - 2) := by
    obtain ⟨k, hk⟩ := nextPow2_isPow (min capacity (2 ^ (c.bits - 2)))
    have hge := le_nextPow2 (min capacity (2 ^ (c.bits - 2)))
    have hle : nextPow2 (min capacity (2 ^ (c.bits - 2))) ≤ 2 ^ (c.bits - 2) := nextPow2_le (Nat.min_le_right _ _)
    rw [hk] at hge hle ⊢
    have ha : c.bits - 3 < k := (Nat.pow_lt_pow_iff_right (a := 2) (by decide)).1 (by omega)
    have hb' : k ≤ c.bits - 2 := (Nat.pow_le_pow_iff_right (a := 2) (by decide)).1 hle
    congr 1; omega
  rw [h1]
  have h64 : (64 : Nat) ≤ 2 ^ (c.bits - 2) := Nat.pow_le_pow_right (n := 2) (i := 6) (by decide) (by omega)
  rw [Nat.max_eq_left h64]
  have : (2 : Nat) ^ (c.bits - 2) = 2 ^ (c.bits - 7) * 32 := by
    rw [show (32 : Nat) = 2 ^ 5 from rfl, ← Nat.pow_add]; congr 1; omega
  rw [this, Nat.mul_div_cancel _ (by decide)]

/-- `HashCache::with_capacity` for a capacity above 2^61 (2^29 with 32 bits), release build: 128 bytes are requested for 2^57 buckets. -/
theorem c65_cache_huge {c : Cfg} (hb : 8 ≤ c.bits) (hs : c.sb = 128) (hc : c.checks = false) {capacity : Nat} (h : 2 ^ (c.bits - 3) < capacity) :
    c.bucketLayout (c.len capacity) = some ⟨128, 1⟩ ∧ c.len capacity = 2 ^ (c.bits - 7) := by
  have hl := len_huge hb h
  refine ⟨?_, hl⟩
  unfold Cfg.bucketLayout Cfg.mul
  have e : (c.len capacity + 1) * c.sb = 2 ^ c.bits + 128 := by
    rw [hl, hs, Nat.add_mul, show (128 : Nat) = 2 ^ 7 from rfl, ← Nat.pow_add]
    have : c.bits - 7 + 7 = c.bits := by omega
    rw [this]
  have h128 : 128 < 2 ^ c.bits := Nat.lt_of_lt_of_le (by decide : 128 < 2 ^ 8) (Nat.pow_le_pow_right (by decide) hb)
  rw [e, if_neg (by omega), hc]
  simp only [Bool.false_eq_true, if_false]
  rw [Nat.add_mod_left, Nat.mod_eq_of_lt h128]; rfl

/-- `HashCache::<u64, u64>::with_capacity(usize::MAX, _)`, release build: the call returns a cache of 2^57 buckets in 128 bytes of memory, with
0 bytes for the entries; the second bucket is outside, wherever the memory is. -/
theorem c65_cache_corrupt (p q : Nat) : ∃ a, (⟨64, false, 128, 16, 8⟩ : Cfg).new (2 ^ 64 - 1) (some p) (some q) = ([⟨128, 1⟩, ⟨0, 8⟩], .done a) ∧
    1 < a.len ∧ ¬ Within p ⟨128, 1⟩ ((⟨64, false, 128, 16, 8⟩ : Cfg).bucketAt a 1) 128 ∧
    ¬ Within q ⟨0, 8⟩ ((⟨64, false, 128, 16, 8⟩ : Cfg).slotAt a 0 0) 16 := by
  have h1 := c65_cache_huge (c := ⟨64, false, 128, 16, 8⟩) (by decide) rfl rfl (capacity := 2 ^ 64 - 1) (by decide)
  have h2 : (⟨64, false, 128, 16, 8⟩ : Cfg).blockLayout ((⟨64, false, 128, 16, 8⟩ : Cfg).len (2 ^ 64 - 1)) = some ⟨0, 8⟩ := by
    rw [h1.2]; decide +kernel
  refine ⟨_, new_done h1.1 h2, ?_, ?_, ?_⟩
  · show 1 < (⟨64, false, 128, 16, 8⟩ : Cfg).len (2 ^ 64 - 1)
    rw [h1.2]; decide
  · intro h
    have h : p + alignOff p + 1 * 128 + 128 ≤ p + 128 := h.2
    omega
  · intro h
    have h : q + 0 * (32 * 16) + 0 * 16 + 16 ≤ q + 0 := h.2
    omega

/-- `HashMap::with_capacity` for a capacity above 2^61: more than `isize::MAX` bytes are requested with `from_size_align_unchecked`. -/
theorem c65_map_huge {checks : Bool} {es ea capacity : Nat} (h : 2 ^ 61 < capacity) (a1 a2 : Option Nat) :
    ⟨2 ^ 63 + 64, 1⟩ ∈ ((⟨64, checks, 64, es, ea⟩ : Cfg).new capacity a1 a2).1 ∧ ¬ Layout.Ok 64 ⟨2 ^ 63 + 64, 1⟩ := by
  refine ⟨?_, fun h => Nat.not_lt.2 (Nat.le_add_right (2 ^ 63) 64) h.2⟩
  have hl := len_huge (c := ⟨64, checks, 64, es, ea⟩) (by show 8 ≤ 64; decide) h
  have h1 : (⟨64, checks, 64, es, ea⟩ : Cfg).bucketLayout ((⟨64, checks, 64, es, ea⟩ : Cfg).len capacity) = some ⟨2 ^ 63 + 64, 1⟩ := by
    rw [hl]; unfold Cfg.bucketLayout Cfg.mul
    have e : (2 ^ (64 - 7) + 1) * 64 = 2 ^ 63 + 64 := by decide
    have e' : 2 ^ 63 + 64 < 2 ^ 64 := by decide
    show Option.map (fun n => (⟨n, 1⟩ : Layout)) (if (2 ^ (64 - 7) + 1) * 64 < 2 ^ 64 then some ((2 ^ (64 - 7) + 1) * 64) else _) = _
    rw [e, if_pos e', Option.map_some]
  unfold Cfg.new
  simp only [h1]
  cases a1 with
  | none => simp
  | some p =>
    dsimp only
    split
    · simp
    · cases a2 <;> simp

/-- `(0..u64::MAX).take_while(..).map(..).collect::<HashMap<_, _>>()` (hash_map.rs 1612-1618): the upper bound of the size hint, `u64::MAX`, is taken for the
capacity (`capacity_from_size_hint`, hash_table.rs 1433-1441), however few entries there are: the request is invalid. -/
theorem c65_collect {checks : Bool} {es ea : Nat} (a1 a2 : Option Nat) :
    ∃ l, l ∈ ((⟨64, checks, 64, es, ea⟩ : Cfg).new (capacityFromSizeHint 0 (some (2 ^ 64 - 1))) a1 a2).1 ∧ ¬ l.Ok 64 :=
  ⟨_, c65_map_huge (by decide) a1 a2⟩

/-- `HashMap::<u32, [u32; 256]>::with_capacity(1 << 22)` with 32 bits, release build: both requests are valid, but there are 16 MB for the 4 GB
of the entries: wherever the memory is, the last bucket has its entries outside. -/
theorem c65_short (p q : Nat) : ∃ l1 l2 a, (⟨32, false, 64, 1028, 4⟩ : Cfg).new (2 ^ 22) (some p) (some q) = ([l1, l2], .done a) ∧
    l1.Ok 32 ∧ l2.Ok 32 ∧ l2.size = 2 ^ 24 ∧ 2 ^ 17 - 1 < a.len ∧ ¬ Within q l2 ((⟨32, false, 64, 1028, 4⟩ : Cfg).slotAt a (2 ^ 17 - 1) 0) 1028 := by
  have h1 : (⟨32, false, 64, 1028, 4⟩ : Cfg).bucketLayout ((⟨32, false, 64, 1028, 4⟩ : Cfg).len (2 ^ 22)) = some ⟨(2 ^ 17 + 1) * 64, 1⟩ := by decide +kernel
  have h2 : (⟨32, false, 64, 1028, 4⟩ : Cfg).blockLayout ((⟨32, false, 64, 1028, 4⟩ : Cfg).len (2 ^ 22)) = some ⟨2 ^ 24, 4⟩ := by decide +kernel
  refine ⟨⟨(2 ^ 17 + 1) * 64, 1⟩, ⟨2 ^ 24, 4⟩, _, new_done h1 h2, ⟨by decide, by decide⟩, ⟨by decide, by decide⟩, rfl, ?_, ?_⟩
  · show 2 ^ 17 - 1 < (⟨32, false, 64, 1028, 4⟩ : Cfg).len (2 ^ 22)
    decide +kernel
  · intro h
    have h : q + (2 ^ 17 - 1) * (32 * 1028) + 0 * 1028 + 1028 ≤ q + 2 ^ 24 := h.2
    omega

/-- The same with 64 bits: entries of 2^30 + 8 bytes, capacity 2^34. -/
theorem c65_short64 (p q : Nat) : ∃ l1 l2 a, (⟨64, false, 64, 2 ^ 30 + 8, 8⟩ : Cfg).new (2 ^ 34) (some p) (some q) = ([l1, l2], .done a) ∧
    l1.Ok 64 ∧ l2.Ok 64 ∧ 2 ^ 29 - 1 < a.len ∧ ¬ Within q l2 ((⟨64, false, 64, 2 ^ 30 + 8, 8⟩ : Cfg).slotAt a (2 ^ 29 - 1) 0) (2 ^ 30 + 8) := by
  have h1 : (⟨64, false, 64, 2 ^ 30 + 8, 8⟩ : Cfg).bucketLayout ((⟨64, false, 64, 2 ^ 30 + 8, 8⟩ : Cfg).len (2 ^ 34)) = some ⟨(2 ^ 29 + 1) * 64, 1⟩ := by decide +kernel
  have h2 : (⟨64, false, 64, 2 ^ 30 + 8, 8⟩ : Cfg).blockLayout ((⟨64, false, 64, 2 ^ 30 + 8, 8⟩ : Cfg).len (2 ^ 34)) = some ⟨2 ^ 37, 8⟩ := by decide +kernel
  refine ⟨⟨(2 ^ 29 + 1) * 64, 1⟩, ⟨2 ^ 37, 8⟩, _, new_done h1 h2, ⟨by decide, by decide⟩, ⟨by decide, by decide⟩, ?_, ?_⟩
  · show 2 ^ 29 - 1 < (⟨64, false, 64, 2 ^ 30 + 8, 8⟩ : Cfg).len (2 ^ 34)
    decide +kernel
  · intro h
    have h : q + (2 ^ 29 - 1) * (32 * (2 ^ 30 + 8)) + 0 * (2 ^ 30 + 8) + (2 ^ 30 + 8) ≤ q + 2 ^ 37 := h.2
    omega

/-- `HashMap::<u32, [u32; 255]>::with_capacity(1 << 21)` with 32 bits: the entries need 2^31 bytes, more than there can be; the call panics, and the memory of the
buckets is lost (in builds of both kinds). -/
theorem c65_leak (checks : Bool) (p : Nat) (a2 : Option Nat) :
    ((⟨32, checks, 64, 1024, 4⟩ : Cfg).new (2 ^ 21) (some p) a2) = ([⟨(2 ^ 16 + 1) * 64, 1⟩], .panic [(p, ⟨(2 ^ 16 + 1) * 64, 1⟩)]) := by
  have h1 : (⟨32, checks, 64, 1024, 4⟩ : Cfg).bucketLayout ((⟨32, checks, 64, 1024, 4⟩ : Cfg).len (2 ^ 21)) = some ⟨(2 ^ 16 + 1) * 64, 1⟩ := by
    cases checks <;> decide +kernel
  have h2 : (⟨32, checks, 64, 1024, 4⟩ : Cfg).blockLayout ((⟨32, checks, 64, 1024, 4⟩ : Cfg).len (2 ^ 21)) = none := by
    cases checks <;> decide +kernel
  unfold Cfg.new
  simp only [h1, h2]

/-- The statement fails for well-formed configurations. -/
theorem c65_violated : (∃ c capacity, c.Wf ∧ c.bits = 64 ∧ c.checks = true ∧ ¬ Sound c capacity) ∧
    (∃ c capacity, c.Wf ∧ c.bits = 64 ∧ c.checks = false ∧ 0 < c.es ∧ ¬ Sound c capacity) := by
  constructor
  · refine ⟨⟨64, true, 64, 0, 1⟩, 1, ⟨by decide, .inl rfl, by decide, rfl, by decide⟩, rfl, rfl, fun h => ?_⟩
    obtain ⟨l, hl, hn⟩ := c65_set_of_unit true none
    exact hn (h.requests _ _ _ hl)
  · refine ⟨⟨64, false, 128, 16, 8⟩, 2 ^ 64 - 1, ⟨by decide, .inr rfl, by decide, rfl, by decide⟩, rfl, rfl, by decide, fun h => ?_⟩
    obtain ⟨a, ha, _⟩ := c65_cache_corrupt 64 64
    have := h.requests (some 64) (some 64) ⟨0, 8⟩ (by rw [ha]; simp)
    exact absurd this.1 (by decide)

end Scc.Alloc
