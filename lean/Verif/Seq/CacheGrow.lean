import Verif.Seq.CacheOrder

/-!
# Order of use in a `HashCache` that does not shrink: the whole table
-/

set_option linter.unusedSectionVars false
set_option linter.unusedSimpArgs false
set_option linter.unusedVariables false

namespace Scc.Seq

open Scc.Index hiding bucketLen
open Scc.Bucket

variable {K V : Type}

/-! ## Capacities -/

/-- What the constructors make sure of (/repo/src/hash_cache.rs 169-200). -/
structure CacheLim (c : Cfg K) : Prop where
  kind : c.kind = .cache
  ok : c.Ok
  pow : ∃ E, 6 ≤ E ∧ E ≤ 62 ∧ c.maxCap = 2 ^ E

/-- The capacities are within the limits. -/
structure Lim (c : Cfg K) (T : Tbl K V) : Prop where
  min : T.minCap ≤ c.maxCap
  cap : ∀ w, T.arr = some w → ValidCapacity c.maxCap (numSlots (2 ^ w.cur.lg))

theorem two_pow_inj {x y : Nat} (h : 2 ^ x = 2 ^ y) : x = y :=
  Nat.le_antisymm ((Nat.pow_le_pow_iff_right (a := 2) (by omega)).1 (Nat.le_of_eq h))
    ((Nat.pow_le_pow_iff_right (a := 2) (by omega)).1 (Nat.le_of_eq h.symm))

theorem numSlots_log2 (n : Nat) {E : Nat} (h6 : 6 ≤ E) (hE : E ≤ 62) (hn : n ≤ 2 ^ E) :
    ValidCapacity (2 ^ E) (numSlots (2 ^ log2ArrayLen n)) ∧
      (ValidCapacity (2 ^ E) n → numSlots (2 ^ log2ArrayLen n) = n) := by
  have h62 : 2 ^ E ≤ 2 ^ 62 := Nat.pow_le_pow_right (by omega) hE
  have hmin : min n (2 ^ 62) = n := Nat.min_eq_left (by omega)
  obtain ⟨j, hj⟩ := nextPow2_isPow n
  have hjle : 2 ^ j ≤ 2 ^ E := hj ▸ nextPow2_le hn
  have hjE : j ≤ E := (Nat.pow_le_pow_iff_right (by omega)).1 hjle
  have harr : numSlots (2 ^ log2ArrayLen n) = 2 ^ max j 6 := by
    rw [log2ArrayLen_spec]
    unfold arrayLen numSlots
    rw [hmin, hj, minimumCapacity_eq, pow_max]
    show 2 ^ max j 6 / 2 ^ 5 * 2 ^ 5 = _
    rw [Nat.pow_div (by omega) (by omega), ← Nat.pow_add]
    congr 1; omega
  rw [harr]
  refine ⟨⟨⟨_, rfl⟩, ?_, Nat.pow_le_pow_right (by omega) (by omega)⟩, ?_⟩
  · exact Nat.pow_le_pow_right (n := 2) (i := 6) (by omega) (by omega)
  · rintro ⟨⟨k, hk⟩, h64, _⟩
    rw [hk] at hj h64 ⊢
    rw [nextPow2_pow] at hj
    have hkj : k = j := two_pow_inj hj
    have h6k : 6 ≤ k := (Nat.pow_le_pow_iff_right (a := 2) (by omega)).1 (by simpa using h64)
    congr 1; omega

theorem capacity_some {T : Tbl K V} {w : Two K V} (h : T.arr = some w) :
    T.capacity = 32 * 2 ^ w.cur.lg := by
  unfold Tbl.capacity numSlots Index.bucketLen
  rw [h]; simp only; omega

theorem capacity_none {T : Tbl K V} (h : T.arr = none) : T.capacity = 0 := by
  unfold Tbl.capacity; rw [h]

theorem capacity_pos {T : Tbl K V} {w : Two K V} (h : T.arr = some w) : T.capacity ≠ 0 := by
  rw [capacity_some h]
  have := Nat.two_pow_pos w.cur.lg
  omega

theorem lg_le_of_cap {x y : Nat} (h : 32 * 2 ^ x ≤ 32 * 2 ^ y) : x ≤ y :=
  (Nat.pow_le_pow_iff_right (a := 2) (by omega)).1 (by omega)

/-! ## The parts of a list of keys -/

/-- The keys that belong to bucket `i` of an array of `2^lg` buckets. -/
def part (hash : K → Nat) (lg : Nat) (L : List K) (i : Nat) : List K :=
  L.filter fun k => bucketIndex lg (hash k) == i

section
variable [DecidableEq K] {c : Cfg K}

theorem part_filter_other {lg i j : Nat} (L : List K) {p : K → Bool}
    (hp : ∀ x, p x = false → bucketIndex lg (c.hash x) = i) (hj : j ≠ i) :
    part c.hash lg (L.filter p) j = part c.hash lg L j := by
  unfold part
  rw [List.filter_filter]
  apply List.filter_congr
  intro x _
  cases h : p x with
  | true => simp
  | false =>
    have := hp x h
    simp only [Bool.and_false]
    rw [this]
    simpa using fun h : i = j => hj h.symm

theorem part_filter_comm {lg i : Nat} (L : List K) (p : K → Bool) :
    part c.hash lg (L.filter p) i = (part c.hash lg L i).filter p := by
  unfold part
  rw [List.filter_filter, List.filter_filter]
  apply List.filter_congr
  intro x _
  rw [Bool.and_comm]

theorem part_cons_same {lg i : Nat} {k : K} (L : List K) (hk : bucketIndex lg (c.hash k) = i) :
    part c.hash lg (k :: L) i = k :: part c.hash lg L i := by
  unfold part
  rw [List.filter_cons_of_pos (by simp [hk])]

theorem part_cons_other {lg i j : Nat} {k : K} (L : List K) (hk : bucketIndex lg (c.hash k) = i)
    (hj : j ≠ i) : part c.hash lg (k :: L) j = part c.hash lg L j := by
  unfold part
  rw [List.filter_cons_of_neg (by simpa [hk] using fun h : i = j => hj h.symm)]

theorem part_useList_same {lg i : Nat} {k : K} (L : List K) (touch : Bool) (f : Option V → Act V)
    (o : Option V) (ev : Option (K × V)) (hk : bucketIndex lg (c.hash k) = i) :
    part c.hash lg (useList L k touch f o ev) i = useList (part c.hash lg L i) k touch f o ev := by
  unfold useList
  simp only
  cases o with
  | none =>
    cases f none with
    | put v => simp only; rw [part_cons_same _ hk, part_filter_comm, part_filter_comm]
    | keep => simp only; rw [part_filter_comm]
    | del => simp only; rw [part_filter_comm]
  | some v0 =>
    cases f (some v0) with
    | del => simp only; rw [part_filter_comm, part_filter_comm]
    | put v =>
      simp only
      split
      · rw [part_cons_same _ hk, part_filter_comm, part_filter_comm]
      · rw [part_filter_comm]
    | keep =>
      simp only
      split
      · rw [part_cons_same _ hk, part_filter_comm, part_filter_comm]
      · rw [part_filter_comm]

theorem part_useList_other {lg i j : Nat} {k : K} (L : List K) (touch : Bool) (f : Option V → Act V)
    (o : Option V) (ev : Option (K × V)) (hk : bucketIndex lg (c.hash k) = i)
    (hev : ∀ e, ev = some e → bucketIndex lg (c.hash e.1) = i) (hj : j ≠ i) :
    part c.hash lg (useList L k touch f o ev) j = part c.hash lg L j := by
  have h1 : ∀ L : List K, part c.hash lg (L.filter fun x => ev.map (·.1) ≠ some x) j =
      part c.hash lg L j := by
    intro L
    apply part_filter_other (i := i) L _ hj
    intro x hx
    simp at hx
    obtain ⟨a, ha⟩ := hx
    exact hev _ ha
  have h2 : ∀ L : List K, part c.hash lg (L.filter (· ≠ k)) j = part c.hash lg L j := by
    intro L
    apply part_filter_other (i := i) L _ hj
    intro x hx
    simp at hx
    subst hx; exact hk
  unfold useList
  simp only
  cases o with
  | none =>
    cases f none with
    | put v => simp only; rw [part_cons_other _ hk hj, h2, h1]
    | keep => simp only; rw [h1]
    | del => simp only; rw [h1]
  | some v0 =>
    cases f (some v0) with
    | del => simp only; rw [h2, h1]
    | put v =>
      simp only
      split
      · rw [part_cons_other _ hk hj, h2, h1]
      · rw [h1]
    | keep =>
      simp only
      split
      · rw [part_cons_other _ hk hj, h2, h1]
      · rw [h1]

/-! ## The invariant -/

/-- No overflow space, and the LRU lists of the current array are the parts of `L`. -/
structure Fine (c : Cfg K) (w : Two K V) (L : List K) : Prop where
  room : Room c w
  order : ∀ i, Order (w.cur.bkt i) (part c.hash w.cur.lg L i)

structure FineT (c : Cfg K) (T : Tbl K V) (L : List K) : Prop where
  some : ∀ w, T.arr = some w → Fine c w L
  none : T.arr = none → L = []

theorem prepare_fine (q : CacheLim c) {recent : Nat → Bool} {T T' : Tbl K V}
    {w w' : Two K V} (ok : T.Ok c) (hw : T.arr = some w) {i : Nat} (hi : i < 2 ^ w.cur.lg) {L : List K}
    (r : Fine c w L) (h : prepare c recent T i = some T') (hw' : T'.arr = some w') : Fine c w' L := by
  obtain ⟨w2, h1, cr⟩ := prepare_carried q.kind q.ok ok hw hi h
  rw [hw'] at h1
  cases h1
  refine ⟨prepare_room q.kind q.ok ok hw hi r.room h hw', fun j => ?_⟩
  rw [cr.lg]
  have wj := (ok.two w hw).cur.wf.wf j
  rw [q.kind] at wj
  exact (cr.grows j).order wj (r.order j)

/-- After the preparation the sources of the bucket are killed. -/
theorem prepare_dead (q : CacheLim c) {recent : Nat → Bool} {T T' : Tbl K V}
    {w w' : Two K V} (ok : T.Ok c) (hw : T.arr = some w) {i : Nat} (hi : i < 2 ^ w.cur.lg)
    (h : prepare c recent T i = some T') (hw' : T'.arr = some w') {o : Arr K V} (ho : w'.old = some o)
    {x : Nat} (hx : bucketIndex w'.cur.lg x = i) : o.dead (bucketIndex o.lg x) = true := by
  unfold prepare at h
  rw [hw] at h
  simp only at h
  obtain ⟨w1, g1, h1, ok1, l1, e1, _⟩ := incrementalRehash_ok q.ok recent w (ok.two w hw)
  rw [h1] at h
  simp only at h
  obtain ⟨r, h2, h3⟩ := Option.map_eq_some_iff.1 h
  cases h3
  cases hw'
  unfold dedup at h2
  split at h2
  · rename_i hn
    cases h2
    simp only at ho
    rw [hn] at ho; cases ho
  · rename_i o1 ho1
    simp only at h2
    obtain ⟨y, h4, h5⟩ := Option.map_eq_some_iff.1 h2
    cases h5
    simp only at ho hx
    cases ho
    have hb := c05_range_bounds (a := w1.cur.lg) (b := o1.lg) (i := i) (by rw [l1]; exact hi)
    obtain ⟨a2, o2, g2, h6, m⟩ := relocateRange_ok q.ok recent
      ((fromIndexToRange (2 ^ w1.cur.lg) (2 ^ o1.lg) i).2 -
        (fromIndexToRange (2 ^ w1.cur.lg) (2 ^ o1.lg) i).1)
      (fromIndexToRange (2 ^ w1.cur.lg) (2 ^ o1.lg) i).1 w1.cur o1 ok1.cur.wf (ok1.old o1 ho1) (by omega)
    rw [h4] at h6
    cases h6
    simp only at hx ⊢
    rw [m.curLg] at hx
    rw [m.oldLg]
    have hr := c05_hash_in_range (a := w1.cur.lg) (b := o1.lg) (hash := x)
      (by have := ok1.cur.wf.lg_le; omega) (by have := (ok1.old o1 ho1).wf.lg_le; omega)
    rw [hx] at hr
    obtain ⟨hr1, hr2⟩ := hr
    exact m.killed _ (by omega)

theorem prepare_lim {recent : Nat → Bool} {T T' : Tbl K V} {w w' : Two K V}
    (hw : T.arr = some w) {i : Nat} (l : Lim c T) (hm : T'.minCap = T.minCap)
    (hw' : T'.arr = some w') (hlg : w'.cur.lg = w.cur.lg) : Lim c T' :=
  ⟨by rw [hm]; exact l.min, fun w2 h => by rw [hw'] at h; cases h; rw [hlg]; exact l.cap w hw⟩

theorem empty_links : (Bucket.empty : Bucket K V).links = [] := rfl

theorem new_order (lg : Nat) (i : Nat) (L : List K) (hL : L = []) :
    Order ((Arr.new lg : Arr K V).bkt i) (part c.hash lg L i) := by
  subst hL; exact empty_order

/-- A resize empties the LRU lists; without shrinking no overflow space appears. -/
theorem tryResize_fine (q : CacheLim c) {T : Tbl K V} (ok : T.Ok c) (l : Lim c T) {L : List K}
    (r : FineT c T L) (i : Nat)
    (g : T.capacity ≤ (tryResize c T i).capacity ∨ (tryResize c T i).capacity = 0) :
    Lim c (tryResize c T i) ∧
      (tryResize c T i = T ∨
        ((tryResize c T i).capacity ≠ T.capacity ∧ FineT c (tryResize c T i) [])) := by
  have hk := tryResize_keeps T ok i
  obtain ⟨E, h6, hE, hmax⟩ := q.pow
  unfold tryResize at g ⊢
  cases hT : T.arr with
  | none => exact ⟨l, Or.inl rfl⟩
  | some w =>
    obtain ⟨a, old⟩ := w
    cases old with
    | some o => exact ⟨l, Or.inl rfl⟩
    | none =>
      rw [hT] at g
      simp only at g ⊢
      have hcap := l.cap _ hT
      simp only at hcap
      rw [hmax] at hcap
      have hmin := l.min
      rw [hmax] at hmin
      split
      · split
        · refine ⟨⟨l.min, fun w h => by cases h⟩, Or.inr ⟨?_, fun w h => (by cases h), fun _ => rfl⟩⟩
          show 0 ≠ T.capacity
          exact (capacity_pos hT).symm
        · exact ⟨l, Or.inl rfl⟩
      · rename_i hest
        rw [if_neg hest] at g
        split
        · rename_i hne
          rw [if_pos hne] at g
          rw [hmax] at hne g ⊢
          obtain ⟨v1, v2⟩ := c06_resize_valid (est := sample a.lg i a.lens) hE hcap hmin
          generalize newCapacity (numSlots (2 ^ a.lg)) T.minCap (2 ^ E) (sample a.lg i a.lens) = new at *
          obtain ⟨n1, n2⟩ := numSlots_log2 new h6 hE v1.2.2
          have hnew := n2 v1
          have hle : a.lg ≤ log2ArrayLen new := by
            have h1 : T.capacity = 32 * 2 ^ a.lg := capacity_some hT
            have h2 : (⟨Option.some ⟨Arr.new (log2ArrayLen new), Option.some a⟩, T.minCap, T.gone⟩ :
              Tbl K V).capacity = 32 * 2 ^ log2ArrayLen new :=
              capacity_some (w := ⟨Arr.new (log2ArrayLen new), Option.some a⟩) rfl
            rw [h1, h2] at g
            rcases g with g | g
            · exact lg_le_of_cap g
            · have := Nat.two_pow_pos (log2ArrayLen new); omega
          refine ⟨⟨l.min, ?_⟩, Or.inr ⟨?_, ?_, fun h => by cases h⟩⟩
          · intro w h
            cases h
            show ValidCapacity c.maxCap (numSlots (2 ^ log2ArrayLen new))
            rw [hmax]; exact n1
          · show numSlots (2 ^ log2ArrayLen new) ≠ _
            rw [hnew]
            have : T.capacity = numSlots (2 ^ a.lg) := by unfold Tbl.capacity; rw [hT]
            rw [this]; exact hne
          · intro w h
            cases h
            have rf := r.some _ hT
            refine ⟨⟨fun _ => rfl, ?_⟩, fun j => new_order _ j [] rfl⟩
            intro o ho
            cases ho
            refine ⟨fun _ => rfl, fun j _ => rf.room.cur j, hle, ?_⟩
            intro e he
            rw [new_entries] at he; cases he
        · exact ⟨l, Or.inl rfl⟩

theorem tryEnlarge_eq (T : Tbl K V) (i : Nat) : tryEnlarge c T i = T ∨ tryEnlarge c T i = tryResize c T i := by
  unfold tryEnlarge
  split
  · exact Or.inl rfl
  · exact Or.inl rfl
  · split
    · exact Or.inr rfl
    · exact Or.inl rfl

theorem tryShrink_eq (T : Tbl K V) (i : Nat) : tryShrink c T i = T ∨ tryShrink c T i = tryResize c T i := by
  unfold tryShrink
  split
  · exact Or.inl rfl
  · exact Or.inl rfl
  · split
    · exact Or.inr rfl
    · exact Or.inl rfl

theorem tryShrink_fine (q : CacheLim c) {T : Tbl K V} (ok : T.Ok c) (l : Lim c T) {L : List K}
    (r : FineT c T L) (i : Nat)
    (g : T.capacity ≤ (tryShrink c T i).capacity ∨ (tryShrink c T i).capacity = 0) :
    Lim c (tryShrink c T i) ∧
      (tryShrink c T i = T ∨
        ((tryShrink c T i).capacity ≠ T.capacity ∧ FineT c (tryShrink c T i) [])) := by
  rcases tryShrink_eq (c := c) T i with h | h
  · rw [h]; exact ⟨l, Or.inl rfl⟩
  · rw [h] at g ⊢; exact tryResize_fine q ok l r i g

/-! ## The locked bucket -/

/-- The locked bucket `b` at place `i` of an array of `2^lg` buckets, and what writing back another one
does. -/
structure LockFine (c : Cfg K) (T : Tbl K V) (s : Side) (i lg : Nat) (b : Bucket K V) (L : List K) :
    Prop where
  links : b.links = []
  order : Order b (part c.hash lg L i)
  put : ∀ (b' : Bucket K V) (L' : List K), b'.links = [] →
    (∀ e ∈ b'.entries c.kind, bucketIndex lg (c.hash e.1) = i) →
    (s = .cur → Order b' (part c.hash lg L' i) ∧ ∀ j, j ≠ i → part c.hash lg L' j = part c.hash lg L j) →
    FineT c (T.setBucket s i b') (if s = .cur then L' else []) ∧
      (T.setBucket s i b').capacity = T.capacity ∧ Lim c (T.setBucket s i b')

theorem lock_cur (q : CacheLim c) {T : Tbl K V} (ok : T.Ok c) (l : Lim c T) {w : Two K V}
    (hw : T.arr = some w) {L : List K} (r : Fine c w L) {i : Nat} (hi : i < 2 ^ w.cur.lg)
    (hd : ∀ o, w.old = some o → ∀ x, bucketIndex w.cur.lg x = i → o.dead (bucketIndex o.lg x) = true) :
    LockFine c T .cur i w.cur.lg (w.cur.bkt i) L := by
  refine ⟨r.room.cur i, r.order i, ?_⟩
  intro b' L' hl hpl hL
  obtain ⟨hL1, hL2⟩ := hL rfl
  have hs : T.setBucket .cur i b' = { T with arr := some { w with cur := w.cur.set i b' } } := by
    unfold Tbl.setBucket; rw [hw]
  rw [hs, if_pos rfl]
  have hcur : ∀ j, ((w.cur.set i b').bkt j).links = [] := by
    intro j
    rw [set_bkt]
    split
    · exact hl
    · exact r.room.cur j
  refine ⟨⟨?_, fun h => by cases h⟩, ?_, ⟨l.min, ?_⟩⟩
  · intro w' h
    cases h
    refine ⟨⟨hcur, ?_⟩, ?_⟩
    · intro o ho
      have rp := r.room.old o ho
      refine ⟨hcur, rp.old, rp.lg, ?_⟩
      intro e he
      obtain ⟨j, hj, hej⟩ := mem_arr_entries.1 he
      rw [set_bkt] at hej
      split at hej
      · exact hd o ho _ (hpl e hej)
      · exact rp.sep e (mem_arr_entries.2 ⟨j, hj, hej⟩)
    · intro j
      show Order ((w.cur.set i b').bkt j) (part c.hash w.cur.lg L' j)
      rw [set_bkt]
      split
      · rename_i h; rw [h]; exact hL1
      · rename_i h; rw [hL2 j h]; exact r.order j
  · rw [capacity_some hw, capacity_some rfl]
    rfl
  · intro w' h
    cases h
    exact l.cap w hw

theorem lock_old {T : Tbl K V} (l : Lim c T) {a : Arr K V} {lg : Nat}
    (hw : T.arr = some ⟨Arr.new lg, some a⟩) {L : List K} (hlg : a.lg ≤ lg)
    (hl : ∀ j, (a.bkt j).links = []) (ho : ∀ j, Order (a.bkt j) (part c.hash a.lg L j)) (i : Nat) :
    LockFine c T .old i a.lg (a.bkt i) L := by
  refine ⟨hl i, ho i, ?_⟩
  intro b' L' hl' hpl hL
  have hs : T.setBucket .old i b' = { T with arr := some ⟨Arr.new lg, some (a.set i b')⟩ } := by
    unfold Tbl.setBucket; rw [hw]
  rw [hs, if_neg (by simp)]
  refine ⟨⟨?_, fun h => by cases h⟩, ?_, ⟨l.min, ?_⟩⟩
  · intro w h
    cases h
    refine ⟨⟨fun _ => rfl, ?_⟩, fun j => new_order _ j [] rfl⟩
    intro o ho
    cases ho
    refine ⟨fun _ => rfl, ?_, hlg, ?_⟩
    · intro j _
      rw [set_bkt]
      split
      · exact hl'
      · exact hl j
    · intro e he
      rw [new_entries] at he; cases he
  · rw [capacity_some hw, capacity_some rfl]
  · intro w h
    cases h
    exact l.cap ⟨Arr.new lg, some a⟩ hw

theorem create_fine (q : CacheLim c) {T : Tbl K V} (l : Lim c T) {L : List K} (r : FineT c T L) :
    FineT c (create T) L ∧ Lim c (create T) ∧ (T.capacity ≠ 0 → create T = T) := by
  unfold create
  split
  · exact ⟨r, l, fun _ => rfl⟩
  · rename_i hT
    obtain ⟨E, h6, hE, hmax⟩ := q.pow
    have hL := r.none hT
    refine ⟨⟨?_, fun h => by cases h⟩, ⟨l.min, ?_⟩, fun h => absurd (capacity_none hT) h⟩
    · intro w h
      cases h
      exact ⟨⟨fun _ => rfl, fun o h => by cases h⟩, fun j => new_order _ j L hL⟩
    · intro w h
      cases h
      show ValidCapacity c.maxCap (numSlots (2 ^ log2ArrayLen T.minCap))
      rw [hmax]
      have := l.min
      rw [hmax] at this
      exact (numSlots_log2 T.minCap h6 hE this).1

/-- What `writer_sync` hands out. -/
theorem writer_fine (q : CacheLim c) {recent : Nat → Bool} {T T1 : Tbl K V} (ok : T.Ok c) (l : Lim c T)
    {L : List K} (r : FineT c T L) {h : Nat} (hh : h < 2 ^ 64) {s : Side} {i : Nat}
    (hwr : writer c recent T h = some (T1, s, i)) (g : s = .old → T.capacity ≤ T1.capacity) :
    Keeps c T T1 ∧ Lim c T1 ∧ ∃ lg b E C, Ready c T1 s i b E C lg ∧ bucketIndex lg h = i ∧
      LockFine c T1 s i lg b L ∧ (T.capacity ≠ 0 → T.capacity = 32 * 2 ^ lg) ∧
      (s = .cur → T.capacity ≠ 0 → T1.capacity = T.capacity) ∧
      (s = .old → T.capacity ≠ 0 ∧ T1.capacity ≠ T.capacity) := by
  obtain ⟨Tx, sx, ix, hx1, hx2, hx3⟩ := writerRound_ok q.ok recent T ok hh
  unfold writer at hwr
  rw [hx1] at hwr
  cases hwr
  obtain ⟨r0, l0, c0⟩ := create_fine q l r
  obtain ⟨k0, w0, hw0⟩ := create_keeps (c := c) T ok
  have hi : bucketIndex w0.cur.lg h < 2 ^ w0.cur.lg :=
    bucketIndex_lt (by have := (k0.ok.two w0 hw0).cur.wf.lg_le; omega) hh
  obtain ⟨T2, w, h1, hw, hl, k1, cl, ho⟩ := prepare_ok q.ok recent (create T) k0.ok hw0 hi
  have r1 := prepare_fine q k0.ok hw0 hi (r0.some w0 hw0) h1 hw
  have l1 : Lim c T2 := prepare_lim (recent := recent) (i := 0) hw0 l0 k1.minCap hw hl
  have hdead : ∀ o, w.old = some o → ∀ x, bucketIndex w.cur.lg x = bucketIndex w0.cur.lg h →
      o.dead (bucketIndex o.lg x) = true :=
    fun o ho x hx => prepare_dead q k0.ok hw0 hi h1 hw ho hx
  have hk := k0.trans k1
  have hcap0 : T.capacity ≠ 0 → T.capacity = 32 * 2 ^ w.cur.lg := by
    intro hne
    have hct := c0 hne
    rw [hct] at hw0
    rw [capacity_some hw0, hl]
  unfold writerRound at hx1
  rw [hw0] at hx1
  simp only [h1, hw] at hx1
  obtain ⟨i0, hi0⟩ : ∃ i0, bucketIndex w0.cur.lg h = i0 := ⟨_, rfl⟩
  rw [hi0] at hx1 hi h1 cl hdead
  rw [← hl] at hi0 hi
  obtain ⟨E, C, hr⟩ := ready_cur k1.ok hw hi cl
  have curCase : ∀ T1, T1 = T2 → Keeps c T T1 ∧ Lim c T1 ∧
      ∃ lg b E C, Ready c T1 .cur i0 b E C lg ∧ bucketIndex lg h = i0 ∧
      LockFine c T1 .cur i0 lg b L ∧ (T.capacity ≠ 0 → T.capacity = 32 * 2 ^ lg) ∧
      (Side.cur = .cur → T.capacity ≠ 0 → T1.capacity = T.capacity) ∧
      (Side.cur = .old → T.capacity ≠ 0 ∧ T1.capacity ≠ T.capacity) := by
    rintro T1 rfl
    refine ⟨hk, l1, _, _, E, C, hr, hi0, lock_cur q k1.ok l1 hw r1 hi hdead, hcap0, ?_, ?_⟩
    · intro _ hne
      rw [hcap0 hne, capacity_some hw]
    · intro h; cases h
  split at hx1
  · rename_i hcond
    have hne : T2.entries c ≠ [] := by
      intro h
      have h2 := hr.entries
      rw [h] at h2
      have h3 := (List.append_eq_nil_iff.1 h2.symm.eq_nil).1
      have h4 := hr.wf.len
      rw [h3] at h4
      have h5 := hcond.2.1
      unfold Arr.lens at h5
      rw [h4] at h5
      simp [Bucket.bucketLen] at h5
    have hTne : T.capacity ≠ 0 := by
      intro h0
      have hT : T.arr = none := by
        cases hT : T.arr with
        | none => rfl
        | some w => exact absurd h0 (capacity_pos hT)
      have := hk.entries
      rw [entries_none hT] at this
      exact hne this.eq_nil
    have hk2 := tryEnlarge_keeps T2 hk.ok i0
    rcases tryEnlarge_shape T2 hk.ok i0 with h2 | ⟨h2, h3⟩ | ⟨a, lg, h2, h3⟩
    · rw [h2, hw] at hx1
      simp only at hx1
      by_cases h4 : w.old.isSome = true ∧ w.old.isNone = true
      · exfalso
        cases h5 : w.old <;> simp [h5] at h4
      · rw [if_neg h4] at hx1
        cases hx1
        exact curCase _ rfl
    · exact absurd h3 hne
    · rw [hw] at h2
      cases h2
      rw [h3] at hx1
      simp only at hx1
      rw [if_pos ⟨rfl, rfl⟩] at hx1
      cases hx1
      have hT2 : T2.capacity = T.capacity := by rw [hcap0 hTne, capacity_some hw]
      have hres : tryEnlarge c T2 i = tryResize c T2 i := by
        rcases tryEnlarge_eq (c := c) T2 i with h | h
        · rw [h] at h3
          rw [hw] at h3; cases h3
        · exact h
      have gg : T2.capacity ≤ (tryEnlarge c T2 i).capacity := by rw [hT2]; exact g rfl
      have fr : FineT c T2 L := ⟨fun w' h => by rw [hw] at h; cases h; exact r1, fun h => by rw [hw] at h; cases h⟩
      obtain ⟨l2, hf⟩ := tryResize_fine q k1.ok l1 fr i (by rw [← hres]; exact Or.inl gg)
      rw [← hres] at l2 hf
      have hlg : a.lg ≤ lg := by
        rw [capacity_some hw, capacity_some h3] at gg
        exact lg_le_of_cap gg
      obtain ⟨E', C', hr'⟩ := ready_old hk2.ok h3 hi (new_entries c lg)
        ((hk.ok.two _ hw).cur.alive i)
      refine ⟨hk.trans hk2, l2, _, _, E', C', hr', hi0,
        lock_old l2 h3 hlg r1.room.cur r1.order i, hcap0, (fun h => by cases h), ?_⟩
      intro _
      refine ⟨hTne, ?_⟩
      rcases hf with hf | hf
      · rw [hf, hw] at h3; cases h3
      · rw [← hT2]; exact hf.1
  · cases hx1
    exact curCase _ rfl

/-- What `optional_writer_sync` hands out. -/
theorem optWriter_fine (q : CacheLim c) {recent : Nat → Bool} {T T1 : Tbl K V} (ok : T.Ok c) (l : Lim c T)
    {L : List K} (r : FineT c T L) {h : Nat} (hh : h < 2 ^ 64) {o : Option Nat}
    (hwr : optWriter c recent T h = some (T1, o)) :
    Keeps c T T1 ∧ Lim c T1 ∧ FineT c T1 L ∧ T1.capacity = T.capacity ∧ (o = none → T1 = T ∧ T.arr = none) ∧
      ∀ i, o = some i → ∃ lg b E C, Ready c T1 .cur i b E C lg ∧ bucketIndex lg h = i ∧
        LockFine c T1 .cur i lg b L ∧ T.capacity = 32 * 2 ^ lg := by
  unfold optWriter at hwr
  cases hT : T.arr with
  | none =>
    rw [hT] at hwr
    cases hwr
    exact ⟨Keeps.refl ok, l, r, rfl, fun _ => ⟨rfl, rfl⟩, fun i h => by cases h⟩
  | some w0 =>
    rw [hT] at hwr
    have hi : bucketIndex w0.cur.lg h < 2 ^ w0.cur.lg :=
      bucketIndex_lt (by have := (ok.two w0 hT).cur.wf.lg_le; omega) hh
    obtain ⟨T2, w, h1, hw, hl, k1, cl, ho⟩ := prepare_ok q.ok recent T ok hT hi
    simp only [h1] at hwr
    cases hwr
    have r1 := prepare_fine q ok hT hi (r.some w0 hT) h1 hw
    have l1 : Lim c T1 := prepare_lim (recent := recent) (i := 0) hT l k1.minCap hw hl
    refine ⟨k1, l1, ⟨fun w' h => by rw [hw] at h; cases h; exact r1, fun h => by rw [hw] at h; cases h⟩,
      by rw [capacity_some hw, capacity_some hT, hl], (fun h => by cases h), ?_⟩
    intro i h
    cases h
    obtain ⟨E, C, hr⟩ := ready_cur k1.ok hw (by rw [hl]; exact hi) cl
    refine ⟨_, _, E, C, hr, by rw [hl], lock_cur q k1.ok l1 hw r1 (by rw [hl]; exact hi) ?_, ?_⟩
    · exact fun o ho x hx => prepare_dead q ok hT hi h1 hw ho hx
    · rw [capacity_some hT, hl]

/-! ## One operation on a key -/

/-- How a table may have changed: the capacity is the same and `L` is the order of use, or the table was
resized and no entry counts as used. -/
def After (c : Cfg K) (T T' : Tbl K V) (L : List K) : Prop :=
  (T'.capacity = T.capacity ∧ FineT c T' L) ∨ (T'.capacity ≠ T.capacity ∧ FineT c T' [])

theorem cacheAt_fine (q : CacheLim c) {T : Tbl K V} (ok : T.Ok c) (env : Env)
    {s : Side} {i lg : Nat} {b : Bucket K V} {E C : List (K × V)} {L : List K} {k : K}
    (rd : Ready c T s i b E C lg) (hidx : bucketIndex lg (c.hash k) = i) (lk : LockFine c T s i lg b L)
    (touch : Bool) (f : Option V → Act V) {T' : Tbl K V} {o : Option V} {ev : Option (K × V)}
    (h : cacheAt c env T s i k touch f = some (T', o, ev))
    (g : s = .cur → T.capacity ≤ T'.capacity ∨ T'.capacity = 0) :
    Lim c T' ∧
      (s = .cur → After c T T' (useList L k touch f o ev)) ∧
      (s = .old → T'.capacity = T.capacity ∧ FineT c T' []) ∧
      (ev ≠ none ↔ o = none ∧ (∃ v, f none = .put v) ∧
        ((T.entries c).filter fun e => bucketIndex lg (c.hash e.1) == i).length = 32) ∧
      ∀ e, ev = some e → e ∈ T.entries c ∧ bucketIndex lg (c.hash e.1) = i ∧
        (part c.hash lg L i ≠ [] → (part c.hash lg L i).getLast? = some e.1) := by
  have hnd : ((b.entries c.kind).map (·.1)).Nodup := by
    have := nodup_perm rd.entries.symm ok.nodup
    rw [List.map_append] at this
    exact (List.nodup_append.1 this).1
  have hcount : ((T.entries c).filter fun e => bucketIndex lg (c.hash e.1) == i).length =
      (b.entries c.kind).length := by
    rw [(rd.entries.filter _).length_eq, List.filter_append]
    have h1 : (b.entries c.kind).filter (fun e => bucketIndex lg (c.hash e.1) == i) = b.entries c.kind := by
      rw [List.filter_eq_self]; intro e he; simpa using rd.placed e he
    have h2 : E.filter (fun e => bucketIndex lg (c.hash e.1) == i) = [] := by
      rw [List.filter_eq_nil_iff]; intro e he; simpa using rd.others e he
    rw [h1, h2, List.append_nil]
  unfold cacheAt at h
  rw [rd.bucket] at h
  simp only at h
  have rwf := rd.wf
  have rpl := rd.placed
  have rent := rd.entries
  rw [hcount]
  rw [q.kind] at rwf rpl hnd rent ⊢
  obtain ⟨b1, o1, ev1, R, h1, h2, _, h3, h4, h5, h6⟩ := cacheAct_ok rwf hnd lk.order.lruOk env k touch f
  obtain ⟨x1, x2, x3, x4⟩ := cacheAct_order rwf hnd lk.links lk.order env k touch f h1
  rw [h1] at h
  simp only at h
  have hpl : ∀ e ∈ b1.entries c.kind, bucketIndex lg (c.hash e.1) = i := by
    rw [q.kind]
    intro e he
    rcases List.mem_append.1 (h4.mem_iff.1 he) with h | h
    · obtain ⟨v, _, hv⟩ := List.mem_map.1 h
      subst hv; exact hidx
    · exact rpl e (h3.mem_iff.2 (List.mem_append_right _ (List.mem_append_right _ h)))
  have hev : ∀ e, ev1 = some e → bucketIndex lg (c.hash e.1) = i := fun e he => rpl e (x4 e he).1
  obtain ⟨p1, p2, p3⟩ := lk.put b1 (useList L k touch f o1 ev1) x1 hpl (fun _ =>
    ⟨by rw [part_useList_same L touch f o1 ev1 hidx]; exact x2,
      fun j hj => part_useList_other L touch f o1 ev1 hidx hev hj⟩)
  have fin : o = o1 → ev = ev1 → (ev ≠ none ↔ o = none ∧ (∃ v, f none = .put v) ∧
        (b.entries .cache).length = 32) ∧
      ∀ e, ev = some e → e ∈ T.entries c ∧ bucketIndex lg (c.hash e.1) = i ∧
        (part c.hash lg L i ≠ [] → (part c.hash lg L i).getLast? = some e.1) := by
    rintro rfl rfl
    refine ⟨x3, fun e he => ⟨?_, hev e he, (x4 e he).2⟩⟩
    exact rent.mem_iff.2 (List.mem_append_left _ (x4 e he).1)
  by_cases hd : Act.removes f o1 = true
  · rw [if_pos hd] at h
    cases h
    -- the write-back table
    obtain ⟨y1, y2, y3, y4, y5, y6, y7⟩ := rd.put b1 (q.kind ▸ h2) hpl
    have hRE : T.setBucket s i b1 |>.Ok c := by
      obtain ⟨Tz, oz, evz, Rz, hz, ez⟩ := cacheAct_ok rwf hnd lk.order.lruOk env k touch f
      refine ⟨y1, nodup_perm y2 ?_⟩
      rw [q.kind]
      have n1 := nodup_perm rent.symm ok.nodup
      have n2 : ((pr k o ++ (ev.toList ++ R) ++ E).map (·.1)).Nodup := nodup_perm (h3.append_right E).symm n1
      have hdel : f o = .del := by
        unfold Act.removes at hd
        split at hd
        · rename_i hx; exact hx
        · cases hd
      have hevn : ev = none := by
        cases hev0 : ev with
        | none => rfl
        | some e =>
          obtain ⟨z1, v, z2⟩ := h6 (by rw [hev0]; simp)
          rw [z1, z2] at hdel; cases hdel
      refine nodup_perm (h4.append_right E) ?_
      rw [hdel]
      have : (pr k (Act.del.res o) ++ R ++ E : List (K × V)) = R ++ E := by simp [Act.res, pr]
      rw [this]
      rw [hevn] at n2
      rw [List.append_assoc, List.map_append, List.nodup_append] at n2
      simpa using n2.2.1
    refine ⟨?_, ?_, ?_, fin rfl rfl⟩
    · unfold shrinkIfEmpty
      rw [y6]
      simp only
      split
      · rename_i hz
        obtain ⟨_, hs⟩ := hz
        subst hs
        rw [if_pos rfl] at p1
        refine (tryShrink_fine q hRE p3 p1 i ?_).1
        have gg := g rfl
        unfold shrinkIfEmpty at gg
        rw [y6] at gg
        simp only at gg
        rw [if_pos ⟨by assumption, trivial⟩] at gg
        rw [p2]; exact gg
      · exact p3
    · intro hs
      subst hs
      rw [if_pos rfl] at p1
      have gg := g rfl
      unfold shrinkIfEmpty at gg ⊢
      rw [y6] at gg ⊢
      simp only at gg ⊢
      split
      · rename_i hz
        rw [if_pos hz] at gg
        rw [← p2] at gg
        rcases (tryShrink_fine q hRE p3 p1 i gg).2 with hf | hf
        · rw [hf]; exact Or.inl ⟨p2, p1⟩
        · right; rw [← p2]; exact hf
      · exact Or.inl ⟨p2, p1⟩
    · intro hs
      subst hs
      rw [if_neg (by simp)] at p1
      unfold shrinkIfEmpty
      rw [y6]
      simp only
      rw [if_neg (by simp)]
      exact ⟨p2, p1⟩
  · rw [if_neg hd] at h
    cases h
    refine ⟨p3, ?_, ?_, fin rfl rfl⟩
    · intro hs; subst hs; rw [if_pos rfl] at p1; exact Or.inl ⟨p2, p1⟩
    · intro hs; subst hs; rw [if_neg (by simp)] at p1; exact ⟨p2, p1⟩

/-- A bucket of the old array: no further resize. -/
theorem cacheAt_old (env : Env) {T : Tbl K V} {i : Nat} {k : K} {touch : Bool} {f : Option V → Act V}
    {T' : Tbl K V} {o : Option V} {ev : Option (K × V)}
    (h : cacheAt c env T .old i k touch f = some (T', o, ev)) : T'.capacity = T.capacity := by
  have hset : ∀ b, (T.setBucket .old i b).capacity = T.capacity := by
    intro b
    unfold Tbl.setBucket Tbl.capacity
    cases hT : T.arr with
    | none => simp only [hT]
    | some w =>
      obtain ⟨a, old⟩ := w
      cases old with
      | none => simp only [hT]
      | some o => rfl
  unfold cacheAt at h
  split at h
  · cases h
  · split at h
    · cases h
    · simp only at h
      split at h
      · cases h
        unfold shrinkIfEmpty
        split
        · rw [if_neg (by simp)]; exact hset _
        · exact hset _
      · cases h; exact hset _

/-- The list after an operation that may have resized the table. -/
def resized (before after : Nat) (L : List K) : List K := if before ≠ 0 ∧ after ≠ before then [] else L

theorem After.resized {T T' : Tbl K V} {L : List K} (h : After c T T' L) (hL : T.capacity = 0 → L = []) :
    FineT c T' (resized T.capacity T'.capacity L) := by
  unfold Seq.resized
  rcases h with ⟨h1, h2⟩ | ⟨h1, h2⟩
  · rw [if_neg (fun h => h.2 h1)]; exact h2
  · by_cases h0 : T.capacity = 0
    · rw [if_neg (fun h => h.1 h0), hL h0]; exact h2
    · rw [if_pos ⟨h0, h1⟩]; exact h2

theorem FineT.nil {T : Tbl K V} {L : List K} (r : FineT c T L) (h : T.capacity = 0) : L = [] := by
  apply r.none
  cases hT : T.arr with
  | none => rfl
  | some w => exact absurd h (capacity_pos hT)

theorem entries_cap {T : Tbl K V} (h : T.capacity = 0) : T.entries c = [] := by
  apply entries_none
  cases hT : T.arr with
  | none => rfl
  | some w => exact absurd h (capacity_pos hT)

/-- An operation on a table that had no array finds nothing and does not resize. -/
theorem cacheAt_fresh (q : CacheLim c) {T T1 T' : Tbl K V} (k1 : Keeps c T T1) {env : Env} {s : Side}
    {i lg : Nat} {b : Bucket K V} {E C : List (K × V)} {L : List K} {k : K} {touch : Bool}
    {f : Option V → Act V} {o : Option V} {ev : Option (K × V)}
    (rd : Ready c T1 s i b E C lg) (lk : LockFine c T1 s i lg b L) (h0 : T.capacity = 0)
    (h : cacheAt c env T1 s i k touch f = some (T', o, ev)) : T'.capacity = T1.capacity := by
  have he : T1.entries c = [] := by
    have := k1.entries
    rw [entries_cap h0] at this
    exact this.eq_nil
  have hb : b.entries c.kind = [] := by
    have := rd.entries
    rw [he] at this
    exact (List.append_eq_nil_iff.1 this.symm.eq_nil).1
  have rwf := rd.wf
  rw [q.kind] at rwf hb
  obtain ⟨b1, o1, ev1, R, y1, y2, _, y3, y4, y5, y6⟩ := cacheAct_ok rwf (by rw [hb]; simp)
    lk.order.lruOk env k touch f
  rw [hb] at y3
  have ho1 : o1 = none := by
    cases o1 with
    | none => rfl
    | some v => have := y3.symm.eq_nil; simp [pr] at this
  unfold cacheAt at h
  rw [rd.bucket] at h
  simp only [y1] at h
  subst ho1
  have : Act.removes f (none : Option V) = false := by unfold Act.removes; rfl
  rw [this] at h
  simp only [Bool.false_eq_true, if_false] at h
  cases h
  unfold Tbl.setBucket Tbl.capacity
  cases hT : T1.arr with
  | none => cases s <;> simp only [hT]
  | some w =>
    obtain ⟨a, old⟩ := w
    cases s
    · rfl
    · cases old
      · simp only [hT]
      · rfl

/-- `put`, `replace`, entry API. -/
theorem cacheEntryOp_fine (q : CacheLim c) {T : Tbl K V} (ok : T.Ok c) (l : Lim c T) {L : List K}
    (r : FineT c T L) (env : Env) (k : K) (f : Option V → Act V) {T' : Tbl K V} {o : Option V}
    {ev : Option (K × V)} (h : cacheEntryOp c env T k f = some (T', o, ev))
    (g : T.capacity ≤ T'.capacity ∨ T'.capacity = 0) :
    Lim c T' ∧ FineT c T' (resized T.capacity T'.capacity (useList L k false f o ev)) ∧
      (T.capacity = 0 → ev = none) ∧
      ∀ lg, T.capacity = 32 * 2 ^ lg →
        (ev ≠ none ↔ o = none ∧ (∃ v, f none = .put v) ∧
          ((T.entries c).filter fun e => bucketIndex lg (c.hash e.1) ==
            bucketIndex lg (c.hash k)).length = 32) ∧
        ∀ e, ev = some e → e ∈ T.entries c ∧ bucketIndex lg (c.hash e.1) = bucketIndex lg (c.hash k) ∧
          (part c.hash lg L (bucketIndex lg (c.hash k)) ≠ [] →
            (part c.hash lg L (bucketIndex lg (c.hash k))).getLast? = some e.1) := by
  unfold cacheEntryOp at h
  split at h
  · cases h
  · rename_i T1 s i hw
    have g1 : s = .old → T.capacity ≤ T1.capacity := by
      intro hs
      subst hs
      have := cacheAt_old env h
      rcases g with g | g
      · rw [← this]; exact g
      · obtain ⟨Tx, sx, ix, hx1, hx2, hx3⟩ := writer_ok q.ok env.recent T ok (q.ok k)
        rw [hw] at hx1
        cases hx1
        obtain ⟨b, E, C, lg, rd, _⟩ := hx3
        have hb := rd.bucket
        cases hT1 : T1.arr with
        | none => unfold Tbl.bucket at hb; rw [hT1] at hb; cases hb
        | some w => exact absurd (this ▸ g) (capacity_pos hT1)
    obtain ⟨k1, l1, lg, b, E, C, rd, hidx, lk, c1, c2, c3⟩ := writer_fine q ok l r (q.ok k) hw g1
    have g2 : s = .cur → T1.capacity ≤ T'.capacity ∨ T'.capacity = 0 := by
      intro hs
      by_cases h0 : T.capacity = 0
      · exact Or.inl (Nat.le_of_eq (cacheAt_fresh q k1 rd lk h0 h).symm)
      · rw [c2 hs h0]; exact g
    obtain ⟨x1, x2, x3, x4, x5⟩ := cacheAt_fine q k1.ok env rd hidx lk false f h g2
    have hlg : ∀ lg', T.capacity = 32 * 2 ^ lg' → lg' = lg := by
      intro lg' h'
      have hne : T.capacity ≠ 0 := by have := Nat.two_pow_pos lg'; omega
      have := c1 hne
      exact two_pow_inj (by omega)
    refine ⟨x1, ?_, ?_, ?_⟩
    · by_cases h0 : T.capacity = 0
      · cases s with
        | old => exact absurd h0 (c3 rfl).1
        | cur =>
          have hr : resized T.capacity T'.capacity (useList L k false f o ev) = useList L k false f o ev := by
            unfold resized; rw [if_neg (fun h => h.1 h0)]
          rw [hr]
          rcases x2 rfl with ⟨_, hx⟩ | ⟨hx1, hx⟩
          · exact hx
          · exact absurd (cacheAt_fresh q k1 rd lk h0 h) hx1
      · cases s with
        | cur =>
          have hc1 := c2 rfl h0
          have := (x2 rfl).resized (fun h => absurd (hc1 ▸ h) h0)
          rw [hc1] at this
          exact this
        | old =>
          obtain ⟨z1, z2⟩ := x3 rfl
          have hne := (c3 rfl).2
          unfold resized
          rw [if_pos ⟨h0, by rw [z1]; exact hne⟩]
          exact z2
    · intro h0
      cases hev : ev with
      | none => rfl
      | some e =>
        have := (x5 e hev).1
        have he : T1.entries c = [] := by
          have := k1.entries
          rw [entries_cap h0] at this
          exact this.eq_nil
        rw [he] at this; cases this
    · intro lg' h'
      have := hlg lg' h'
      subst this
      rw [hidx]
      refine ⟨?_, ?_⟩
      · rw [x4, ((k1.entries).filter _).length_eq]
      · intro e he
        obtain ⟨y1, y2, y3⟩ := x5 e he
        exact ⟨k1.entries.mem_iff.1 y1, y2, y3⟩

end

end Scc.Seq
