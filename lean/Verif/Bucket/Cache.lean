import Verif.Bucket.Cells
import Verif.Lru.Proof

/-!
# Buckets of `HashCache`: eviction and recency

The LRU list of `Verif.Lru` inside a bucket: which entry `evict_lru_head` takes out and how the order of
use changes.
-/

set_option linter.unusedSectionVars false
set_option linter.unusedSimpArgs false
set_option linter.unusedVariables false

namespace Scc.Bucket

variable {K V : Type}

/-- `update_lru_tail` (/repo/src/hash_table/bucket.rs 285-299): only entries of the main block are on the
list. -/
def Bucket.touch (b : Bucket K V) (p : Ptr) : Bucket K V :=
  if p.blk = 0 then { b with lru := b.lru.touch p.idx } else b

/-- `evict_lru_head` (/repo/src/hash_table/bucket.rs 254-281): the bucket and the evicted pair. `none`
outside models reading a cell that holds nothing. -/
def Bucket.evictHead (b : Bucket K V) : Option (Bucket K V × Option (K × V)) :=
  if b.main.occ = BitVec.allOnes 32 then
    let r := b.lru.evict
    match b.main.data r.2 with
    | none => none
    | some e => some ({ b with len := b.len - 1, main := b.main.clearSlot r.2, lru := r.1 }, some e)
  else some (b, none)

section
variable {hash : K → Nat} {b : Bucket K V}

/-! ## Contents -/

theorem touch_blocks (b : Bucket K V) (p : Ptr) : (b.touch p).blocks = b.blocks := by
  unfold Bucket.touch; split <;> rfl

theorem touch_len (b : Bucket K V) (p : Ptr) : (b.touch p).len = b.len := by
  unfold Bucket.touch; split <;> rfl

theorem touch_main (b : Bucket K V) (p : Ptr) : (b.touch p).main = b.main := by
  unfold Bucket.touch; split <;> rfl

theorem touch_links (b : Bucket K V) (p : Ptr) : (b.touch p).links = b.links := by
  unfold Bucket.touch; split <;> rfl

theorem touch_entries (t : Kind) (b : Bucket K V) (p : Ptr) : (b.touch p).entries t = b.entries t := by
  unfold Bucket.entries; rw [touch_blocks]

theorem touch_wf {t : Kind} (w : Wf t hash b) (p : Ptr) : Wf t hash (b.touch p) :=
  ⟨by rw [touch_main]; exact w.main_cap, by rw [touch_links]; exact w.link_cap,
    by rw [touch_blocks]; exact w.blocks, by rw [touch_len, touch_entries]; exact w.len⟩

theorem touch_pointsTo {t : Kind} {p q : Ptr} {e : K × V} (h : PointsTo t b q e) :
    PointsTo t (b.touch p) q e := by
  unfold PointsTo; rw [touch_blocks]; exact h

/-- The LRU list is well-formed. -/
def LruOk (b : Bucket K V) : Prop := ∃ l, Lru.Rep b.lru l

theorem pointsTo_main {i : Nat} {e : K × V} (w : Wf .cache hash b) (h : b.main.data i = some e) :
    PointsTo .cache b ⟨0, i⟩ e := by
  refine ⟨b.main, rfl, ?_, h⟩
  have bw := w.blocks b.main (by simp [Bucket.blocks])
  rw [visible_iff]
  refine ⟨?_, fun h => by cases h⟩
  cases ho : b.main.occ.getLsbD i with
  | true => rfl
  | false => rw [bw.uninit i ho] at h; cases h

theorem main_lt {i : Nat} {e : K × V} (w : Wf .cache hash b) (h : b.main.data i = some e) : i < 32 := by
  obtain ⟨x, hx, hv, hd⟩ := pointsTo_main w h
  have bw := w.blocks b.main (by simp [Bucket.blocks])
  have := bw.hi i (by
    have : b.main = x := by simpa [Bucket.blocks] using hx
    subst this; exact visible_occ hv)
  rw [w.main_cap] at this; exact this

theorem evictHead_full (h : b.main.occ = BitVec.allOnes 32) (w : Wf .cache hash b) (hl : LruOk b) :
    b.lru.evict.2 < 32 ∧ LruOk { b with lru := b.lru.evict.1 } := by
  obtain ⟨l, r⟩ := hl
  by_cases hn : l = []
  · subst hn
    have := Lru.rep_evict_nil r
    rw [this]; exact ⟨by simp, [], r⟩
  · obtain ⟨r1, r2⟩ := Lru.rep_evict r hn
    have hm : b.lru.evict.2 ∈ l := List.mem_of_getLast? r2
    exact ⟨r.lt _ hm, _, r1⟩

/-- `evict_lru_head` takes out one entry if the main block is full and nothing otherwise. -/
theorem evictHead_ok (w : Wf .cache hash b) (hl : LruOk b) :
    ∃ b' ev, b.evictHead = some (b', ev) ∧ Wf .cache hash b' ∧ LruOk b' ∧
      (b.entries .cache).Perm (ev.toList ++ b'.entries .cache) ∧
      (ev = none ↔ b.main.occ ≠ BitVec.allOnes 32) ∧ b'.links = b.links ∧
      b'.main.occ ≠ BitVec.allOnes 32 := by
  unfold Bucket.evictHead
  by_cases h : b.main.occ = BitVec.allOnes 32
  · rw [if_pos h]
    simp only
    obtain ⟨h1, h2⟩ := evictHead_full h w hl
    have bw := w.blocks b.main (by simp [Bucket.blocks])
    obtain ⟨e, he⟩ := bw.init _ ((allOnes_iff _).1 h _ h1)
    rw [he]
    simp only
    obtain ⟨b1, p1, r1, r2, r3⟩ := remove_ok w (pointsTo_main w he)
    simp only [Bucket.remove, if_true, he, Option.some.injEq, Prod.mk.injEq] at r1
    obtain ⟨r1, _⟩ := r1
    have hent : ∀ s, Bucket.entries .cache
        ({ b with len := b.len - 1, main := b.main.clearSlot b.lru.evict.2, lru := s } : Bucket K V) =
        b1.entries .cache := by
      intro s; rw [← r1]; rfl
    refine ⟨_, _, rfl, ⟨?_, ?_, ?_, ?_⟩, h2, ?_, ?_, rfl, ?_⟩
    · have := r2.main_cap; rw [← r1] at this; exact this
    · have := r2.link_cap; rw [← r1] at this; exact this
    · have := r2.blocks; rw [← r1] at this; exact this
    · rw [hent, ← r2.len, ← r1]
    · rw [hent]; exact r3
    · simp [h]
    · intro hx
      have := (allOnes_iff _).1 hx _ h1
      unfold Block.clearSlot at this
      rw [getLsbD_clear] at this
      simp at this
  · rw [if_neg h]
    exact ⟨b, none, rfl, w, hl, List.Perm.refl _, ⟨fun _ => h, fun _ => rfl⟩, rfl, h⟩

/-! ## Order of use -/

/-- The key in slot `i` of the main block. -/
def keyAt (b : Bucket K V) (i : Nat) : Option K := (b.main.data i).map (·.1)

/-- `L` lists the keys on the LRU list, most recently used first. -/
def Order (b : Bucket K V) (L : List K) : Prop :=
  ∃ l, Lru.Rep b.lru l ∧ l.map (keyAt b) = L.map some

theorem Order.lruOk {L : List K} (h : Order b L) : LruOk b := ⟨h.choose, h.choose_spec.1⟩

theorem empty_order : Order (Bucket.empty : Bucket K V) [] := ⟨[], Lru.rep_init, rfl⟩

/-- Two slots of the main block never hold the same key. -/
theorem slot_inj (w : Wf .cache hash b) (nd : ((b.entries .cache).map (·.1)).Nodup) {i j : Nat} {k : K}
    (hi : keyAt b i = some k) (hj : keyAt b j = some k) : i = j := by
  unfold keyAt at hi hj
  cases hdi : b.main.data i with
  | none => rw [hdi] at hi; cases hi
  | some e =>
    cases hdj : b.main.data j with
    | none => rw [hdj] at hj; cases hj
    | some e' =>
      rw [hdi] at hi
      rw [hdj] at hj
      simp at hi hj
      apply Classical.byContradiction
      intro hne
      obtain ⟨b1, p1, r1, r2, r3⟩ := remove_ok w (pointsTo_main w hdi)
      simp only [Bucket.remove, if_true, hdi, Option.some.injEq, Prod.mk.injEq] at r1
      have hnd : ((e :: b1.entries .cache).map (·.1)).Nodup := ((r3.map _).nodup_iff).1 nd
      rw [List.map_cons, List.nodup_cons] at hnd
      apply hnd.1
      have hd' : b1.main.data j = some e' := by
        rw [← r1.1]
        show (if j = i then none else b.main.data j) = some e'
        rw [if_neg (fun h => hne h.symm)]; exact hdj
      exact List.mem_map.2 ⟨e', PointsTo.mem r2 (pointsTo_main r2 hd'), hj.trans hi.symm⟩

theorem map_filter_ne [DecidableEq K] {f : Nat → Option K} {i : Nat} {k : K} (hi : f i = some k)
    (l : List Nat) (L : List K) (h : l.map f = L.map some) (inj : ∀ x ∈ l, f x = some k → x = i) :
    (l.filter (· ≠ i)).map f = (L.filter (· ≠ k)).map some := by
  induction l generalizing L with
  | nil => cases L with
    | nil => rfl
    | cons y ys => cases h
  | cons x xs ih =>
    cases L with
    | nil => cases h
    | cons y ys =>
      simp only [List.map_cons, List.cons.injEq] at h
      have ih' := ih ys h.2 fun z hz => inj z (by simp [hz])
      by_cases hx : x = i
      · have hy : y = k := by
          have := h.1; rw [hx, hi] at this; exact (Option.some.inj this).symm
        rw [List.filter_cons_of_neg (by simp [hx]), List.filter_cons_of_neg (by simp [hy])]
        exact ih'
      · have hy : y ≠ k := by
          intro hy; subst hy; exact hx (inj x (by simp) h.1)
        rw [List.filter_cons_of_pos (by simp [hx]), List.filter_cons_of_pos (by simp [hy])]
        rw [List.map_cons, List.map_cons, ih', h.1]

/-- The keys on the list are in the main block. -/
theorem Order.key {L : List K} {l : List Nat} (h : l.map (keyAt b) = L.map some) {x : Nat} (hx : x ∈ l) :
    ∃ k ∈ L, keyAt b x = some k := by
  have : keyAt b x ∈ L.map some := by rw [← h]; exact List.mem_map.2 ⟨x, hx, rfl⟩
  obtain ⟨k, hk, he⟩ := List.mem_map.1 this
  exact ⟨k, hk, he.symm⟩

theorem keyAt_congr {b' : Bucket K V} {l : List Nat} (h : ∀ x ∈ l, keyAt b' x = keyAt b x) :
    l.map (keyAt b') = l.map (keyAt b) := List.map_congr_left h

theorem map_some_inj {L L' : List K} (h : L.map some = L'.map some) : L = L' := by
  induction L generalizing L' with
  | nil => cases L' with
    | nil => rfl
    | cons => cases h
  | cons x xs ih => cases L' with
    | nil => cases h
    | cons y ys =>
      simp only [List.map_cons, List.cons.injEq, Option.some.injEq] at h
      rw [h.1, ih h.2]

/-- No key is on the list twice. -/
theorem Order.nodup {L : List K} (w : Wf .cache hash b) (nd : ((b.entries .cache).map (·.1)).Nodup)
    (h : Order b L) : L.Nodup := by
  obtain ⟨l, r, hm⟩ := h
  have h1 : (L.map some).Nodup := by
    rw [← hm]
    have hn := r.nodup
    have hin : ∀ x ∈ l, ∃ k, keyAt b x = some k := fun x hx => by
      obtain ⟨k, _, hk⟩ := Order.key hm hx; exact ⟨k, hk⟩
    rw [List.nodup_iff_pairwise_ne, List.pairwise_map]
    refine List.Pairwise.imp_of_mem ?_ hn
    intro x y hx hy hne he
    obtain ⟨k, hk⟩ := hin x hx
    exact hne (slot_inj w nd hk (he ▸ hk))
  rw [List.nodup_iff_pairwise_ne, List.pairwise_map] at h1
  exact h1.imp fun h he => h (by rw [he])

variable [DecidableEq K]

/-- Using an entry moves its key to the front. -/
theorem touch_order {L : List K} (w : Wf .cache hash b) (nd : ((b.entries .cache).map (·.1)).Nodup)
    (h : Order b L) {i : Nat} {e : K × V} (hd : b.main.data i = some e) :
    Order (b.touch ⟨0, i⟩) (e.1 :: L.filter (· ≠ e.1)) := by
  obtain ⟨l, r, hm⟩ := h
  have hk : keyAt b i = some e.1 := by unfold keyAt; rw [hd]; rfl
  refine ⟨_, Lru.rep_touch r (main_lt w hd), ?_⟩
  have : keyAt (b.touch ⟨0, i⟩) = keyAt b := by
    funext j; unfold keyAt; rw [touch_main]
  rw [this]
  unfold Lru.Spec.touch
  rw [List.map_cons, List.map_cons, hk,
    map_filter_ne hk l L hm fun x _ hx => slot_inj w nd hx hk]

/-- Removing an entry of the main block takes its key off the list. -/
theorem remove_order {L : List K} (w : Wf .cache hash b) (nd : ((b.entries .cache).map (·.1)).Nodup)
    (h : Order b L) {i : Nat} {e : K × V} (hd : b.main.data i = some e) {b' : Bucket K V}
    {o : Option (K × V)} {q : Ptr} (hr : b.remove .cache ⟨0, i⟩ = some (b', o, q)) :
    Order b' (L.filter (· ≠ e.1)) ∧ b'.links = b.links := by
  obtain ⟨l, r, hm⟩ := h
  have hk : keyAt b i = some e.1 := by unfold keyAt; rw [hd]; rfl
  simp only [Bucket.remove, if_true, Option.some.injEq, Prod.mk.injEq] at hr
  obtain ⟨hr, _⟩ := hr
  subst hr
  refine ⟨⟨_, Lru.rep_remove r i, ?_⟩, rfl⟩
  rw [keyAt_congr (b := b), Lru.Spec.remove]
  · exact map_filter_ne hk l L hm fun x _ hx => slot_inj w nd hx hk
  · intro x hx
    have : x ≠ i := by
      have := (List.mem_filter.1 hx).2
      simpa using this
    unfold keyAt Block.clearSlot
    simp [this]

theorem dropLast_eq_filter {L : List K} (hn : L.Nodup) {k : K} (hk : L.getLast? = some k) :
    L.dropLast = L.filter (· ≠ k) := by
  rcases List.eq_nil_or_concat L with h | ⟨p, z, h⟩
  · subst h; cases hk
  · subst h
    simp at hk
    subst hk
    simp only [List.concat_eq_append] at hn ⊢
    rw [List.dropLast_concat, List.filter_append]
    rw [List.nodup_append] at hn
    have : p.filter (· ≠ z) = p := by
      rw [List.filter_eq_self]
      intro x hx
      have := hn.2.2 x hx z (by simp)
      simpa using this
    rw [this]; simp

/-- Eviction takes the least recently used key if any key of the bucket is on the list. -/
theorem evictHead_order {L : List K} (w : Wf .cache hash b)
    (nd : ((b.entries .cache).map (·.1)).Nodup) (h : Order b L) {b' : Bucket K V} {e : K × V}
    (hr : b.evictHead = some (b', some e)) :
    Order b' (L.filter (· ≠ e.1)) ∧ (L ≠ [] → L.getLast? = some e.1) := by
  have hnd := h.nodup w nd
  obtain ⟨l, r, hm⟩ := h
  unfold Bucket.evictHead at hr
  split at hr
  · simp only at hr
    split at hr
    · cases hr
    · rename_i e0 hd
      simp only [Option.some.injEq, Prod.mk.injEq] at hr
      obtain ⟨hr, he⟩ := hr
      subst he
      subst hr
      by_cases hl : l = []
      · subst hl
        have hL : L = [] := by
          cases L with
          | nil => rfl
          | cons => cases hm
        subst hL
        refine ⟨⟨[], ?_, rfl⟩, fun h => absurd rfl h⟩
        show Lru.Rep b.lru.evict.1 []
        rw [Lru.rep_evict_nil r]; exact r
      · obtain ⟨r1, r2⟩ := Lru.rep_evict r hl
        have hk : keyAt b b.lru.evict.2 = some e0.1 := by unfold keyAt; rw [hd]; rfl
        have hlast : L.getLast? = some e0.1 := by
          have h1 : (l.map (keyAt b)).getLast? = some (keyAt b b.lru.evict.2) := by
            rw [List.getLast?_map]
            unfold Lru.Spec.victim at r2
            rw [r2]; rfl
          rw [hm, hk, List.getLast?_map] at h1
          cases hL : L.getLast? with
          | none => rw [hL] at h1; cases h1
          | some z => rw [hL] at h1; simpa using h1
        refine ⟨⟨_, r1, ?_⟩, fun _ => hlast⟩
        rw [← dropLast_eq_filter hnd hlast, keyAt_congr (b := b)]
        · unfold Lru.Spec.evict
          rw [List.map_dropLast, hm, List.map_dropLast]
        · intro x hx
          have hne : x ≠ b.lru.evict.2 := by
            intro hx'
            subst hx'
            unfold Lru.Spec.victim at r2
            unfold Lru.Spec.evict at hx
            rw [dropLast_eq_filter r.nodup r2] at hx
            have := (List.mem_filter.1 hx).2
            simp at this
          unfold keyAt Block.clearSlot
          simp [hne]
  · simp only [Option.some.injEq, Prod.mk.injEq] at hr
    cases hr.2

/-! ## Growing -/

/-- `b'` is `b` with entries added: the list is the same and the slots in use are untouched. -/
structure Grows (b b' : Bucket K V) : Prop where
  lru : b'.lru = b.lru
  occ : ∀ j, b.main.occ.getLsbD j = true → b'.main.occ.getLsbD j = true
  data : ∀ j, b.main.occ.getLsbD j = true → b'.main.data j = b.main.data j

theorem Grows.refl (b : Bucket K V) : Grows b b := ⟨rfl, fun _ h => h, fun _ _ => rfl⟩

theorem Grows.trans {b b' b'' : Bucket K V} (h : Grows b b') (h' : Grows b' b'') : Grows b b'' :=
  ⟨h'.lru.trans h.lru, fun j hj => h'.occ j (h.occ j hj),
    fun j hj => (h'.data j (h.occ j hj)).trans (h.data j hj)⟩

theorem insert_grows (b : Bucket K V) (recent : Nat → Bool) (h : Nat) (e : K × V) :
    Grows b (b.insert .cache recent h e).1 := by
  unfold Bucket.insert
  simp only [reduceCtorEq, false_and, if_false]
  split
  · unfold Bucket.insertOverflow
    split
    · split
      · exact ⟨rfl, fun _ h => h, fun _ _ => rfl⟩
      · exact Grows.refl b
    · exact ⟨rfl, fun _ h => h, fun _ _ => rfl⟩
  · rename_i hne
    have hlt : to b.main.occ < 32 := by
      have := tz_le (~~~b.main.occ)
      have h32 : bucketLen = 32 := rfl
      unfold to at hne ⊢; omega
    have hfr := (to_lt hlt).1
    have hj : ∀ j, b.main.occ.getLsbD j = true → j ≠ to b.main.occ := by
      rintro j h1 rfl; rw [hfr] at h1; cases h1
    refine ⟨rfl, ?_, ?_⟩
    · intro j h1
      show (b.main.occ ||| bit (to b.main.occ)).getLsbD j = true
      rw [getLsbD_set, h1]; simp
    · intro j h1
      show (if j = to b.main.occ then some e else b.main.data j) = b.main.data j
      rw [if_neg (hj j h1)]

theorem reserveSlots_grows (b : Bucket K V) (n : Nat) : Grows b (b.reserveSlots n) := by
  unfold Bucket.reserveSlots
  simp only
  split <;> exact ⟨rfl, fun _ h => h, fun _ _ => rfl⟩

theorem Grows.order {b' : Bucket K V} (w : Wf .cache hash b) (g : Grows b b') {L : List K}
    (h : Order b L) : Order b' L := by
  obtain ⟨l, r, hm⟩ := h
  refine ⟨l, by rw [g.lru]; exact r, ?_⟩
  rw [← hm]
  apply keyAt_congr
  intro x hx
  obtain ⟨k, _, hk⟩ := Order.key hm hx
  unfold keyAt at hk ⊢
  cases hd : b.main.data x with
  | none => rw [hd] at hk; cases hk
  | some e =>
    obtain ⟨y, hy, hv, _⟩ := pointsTo_main w hd
    have : b.main = y := by simpa [Bucket.blocks] using hy
    subst this
    rw [g.data x (visible_occ hv), hd]

/-- Overwriting a value keeps the order. -/
theorem setVal_order {L : List K} (h : Order b L) (p : Ptr) (v : V) : Order (b.setVal p v) L := by
  obtain ⟨l, r, hm⟩ := h
  unfold Bucket.setVal
  split
  · rename_i x hx
    cases hp : p.blk with
    | zero =>
      rw [hp] at hx
      have hx' : b.main = x := by simpa [Bucket.blocks] using hx
      subst hx'
      refine ⟨l, r, ?_⟩
      rw [← hm]
      apply keyAt_congr
      intro x _
      unfold keyAt Bucket.setBlock
      simp only
      split
      · cases b.main.data x <;> rfl
      · rfl
    | succ j => exact ⟨l, r, hm⟩
  · exact ⟨l, r, hm⟩

theorem setVal_links {p : Ptr} (hp : p.blk = 0) (v : V) : (b.setVal p v).links = b.links := by
  unfold Bucket.setVal
  split
  · rw [hp]; rfl
  · rfl

theorem setVal_lru (p : Ptr) (v : V) : (b.setVal p v).lru = b.lru := by
  unfold Bucket.setVal
  split
  · cases p.blk <;> rfl
  · rfl

theorem setVal_lruOk (h : LruOk b) (p : Ptr) (v : V) : LruOk (b.setVal p v) := by
  unfold LruOk; rw [setVal_lru]; exact h

theorem touch_lruOk (h : LruOk b) {p : Ptr} (hp : p.idx < 32) : LruOk (b.touch p) := by
  unfold Bucket.touch
  split
  · obtain ⟨l, r⟩ := h; exact ⟨_, Lru.rep_touch r hp⟩
  · exact h

theorem Grows.lruOk {b' : Bucket K V} (g : Grows b b') (h : LruOk b) : LruOk b' := by
  unfold LruOk; rw [g.lru]; exact h

theorem remove_lruOk (h : LruOk b) {p q : Ptr} {b' : Bucket K V} {o : Option (K × V)}
    (hr : b.remove .cache p = some (b', o, q)) : LruOk b' := by
  obtain ⟨l, r⟩ := h
  unfold Bucket.remove at hr
  split at hr
  · split at hr
    · simp only at hr
      split at hr
      · simp only [Bucket.unlink, Option.some.injEq, Prod.mk.injEq] at hr
        rw [← hr.1]; exact ⟨l, r⟩
      · simp only [Option.some.injEq, Prod.mk.injEq] at hr
        rw [← hr.1]; exact ⟨l, r⟩
    · cases hr
  · simp only [Option.some.injEq, Prod.mk.injEq] at hr
    rw [← hr.1]
    exact ⟨_, Lru.rep_remove r p.idx⟩

/-! ## Full buckets -/

theorem mem_links_nil (hl : b.links = []) : b.entries .cache = b.main.entries .cache := by
  unfold Bucket.entries Bucket.blocks
  rw [hl]; simp

theorem len_le (w : Wf .cache hash b) (hl : b.links = []) : (b.entries .cache).length ≤ 32 := by
  rw [mem_links_nil hl]
  unfold Block.entries
  rw [w.main_cap]
  have := List.length_filterMap_le (slotVal .cache b.main) (List.range bucketLen)
  simp [bucketLen] at this ⊢
  exact this

/-- The main block is full iff 32 entries are in the bucket, if nothing overflowed. -/
theorem full_iff (w : Wf .cache hash b) (hl : b.links = []) :
    (b.entries .cache).length = 32 ↔ b.main.occ = BitVec.allOnes 32 := by
  have bw := w.blocks b.main (by simp [Bucket.blocks])
  rw [mem_links_nil hl]
  unfold Block.entries
  rw [w.main_cap, List.length_filterMap_eq_countP, allOnes_iff]
  have h32 : (List.range bucketLen).length = 32 := by simp [bucketLen]
  constructor
  · intro h j hj
    rw [← h32, List.countP_eq_length] at h
    have := h j (List.mem_range.2 hj)
    cases hs : slotVal .cache b.main j with
    | none => rw [hs] at this; cases this
    | some e => exact visible_occ (slotVal_eq_some.1 hs).1
  · intro h
    rw [← h32, List.countP_eq_length]
    intro j hj
    have ho := h j (List.mem_range.1 hj)
    obtain ⟨e, he⟩ := bw.init j ho
    have : slotVal .cache b.main j = some e :=
      slotVal_eq_some.2 ⟨(visible_iff _ _ _).2 ⟨ho, fun h => by cases h⟩, he⟩
    rw [this]; rfl

/-- With a free slot in the main block, `insert` uses it. -/
theorem insert_main (recent : Nat → Bool) (h : Nat) (e : K × V)
    (hne : b.main.occ ≠ BitVec.allOnes 32) :
    (b.insert .cache recent h e).1.links = b.links ∧ (b.insert .cache recent h e).2.blk = 0 ∧
      (b.insert .cache recent h e).1.main.data (b.insert .cache recent h e).2.idx = some e := by
  have hto : to b.main.occ ≠ bucketLen := by
    intro h
    exact hne ((allOnes_iff _).2 fun j hj => to_eq_32 h hj)
  unfold Bucket.insert
  simp only [reduceCtorEq, false_and, if_false, if_neg hto]
  exact ⟨trivial, trivial, by simp [Block.insertEntry]⟩

end

end Scc.Bucket
