import Verif.Seq.Model
import Verif.Index.Props

/-!
# Relocation, rehashing and resizing keep every entry and every pair in memory
-/

set_option linter.unusedSectionVars false
set_option linter.unusedSimpArgs false
set_option linter.unusedVariables false

namespace Scc.Seq

open Scc.Index hiding bucketLen
open Scc.Bucket

variable {K V : Type}

/-! ## Multisets -/

open Classical in
/-- How often `x` occurs in `l`. -/
noncomputable def cnt {α : Type} (x : α) (l : List α) : Nat := l.countP fun y => decide (y = x)

section Cnt
variable {α : Type}

theorem cnt_nil (x : α) : cnt x [] = 0 := rfl
theorem cnt_append (x : α) (l l' : List α) : cnt x (l ++ l') = cnt x l + cnt x l' := by
  unfold cnt; exact List.countP_append
/-- Whether `e` is `x`, as a number. -/
noncomputable def one (x e : α) : Nat := cnt x [e]
theorem cnt_cons (x e : α) (l : List α) : cnt x (e :: l) = one x e + cnt x l := by
  unfold one
  rw [← cnt_append]; rfl

theorem perm_iff {l l' : List α} : l.Perm l' ↔ ∀ x, cnt x l = cnt x l' := by
  classical
  constructor
  · intro h x; unfold cnt; exact h.countP_eq _
  · intro h
    rw [List.perm_iff_count]
    intro x
    have h1 := h x
    unfold cnt at h1
    rw [List.count_eq_countP, List.count_eq_countP]
    have e : (fun y => y == x) = fun y => decide (y = x) := by
      funext y
      by_cases hy : y = x <;> simp [hy]
    rw [e]
    simpa using h1

end Cnt

theorem flatMap_split {α : Type} (f : Nat → List α) {i n : Nat} (hi : i < n) :
    ((List.range n).flatMap f).Perm
      (f i ++ (List.range n).flatMap fun j => if j = i then [] else f j) := by
  induction n with
  | zero => omega
  | succ n ih =>
    rw [List.range_succ, List.flatMap_append, List.flatMap_append]
    simp only [List.flatMap_cons, List.flatMap_nil, List.append_nil]
    by_cases h : i = n
    · subst h
      simp only [if_true, List.append_nil]
      have : (List.range i).flatMap (fun j => if j = i then [] else f j) = (List.range i).flatMap f :=
        flatMap_congr_mem fun j hj => by
          have : j ≠ i := by have := List.mem_range.1 hj; omega
          simp [this]
      rw [this]
      exact List.perm_append_comm
    · have hn : ¬ n = i := fun h' => h h'.symm
      rw [if_neg hn]
      have := (ih (by omega)).append_right (f n)
      rwa [List.append_assoc] at this

theorem mem_flatMap_range {α : Type} {f : Nat → List α} {n : Nat} {x : α} :
    x ∈ (List.range n).flatMap f ↔ ∃ i, i < n ∧ x ∈ f i := by
  rw [List.mem_flatMap]
  constructor
  · rintro ⟨i, h1, h2⟩; exact ⟨i, List.mem_range.1 h1, h2⟩
  · rintro ⟨i, h1, h2⟩; exact ⟨i, List.mem_range.2 h1, h2⟩

theorem flatMap_range_nil {α : Type} {f : Nat → List α} {n : Nat} (h : ∀ i, i < n → f i = []) :
    (List.range n).flatMap f = [] := by
  apply List.eq_nil_iff_forall_not_mem.2
  intro x hx
  obtain ⟨i, hi, hxi⟩ := mem_flatMap_range.1 hx
  rw [h i hi] at hxi; cases hxi

/-! ## Invariants -/

/-- The hash function returns 64-bit words. -/
def Cfg.Ok (c : Cfg K) : Prop := ∀ k, c.hash k < 2 ^ 64

/-- The entries of an array, bucket by bucket. -/
def Arr.entries (c : Cfg K) (a : Arr K V) : List (K × V) :=
  (List.range (2 ^ a.lg)).flatMap fun i => (a.bkt i).entries c.kind

/-- The pairs an array holds in memory. -/
def Arr.cells (a : Arr K V) : List (K × V) :=
  (List.range (2 ^ a.lg)).flatMap fun i => (a.bkt i).cells

/-- Shape of an array: well-formed buckets, every entry in the bucket its hash selects. -/
structure ArrWf (c : Cfg K) (a : Arr K V) : Prop where
  lg_pos : 1 ≤ a.lg
  lg_le : a.lg ≤ 57
  wf : ∀ i, Wf c.kind c.hash (a.bkt i)
  placed : ∀ i, ∀ e ∈ (a.bkt i).entries c.kind, bucketIndex a.lg (c.hash e.1) = i

/-- The current array. -/
structure CurOk (c : Cfg K) (a : Arr K V) : Prop where
  wf : ArrWf c a
  alive : ∀ i, a.dead i = false
  prog : a.prog = 0

/-- The old array: killed buckets have no entries, and the buckets below the progress mark are
killed. -/
structure OldOk (c : Cfg K) (o : Arr K V) : Prop where
  wf : ArrWf c o
  dead : ∀ i, o.dead i = true → (o.bkt i).entries c.kind = []
  prog : ∀ i, i < o.prog → i < 2 ^ o.lg → o.dead i = true

theorem CurOk.old {c : Cfg K} {a : Arr K V} (h : CurOk c a) : OldOk c a where
  wf := h.wf
  dead i hi := by rw [h.alive i] at hi; cases hi
  prog i hi := by rw [h.prog] at hi; omega

theorem log2ArrayLen_bounds (capacity : Nat) :
    1 ≤ log2ArrayLen capacity ∧ log2ArrayLen capacity ≤ 57 := by
  obtain ⟨k, hk, h1, h2, _⟩ := arrayLen_pow capacity
  have := log2ArrayLen_spec capacity
  rw [hk] at this
  have := (Nat.pow_right_inj (by omega)).1 this
  omega

theorem new_curOk (c : Cfg K) {lg : Nat} (h1 : 1 ≤ lg) (h2 : lg ≤ 57) :
    CurOk c (Arr.new lg : Arr K V) where
  wf := ⟨h1, h2, fun _ => empty_wf _ _, by
    intro i e he
    have : e ∈ (Bucket.empty : Bucket K V).entries c.kind := he
    simp [Bucket.entries, Bucket.blocks, Bucket.empty, empty_block_entries] at this⟩
  alive _ := rfl
  prog := rfl

theorem empty_entries (t : Kind) : (Bucket.empty : Bucket K V).entries t = [] := by
  simp [Bucket.entries, Bucket.blocks, Bucket.empty, empty_block_entries]

theorem new_entries (c : Cfg K) (lg : Nat) : (Arr.new lg : Arr K V).entries c = [] :=
  flatMap_range_nil fun i _ => empty_entries c.kind

theorem new_cells (lg : Nat) : (Arr.new lg : Arr K V).cells = [] :=
  flatMap_range_nil fun i _ => empty_cells

section
variable {c : Cfg K} {a o : Arr K V}

theorem mem_arr_entries {e : K × V} :
    e ∈ a.entries c ↔ ∃ i, i < 2 ^ a.lg ∧ e ∈ (a.bkt i).entries c.kind := mem_flatMap_range

/-- An entry sits in the bucket of its hash. -/
theorem ArrWf.mem_bucket (w : ArrWf c a) {e : K × V} (h : e ∈ a.entries c) :
    e ∈ (a.bkt (bucketIndex a.lg (c.hash e.1))).entries c.kind := by
  obtain ⟨i, _, hi⟩ := mem_arr_entries.1 h
  rw [w.placed i e hi]; exact hi

theorem set_bkt (a : Arr K V) (i : Nat) (b : Bucket K V) (j : Nat) :
    (a.set i b).bkt j = if j = i then b else a.bkt j := rfl

/-- The other buckets of an array. -/
def Arr.restE (c : Cfg K) (a : Arr K V) (i : Nat) : List (K × V) :=
  (List.range (2 ^ a.lg)).flatMap fun j => if j = i then [] else (a.bkt j).entries c.kind

def Arr.restC (a : Arr K V) (i : Nat) : List (K × V) :=
  (List.range (2 ^ a.lg)).flatMap fun j => if j = i then [] else (a.bkt j).cells

theorem entries_at {i : Nat} (hi : i < 2 ^ a.lg) :
    (a.entries c).Perm ((a.bkt i).entries c.kind ++ a.restE c i) :=
  flatMap_split (fun j => (a.bkt j).entries c.kind) hi

theorem cells_at {i : Nat} (hi : i < 2 ^ a.lg) : a.cells.Perm ((a.bkt i).cells ++ a.restC i) :=
  flatMap_split (fun j => (a.bkt j).cells) hi

theorem entries_set {i : Nat} (hi : i < 2 ^ a.lg) (b : Bucket K V) :
    ((a.set i b).entries c).Perm (b.entries c.kind ++ a.restE c i) := by
  have h := entries_at (a := a.set i b) (c := c) hi
  have h1 : (a.set i b).restE c i = a.restE c i := by
    unfold Arr.restE
    apply flatMap_congr_mem
    intro j _
    rw [set_bkt]
    split <;> rfl
  rw [h1, set_bkt, if_pos rfl] at h
  exact h

theorem cells_set {i : Nat} (hi : i < 2 ^ a.lg) (b : Bucket K V) :
    (a.set i b).cells.Perm (b.cells ++ a.restC i) := by
  have h := cells_at (a := a.set i b) hi
  have h1 : (a.set i b).restC i = a.restC i := by
    unfold Arr.restC
    apply flatMap_congr_mem
    intro j _
    rw [set_bkt]
    split <;> rfl
  rw [h1, set_bkt, if_pos rfl] at h
  exact h

theorem restE_key (w : ArrWf c a) {i : Nat} {e : K × V} (h : e ∈ a.restE c i) :
    bucketIndex a.lg (c.hash e.1) ≠ i := by
  unfold Arr.restE at h
  obtain ⟨j, _, hj⟩ := mem_flatMap_range.1 h
  split at hj
  · cases hj
  · rename_i hne
    rw [w.placed j e hj]; exact hne

theorem set_arrWf (w : ArrWf c a) {i : Nat} {b : Bucket K V} (hb : Wf c.kind c.hash b)
    (hp : ∀ e ∈ b.entries c.kind, bucketIndex a.lg (c.hash e.1) = i) : ArrWf c (a.set i b) where
  lg_pos := w.lg_pos
  lg_le := w.lg_le
  wf j := by
    rw [set_bkt]
    split
    · exact hb
    · exact w.wf j
  placed j e he := by
    rw [set_bkt] at he
    split at he
    · rename_i h; subst h; exact hp e he
    · exact w.placed j e he

theorem len_nil {b : Bucket K V} {t : Kind} {hash : K → Nat} (w : Wf t hash b) (h : b.len = 0) :
    b.entries t = [] := List.length_eq_zero_iff.1 (w.len ▸ h)

/-! ## The cursor walk -/

theorem collect_ok {b : Bucket K V} {t : Kind} {hash : K → Nat} (w : Wf t hash b) (fuel : Nat) (p : Ptr)
    (hf : (remaining t b p).length < fuel) : collect t fuel b p = some (remaining t b p) := by
  induction fuel generalizing p with
  | zero => omega
  | succ fuel ih =>
    unfold collect
    rcases moveToNext_ok w p with ⟨h1, h2, _⟩ | ⟨e, rest, h1, h2, h3, h4⟩
    · simp only [h2, h1]; rfl
    · simp only [h2, if_true, pointsTo_get h3]
      rw [h1] at hf ⊢
      rw [ih _ (by rw [h4]; simp at hf; omega), h4]
      rfl

theorem pointsTo_ph {b : Bucket K V} {t : Kind} {hash : K → Nat} (w : Wf t hash b) {p : Ptr}
    {e : K × V} (h : PointsTo t b p e) : partialHash (phAt b p) = partialHash (hash e.1) := by
  obtain ⟨x, hx, hv, hd⟩ := h
  unfold phAt
  rw [hx]
  show partialHash (x.ph p.idx) = _
  rw [(w.blocks x (List.mem_of_getElem? hx)).ph _ _ hv hd]
  unfold partialHash
  omega

/-- The moving loop: every entry the cursor has not passed yet moves to the current array. -/
theorem moveLoop_ok (hc : c.Ok) (recent : Nat → Bool) (olg base fuel : Nat) (a : Arr K V)
    (src : Bucket K V) (p : Ptr) (hs : List Nat) (wa : ArrWf c a) (ws : Wf c.kind c.hash src)
    (hsrc : (src.entries c.kind).Perm (remaining c.kind src p))
    (hf : (remaining c.kind src p).length < fuel)
    (hbase : olg ≥ a.lg → ∀ e ∈ remaining c.kind src p, bucketIndex a.lg (c.hash e.1) = base)
    (hhs : olg < a.lg → ∃ r, hs ++ r = (remaining c.kind src p).map fun e => c.hash e.1) :
    ∃ a' src' g, moveLoop c recent olg base fuel a src p hs = some (a', src', g) ∧
      ArrWf c a' ∧ a'.lg = a.lg ∧ a'.dead = a.dead ∧ a'.prog = a.prog ∧
      Wf c.kind c.hash src' ∧ src'.entries c.kind = [] ∧
      (a'.entries c).Perm (src.entries c.kind ++ a.entries c) ∧
      (g ++ a'.cells ++ src'.cells).Perm (a.cells ++ src.cells) := by
  induction fuel generalizing a src p hs with
  | zero => omega
  | succ fuel ih =>
    unfold moveLoop
    rcases moveToNext_ok ws p with ⟨h1, h2, _⟩ | ⟨e, rest, h1, h2, h3, h4⟩
    · rw [h1] at hsrc
      have he := hsrc.eq_nil
      refine ⟨a, src, [], by simp only [h2]; rfl, wa, rfl, rfl, rfl, ws, he, ?_, ?_⟩
      · rw [he]; exact List.Perm.refl _
      · simp
    · simp only [h2, if_true, pointsTo_get h3]
      generalize hq : (src.moveToNext c.kind p).1 = q at *
      rw [h1] at hf hbase hhs
      generalize hh : (if olg ≥ a.lg then phAt src q else hs.headD (c.hash e.1)) = h
      generalize hi : (if olg ≥ a.lg then base else bucketIndex a.lg h) = i
      have hph : partialHash h = partialHash (c.hash e.1) := by
        rw [← hh]
        split
        · exact pointsTo_ph ws h3
        · rename_i hlt
          obtain ⟨r, hr⟩ := hhs (by omega)
          cases hs with
          | nil => rfl
          | cons x xs => simp at hr; simp [hr.1]
      have hidx : bucketIndex a.lg (c.hash e.1) = i := by
        rw [← hi]
        split
        · rename_i hge; exact hbase hge e (by simp)
        · rename_i hlt
          rw [← hh, if_neg hlt]
          obtain ⟨r, hr⟩ := hhs (by omega)
          cases hs with
          | nil => rfl
          | cons x xs => simp at hr; simp [hr.1]
      have hilt : i < 2 ^ a.lg := by
        rw [← hidx]; exact bucketIndex_lt (by have := wa.lg_le; omega) (hc e.1)
      obtain ⟨b', src', x1, x2, x3, x4, x5⟩ := extractFrom_ok (wa.wf i) ws recent h3 hph
      obtain ⟨y1, y2⟩ := extractFrom_cells (wa.wf i) ws recent h3 x1
      have y3 := extractFrom_remaining ws recent h3 x1
      rw [x1]
      simp only
      have hrem : remaining c.kind src' q = rest := y3.trans h4
      obtain ⟨a2, src2, g2, i1, i2, i3, i4, i5, i6, i7, i8, i9⟩ := ih (a.set i b') src' q hs.tail
        (set_arrWf wa x2 (by
          intro e' he'
          rcases List.mem_cons.1 (x4.mem_iff.1 he') with h | h
          · subst h; exact hidx
          · exact wa.placed i e' h)) x3
        (by
          rw [hrem]
          have h5 : (e :: src'.entries c.kind).Perm (e :: rest) := x5.symm.trans (h1 ▸ hsrc)
          exact h5.cons_inv)
        (by rw [hrem]; simp at hf; omega)
        (by rw [hrem]; intro hge e' he'; exact hbase hge e' (by simp [he']))
        (by
          rw [hrem]
          intro hlt
          obtain ⟨r, hr⟩ := hhs hlt
          cases hs with
          | nil => exact ⟨rest.map fun e => c.hash e.1, rfl⟩
          | cons x xs => simp at hr; exact ⟨r, hr.2⟩)
      refine ⟨a2, src2, (a.bkt i).reclaimed c.kind recent ++ g2, by rw [i1]; rfl, i2, i3, i4, i5, i6,
        i7, ?_, ?_⟩
      · rw [perm_iff] at *
        intro x
        have z1 := i8 x
        have z2 := (perm_iff.1 (entries_set (c := c) hilt b')) x
        have z3 := (perm_iff.1 (entries_at (c := c) hilt)) x
        have z4 := x4 x
        have z5 := x5 x
        simp only [cnt_append, cnt_cons x e] at *
        omega
      · rw [perm_iff] at *
        intro x
        have z1 := i9 x
        have z2 := (perm_iff.1 (cells_set hilt b')) x
        have z3 := (perm_iff.1 (cells_at hilt)) x
        have z4 := y1 x
        have z5 := y2 x
        simp only [cnt_append, cnt_cons x e] at *
        omega

/-! ## Relocation -/

theorem reserveTargets_ok (olg base : Nat) (es : List (K × V)) (wa : ArrWf c a) :
    ArrWf c (reserveTargets c olg base es a) ∧
      (reserveTargets c olg base es a).entries c = a.entries c ∧
      (reserveTargets c olg base es a).cells = a.cells := by
  have h : ∀ i, Wf c.kind c.hash ((reserveTargets c olg base es a).bkt i) ∧
      ((reserveTargets c olg base es a).bkt i).entries c.kind = (a.bkt i).entries c.kind ∧
      ((reserveTargets c olg base es a).bkt i).cells = (a.bkt i).cells := by
    intro i
    unfold reserveTargets
    show Wf c.kind c.hash (if _ then _ else _) ∧ Bucket.entries c.kind (if _ then _ else _) = _ ∧
      Bucket.cells (if _ then _ else _) = _
    by_cases hd : (es.countP fun e =>
        (if olg ≥ a.lg then base else bucketIndex a.lg (c.hash e.1)) == i) ≠ 0
    · rw [if_pos hd]
      obtain ⟨h1, h2⟩ := reserveSlots_ok (wa.wf i) (es.countP fun e =>
        (if olg ≥ a.lg then base else bucketIndex a.lg (c.hash e.1)) == i)
      exact ⟨h1, h2, reserveSlots_cells _ _⟩
    · rw [if_neg hd]
      exact ⟨wa.wf i, rfl, rfl⟩
  refine ⟨⟨wa.lg_pos, wa.lg_le, fun i => (h i).1, ?_⟩, ?_, ?_⟩
  · intro i e he
    rw [(h i).2.1] at he
    exact wa.placed i e he
  · unfold Arr.entries
    exact flatMap_congr_mem fun i _ => (h i).2.1
  · unfold Arr.cells
    exact flatMap_congr_mem fun i _ => (h i).2.2

/-- Killing an empty bucket drops nothing. -/
theorem killBucket_ok {t : Kind} {hash : K → Nat} {b : Bucket K V} (w : Wf t hash b)
    (he : b.entries t = []) :
    Wf t hash (killBucket t b).1 ∧ (killBucket t b).1.entries t = [] ∧ (killBucket t b).2 = [] ∧
      (killBucket t b).1.cells = b.cells := by
  unfold killBucket
  by_cases ht : t = .index
  · rw [if_pos ht]; exact ⟨w, he, rfl, rfl⟩
  · rw [if_neg ht]
    have hc : b.cells = [] := by rw [cells_of_kind ht w, he]
    have hd : b.dropEntries = [] := by
      have := dropEntries_cells w
      rw [hc] at this; exact this.eq_nil
    unfold Bucket.dropEntries at hd
    rw [List.flatMap_append] at hd
    have hd1 := (List.append_eq_nil_iff.1 hd).1
    have he1 : Block.entries t b.main = [] := by
      unfold Bucket.entries Bucket.blocks at he
      rw [List.flatMap_cons] at he
      exact (List.append_eq_nil_iff.1 he).1
    have he2 : Bucket.entries t ({ b with links := [] } : Bucket K V) = [] := by
      unfold Bucket.entries Bucket.blocks
      simp [he1]
    have hw : Wf t hash ({ b with links := [] } : Bucket K V) := by
      refine ⟨w.main_cap, by simp, ?_, ?_⟩
      · intro x hx
        simp [Bucket.blocks] at hx
        subst hx
        exact w.blocks _ (by simp [Bucket.blocks])
      · rw [he2]
        show b.len = _
        rw [w.len, he]
    refine ⟨hw, he2, hd1, ?_⟩
    rw [hc, cells_of_kind ht hw, he2]

/-- What relocating old buckets has achieved. -/
structure Moved (c : Cfg K) (a o a' o' : Arr K V) (g : List (K × V)) (S : Nat → Prop) : Prop where
  curWf : ArrWf c a'
  curLg : a'.lg = a.lg
  curDead : a'.dead = a.dead
  curProg : a'.prog = a.prog
  oldOk : OldOk c o'
  oldLg : o'.lg = o.lg
  oldProg : o'.prog = o.prog
  killed : ∀ i, S i → o'.dead i = true
  stay : ∀ i, o.dead i = true → o'.dead i = true
  entries : (a'.entries c ++ o'.entries c).Perm (a.entries c ++ o.entries c)
  cells : (g ++ a'.cells ++ o'.cells).Perm (a.cells ++ o.cells)

theorem kill_bkt (t : Kind) (o : Arr K V) (j i : Nat) :
    (o.kill t j).bkt i = if i = j then (killBucket t (o.bkt j)).1 else o.bkt i := rfl

theorem kill_ok (wo : OldOk c o) {j : Nat} (hj : j < 2 ^ o.lg)
    {src : Bucket K V} (ws : Wf c.kind c.hash src) (he : src.entries c.kind = []) :
    OldOk c ((o.set j src).kill c.kind j) ∧
      (((o.set j src).kill c.kind j).entries c).Perm (o.restE c j) ∧
      (((o.set j src).kill c.kind j).cells).Perm (src.cells ++ o.restC j) := by
  have hsj : (o.set j src).bkt j = src := by rw [set_bkt, if_pos rfl]
  obtain ⟨k1, k2, k3, k4⟩ := killBucket_ok ws he
  have hw : ArrWf c (o.set j (killBucket c.kind src).1) :=
    set_arrWf wo.wf k1 (by rw [k2]; intro e h; cases h)
  have hb : ∀ i, ((o.set j src).kill c.kind j).bkt i = (o.set j (killBucket c.kind src).1).bkt i := by
    intro i
    rw [kill_bkt, hsj, set_bkt, set_bkt]
    split <;> rfl
  have hbf : ((o.set j src).kill c.kind j).bkt = (o.set j (killBucket c.kind src).1).bkt := funext hb
  refine ⟨⟨⟨hw.lg_pos, hw.lg_le, fun i => by rw [hb]; exact hw.wf i,
    fun i e h => by rw [hb] at h; exact hw.placed i e h⟩, ?_, ?_⟩, ?_, ?_⟩
  · intro i hi
    rw [hb, set_bkt]
    split
    · exact k2
    · rename_i hne
      have : o.dead i = true := by
        have : (if i = j then true else o.dead i) = true := hi
        rwa [if_neg hne] at this
      exact wo.dead i this
  · intro i h1 h2
    show (if i = j then true else o.dead i) = true
    split
    · rfl
    · exact wo.prog i h1 h2
  · have := entries_set (c := c) hj (killBucket c.kind src).1
    rw [k2] at this
    unfold Arr.entries at this ⊢
    rw [hbf]; exact this
  · have := cells_set hj (killBucket c.kind src).1
    rw [k4] at this
    unfold Arr.cells at this ⊢
    rw [hbf]; exact this

theorem set_self (o : Arr K V) (j : Nat) : o.set j (o.bkt j) = o := by
  unfold Arr.set
  congr
  funext i
  split
  · rename_i h; rw [h]
  · rfl

/-- One old bucket. -/
theorem relocate_ok (hc : c.Ok) (recent : Nat → Bool) (wa : ArrWf c a) (wo : OldOk c o) {j : Nat}
    (hj : j < 2 ^ o.lg) :
    ∃ a' o' g, relocate c recent a o j = some (a', o', g) ∧ Moved c a o a' o' g (· = j) := by
  unfold relocate
  by_cases hd : o.dead j = true
  · rw [if_pos hd]
    exact ⟨a, o, [], rfl, wa, rfl, rfl, rfl, wo, rfl, rfl, by rintro i rfl; exact hd, fun _ h => h,
      List.Perm.refl _, by simp⟩
  · rw [if_neg hd]
    have ws := wo.wf.wf j
    -- killing the emptied bucket
    have fin : ∀ (a' : Arr K V) (src : Bucket K V) (g : List (K × V)), ArrWf c a' → a'.lg = a.lg →
        a'.dead = a.dead → a'.prog = a.prog → Wf c.kind c.hash src → src.entries c.kind = [] →
        (a'.entries c).Perm ((o.bkt j).entries c.kind ++ a.entries c) →
        (g ++ a'.cells ++ src.cells).Perm (a.cells ++ (o.bkt j).cells) →
        Moved c a o a' ((o.set j src).kill c.kind j) (g ++ (killBucket c.kind src).2) (· = j) := by
      intro a' src g h1 h2 h3 h4 h5 h6 h7 h8
      obtain ⟨k1, k2, k3⟩ := kill_ok wo hj h5 h6
      refine ⟨h1, h2, h3, h4, k1, rfl, rfl, ?_, ?_, ?_, ?_⟩
      · rintro i rfl
        show (if i = i then true else _) = true
        simp
      · intro i hi
        show (if i = j then true else o.dead i) = true
        split
        · rfl
        · exact hi
      · rw [perm_iff] at *
        intro x
        have z1 := h7 x
        have z2 := k2 x
        have z3 := (perm_iff.1 (entries_at (c := c) hj)) x
        simp only [cnt_append] at *
        omega
      · rw [(killBucket_ok h5 h6).2.2.1]
        rw [perm_iff] at *
        intro x
        have z1 := h8 x
        have z2 := k3 x
        have z3 := (perm_iff.1 (cells_at hj)) x
        simp only [cnt_append, cnt_nil] at *
        omega
    by_cases hl : (o.bkt j).len = 0
    · rw [if_pos hl]
      have he : (o.bkt j).entries c.kind = [] := len_nil ws hl
      refine ⟨_, _, _, rfl, ?_⟩
      have := fin a (o.bkt j) [] wa rfl rfl rfl ws he (by rw [he]; exact List.Perm.refl _) (by simp)
      rwa [set_self] at this
    · rw [if_neg hl]
      simp only
      have hrem : remaining c.kind (o.bkt j) Ptr.null = (o.bkt j).entries c.kind := remaining_null ws
      have hlen : (remaining c.kind (o.bkt j) Ptr.null).length < (o.bkt j).len + 1 := by
        rw [hrem, ws.len]; omega
      have hbase : ∀ a1 : Arr K V, a1.lg = a.lg → o.lg ≥ a1.lg →
          ∀ e ∈ remaining c.kind (o.bkt j) Ptr.null,
            bucketIndex a1.lg (c.hash e.1) = (fromIndexToRange (2 ^ o.lg) (2 ^ a.lg) j).1 := by
        intro a1 hlg hge e he
        rw [hrem] at he
        rw [hlg] at hge ⊢
        have h1 := wo.wf.placed j e he
        have h2 := c05_hash_in_range (a := o.lg) (b := a.lg) (hash := c.hash e.1)
          (by have := wo.wf.lg_le; omega) (by have := wa.lg_le; omega)
        rw [h1] at h2
        rw [range_shrink hge] at h2 ⊢
        obtain ⟨h3, h4⟩ := h2
        simp only at h3 h4 ⊢
        omega
      split
      · rw [collect_ok ws _ _ hlen]
        simp only
        obtain ⟨r1, r2, r3⟩ := reserveTargets_ok o.lg (fromIndexToRange (2 ^ o.lg) (2 ^ a.lg) j).1
          (remaining c.kind (o.bkt j) Ptr.null) wa
        obtain ⟨a', src', g, m1, m2, m3, m4, m5, m6, m7, m8, m9⟩ := moveLoop_ok hc recent o.lg
          (fromIndexToRange (2 ^ o.lg) (2 ^ a.lg) j).1 ((o.bkt j).len + 1)
          (reserveTargets c o.lg (fromIndexToRange (2 ^ o.lg) (2 ^ a.lg) j).1
            (remaining c.kind (o.bkt j) Ptr.null) a) (o.bkt j) Ptr.null
          (((remaining c.kind (o.bkt j) Ptr.null).map fun e => c.hash e.1).take Bucket.bucketLen)
          r1 ws (by rw [hrem]) hlen (hbase _ rfl)
          (fun _ => ⟨_, List.take_append_drop _ _⟩)
        rw [m1]
        refine ⟨_, _, _, rfl, fin a' src' g m2 m3 m4 m5 m6 m7 ?_ ?_⟩
        · rw [r2] at m8; exact m8
        · rw [r3] at m9; exact m9
      · obtain ⟨a', src', g, m1, m2, m3, m4, m5, m6, m7, m8, m9⟩ := moveLoop_ok hc recent o.lg
          (fromIndexToRange (2 ^ o.lg) (2 ^ a.lg) j).1 ((o.bkt j).len + 1) a (o.bkt j) Ptr.null []
          wa ws (by rw [hrem]) hlen (hbase _ rfl) (fun _ => ⟨_, rfl⟩)
        rw [m1]
        exact ⟨_, _, _, rfl, fin a' src' g m2 m3 m4 m5 m6 m7 m8 m9⟩

/-- A range of old buckets. -/
theorem relocateRange_ok (hc : c.Ok) (recent : Nat → Bool) (n lo : Nat) (a o : Arr K V)
    (wa : ArrWf c a) (wo : OldOk c o) (hn : lo + n ≤ 2 ^ o.lg) :
    ∃ a' o' g, relocateRange c recent n lo a o = some (a', o', g) ∧
      Moved c a o a' o' g (fun i => lo ≤ i ∧ i < lo + n) := by
  induction n generalizing lo a o with
  | zero =>
    exact ⟨a, o, [], rfl, wa, rfl, rfl, rfl, wo, rfl, rfl, fun i h => by omega, fun _ h => h,
      List.Perm.refl _, by simp⟩
  | succ n ih =>
    obtain ⟨a1, o1, g1, h1, m1⟩ := relocate_ok hc recent wa wo (j := lo) (by omega)
    obtain ⟨a2, o2, g2, h2, m2⟩ := ih (lo + 1) a1 o1 m1.curWf m1.oldOk (by rw [m1.oldLg]; omega)
    refine ⟨a2, o2, g1 ++ g2, ?_, m2.curWf, m2.curLg.trans m1.curLg, m2.curDead.trans m1.curDead,
      m2.curProg.trans m1.curProg, m2.oldOk, m2.oldLg.trans m1.oldLg, m2.oldProg.trans m1.oldProg,
      ?_, fun i h => m2.stay i (m1.stay i h), m2.entries.trans m1.entries, ?_⟩
    · unfold relocateRange
      rw [h1]
      simp only [h2]
      rfl
    · intro i hi
      by_cases h : i = lo
      · exact m2.stay i (m1.killed i h)
      · exact m2.killed i (by omega)
    · have z1 := m1.cells
      have z2 := m2.cells
      rw [perm_iff] at *
      intro x
      have z1 := z1 x
      have z2 := z2 x
      simp only [cnt_append] at *
      omega

/-! ## Dropping an array -/

theorem flatMap_range_from {α : Type} (f : Nat → List α) {s n : Nat} (h : ∀ i, i < s → i < n → f i = []) :
    (List.range (n - s)).flatMap (fun i => f (s + i)) = (List.range n).flatMap f := by
  by_cases hs : s ≤ n
  · have hr : List.range n = List.range s ++ (List.range (n - s)).map (s + ·) := by
      rw [← List.range_add]; congr 1; omega
    rw [hr, List.flatMap_append, flatMap_range_nil (fun i hi => h i hi (by omega)), List.nil_append,
      List.flatMap_map]
  · have : n - s = 0 := by omega
    rw [this, flatMap_range_nil (fun i hi => h i (by omega) hi)]; rfl

theorem flatMap_perm {α β : Type} {l : List α} {f g : α → List β} (h : ∀ x ∈ l, (f x).Perm (g x)) :
    (l.flatMap f).Perm (l.flatMap g) := by
  induction l with
  | nil => exact List.Perm.refl _
  | cons x xs ih =>
    rw [List.flatMap_cons, List.flatMap_cons]
    exact (h x (by simp)).append (ih fun y hy => h y (by simp [hy]))

/-- Dropping an array drops every pair it holds in memory, each once. -/
theorem dropArr_ok (wo : OldOk c o) : (dropArr c.kind o).Perm o.cells := by
  unfold dropArr
  simp only
  rw [flatMap_range_from (f := fun i => (o.bkt i).dropEntries)]
  · unfold Arr.cells
    exact flatMap_perm fun i _ => dropEntries_cells (wo.wf.wf i)
  · intro i h1 h2
    by_cases ht : c.kind = .index
    · rw [if_pos ht] at h1; omega
    · rw [if_neg ht] at h1
      have h3 := wo.dead i (wo.prog i h1 h2)
      have h4 := dropEntries_cells (wo.wf.wf i)
      rw [cells_of_kind ht (wo.wf.wf i), h3] at h4
      exact h4.eq_nil

end

/-! ## Tables -/

/-- The entries of both arrays. -/
def Two.entries (c : Cfg K) (w : Two K V) : List (K × V) :=
  w.cur.entries c ++ (match w.old with | some o => o.entries c | none => [])

def Two.cells (w : Two K V) : List (K × V) :=
  w.cur.cells ++ (match w.old with | some o => o.cells | none => [])

structure Two.Ok (c : Cfg K) (w : Two K V) : Prop where
  cur : CurOk c w.cur
  old : ∀ o, w.old = some o → OldOk c o

/-- The entries of a container. -/
def Tbl.entries (c : Cfg K) (T : Tbl K V) : List (K × V) :=
  match T.arr with | some w => w.entries c | none => []

/-- The pairs a container holds in memory. -/
def Tbl.cells (T : Tbl K V) : List (K × V) :=
  match T.arr with | some w => w.cells | none => []

structure Tbl.Ok (c : Cfg K) (T : Tbl K V) : Prop where
  two : ∀ w, T.arr = some w → w.Ok c
  nodup : ((T.entries c).map (·.1)).Nodup

/-- An internal step: the contents stay, and no pair is lost or duplicated. -/
structure Keeps (c : Cfg K) (T T' : Tbl K V) : Prop where
  ok : T'.Ok c
  entries : (T'.entries c).Perm (T.entries c)
  mem : (T'.cells ++ T'.gone).Perm (T.cells ++ T.gone)
  minCap : T'.minCap = T.minCap

theorem Keeps.refl {c : Cfg K} {T : Tbl K V} (h : T.Ok c) : Keeps c T T :=
  ⟨h, List.Perm.refl _, List.Perm.refl _, rfl⟩

theorem Keeps.trans {c : Cfg K} {T T' T'' : Tbl K V} (h : Keeps c T T') (h' : Keeps c T' T'') :
    Keeps c T T'' :=
  ⟨h'.ok, h'.entries.trans h.entries, h'.mem.trans h.mem, h'.minCap.trans h.minCap⟩

/-- Nodup keys only depend on the multiset of entries. -/
theorem nodup_perm {l l' : List (K × V)} (h : l'.Perm l) (hn : (l.map (·.1)).Nodup) :
    (l'.map (·.1)).Nodup := ((h.map _).nodup_iff).2 hn

section
variable {c : Cfg K}

theorem incrementalRehash_ok (hc : c.Ok) (recent : Nat → Bool) (w : Two K V) (ok : w.Ok c) :
    ∃ w' g, incrementalRehash c recent w = some (w', g) ∧ w'.Ok c ∧ w'.cur.lg = w.cur.lg ∧
      (w'.entries c).Perm (w.entries c) ∧ (g ++ w'.cells).Perm w.cells ∧
      (∀ o', w'.old = some o' → ∃ o, w.old = some o ∧ o'.lg = o.lg ∧
        ∀ i, o.dead i = true → o'.dead i = true) := by
  unfold incrementalRehash
  obtain ⟨a, old⟩ := w
  cases old with
  | none => exact ⟨_, [], rfl, ok, rfl, List.Perm.refl _, by simp, fun o' h => by cases h⟩
  | some o =>
    have wo := ok.old o rfl
    simp only
    split
    · exact ⟨_, [], rfl, ok, rfl, List.Perm.refl _, by simp,
        fun o' h => ⟨o, rfl, by cases h; exact ⟨rfl, fun _ h => h⟩⟩⟩
    · rename_i hp
      obtain ⟨a', o', g, h1, m⟩ := relocateRange_ok hc recent
        (min (o.prog + Bucket.bucketLen) (2 ^ o.lg) - o.prog) o.prog a o ok.cur.wf wo (by omega)
      rw [h1]
      simp only
      have cur' : CurOk c a' :=
        ⟨m.curWf, fun i => by rw [m.curDead]; exact ok.cur.alive i, m.curProg.trans ok.cur.prog⟩
      have old' : OldOk c { o' with prog := o.prog + Bucket.bucketLen } := by
        refine ⟨⟨m.oldOk.wf.lg_pos, m.oldOk.wf.lg_le, m.oldOk.wf.wf, m.oldOk.wf.placed⟩, m.oldOk.dead, ?_⟩
        intro i hi hi2
        have hi2' : i < 2 ^ o.lg := by
          have : i < 2 ^ o'.lg := hi2
          rwa [m.oldLg] at this
        by_cases h : i < o.prog
        · exact m.stay i (wo.prog i h hi2')
        · have hi' : i < o.prog + Bucket.bucketLen := hi
          exact m.killed i (by omega)
      have me := m.entries
      have mc := m.cells
      split
      · rename_i hdone
        have hd := dropArr_ok old'
        have he : ({ o' with prog := o.prog + Bucket.bucketLen } : Arr K V).entries c = [] := by
          apply flatMap_range_nil
          intro i hi
          refine old'.dead i (old'.prog i ?_ hi)
          have : i < 2 ^ o.lg := by
            have : i < 2 ^ o'.lg := hi
            rwa [m.oldLg] at this
          show i < o.prog + _
          omega
        have he' : o'.entries c = [] := he
        refine ⟨_, _, rfl, ⟨cur', (fun o h => by cases h)⟩, m.curLg, ?_, ?_, (fun o h => by cases h)⟩
        · unfold Two.entries
          simp only [List.append_nil]
          rw [he', List.append_nil] at me
          exact me
        · have hcell : ({ o' with prog := o.prog + Bucket.bucketLen } : Arr K V).cells = o'.cells := rfl
          rw [hcell] at hd
          unfold Two.cells
          simp only [List.append_nil]
          rw [perm_iff] at *
          intro x
          have z1 := mc x
          have z2 := hd x
          simp only [cnt_append] at *
          omega
      · refine ⟨_, _, rfl, ⟨cur', fun o h => by cases h; exact old'⟩, m.curLg, me, ?_, ?_⟩
        · unfold Two.cells
          simp only
          have : ({ o' with prog := o.prog + Bucket.bucketLen } : Arr K V).cells = o'.cells := rfl
          rw [this, ← List.append_assoc]
          exact mc
        · intro o2 h
          cases h
          exact ⟨o, rfl, m.oldLg, m.stay⟩

/-- No entry of bucket `i` of the current array is left in the old array. -/
def Two.Clean (c : Cfg K) (w : Two K V) (i : Nat) : Prop :=
  ∀ o, w.old = some o → ∀ e ∈ o.entries c, bucketIndex w.cur.lg (c.hash e.1) ≠ i

theorem dedup_ok (hc : c.Ok) (recent : Nat → Bool) (w : Two K V) (ok : w.Ok c) {i : Nat}
    (hi : i < 2 ^ w.cur.lg) :
    ∃ w' g, dedup c recent w i = some (w', g) ∧ w'.Ok c ∧ w'.cur.lg = w.cur.lg ∧
      (w'.entries c).Perm (w.entries c) ∧ (g ++ w'.cells).Perm w.cells ∧ w'.Clean c i ∧
      (∀ o', w'.old = some o' → ∃ o, w.old = some o ∧ o'.lg = o.lg ∧
        ∀ i, o.dead i = true → o'.dead i = true) := by
  unfold dedup
  obtain ⟨a, old⟩ := w
  cases old with
  | none =>
    exact ⟨_, [], rfl, ok, rfl, List.Perm.refl _, by simp, (fun o h => by cases h),
      fun o' h => by cases h⟩
  | some o =>
    have wo := ok.old o rfl
    simp only at hi ⊢
    have hb := c05_range_bounds (a := a.lg) (b := o.lg) hi
    obtain ⟨a', o', g, h1, m⟩ := relocateRange_ok hc recent
      ((fromIndexToRange (2 ^ a.lg) (2 ^ o.lg) i).2 - (fromIndexToRange (2 ^ a.lg) (2 ^ o.lg) i).1)
      (fromIndexToRange (2 ^ a.lg) (2 ^ o.lg) i).1 a o ok.cur.wf wo (by omega)
    rw [h1]
    have cur' : CurOk c a' :=
      ⟨m.curWf, fun i => by rw [m.curDead]; exact ok.cur.alive i, m.curProg.trans ok.cur.prog⟩
    refine ⟨_, _, rfl, ⟨cur', fun o h => by cases h; exact m.oldOk⟩, m.curLg, m.entries, ?_, ?_, ?_⟩
    · unfold Two.cells
      simp only
      rw [← List.append_assoc]
      exact m.cells
    · intro o2 h e he hidx
      cases h
      have h2 := m.oldOk.wf.mem_bucket he
      rw [m.oldLg] at h2
      have h3 := c05_hash_in_range (a := a.lg) (b := o.lg) (hash := c.hash e.1)
        (by have := ok.cur.wf.lg_le; simp only at this; omega) (by have := wo.wf.lg_le; omega)
      simp only at hidx
      rw [m.curLg] at hidx
      rw [hidx] at h3
      have h4 := m.killed _ (show (fromIndexToRange (2 ^ a.lg) (2 ^ o.lg) i).1 ≤
          bucketIndex o.lg (c.hash e.1) ∧ bucketIndex o.lg (c.hash e.1) <
          (fromIndexToRange (2 ^ a.lg) (2 ^ o.lg) i).1 +
            ((fromIndexToRange (2 ^ a.lg) (2 ^ o.lg) i).2 -
              (fromIndexToRange (2 ^ a.lg) (2 ^ o.lg) i).1) from ⟨h3.1, by have := h3.2; omega⟩)
      rw [m.oldOk.dead _ h4] at h2
      cases h2
    · intro o2 h
      cases h
      exact ⟨o, rfl, m.oldLg, m.stay⟩

theorem prepare_ok (hc : c.Ok) (recent : Nat → Bool) (T : Tbl K V) (ok : T.Ok c) {w : Two K V}
    (hw : T.arr = some w) {i : Nat} (hi : i < 2 ^ w.cur.lg) :
    ∃ T' w', prepare c recent T i = some T' ∧ T'.arr = some w' ∧ w'.cur.lg = w.cur.lg ∧
      Keeps c T T' ∧ w'.Clean c i ∧ (w.old = none → w'.old = none) := by
  unfold prepare
  rw [hw]
  simp only
  obtain ⟨w1, g1, h1, ok1, l1, e1, c1, o1⟩ := incrementalRehash_ok hc recent w (ok.two w hw)
  obtain ⟨w2, g2, h2, ok2, l2, e2, c2, cl, o2⟩ := dedup_ok hc recent w1 ok1 (i := i) (by rw [l1]; exact hi)
  rw [h1]
  simp only [h2]
  have hent : T.entries c = w.entries c := by unfold Tbl.entries; rw [hw]
  have hcel : T.cells = w.cells := by unfold Tbl.cells; rw [hw]
  refine ⟨_, w2, rfl, rfl, l2.trans l1, ⟨⟨?_, ?_⟩, ?_, ?_, rfl⟩, cl, ?_⟩
  · intro w' h; cases h; exact ok2
  · exact nodup_perm (hent ▸ e2.trans e1) ok.nodup
  · rw [hent]; exact e2.trans e1
  · rw [hcel]
    show (w2.cells ++ (T.gone ++ g1 ++ g2)).Perm _
    rw [perm_iff] at *
    intro x
    have z1 := c1 x
    have z2 := c2 x
    simp only [cnt_append] at *
    omega
  · intro h
    cases h3 : w2.old with
    | none => rfl
    | some o' =>
      obtain ⟨o3, h4, _⟩ := o2 o' h3
      obtain ⟨o4, h5, _⟩ := o1 o3 h4
      rw [h] at h5; cases h5

/-! ## Resizing -/

theorem sum_zero {l : List Nat} {f : Nat → Nat} (h : ∀ x ∈ l, f x = 0) : (l.map f).sum = 0 := by
  induction l with
  | nil => rfl
  | cons x xs ih =>
    rw [List.map_cons, List.sum_cons, h x (by simp), ih fun y hy => h y (by simp [hy])]

theorem tryResize_keeps (T : Tbl K V) (ok : T.Ok c) (i : Nat) : Keeps c T (tryResize c T i) := by
  unfold tryResize
  cases hT : T.arr with
  | none => exact Keeps.refl ok
  | some w =>
    obtain ⟨a, old⟩ := w
    cases old with
    | some o => exact Keeps.refl ok
    | none =>
      have okw := ok.two _ hT
      have hent : T.entries c = a.entries c := by
        unfold Tbl.entries; rw [hT]; simp [Two.entries]
      have hcel : T.cells = a.cells := by
        unfold Tbl.cells; rw [hT]; simp [Two.cells]
      simp only
      split
      · split
        · rename_i hall
          have hz : ∀ j, j < 2 ^ a.lg → (a.bkt j).entries c.kind = [] := by
            intro j hj
            rw [List.all_eq_true] at hall
            have := hall j (List.mem_range.2 hj)
            have h0 : (a.bkt j).len = 0 := by simpa [Arr.lens] using this
            exact len_nil (okw.cur.wf.wf j) h0
          have hk : ∀ j, j < 2 ^ a.lg → (killBucket c.kind (a.bkt j)).2 = [] := fun j hj =>
            (killBucket_ok (okw.cur.wf.wf j) (hz j hj)).2.2.1
          have he : a.entries c = [] := flatMap_range_nil hz
          -- the pairs dropped are the cells
          have hd : (dropArr c.kind ({ a with bkt := fun j => (killBucket c.kind (a.bkt j)).1 } :
              Arr K V)).Perm a.cells := by
            unfold dropArr
            simp only
            have hp := okw.cur.prog
            simp only at hp
            have hs : (if c.kind = .index then 0 else a.prog) = 0 := by rw [hp]; split <;> rfl
            rw [hs]
            simp only [Nat.sub_zero, Nat.zero_add]
            unfold Arr.cells
            apply flatMap_perm
            intro j hj
            have hj' := List.mem_range.1 hj
            obtain ⟨k1, k2, k3, k4⟩ := killBucket_ok (okw.cur.wf.wf j) (hz j hj')
            have := dropEntries_cells k1
            rw [k4] at this; exact this
          refine ⟨⟨(fun w h => by cases h), by simp [Tbl.entries]⟩, ?_, ?_, rfl⟩
          · rw [hent, he]; simp [Tbl.entries]
          · rw [hcel]
            show ([] ++ (T.gone ++ (List.range (2 ^ a.lg)).flatMap (fun j =>
              (killBucket c.kind (a.bkt j)).2) ++ _)).Perm _
            rw [flatMap_range_nil hk, List.append_nil, List.nil_append]
            exact (hd.append_left _).trans List.perm_append_comm
        · exact Keeps.refl ok
      · split
        · obtain ⟨b1, b2⟩ := log2ArrayLen_bounds (newCapacity (numSlots (2 ^ a.lg)) T.minCap c.maxCap
            (sample a.lg i a.lens))
          have he : Tbl.entries c { T with
              arr := some ⟨Arr.new (log2ArrayLen (newCapacity (numSlots (2 ^ a.lg)) T.minCap c.maxCap
                (sample a.lg i a.lens))), some a⟩ } = T.entries c := by
            rw [hent]
            show (Arr.new _ : Arr K V).entries c ++ a.entries c = _
            rw [new_entries]; rfl
          refine ⟨⟨?_, ?_⟩, ?_, ?_, rfl⟩
          · intro w h
            cases h
            exact ⟨new_curOk c b1 b2, fun o h => by cases h; exact okw.cur.old⟩
          · rw [he]; exact ok.nodup
          · rw [he]
          · rw [hcel]
            show (((Arr.new _ : Arr K V).cells ++ a.cells) ++ T.gone).Perm _
            rw [new_cells]; exact List.Perm.refl _
        · exact Keeps.refl ok

theorem tryEnlarge_keeps (T : Tbl K V) (ok : T.Ok c) (i : Nat) : Keeps c T (tryEnlarge c T i) := by
  unfold tryEnlarge
  split
  · exact Keeps.refl ok
  · exact Keeps.refl ok
  · split
    · exact tryResize_keeps T ok i
    · exact Keeps.refl ok

theorem tryShrink_keeps (T : Tbl K V) (ok : T.Ok c) (i : Nat) : Keeps c T (tryShrink c T i) := by
  unfold tryShrink
  split
  · exact Keeps.refl ok
  · exact Keeps.refl ok
  · split
    · exact tryResize_keeps T ok i
    · exact Keeps.refl ok

theorem create_keeps (T : Tbl K V) (ok : T.Ok c) :
    Keeps c T (create T) ∧ ∃ w, (create T).arr = some w := by
  unfold create
  cases hT : T.arr with
  | some w => exact ⟨Keeps.refl ok, w, hT⟩
  | none =>
    obtain ⟨b1, b2⟩ := log2ArrayLen_bounds T.minCap
    refine ⟨⟨⟨?_, ?_⟩, ?_, ?_, rfl⟩, _, rfl⟩
    · intro w h
      cases h
      exact ⟨new_curOk c b1 b2, fun o h => by cases h⟩
    · simp [Tbl.entries, Two.entries, new_entries]
    · simp [Tbl.entries, Two.entries, new_entries, hT]
    · simp [Tbl.cells, Two.cells, new_cells, hT]

end

end Scc.Seq
