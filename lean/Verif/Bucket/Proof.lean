import Verif.Bucket.Model

/-!
# Bucket invariant and the effect of every bucket operation on the set of entries
-/

namespace Scc.Bucket

variable {K V : Type}

/-! ## List helpers -/

theorem filterMap_range_congr {α : Type} {f g : Nat → Option α} {n : Nat}
    (h : ∀ j, j < n → f j = g j) : (List.range n).filterMap f = (List.range n).filterMap g := by
  induction n with
  | zero => rfl
  | succ n ih =>
    rw [List.range_succ, List.filterMap_append, List.filterMap_append,
      ih fun j hj => h j (by omega)]
    simp [List.filterMap_cons, h n (by omega)]

/-- Filling one slot adds exactly one element. -/
theorem filterMap_range_set {α : Type} {f g : Nat → Option α} {n i : Nat} {e : α} (hi : i < n)
    (hf : f i = none) (hg : g i = some e) (h : ∀ j, j < n → j ≠ i → g j = f j) :
    ((List.range n).filterMap g).Perm (e :: (List.range n).filterMap f) := by
  induction n with
  | zero => omega
  | succ n ih =>
    rw [List.range_succ, List.filterMap_append, List.filterMap_append]
    by_cases hin : i = n
    · subst hin
      have h1 : (List.range i).filterMap g = (List.range i).filterMap f :=
        filterMap_range_congr fun j hj => h j (by omega) (by omega)
      rw [h1]
      simp [hf, hg]
    · have h1 := ih (by omega) fun j hj hne => h j (by omega) hne
      have h2 : g n = f n := h n (by omega) (by omega)
      have h3 : List.filterMap g [n] = List.filterMap f [n] := by simp [List.filterMap_cons, h2]
      rw [h3]
      exact h1.append_right _

theorem filterMap_range_replace {α : Type} {f g : Nat → Option α} {n i : Nat} {e e' : α}
    (hi : i < n) (hf : f i = some e) (hg : g i = some e')
    (h : ∀ j, j < n → j ≠ i → g j = f j) :
    ∃ l r, (List.range n).filterMap f = l ++ e :: r ∧ (List.range n).filterMap g = l ++ e' :: r := by
  induction n with
  | zero => omega
  | succ n ih =>
    rw [List.range_succ, List.filterMap_append, List.filterMap_append]
    by_cases hin : i = n
    · subst hin
      have h1 : (List.range i).filterMap g = (List.range i).filterMap f :=
        filterMap_range_congr fun j hj => h j (by omega) (by omega)
      refine ⟨(List.range i).filterMap f, [], ?_, ?_⟩
      · simp [hf]
      · rw [h1]; simp [hg]
    · obtain ⟨l, r, h1, h1'⟩ := ih (by omega) fun j hj hne => h j (by omega) hne
      have h2 : g n = f n := h n (by omega) (by omega)
      have h3 : List.filterMap g [n] = List.filterMap f [n] := by simp [List.filterMap_cons, h2]
      refine ⟨l, r ++ List.filterMap f [n], ?_, ?_⟩
      · rw [h1]; simp
      · rw [h3, h1']; simp

theorem split_at {α : Type} {l : List α} {j : Nat} {x : α} (h : l[j]? = some x) :
    l = l.take j ++ x :: l.drop (j + 1) := by
  obtain ⟨hj, hx⟩ := List.getElem?_eq_some_iff.1 h
  subst hx
  conv => lhs; rw [← List.take_append_drop j l]
  rw [List.drop_eq_getElem_cons hj]

theorem set_split {α : Type} {l : List α} {j : Nat} {x : α} (h : j < l.length) :
    l.set j x = l.take j ++ x :: l.drop (j + 1) := by
  rw [List.set_eq_take_append_cons_drop, if_pos h]

/-! ## Entries and well-formedness -/

/-- What a slot contributes. -/
def slotVal (t : Kind) (x : Block K V) (i : Nat) : Option (K × V) :=
  if (x.visible t).getLsbD i then x.data i else none

/-- The visible entries of a block, in slot order. -/
def Block.entries (t : Kind) (x : Block K V) : List (K × V) :=
  (List.range x.cap).filterMap (slotVal t x)

/-- The visible entries of a bucket, in cursor order. -/
def Bucket.entries (t : Kind) (b : Bucket K V) : List (K × V) :=
  b.blocks.flatMap (Block.entries t)

/-- Block invariant. -/
structure BlockWf (t : Kind) (hash : K → Nat) (x : Block K V) : Prop where
  cap_le : x.cap ≤ 32
  hi : ∀ i, x.occ.getLsbD i = true → i < x.cap
  rem_occ : ∀ i, x.removed.getLsbD i = true → x.occ.getLsbD i = true
  rem_kind : t ≠ .index → x.removed = 0#32
  init : ∀ i, x.occ.getLsbD i = true → ∃ e, x.data i = some e
  uninit : ∀ i, x.occ.getLsbD i = false → x.data i = none
  ph : ∀ i e, (x.visible t).getLsbD i = true → x.data i = some e →
    x.ph i = partialHash (hash e.1)

/-- Bucket invariant. -/
structure Wf (t : Kind) (hash : K → Nat) (b : Bucket K V) : Prop where
  main_cap : b.main.cap = bucketLen
  link_cap : ∀ x ∈ b.links, x.cap = linkedBucketLen
  blocks : ∀ x ∈ b.blocks, BlockWf t hash x
  len : b.len = (b.entries t).length

/-- The cursor points at a visible entry. -/
def PointsTo (t : Kind) (b : Bucket K V) (p : Ptr) (e : K × V) : Prop :=
  ∃ x, b.blocks[p.blk]? = some x ∧ (x.visible t).getLsbD p.idx = true ∧ x.data p.idx = some e

theorem visible_iff (t : Kind) (x : Block K V) (i : Nat) :
    (x.visible t).getLsbD i = true ↔
      x.occ.getLsbD i = true ∧ (t = .index → x.removed.getLsbD i = false) := by
  unfold Block.visible
  cases t with
  | map => simp
  | cache => simp
  | index =>
    simp only [BitVec.getLsbD_and, BitVec.getLsbD_not, Bool.and_eq_true, decide_eq_true_eq,
      Bool.not_eq_true', forall_const]
    constructor
    · rintro ⟨⟨_, h1⟩, h2⟩; exact ⟨h2, h1⟩
    · rintro ⟨h1, h2⟩
      exact ⟨⟨BitVec.lt_of_getLsbD h1, h2⟩, h1⟩

theorem visible_occ {t : Kind} {x : Block K V} {i : Nat} (h : (x.visible t).getLsbD i = true) :
    x.occ.getLsbD i = true := ((visible_iff t x i).1 h).1

theorem visible_false_of_occ {t : Kind} {x : Block K V} {i : Nat} (h : x.occ.getLsbD i = false) :
    (x.visible t).getLsbD i = false := by
  cases hv : (x.visible t).getLsbD i with
  | false => rfl
  | true => rw [visible_occ hv] at h; exact absurd h (by simp)

theorem bool_eq_of_iff {a b : Bool} (h : a = true ↔ b = true) : a = b := by
  cases a <;> cases b <;> simp_all

/-- The visible bit is determined by the two bits of the slot. -/
theorem visible_congr (t : Kind) {x y : Block K V} {i : Nat}
    (ho : x.occ.getLsbD i = y.occ.getLsbD i) (hr : x.removed.getLsbD i = y.removed.getLsbD i) :
    (x.visible t).getLsbD i = (y.visible t).getLsbD i := by
  apply bool_eq_of_iff
  rw [visible_iff, visible_iff, ho, hr]

theorem slotVal_eq_some {t : Kind} {x : Block K V} {i : Nat} {e : K × V} :
    slotVal t x i = some e ↔ (x.visible t).getLsbD i = true ∧ x.data i = some e := by
  unfold slotVal
  cases h : (x.visible t).getLsbD i <;> simp

theorem mem_block_entries {t : Kind} {x : Block K V} {e : K × V} :
    e ∈ x.entries t ↔ ∃ i, i < x.cap ∧ (x.visible t).getLsbD i = true ∧ x.data i = some e := by
  unfold Block.entries
  rw [List.mem_filterMap]
  constructor
  · rintro ⟨i, hi, h⟩
    exact ⟨i, by simpa using hi, slotVal_eq_some.1 h⟩
  · rintro ⟨i, hi, h⟩
    exact ⟨i, by simpa using hi, slotVal_eq_some.2 h⟩

theorem mem_entries {t : Kind} {b : Bucket K V} {e : K × V} :
    e ∈ b.entries t ↔ ∃ x ∈ b.blocks, e ∈ x.entries t := by
  unfold Bucket.entries
  rw [List.mem_flatMap]

theorem PointsTo.mem {t : Kind} {hash : K → Nat} {b : Bucket K V} {p : Ptr} {e : K × V}
    (wf : Wf t hash b) (h : PointsTo t b p e) : e ∈ b.entries t := by
  obtain ⟨x, hx, hv, hd⟩ := h
  rw [mem_entries]
  have hm := List.mem_of_getElem? hx
  exact ⟨x, hm, mem_block_entries.2 ⟨p.idx, (wf.blocks x hm).hi _ (visible_occ hv), hv, hd⟩⟩

theorem empty_block_wf (t : Kind) (hash : K → Nat) {c : Nat} (hc : c ≤ 32) :
    BlockWf t hash (Block.empty c : Block K V) where
  cap_le := hc
  hi := by intro i h; simp [Block.empty] at h
  rem_occ := by intro i h; simp [Block.empty] at h
  rem_kind := by intro _; rfl
  init := by intro i h; simp [Block.empty] at h
  uninit := by intro i _; rfl
  ph := by intro i e _ h; simp [Block.empty] at h

theorem empty_block_entries (t : Kind) (c : Nat) : (Block.empty c : Block K V).entries t = [] := by
  apply List.eq_nil_iff_forall_not_mem.2
  intro e h
  obtain ⟨i, _, _, hd⟩ := mem_block_entries.1 h
  simp [Block.empty] at hd

theorem empty_wf (t : Kind) (hash : K → Nat) : Wf t hash (Bucket.empty : Bucket K V) where
  main_cap := rfl
  link_cap := by intro x h; simp [Bucket.empty] at h
  blocks := by
    intro x h
    simp [Bucket.blocks, Bucket.empty] at h
    subst h
    exact empty_block_wf t hash (by decide)
  len := by simp [Bucket.entries, Bucket.blocks, Bucket.empty, empty_block_entries]

/-! ## Single-block effects -/

section BlockOps
variable {t : Kind} {hash : K → Nat} {x : Block K V}

theorem slotVal_free {i : Nat} (h : x.occ.getLsbD i = false) : slotVal t x i = none := by
  unfold slotVal; rw [visible_false_of_occ h]; rfl

theorem insertEntry_wf (w : BlockWf t hash x) {i : Nat} (hi : i < x.cap)
    (hf : x.occ.getLsbD i = false) {h : Nat} {e : K × V}
    (hh : partialHash h = partialHash (hash e.1)) :
    BlockWf t hash (x.insertEntry i h e) ∧
      ((x.insertEntry i h e).entries t).Perm (e :: x.entries t) ∧
      (x.insertEntry i h e).cap = x.cap ∧
      ((x.insertEntry i h e).visible t).getLsbD i = true ∧
      (x.insertEntry i h e).data i = some e := by
  have hi32 : i < 32 := Nat.lt_of_lt_of_le hi w.cap_le
  have hr : x.removed.getLsbD i = false := by
    cases hr : x.removed.getLsbD i with
    | false => rfl
    | true => rw [w.rem_occ i hr] at hf; exact absurd hf (by simp)
  have occ' : ∀ j, (x.insertEntry i h e).occ.getLsbD j = (x.occ.getLsbD j || decide (j = i)) := by
    intro j
    show (x.occ ||| bit i).getLsbD j = _
    rw [getLsbD_set]; simp [hi32]
  have vis_i : ((x.insertEntry i h e).visible t).getLsbD i = true := by
    rw [visible_iff]
    exact ⟨by rw [occ']; simp, fun _ => hr⟩
  have vis_j : ∀ j, j ≠ i →
      ((x.insertEntry i h e).visible t).getLsbD j = (x.visible t).getLsbD j := by
    intro j hj
    apply visible_congr
    · rw [occ']; simp [hj]
    · rfl
  have data_i : (x.insertEntry i h e).data i = some e := by simp [Block.insertEntry]
  have data_j : ∀ j, j ≠ i → (x.insertEntry i h e).data j = x.data j := by
    intro j hj; simp [Block.insertEntry, hj]
  refine ⟨⟨w.cap_le, ?_, ?_, w.rem_kind, ?_, ?_, ?_⟩, ?_, rfl, vis_i, data_i⟩
  · intro j hj
    rw [occ'] at hj
    by_cases hji : j = i
    · subst hji; exact hi
    · exact w.hi j (by simpa [hji] using hj)
  · intro j hj
    rw [occ', w.rem_occ j hj]; rfl
  · intro j hj
    by_cases hji : j = i
    · subst hji; exact ⟨e, data_i⟩
    · rw [data_j j hji]
      rw [occ'] at hj
      exact w.init j (by simpa [hji] using hj)
  · intro j hj
    rw [occ'] at hj
    by_cases hji : j = i
    · subst hji; simp at hj
    · rw [data_j j hji]
      exact w.uninit j (by simpa [hji] using hj)
  · intro j e' hv hd
    by_cases hji : j = i
    · subst hji
      rw [data_i] at hd
      cases hd
      simp [Block.insertEntry, hh]
    · rw [vis_j j hji] at hv
      rw [data_j j hji] at hd
      simp only [Block.insertEntry, hji, if_false]
      exact w.ph j e' hv hd
  · apply filterMap_range_set (i := i) hi (slotVal_free hf)
    · exact slotVal_eq_some.2 ⟨vis_i, data_i⟩
    · intro j _ hj
      unfold slotVal
      rw [vis_j j hj, data_j j hj]

theorem clearSlot_wf (w : BlockWf t hash x) {i : Nat} {e : K × V}
    (hv : (x.visible t).getLsbD i = true) (hd : x.data i = some e) :
    BlockWf t hash (x.clearSlot i) ∧ (x.entries t).Perm (e :: (x.clearSlot i).entries t) ∧
      (x.clearSlot i).cap = x.cap := by
  have ho := visible_occ hv
  have hi := w.hi i ho
  have hr : x.removed.getLsbD i = false := by
    by_cases hk : t = .index
    · exact ((visible_iff t x i).1 hv).2 hk
    · rw [w.rem_kind hk]; simp
  have occ' : ∀ j, (x.clearSlot i).occ.getLsbD j = (x.occ.getLsbD j && !decide (j = i)) := by
    intro j; exact getLsbD_clear _ _ _
  have vis_j : ∀ j, j ≠ i → ((x.clearSlot i).visible t).getLsbD j = (x.visible t).getLsbD j := by
    intro j hj
    apply visible_congr
    · rw [occ']; simp [hj]
    · rfl
  have occ_i : (x.clearSlot i).occ.getLsbD i = false := by rw [occ']; simp
  have data_j : ∀ j, j ≠ i → (x.clearSlot i).data j = x.data j := by
    intro j hj; simp [Block.clearSlot, hj]
  refine ⟨⟨w.cap_le, ?_, ?_, w.rem_kind, ?_, ?_, ?_⟩, ?_, rfl⟩
  · intro j hj
    rw [occ'] at hj
    exact w.hi j (by simp at hj; exact hj.1)
  · intro j hj
    have hj' : x.removed.getLsbD j = true := hj
    rw [occ', w.rem_occ j hj']
    have : j ≠ i := by rintro rfl; rw [hr] at hj'; exact absurd hj' (by simp)
    simp [this]
  · intro j hj
    rw [occ'] at hj
    simp at hj
    rw [data_j j hj.2]
    exact w.init j hj.1
  · intro j hj
    by_cases hji : j = i
    · subst hji; simp [Block.clearSlot]
    · rw [data_j j hji]
      rw [occ'] at hj
      exact w.uninit j (by simpa [hji] using hj)
  · intro j e' hv' hd'
    have hji : j ≠ i := by
      rintro rfl
      rw [visible_occ hv'] at occ_i; exact absurd occ_i (by simp)
    rw [vis_j j hji] at hv'
    rw [data_j j hji] at hd'
    exact w.ph j e' hv' hd'
  · apply filterMap_range_set (i := i) hi (slotVal_free occ_i)
    · exact slotVal_eq_some.2 ⟨hv, hd⟩
    · intro j _ hj
      unfold slotVal
      rw [vis_j j hj, data_j j hj]

theorem markRemoved_wf (w : BlockWf .index hash x) {i epoch : Nat} {e : K × V}
    (hv : (x.visible .index).getLsbD i = true) (hd : x.data i = some e) :
    BlockWf .index hash (x.markRemoved i epoch) ∧
      (x.entries .index).Perm (e :: (x.markRemoved i epoch).entries .index) ∧
      (x.markRemoved i epoch).cap = x.cap := by
  have ho := visible_occ hv
  have hi := w.hi i ho
  have hi32 : i < 32 := Nat.lt_of_lt_of_le hi w.cap_le
  have rem' : ∀ j, (x.markRemoved i epoch).removed.getLsbD j =
      (x.removed.getLsbD j || decide (j = i)) := by
    intro j
    show (x.removed ||| bit i).getLsbD j = _
    rw [getLsbD_set]; simp [hi32]
  have vis_j : ∀ j, j ≠ i →
      ((x.markRemoved i epoch).visible .index).getLsbD j = (x.visible .index).getLsbD j := by
    intro j hj
    apply visible_congr
    · rfl
    · rw [rem']; simp [hj]
  have vis_i : ((x.markRemoved i epoch).visible .index).getLsbD i = false := by
    cases h : ((x.markRemoved i epoch).visible .index).getLsbD i with
    | false => rfl
    | true =>
      have := ((visible_iff _ _ _).1 h).2 rfl
      rw [rem'] at this; simp at this
  refine ⟨⟨w.cap_le, w.hi, ?_, fun h => absurd rfl h, w.init, w.uninit, ?_⟩, ?_, rfl⟩
  · intro j hj
    rw [rem'] at hj
    by_cases hji : j = i
    · subst hji; exact ho
    · exact w.rem_occ j (by simpa [hji] using hj)
  · intro j e' hv' hd'
    have hji : j ≠ i := by
      rintro rfl; rw [hv'] at vis_i; exact absurd vis_i (by simp)
    rw [vis_j j hji] at hv'
    simp only [Block.markRemoved, hji, if_false]
    exact w.ph j e' hv' hd'
  · apply filterMap_range_set (i := i) hi
    · unfold slotVal; rw [vis_i]; rfl
    · exact slotVal_eq_some.2 ⟨hv, hd⟩
    · intro j _ hj
      unfold slotVal
      rw [vis_j j hj]; rfl

theorem foldl_clear (p : Nat → Bool) (n : Nat) (w : Word) (j : Nat) :
    ((List.range n).foldl (fun w i => if p i then w &&& ~~~bit i else w) w).getLsbD j =
      (w.getLsbD j && !(decide (j < n) && p j)) := by
  induction n with
  | zero => simp
  | succ n ih =>
    rw [List.range_succ, List.foldl_append]
    simp only [List.foldl_cons, List.foldl_nil]
    by_cases hp : p n = true
    · rw [if_pos hp, getLsbD_clear, ih]
      by_cases hjn : j = n
      · subst hjn; simp [hp]
      · have : decide (j < n + 1) = decide (j < n) := by
          apply decide_eq_decide.2; omega
        simp [hjn, this]
    · rw [if_neg hp, ih]
      by_cases hjn : j = n
      · subst hjn; simp [hp]
      · have : decide (j < n + 1) = decide (j < n) := by
          apply decide_eq_decide.2; omega
        rw [this]

theorem droppedBits_le {recent : Nat → Bool} {j : Nat}
    (h : (x.droppedBits recent).getLsbD j = true) : x.removed.getLsbD j = true := by
  unfold Block.droppedBits at h
  have := foldl_clear (fun i => recent (x.ph i)) x.cap x.removed j
  rw [this] at h
  simp at h; exact h.1

theorem dropUnreachable_wf (w : BlockWf .index hash x) (recent : Nat → Bool) :
    BlockWf .index hash (x.dropUnreachable recent) ∧
      (x.dropUnreachable recent).entries .index = x.entries .index ∧
      (x.dropUnreachable recent).cap = x.cap ∧
      (∀ i, (x.visible .index).getLsbD i = true →
        ((x.dropUnreachable recent).visible .index).getLsbD i = true ∧
        (x.dropUnreachable recent).data i = x.data i ∧
        (x.dropUnreachable recent).ph i = x.ph i) := by
  have occ' : ∀ j, (x.dropUnreachable recent).occ.getLsbD j =
      (x.occ.getLsbD j && !(x.droppedBits recent).getLsbD j) := by
    intro j
    show (x.occ &&& ~~~(x.droppedBits recent)).getLsbD j = _
    rw [BitVec.getLsbD_and, BitVec.getLsbD_not]
    by_cases h : j < 32
    · simp [h]
    · rw [BitVec.getLsbD_of_ge x.occ j (by omega)]; simp
  have rem' : ∀ j, (x.dropUnreachable recent).removed.getLsbD j =
      (x.removed.getLsbD j && !(x.droppedBits recent).getLsbD j) := by
    intro j
    show (x.removed &&& ~~~(x.droppedBits recent)).getLsbD j = _
    rw [BitVec.getLsbD_and, BitVec.getLsbD_not]
    by_cases h : j < 32
    · simp [h]
    · rw [BitVec.getLsbD_of_ge x.removed j (by omega)]; simp
  have vis' : ∀ j, ((x.dropUnreachable recent).visible .index).getLsbD j =
      (x.visible .index).getLsbD j := by
    intro j
    apply bool_eq_of_iff
    rw [visible_iff, visible_iff, occ', rem']
    constructor
    · rintro ⟨h1, h2⟩
      simp at h1
      refine ⟨h1.1, fun _ => ?_⟩
      have := h2 rfl
      simpa [h1.2] using this
    · rintro ⟨h1, h2⟩
      have h2 := h2 rfl
      have hd : (x.droppedBits recent).getLsbD j = false := by
        cases hd : (x.droppedBits recent).getLsbD j with
        | false => rfl
        | true => rw [droppedBits_le hd] at h2; exact absurd h2 (by simp)
      simp [h1, h2, hd]
  have nd : ∀ j, (x.visible .index).getLsbD j = true → (x.droppedBits recent).getLsbD j = false := by
    intro j hj
    cases hd : (x.droppedBits recent).getLsbD j with
    | false => rfl
    | true =>
      have := ((visible_iff _ _ _).1 hj).2 rfl
      rw [droppedBits_le hd] at this; exact absurd this (by simp)
  have data' : ∀ j, (x.droppedBits recent).getLsbD j = false →
      (x.dropUnreachable recent).data j = x.data j := by
    intro j hj; simp [Block.dropUnreachable, hj]
  refine ⟨⟨w.cap_le, ?_, ?_, fun h => absurd rfl h, ?_, ?_, ?_⟩, ?_, rfl, ?_⟩
  · intro j hj; rw [occ'] at hj; exact w.hi j (by simp at hj; exact hj.1)
  · intro j hj
    rw [rem'] at hj
    simp at hj
    rw [occ', w.rem_occ j hj.1, hj.2]; rfl
  · intro j hj
    rw [occ'] at hj
    simp at hj
    rw [data' j hj.2]
    exact w.init j hj.1
  · intro j hj
    cases hd : (x.droppedBits recent).getLsbD j with
    | true => simp [Block.dropUnreachable, hd]
    | false =>
      rw [data' j hd]
      rw [occ', hd] at hj
      exact w.uninit j (by simpa using hj)
  · intro j e hv hd
    rw [vis'] at hv
    rw [data' j (nd j hv)] at hd
    exact w.ph j e hv hd
  · apply filterMap_range_congr
    intro j _
    unfold slotVal
    rw [vis' j]
    cases hv : (x.visible .index).getLsbD j with
    | false => rfl
    | true => simp [data' j (nd j hv)]
  · intro i hv
    exact ⟨by rw [vis']; exact hv, data' i (nd i hv), rfl⟩

theorem setData_wf (w : BlockWf t hash x) {i : Nat} {e : K × V} {v : V}
    (hv : (x.visible t).getLsbD i = true) (hd : x.data i = some e) :
    let x' : Block K V :=
      { x with data := fun j => if j = i then (x.data j).map (fun e => (e.1, v)) else x.data j }
    BlockWf t hash x' ∧ x'.cap = x.cap ∧
      ∃ l r, x.entries t = l ++ e :: r ∧ x'.entries t = l ++ (e.1, v) :: r := by
  intro x'
  have ho := visible_occ hv
  have hi := w.hi i ho
  have data_j : ∀ j, j ≠ i → x'.data j = x.data j := by intro j hj; simp [x', hj]
  have data_i : x'.data i = some (e.1, v) := by simp [x', hd]
  have vis' : ∀ j, (x'.visible t).getLsbD j = (x.visible t).getLsbD j := by
    intro j; exact visible_congr t rfl rfl
  refine ⟨⟨w.cap_le, w.hi, w.rem_occ, w.rem_kind, ?_, ?_, ?_⟩, rfl, ?_⟩
  · intro j hj
    by_cases hji : j = i
    · subst hji; exact ⟨_, data_i⟩
    · rw [data_j j hji]; exact w.init j hj
  · intro j hj
    by_cases hji : j = i
    · subst hji
      have hj' : x.occ.getLsbD j = false := hj
      rw [ho] at hj'; exact absurd hj' (by simp)
    · rw [data_j j hji]; exact w.uninit j hj
  · intro j e' hv' hd'
    rw [vis' j] at hv'
    by_cases hji : j = i
    · subst hji
      rw [data_i] at hd'
      cases hd'
      exact w.ph j e hv hd
    · rw [data_j j hji] at hd'
      exact w.ph j e' hv' hd'
  · apply filterMap_range_replace (i := i) hi
    · exact slotVal_eq_some.2 ⟨hv, hd⟩
    · exact slotVal_eq_some.2 ⟨by rw [vis']; exact hv, data_i⟩
    · intro j _ hj
      unfold slotVal
      rw [vis' j, data_j j hj]

end BlockOps

/-! ## Bucket-level effects -/

theorem blocks_setBlock (b : Bucket K V) (j : Nat) (x : Block K V) :
    (b.setBlock j x).blocks = b.blocks.set j x := by
  cases j <;> rfl

section BucketOps
variable {t : Kind} {hash : K → Nat} {b : Bucket K V}

theorem entries_split {j : Nat} {x : Block K V} (h : b.blocks[j]? = some x) :
    b.entries t = (b.blocks.take j).flatMap (Block.entries t) ++
      (x.entries t ++ (b.blocks.drop (j + 1)).flatMap (Block.entries t)) := by
  unfold Bucket.entries
  conv => lhs; rw [split_at h]
  simp

theorem set_entries {b' : Bucket K V} {j : Nat} {x' : Block K V}
    (hj : j < b.blocks.length) (hb : b'.blocks = b.blocks.set j x') :
    b'.entries t = (b.blocks.take j).flatMap (Block.entries t) ++
      (x'.entries t ++ (b.blocks.drop (j + 1)).flatMap (Block.entries t)) := by
  unfold Bucket.entries
  rw [hb, set_split hj]
  simp

/-- Replacing a block by one with the same capacity keeps the shape invariants. -/
theorem wf_set (w : Wf t hash b) {j : Nat} {x x' : Block K V} (hx : b.blocks[j]? = some x)
    (hx' : BlockWf t hash x') (hc : x'.cap = x.cap) {b' : Bucket K V}
    (hb : b'.blocks = b.blocks.set j x') (hl : b'.len = (b'.entries t).length) : Wf t hash b' := by
  have hb1 : b'.main = (b.blocks.set j x').headD b'.main ∧ b'.links = (b.blocks.set j x').tail := by
    rw [← hb]; exact ⟨rfl, rfl⟩
  refine ⟨?_, ?_, ?_, hl⟩
  · rw [hb1.1]
    cases j with
    | zero =>
      simp [Bucket.blocks] at hx ⊢
      rw [hc, ← hx]; exact w.main_cap
    | succ j => simpa [Bucket.blocks] using w.main_cap
  · intro y hy
    rw [hb1.2] at hy
    cases j with
    | zero => simp [Bucket.blocks] at hy; exact w.link_cap y hy
    | succ j =>
      simp [Bucket.blocks] at hy hx
      rcases List.mem_or_eq_of_mem_set hy with h | h
      · exact w.link_cap y h
      · subst h; rw [hc]; exact w.link_cap x (List.mem_of_getElem? hx)
  · intro y hy
    rw [hb] at hy
    rcases List.mem_or_eq_of_mem_set hy with h | h
    · exact w.blocks y h
    · subst h; exact hx'

theorem perm_mid {α : Type} {a m m' c : List α} {e : α} (h : m'.Perm (e :: m)) :
    (a ++ (m' ++ c)).Perm (e :: (a ++ (m ++ c))) := by
  have h1 : (a ++ (m' ++ c)).Perm (a ++ ((e :: m) ++ c)) := (h.append_right c).append_left a
  refine h1.trans ?_
  simpa using List.perm_middle

/-- Writing an entry into a free slot of block `j`. -/
theorem insert_block (w : Wf t hash b) {j i h : Nat} {x : Block K V} {e : K × V}
    (hx : b.blocks[j]? = some x) (hi : i < x.cap) (hf : x.occ.getLsbD i = false)
    (hh : partialHash h = partialHash (hash e.1)) {b' : Bucket K V}
    (hb : b'.blocks = b.blocks.set j (x.insertEntry i h e)) (hl : b'.len = b.len + 1) :
    Wf t hash b' ∧ (b'.entries t).Perm (e :: b.entries t) ∧ PointsTo t b' ⟨j, i⟩ e := by
  have hjl : j < b.blocks.length := (List.getElem?_eq_some_iff.1 hx).1
  obtain ⟨hw, hp, hc, hv, hd⟩ := insertEntry_wf (w.blocks x (List.mem_of_getElem? hx)) hi hf hh
  have hperm : (b'.entries t).Perm (e :: b.entries t) := by
    rw [set_entries hjl hb, entries_split hx]
    exact perm_mid hp
  refine ⟨wf_set w hx hw hc hb ?_, hperm, ⟨_, ?_, hv, hd⟩⟩
  · rw [hl, hperm.length_eq, List.length_cons, w.len]
  · rw [hb]; simp [hjl]

theorem findFree_some {l : List (Block K V)} {j0 j i : Nat} (h : findFree l j0 = some (j, i)) :
    j0 ≤ j ∧ ∃ x, l[j - j0]? = some x ∧ i = to x.occ ∧ i ≠ linkedBucketLen := by
  induction l generalizing j0 with
  | nil => simp [findFree] at h
  | cons x xs ih =>
    unfold findFree at h
    split at h
    · rename_i hne
      cases h
      exact ⟨Nat.le_refl _, x, by simp, rfl, hne⟩
    · obtain ⟨h1, y, h2, h3⟩ := ih h
      refine ⟨by omega, y, ?_, h3⟩
      have : j - j0 = (j - (j0 + 1)) + 1 := by omega
      rw [this]; simpa using h2

theorem link_free {x : Block K V} (w : BlockWf t hash x) (hc : x.cap = linkedBucketLen)
    (h : to x.occ ≠ linkedBucketLen) :
    to x.occ < x.cap ∧ x.occ.getLsbD (to x.occ) = false := by
  have h8 : x.occ.getLsbD 8 = false := by
    cases h8 : x.occ.getLsbD 8 with
    | false => rfl
    | true => have := w.hi 8 h8; rw [hc] at this; exact absurd this (by decide)
  have hle := to_le_of_not (by omega) h8
  have hcap : linkedBucketLen = 8 := rfl
  rw [hc]
  have hlt : to x.occ < 8 := by omega
  exact ⟨by omega, (to_lt (by omega)).1⟩

theorem main_free {x : Block K V} (hc : x.cap = bucketLen) (h : to x.occ ≠ bucketLen) :
    to x.occ < x.cap ∧ x.occ.getLsbD (to x.occ) = false := by
  have hle := tz_le (~~~x.occ)
  have h32 : bucketLen = 32 := rfl
  have hlt : to x.occ < 32 := by unfold to at h ⊢; omega
  exact ⟨by omega, (to_lt hlt).1⟩

theorem insertOverflow_ok (w : Wf t hash b) {h : Nat} {e : K × V}
    (hh : partialHash h = partialHash (hash e.1)) :
    Wf t hash (b.insertOverflow h e).1 ∧
      ((b.insertOverflow h e).1.entries t).Perm (e :: b.entries t) ∧
      PointsTo t (b.insertOverflow h e).1 (b.insertOverflow h e).2 e := by
  unfold Bucket.insertOverflow
  cases hff : findFree b.links 0 with
  | some ji =>
    obtain ⟨j, i⟩ := ji
    obtain ⟨_, x, hx, hi, hne⟩ := findFree_some hff
    simp only [Nat.sub_zero] at hx
    simp only [hx]
    have hm : x ∈ b.links := List.mem_of_getElem? hx
    have hbw := w.blocks x (by simp [Bucket.blocks, hm])
    subst hi
    obtain ⟨h1, h2⟩ := link_free hbw (w.link_cap x hm) hne
    exact insert_block w (j := j + 1) (by simpa [Bucket.blocks] using hx) h1 h2 hh rfl rfl
  | none =>
    simp only
    have he := empty_block_wf (K := K) (V := V) t hash (c := linkedBucketLen) (by decide)
    obtain ⟨hw, hp, hc, hv, hd⟩ := insertEntry_wf (i := 0) (h := h) (e := e) he
      (show 0 < linkedBucketLen by decide)
      (by simp [Block.empty]) hh
    rw [empty_block_entries] at hp
    have hperm : (({ b with
        len := b.len + 1
        links := (Block.empty linkedBucketLen).insertEntry 0 h e :: b.links } :
          Bucket K V).entries t).Perm (e :: b.entries t) := by
      unfold Bucket.entries Bucket.blocks
      simp only [List.flatMap_cons]
      exact perm_mid (m := []) hp
    refine ⟨⟨w.main_cap, ?_, ?_, ?_⟩, hperm, ⟨_, by simp [Bucket.blocks], hv, hd⟩⟩
    · intro y hy
      rcases List.mem_cons.1 hy with h | h
      · subst h; exact hc
      · exact w.link_cap y h
    · intro y hy
      simp only [Bucket.blocks, List.mem_cons] at hy
      rcases hy with h | h | h
      · subst h; exact w.blocks _ (by simp [Bucket.blocks])
      · subst h; exact hw
      · exact w.blocks y (by simp [Bucket.blocks, h])
    · rw [hperm.length_eq, List.length_cons, ← w.len]

theorem clearLinks_ok {l : List (Block K V)} (hw : ∀ x ∈ l, BlockWf .index hash x)
    (recent : Nat → Bool) :
    (∀ x ∈ clearLinks recent l, BlockWf .index hash x) ∧
      (clearLinks recent l).flatMap (Block.entries .index) = l.flatMap (Block.entries .index) ∧
      (∀ c, (∀ x ∈ l, x.cap = c) → ∀ x ∈ clearLinks recent l, x.cap = c) ∧
      (∀ (j : Nat) (x : Block K V) (i : Nat), l[j]? = some x → (x.visible .index).getLsbD i = true →
        (clearLinks recent l)[j]? = some (x.dropUnreachable recent)) := by
  induction l with
  | nil => simp [clearLinks]
  | cons x xs ih =>
    obtain ⟨h1, h2, h3, h4⟩ := ih fun y hy => hw y (by simp [hy])
    obtain ⟨d1, d2, d3, d4⟩ := dropUnreachable_wf (hw x (by simp)) recent
    unfold clearLinks
    simp only
    split
    · rename_i hc
      rw [Bool.and_eq_true, List.isEmpty_iff, beq_iff_eq] at hc
      obtain ⟨hr, ho⟩ := hc
      have hocc : ∀ j, (x.dropUnreachable recent).occ.getLsbD j = false := by
        intro j; rw [ho]; simp
      have he : (x.dropUnreachable recent).entries .index = [] := by
        apply List.eq_nil_iff_forall_not_mem.2
        intro e he
        obtain ⟨i, _, hv, _⟩ := mem_block_entries.1 he
        have := visible_occ hv
        rw [hocc] at this; exact absurd this (by simp)
      refine ⟨by simp, ?_, by simp, ?_⟩
      · rw [hr] at h2
        rw [List.flatMap_cons, ← d2, he, ← h2]; simp
      · intro j y i hj hv
        cases j with
        | zero =>
          simp at hj; subst hj
          have := visible_occ (d4 i hv).1
          rw [hocc] at this; exact absurd this (by simp)
        | succ j =>
          simp at hj
          have := h4 j y i hj hv
          rw [hr] at this; simp at this
    · refine ⟨?_, ?_, ?_, ?_⟩
      · intro y hy
        rcases List.mem_cons.1 hy with h | h
        · subst h; exact d1
        · exact h1 y h
      · rw [List.flatMap_cons, List.flatMap_cons, d2, h2]
      · intro c hc y hy
        rcases List.mem_cons.1 hy with h | h
        · subst h; rw [d3]; exact hc x (by simp)
        · exact h3 c (fun z hz => hc z (by simp [hz])) y h
      · intro j y i hj hv
        cases j with
        | zero => simp at hj; subst hj; rfl
        | succ j => simp at hj ⊢; exact h4 j y i hj hv

theorem clearUnreachable_ok (w : Wf .index hash b) (recent : Nat → Bool) :
    Wf .index hash (b.clearUnreachable recent) ∧
      (b.clearUnreachable recent).entries .index = b.entries .index ∧
      ∀ p e, PointsTo .index b p e → PointsTo .index (b.clearUnreachable recent) p e := by
  have hm := w.blocks b.main (by simp [Bucket.blocks])
  obtain ⟨d1, d2, d3, d4⟩ := dropUnreachable_wf hm recent
  have hl : ∀ x ∈ b.links, BlockWf .index hash x := fun x hx => w.blocks x (by simp [Bucket.blocks, hx])
  obtain ⟨l1, l2, l3, l4⟩ := clearLinks_ok hl recent
  have he : (b.clearUnreachable recent).entries .index = b.entries .index := by
    unfold Bucket.entries Bucket.blocks Bucket.clearUnreachable
    rw [List.flatMap_cons, List.flatMap_cons, d2, l2]
  refine ⟨⟨d3.trans w.main_cap, l3 _ w.link_cap, ?_, ?_⟩, he, ?_⟩
  · intro y hy
    simp only [Bucket.blocks, Bucket.clearUnreachable, List.mem_cons] at hy
    rcases hy with h | h
    · subst h; exact d1
    · exact l1 y h
  · rw [he]; exact w.len
  · rintro ⟨j, i⟩ e ⟨x, hx, hv, hd⟩
    simp only at hx hv hd
    cases j with
    | zero =>
      simp [Bucket.blocks] at hx; subst hx
      obtain ⟨v1, v2, _⟩ := d4 i hv
      exact ⟨_, by simp [Bucket.blocks, Bucket.clearUnreachable], v1, by rw [v2]; exact hd⟩
    | succ j =>
      simp [Bucket.blocks] at hx
      obtain ⟨v1, v2, _⟩ := (dropUnreachable_wf (hl x (List.mem_of_getElem? hx)) recent).2.2.2 i hv
      refine ⟨x.dropUnreachable recent, ?_, v1, by rw [v2]; exact hd⟩
      simp [Bucket.blocks, Bucket.clearUnreachable]
      exact l4 j x i hx hv

/-- `insert` adds exactly the given entry, and the returned cursor points at it. -/
theorem insert_ok (w : Wf t hash b) (recent : Nat → Bool) {h : Nat} {e : K × V}
    (hh : partialHash h = partialHash (hash e.1)) :
    Wf t hash (b.insert t recent h e).1 ∧
      ((b.insert t recent h e).1.entries t).Perm (e :: b.entries t) ∧
      PointsTo t (b.insert t recent h e).1 (b.insert t recent h e).2 e := by
  have key : ∀ b' : Bucket K V, Wf t hash b' → b'.entries t = b.entries t →
      let r := if to b'.main.occ = bucketLen then b'.insertOverflow h e
        else ({ b' with len := b'.len + 1, main := b'.main.insertEntry (to b'.main.occ) h e },
          ⟨0, to b'.main.occ⟩)
      Wf t hash r.1 ∧ (r.1.entries t).Perm (e :: b.entries t) ∧ PointsTo t r.1 r.2 e := by
    intro b' w' he
    simp only
    split
    · have := insertOverflow_ok w' hh
      rw [he] at this; exact this
    · rename_i hne
      obtain ⟨h1, h2⟩ := main_free w'.main_cap hne
      rw [← he]
      exact insert_block w' (j := 0) (by simp [Bucket.blocks]) h1 h2 hh rfl rfl
  unfold Bucket.insert
  simp only
  by_cases hc : t = .index ∧ b.main.occ = BitVec.allOnes 32 ∧ b.main.removed ≠ 0#32
  · rw [if_pos hc]
    obtain ⟨ht, _⟩ := hc
    subst ht
    obtain ⟨w', he, _⟩ := clearUnreachable_ok w recent
    exact key _ w' he
  · rw [if_neg hc]
    exact key b w rfl

/-- `remove` takes out exactly the entry under the cursor. -/
theorem remove_ok (w : Wf t hash b) {p : Ptr} {e : K × V} (h : PointsTo t b p e) :
    ∃ b' p', b.remove t p = some (b', some e, p') ∧ Wf t hash b' ∧
      (b.entries t).Perm (e :: b'.entries t) := by
  obtain ⟨j, i⟩ := p
  obtain ⟨x, hx, hv, hd⟩ := h
  simp only at hx hv hd
  have hbw := w.blocks x (List.mem_of_getElem? hx)
  have hjl : j < b.blocks.length := (List.getElem?_eq_some_iff.1 hx).1
  obtain ⟨c1, c2, c3⟩ := clearSlot_wf hbw hv hd
  have key : ∀ b' : Bucket K V, b'.blocks = b.blocks.set j (x.clearSlot i) → b'.len = b.len - 1 →
      Wf t hash b' ∧ (b.entries t).Perm (e :: b'.entries t) := by
    intro b' hb hl
    have hperm : (b.entries t).Perm (e :: b'.entries t) := by
      rw [entries_split hx, set_entries hjl hb]
      exact perm_mid c2
    refine ⟨wf_set w hx c1 c3 hb ?_, hperm⟩
    have := hperm.length_eq
    rw [hl, w.len, this]; simp
  cases j with
  | zero =>
    simp [Bucket.blocks] at hx; subst hx
    refine ⟨_, _, by simp [Bucket.remove, hd]; exact ⟨rfl, rfl⟩, ?_⟩
    exact key _ rfl rfl
  | succ j =>
    have hx' : b.links[j]? = some x := by simpa [Bucket.blocks] using hx
    have k1 := key { b with len := b.len - 1, links := b.links.set j (x.clearSlot i) } rfl rfl
    simp only [Bucket.remove, hx', Bucket.unlink]
    split
    · rename_i hc
      refine ⟨_, _, by rw [hd], ?_⟩
      have hjl' : j < b.links.length := (List.getElem?_eq_some_iff.1 hx').1
      have he0 : (x.clearSlot i).entries t = [] := by
        apply List.eq_nil_iff_forall_not_mem.2
        intro e' he
        obtain ⟨i', _, hv', _⟩ := mem_block_entries.1 he
        have := visible_occ hv'
        rw [hc.1] at this; simp at this
      obtain ⟨w1, p1⟩ := k1
      have hent : Bucket.entries t { b with
            len := b.len - 1, links := (b.links.set j (x.clearSlot i)).eraseIdx j } =
          Bucket.entries t { b with len := b.len - 1, links := b.links.set j (x.clearSlot i) } := by
        unfold Bucket.entries Bucket.blocks
        simp only [List.flatMap_cons]
        congr 1
        rw [List.eraseIdx_eq_take_drop_succ, set_split hjl']
        have hlt : (b.links.take j).length = j := by
          rw [List.length_take]; omega
        have e1 : (b.links.take j ++ x.clearSlot i :: b.links.drop (j + 1)).take j =
            b.links.take j := by
          rw [List.take_append_of_le_length (by omega), List.take_of_length_le (by omega)]
        have e2 : (b.links.take j ++ x.clearSlot i :: b.links.drop (j + 1)).drop (j + 1) =
            b.links.drop (j + 1) := by
          have := List.drop_append (i := j + 1) (l₁ := b.links.take j)
            (l₂ := x.clearSlot i :: b.links.drop (j + 1))
          rw [this, hlt, List.drop_of_length_le (by omega)]
          have : j + 1 - j = 1 := by omega
          rw [this]; simp
        rw [e1, e2]
        simp [he0]
      refine ⟨⟨w1.main_cap, ?_, ?_, ?_⟩, ?_⟩
      · intro y hy
        exact w1.link_cap y (List.mem_of_mem_eraseIdx hy)
      · intro y hy
        simp only [Bucket.blocks, List.mem_cons] at hy
        rcases hy with hy | hy
        · exact w1.blocks y (by simp [Bucket.blocks, hy])
        · exact w1.blocks y (by simp [Bucket.blocks, List.mem_of_mem_eraseIdx hy])
      · have := w1.len
        rw [hent]; exact this
      · rw [hent]; exact p1
    · refine ⟨_, _, by rw [hd], ?_⟩
      exact k1

theorem markRemoved_ok (w : Wf .index hash b) {p : Ptr} {e : K × V} (epoch : Nat)
    (h : PointsTo .index b p e) :
    Wf .index hash (b.markRemoved p epoch) ∧
      (b.entries .index).Perm (e :: (b.markRemoved p epoch).entries .index) := by
  obtain ⟨x, hx, hv, hd⟩ := h
  have hjl : p.blk < b.blocks.length := (List.getElem?_eq_some_iff.1 hx).1
  obtain ⟨c1, c2, c3⟩ := markRemoved_wf (epoch := epoch) (w.blocks x (List.mem_of_getElem? hx)) hv hd
  have hb : (b.markRemoved p epoch).blocks = b.blocks.set p.blk (x.markRemoved p.idx epoch) := by
    unfold Bucket.markRemoved
    rw [hx]
    exact blocks_setBlock b p.blk _
  have hl : (b.markRemoved p epoch).len = b.len - 1 := by
    unfold Bucket.markRemoved; rw [hx]
  have hperm : (b.entries .index).Perm (e :: (b.markRemoved p epoch).entries .index) := by
    rw [entries_split hx, set_entries hjl hb]
    exact perm_mid c2
  refine ⟨wf_set w hx c1 c3 hb ?_, hperm⟩
  rw [hl, w.len, hperm.length_eq]; simp

theorem setVal_ok (w : Wf t hash b) {p : Ptr} {e : K × V} (v : V) (h : PointsTo t b p e) :
    Wf t hash (b.setVal p v) ∧
      ∃ l r, b.entries t = l ++ e :: r ∧ (b.setVal p v).entries t = l ++ (e.1, v) :: r := by
  obtain ⟨x, hx, hv, hd⟩ := h
  have hjl : p.blk < b.blocks.length := (List.getElem?_eq_some_iff.1 hx).1
  obtain ⟨c1, c2, l, r, c3, c4⟩ := setData_wf (v := v) (w.blocks x (List.mem_of_getElem? hx)) hv hd
  have hb : (b.setVal p v).blocks = b.blocks.set p.blk
      { x with data := fun j => if j = p.idx then (x.data j).map (fun e => (e.1, v)) else x.data j } := by
    unfold Bucket.setVal
    rw [hx]
    exact blocks_setBlock b p.blk _
  have hl : (b.setVal p v).len = b.len := by
    unfold Bucket.setVal; rw [hx]
    cases hp : p.blk <;> rfl
  have h1 := entries_split (t := t) hx
  have h2 := set_entries (t := t) hjl hb
  rw [c3] at h1
  rw [c4] at h2
  have e1 : b.entries t = ((b.blocks.take p.blk).flatMap (Block.entries t) ++ l) ++
      e :: (r ++ (b.blocks.drop (p.blk + 1)).flatMap (Block.entries t)) := by rw [h1]; simp
  have e2 : (b.setVal p v).entries t = ((b.blocks.take p.blk).flatMap (Block.entries t) ++ l) ++
      (e.1, v) :: (r ++ (b.blocks.drop (p.blk + 1)).flatMap (Block.entries t)) := by rw [h2]; simp
  refine ⟨wf_set w hx c1 c2 hb ?_, _, _, e1, e2⟩
  rw [hl, w.len, e1, e2]; simp

/-- `extract_from` moves exactly one entry. -/
theorem extractFrom_ok {src : Bucket K V} (wt : Wf t hash b) (ws : Wf t hash src)
    (recent : Nat → Bool) {h : Nat} {p : Ptr} {e : K × V} (hp : PointsTo t src p e)
    (hh : partialHash h = partialHash (hash e.1)) :
    ∃ b' src', extractFrom t recent b h src p = some (b', src') ∧ Wf t hash b' ∧ Wf t hash src' ∧
      (b'.entries t).Perm (e :: b.entries t) ∧ (src.entries t).Perm (e :: src'.entries t) := by
  obtain ⟨x, hx, hv, hd⟩ := hp
  have hjl : p.blk < src.blocks.length := (List.getElem?_eq_some_iff.1 hx).1
  obtain ⟨c1, c2, c3⟩ := clearSlot_wf (ws.blocks x (List.mem_of_getElem? hx)) hv hd
  obtain ⟨i1, i2, _⟩ := insert_ok wt recent hh
  let src' : Bucket K V :=
    { src.setBlock p.blk (x.clearSlot p.idx) with len := src.len - 1 }
  have hb : src'.blocks = src.blocks.set p.blk (x.clearSlot p.idx) := blocks_setBlock src p.blk _
  have hperm : (src.entries t).Perm (e :: src'.entries t) := by
    rw [entries_split hx, set_entries hjl hb]
    exact perm_mid c2
  refine ⟨_, src', by unfold extractFrom; rw [hx]; simp only [hd]; rfl, i1, ?_, i2, hperm⟩
  refine wf_set ws hx c1 c3 hb ?_
  show src.len - 1 = _
  rw [ws.len, hperm.length_eq]; simp

theorem reserveLinks_ok {l : List (Block K V)} (additional fuel cap : Nat)
    (hw : ∀ x ∈ l, BlockWf t hash x) (hc : ∀ x ∈ l, x.cap = linkedBucketLen) :
    (∀ x ∈ reserveLinks additional fuel cap l, BlockWf t hash x) ∧
    (∀ x ∈ reserveLinks additional fuel cap l, x.cap = linkedBucketLen) ∧
    (reserveLinks additional fuel cap l).flatMap (Block.entries t) = l.flatMap (Block.entries t) := by
  induction fuel generalizing cap l with
  | zero => unfold reserveLinks; exact ⟨hw, hc, rfl⟩
  | succ fuel ih =>
    cases l with
    | nil => unfold reserveLinks; exact ⟨hw, hc, rfl⟩
    | cons x xs =>
      unfold reserveLinks
      simp only
      split
      · exact ⟨hw, hc, rfl⟩
      · have hxw := hw x (by simp)
        have hxc := hc x (by simp)
        cases xs with
        | nil =>
          simp only
          obtain ⟨i1, i2, i3⟩ := ih (cap := cap + (linkedBucketLen - ones x.occ))
            (l := [Block.empty linkedBucketLen])
            (by intro y hy; simp at hy; subst hy; exact empty_block_wf t hash (by decide))
            (by intro y hy; simp at hy; subst hy; rfl)
          refine ⟨?_, ?_, ?_⟩
          · intro y hy
            rcases List.mem_cons.1 hy with h | h
            · subst h; exact hxw
            · exact i1 y h
          · intro y hy
            rcases List.mem_cons.1 hy with h | h
            · subst h; exact hxc
            · exact i2 y h
          · rw [List.flatMap_cons, i3]
            simp [empty_block_entries]
        | cons y ys =>
          simp only
          obtain ⟨i1, i2, i3⟩ := ih (cap := cap + (linkedBucketLen - ones x.occ)) (l := y :: ys)
            (by intro z hz; exact hw z (by simp at hz ⊢; exact Or.inr hz))
            (by intro z hz; exact hc z (by simp at hz ⊢; exact Or.inr hz))
          refine ⟨?_, ?_, ?_⟩
          · intro z hz
            rcases List.mem_cons.1 hz with h | h
            · subst h; exact hxw
            · exact i1 z h
          · intro z hz
            rcases List.mem_cons.1 hz with h | h
            · subst h; exact hxc
            · exact i2 z h
          · rw [List.flatMap_cons, i3, List.flatMap_cons (x := x)]

theorem reserveSlots_ok (w : Wf t hash b) (additional : Nat) :
    Wf t hash (b.reserveSlots additional) ∧ (b.reserveSlots additional).entries t = b.entries t := by
  unfold Bucket.reserveSlots
  simp only
  split
  · obtain ⟨i1, i2, i3⟩ := reserveLinks_ok (l := b.links) additional (additional + b.links.length)
      (bucketLen - ones b.main.occ) (fun x hx => w.blocks x (by simp [Bucket.blocks, hx])) w.link_cap
    have he : Bucket.entries t { b with
          links := reserveLinks additional (additional + b.links.length)
            (bucketLen - ones b.main.occ) b.links } = b.entries t := by
      unfold Bucket.entries Bucket.blocks
      rw [List.flatMap_cons, List.flatMap_cons, i3]
    refine ⟨⟨w.main_cap, i2, ?_, ?_⟩, he⟩
    · intro y hy
      simp only [Bucket.blocks, List.mem_cons] at hy
      rcases hy with h | h
      · subst h; exact w.blocks _ (by simp [Bucket.blocks])
      · exact i1 y h
    · rw [he]; exact w.len
  · exact ⟨w, rfl⟩

end BucketOps

end Scc.Bucket
