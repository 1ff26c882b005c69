import Verif.Bucket.Proof

/-!
# Search and cursor lemmas
-/

namespace Scc.Bucket

variable {K V : Type}

/-! ## Search -/

section Search
variable [DecidableEq K] {t : Kind} {hash : K → Nat}

theorem scan_ok {x : Block K V} {k : K} (fuel m : Nat) (bm : Word) (hm : ∀ j, j < m → bm.getLsbD j = false)
    (hf : 33 ≤ fuel + m) (hinit : ∀ j, bm.getLsbD j = true → ∃ e, x.data j = some e) :
    (∀ e i, scan x k fuel bm = some (e, i) →
        bm.getLsbD i = true ∧ x.data i = some e ∧ e.1 = k) ∧
      (scan x k fuel bm = none → ∀ i e, bm.getLsbD i = true → x.data i = some e → e.1 ≠ k) := by
  induction fuel generalizing m bm with
  | zero =>
    refine ⟨by intro e i h; simp [scan] at h, ?_⟩
    intro _ i e hb _
    have := BitVec.lt_of_getLsbD hb
    rw [hm i (by omega)] at hb; exact absurd hb (by simp)
  | succ fuel ih =>
    unfold scan
    simp only
    by_cases h32 : tz bm = 32
    · rw [if_pos h32]
      refine ⟨(fun e i h => nomatch h), ?_⟩
      intro _ i e hb
      rw [tz_eq_32 h32 i] at hb; exact absurd hb (by simp)
    · rw [if_neg h32]
      have hlt : tz bm < 32 := by have := tz_le bm; omega
      obtain ⟨hb, hlow⟩ := tz_lt hlt
      obtain ⟨e, he⟩ := hinit _ hb
      rw [he]
      simp only
      by_cases hk : e.1 = k
      · rw [if_pos hk]
        refine ⟨?_, (fun h => nomatch h)⟩
        intro e' i h
        cases h
        exact ⟨hb, he, hk⟩
      · rw [if_neg hk]
        have hge : m ≤ tz bm := by
          apply Nat.le_of_not_lt; intro hlt'
          rw [hm _ hlt'] at hb; exact absurd hb (by simp)
        obtain ⟨h1, h2⟩ := ih (tz bm + 1) (bm &&& ~~~bit (tz bm))
          (by
            intro j hj
            rw [getLsbD_clear]
            by_cases hj' : j = tz bm
            · simp [hj']
            · rw [hlow j (by omega)]; rfl)
          (by omega)
          (by
            intro j hj
            rw [getLsbD_clear] at hj
            simp at hj
            exact hinit j hj.1)
        refine ⟨?_, ?_⟩
        · intro e' i h
          obtain ⟨a, b, c⟩ := h1 e' i h
          rw [getLsbD_clear] at a
          simp at a
          exact ⟨a.1, b, c⟩
        · intro h i e' hb' hd'
          by_cases hi : i = tz bm
          · subst hi
            rw [he] at hd'; cases hd'; exact hk
          · exact h2 h i e' (by rw [getLsbD_clear]; simp [hb', hi]) hd'

theorem candidates_bit {x : Block K V} {h j : Nat} :
    (x.candidates t h).getLsbD j = ((x.visible t).getLsbD j &&
      !(decide (j < x.cap) && decide (x.ph j ≠ partialHash h))) := by
  unfold Block.candidates
  rw [← foldl_clear (fun i => decide (x.ph i ≠ partialHash h)) x.cap (x.visible t) j]
  simp only [decide_eq_true_eq]

theorem search_ok {x : Block K V} (w : BlockWf t hash x) (k : K) :
    (∀ e i, x.search t k (hash k) = some (e, i) →
        (x.visible t).getLsbD i = true ∧ x.data i = some e ∧ e.1 = k) ∧
      (x.search t k (hash k) = none → ∀ e ∈ x.entries t, e.1 ≠ k) := by
  have hcv : ∀ j, (x.candidates t (hash k)).getLsbD j = true → (x.visible t).getLsbD j = true := by
    intro j hj; rw [candidates_bit] at hj; simp at hj; exact hj.1
  obtain ⟨h1, h2⟩ := scan_ok (x := x) (k := k) 33 0 (x.candidates t (hash k)) (by omega) (by omega)
    (fun j hj => w.init j (visible_occ (hcv j hj)))
  refine ⟨?_, ?_⟩
  · intro e i h
    obtain ⟨a, b, c⟩ := h1 e i h
    exact ⟨hcv i a, b, c⟩
  · intro h e he hk
    obtain ⟨i, hi, hv, hd⟩ := mem_block_entries.1 he
    have hph := w.ph i e hv hd
    refine h2 h i e ?_ hd hk
    rw [candidates_bit, hv, hph, hk]; simp

theorem searchBlocks_ok {l : List (Block K V)} (w : ∀ x ∈ l, BlockWf t hash x) (k : K) (j0 : Nat) :
    (∀ e p, searchBlocks t k (hash k) l j0 = some (e, p) → j0 ≤ p.blk ∧
      ∃ x, l[p.blk - j0]? = some x ∧ (x.visible t).getLsbD p.idx = true ∧ x.data p.idx = some e ∧
        e.1 = k) ∧
      (searchBlocks t k (hash k) l j0 = none → ∀ x ∈ l, ∀ e ∈ x.entries t, e.1 ≠ k) := by
  induction l generalizing j0 with
  | nil =>
    refine ⟨by intro e p h; simp [searchBlocks] at h, by simp⟩
  | cons x xs ih =>
    obtain ⟨s1, s2⟩ := search_ok (w x (by simp)) k
    obtain ⟨i1, i2⟩ := ih (fun y hy => w y (by simp [hy])) (j0 + 1)
    unfold searchBlocks
    cases hs : x.search t k (hash k) with
    | some ei =>
      obtain ⟨e, i⟩ := ei
      simp only
      refine ⟨?_, fun h => nomatch h⟩
      intro e' p h
      cases h
      exact ⟨Nat.le_refl _, x, by simp, s1 e i hs⟩
    | none =>
      simp only
      refine ⟨?_, ?_⟩
      · intro e p h
        obtain ⟨a, y, b, c⟩ := i1 e p h
        refine ⟨by omega, y, ?_, c⟩
        have : p.blk - j0 = (p.blk - (j0 + 1)) + 1 := by omega
        rw [this]; simpa using b
      · intro h y hy
        rcases List.mem_cons.1 hy with e | e
        · subst e; exact s2 hs
        · exact i2 h y e

theorem len_zero {b : Bucket K V} (w : Wf t hash b) (h : ¬ b.len ≠ 0) : b.entries t = [] := by
  have h0 : b.len = 0 := by omega
  rw [w.len] at h0
  exact List.eq_nil_of_length_eq_zero h0

theorem searchEntry_ok {b : Bucket K V} (w : Wf t hash b) (k : K) :
    (∀ e, b.searchEntry t k (hash k) = some e → e ∈ b.entries t ∧ e.1 = k) ∧
      (b.searchEntry t k (hash k) = none → ∀ e ∈ b.entries t, e.1 ≠ k) := by
  obtain ⟨h1, h2⟩ := searchBlocks_ok w.blocks k 0
  unfold Bucket.searchEntry
  split
  · refine ⟨?_, ?_⟩
    · intro e h
      obtain ⟨⟨e', p⟩, h', he⟩ := Option.map_eq_some_iff.1 h
      simp only at he; subst he
      obtain ⟨_, x, hx, hv, hd, hk⟩ := h1 e' p h'
      exact ⟨PointsTo.mem w (p := p) ⟨x, by simpa using hx, hv, hd⟩, hk⟩
    · intro h e he
      obtain ⟨x, hx, he⟩ := mem_entries.1 he
      exact h2 (Option.map_eq_none_iff.1 h) x hx e he
  · rename_i hl
    refine ⟨(fun e h => nomatch h), ?_⟩
    intro _ e he
    rw [len_zero w hl] at he; simp at he

theorem getEntryPtr_ok {b : Bucket K V} (w : Wf t hash b) (k : K) :
    ((b.getEntryPtr t k (hash k)).isValid = true →
        ∃ e, PointsTo t b (b.getEntryPtr t k (hash k)) e ∧ e.1 = k) ∧
      ((b.getEntryPtr t k (hash k)).isValid = false → ∀ e ∈ b.entries t, e.1 ≠ k) := by
  obtain ⟨h1, h2⟩ := searchBlocks_ok w.blocks k 0
  have hn : Ptr.null.isValid = false := by decide
  unfold Bucket.getEntryPtr
  split
  · cases hs : searchBlocks t k (hash k) b.blocks 0 with
    | none =>
      refine ⟨by intro h; rw [hn] at h; exact absurd h (by simp), ?_⟩
      intro _ e he
      obtain ⟨x, hx, he⟩ := mem_entries.1 he
      exact h2 hs x hx e he
    | some ep =>
      obtain ⟨e, p⟩ := ep
      obtain ⟨_, x, hx, hv, hd, hk⟩ := h1 e p hs
      simp only [Nat.sub_zero] at hx
      refine ⟨fun _ => ⟨e, ⟨x, hx, hv, hd⟩, hk⟩, ?_⟩
      intro hinv
      have hlt := (w.blocks x (List.mem_of_getElem? hx)).hi _ (visible_occ hv)
      have hle := (w.blocks x (List.mem_of_getElem? hx)).cap_le
      have : p.idx ≠ bucketLen := by
        have : bucketLen = 32 := rfl
        omega
      simp [Ptr.isValid, this] at hinv
  · rename_i hl
    refine ⟨by intro h; rw [hn] at h; exact absurd h (by simp), ?_⟩
    intro _ e he
    rw [len_zero w hl] at he; simp at he

end Search

/-! ## Cursor -/

/-- The visible entries of a block from slot `c` on. -/
def Block.entriesFrom (t : Kind) (x : Block K V) (c : Nat) : List (K × V) :=
  (List.range' c (x.cap - c)).filterMap (slotVal t x)

/-- The slot the cursor looks at next. -/
def nextSlot (x : Block K V) (idx : Nat) : Nat := if idx = x.cap then 0 else idx + 1

/-- The entries ahead of index `idx` of the first block of the list. -/
def ahead (t : Kind) (idx : Nat) : List (Block K V) → List (K × V)
  | [] => []
  | x :: xs => x.entriesFrom t (nextSlot x idx) ++ xs.flatMap (Block.entries t)

/-- The entries a cursor has yet to visit. -/
def remaining (t : Kind) (b : Bucket K V) (p : Ptr) : List (K × V) :=
  if p.idx = usizeMax then [] else ahead t p.idx (b.blocks.drop p.blk)

section Cursor
variable {t : Kind} {hash : K → Nat}

theorem entriesFrom_zero (x : Block K V) : x.entriesFrom t 0 = x.entries t := by
  unfold Block.entriesFrom Block.entries
  rw [List.range_eq_range']; rfl

theorem entriesFrom_ge {x : Block K V} {c : Nat} (h : x.cap ≤ c) : x.entriesFrom t c = [] := by
  unfold Block.entriesFrom
  have : x.cap - c = 0 := by omega
  rw [this]; rfl

theorem entriesFrom_step {x : Block K V} {c : Nat} (h : c < x.cap) :
    x.entriesFrom t c = (slotVal t x c).toList ++ x.entriesFrom t (c + 1) := by
  unfold Block.entriesFrom
  have : x.cap - c = (x.cap - (c + 1)) + 1 := by omega
  rw [this, List.range'_succ, List.filterMap_cons]
  cases slotVal t x c <;> simp

theorem entriesFrom_skip {x : Block K V} (c n : Nat)
    (hn : ∀ i, c ≤ i → i < c + n → (x.visible t).getLsbD i = false) :
    x.entriesFrom t c = x.entriesFrom t (c + n) := by
  induction n with
  | zero => rfl
  | succ n ih =>
    rw [ih fun i h1 h2 => hn i h1 (by omega)]
    by_cases hc : c + n < x.cap
    · rw [entriesFrom_step hc]
      have : slotVal t x (c + n) = none := by
        unfold slotVal; rw [hn (c + n) (by omega) (by omega)]; rfl
      rw [this]; rfl
    · rw [entriesFrom_ge (by omega), entriesFrom_ge (by omega)]

theorem nextEntry_ok {x : Block K V} (w : BlockWf t hash x) (idx : Nat) :
    match x.nextEntry t idx with
    | some i => i < x.cap ∧ (x.visible t).getLsbD i = true ∧
        ∃ e, x.data i = some e ∧ x.entriesFrom t (nextSlot x idx) = e :: x.entriesFrom t (i + 1)
    | none => x.entriesFrom t (nextSlot x idx) = [] := by
  have hcur : (if idx = x.cap then 0 else idx + 1) = nextSlot x idx := rfl
  unfold Block.nextEntry
  simp only [hcur]
  by_cases hc : nextSlot x idx < x.cap
  · rw [if_pos hc]
    have hc32 : nextSlot x idx < 32 := Nat.lt_of_lt_of_le hc w.cap_le
    have hbit : ∀ j, (x.visible t &&& from_ (nextSlot x idx)).getLsbD j =
        ((x.visible t).getLsbD j && decide (nextSlot x idx ≤ j)) := by
      intro j
      rw [BitVec.getLsbD_and, getLsbD_from hc32]
      by_cases hj : j < 32
      · simp [hj]
      · rw [BitVec.getLsbD_of_ge (x.visible t) j (by omega)]; rfl
    by_cases hn : tz (x.visible t &&& from_ (nextSlot x idx)) < x.cap
    · rw [if_pos hn]
      simp only
      obtain ⟨h1, h2⟩ := tz_lt (Nat.lt_of_lt_of_le hn w.cap_le)
      generalize hi : tz (x.visible t &&& from_ (nextSlot x idx)) = i at *
      rw [hbit] at h1
      simp at h1
      obtain ⟨hv, hle⟩ := h1
      obtain ⟨e, he⟩ := w.init i (visible_occ hv)
      refine ⟨hn, hv, e, he, ?_⟩
      have hs := entriesFrom_skip (t := t) (x := x) (nextSlot x idx) (i - nextSlot x idx) (by
        intro j h3 h4
        have := h2 j (by omega)
        rw [hbit] at this
        simpa [h3] using this)
      have hadd : nextSlot x idx + (i - nextSlot x idx) = i := by omega
      rw [hs, hadd, entriesFrom_step hn, slotVal_eq_some.2 ⟨hv, he⟩]; rfl
    · rw [if_neg hn]
      simp only
      have hs := entriesFrom_skip (t := t) (x := x) (nextSlot x idx) (x.cap - nextSlot x idx) (by
        intro j h3 h4
        cases hv : (x.visible t).getLsbD j with
        | false => rfl
        | true =>
          have := tz_le_of_bit (w := x.visible t &&& from_ (nextSlot x idx)) (j := j)
            (by rw [hbit, hv]; simp [h3])
          omega)
      rw [hs, entriesFrom_ge (by omega)]
  · rw [if_neg hc]
    exact entriesFrom_ge (by omega)

/-- The loop over the blocks, stated on the list of blocks still ahead. -/
theorem walk_ok {l : List (Block K V)} (w : ∀ x ∈ l, BlockWf t hash x)
    (hc : ∀ x ∈ l.tail, x.cap = linkedBucketLen) (j idx : Nat) :
    match walk t l j idx with
    | some q => j ≤ q.blk ∧ ∃ x e, l[q.blk - j]? = some x ∧ q.idx < x.cap ∧
        (x.visible t).getLsbD q.idx = true ∧ x.data q.idx = some e ∧
        ahead t idx l =
          e :: (x.entriesFrom t (q.idx + 1) ++ (l.drop (q.blk - j + 1)).flatMap (Block.entries t))
    | none => ahead t idx l = [] := by
  induction l generalizing j idx with
  | nil => simp [walk, ahead]
  | cons x xs ih =>
    have hn := nextEntry_ok (w x (by simp)) idx
    unfold walk
    cases hs : x.nextEntry t idx with
    | some i =>
      rw [hs] at hn
      simp only at hn ⊢
      obtain ⟨h1, h2, e, h3, h4⟩ := hn
      refine ⟨Nat.le_refl _, x, e, by simp, h1, h2, h3, ?_⟩
      rw [ahead, h4]; simp
    | none =>
      rw [hs] at hn
      simp only at hn ⊢
      have ih' := ih (fun y hy => w y (by simp [hy]))
        (fun y hy => hc y (by simp; exact List.mem_of_mem_tail hy)) (j + 1) linkedBucketLen
      have hxs : xs.flatMap (Block.entries t) = ahead t linkedBucketLen xs := by
        cases xs with
        | nil => rfl
        | cons y ys =>
          have hy : y.cap = linkedBucketLen := hc y (by simp)
          simp only [List.flatMap_cons, ahead]
          have : nextSlot y linkedBucketLen = 0 := by simp [nextSlot, hy]
          rw [this, entriesFrom_zero]
      rw [ahead, hn, List.nil_append, hxs]
      cases hw : walk t xs (j + 1) linkedBucketLen with
      | none => rw [hw] at ih'; exact ih'
      | some q =>
        rw [hw] at ih'
        simp only at ih' ⊢
        obtain ⟨h1, y, e, h2, h3, h4, h5, h6⟩ := ih'
        refine ⟨by omega, y, e, ?_, h3, h4, h5, ?_⟩
        · have : q.blk - j = (q.blk - (j + 1)) + 1 := by omega
          rw [this]; simpa using h2
        · rw [h6]
          have : q.blk - j + 1 = (q.blk - (j + 1) + 1) + 1 := by omega
          rw [this]; simp

theorem remaining_of {b : Bucket K V} {p : Ptr} {x : Block K V} (hx : b.blocks[p.blk]? = some x)
    (hi : p.idx ≠ usizeMax) :
    remaining t b p =
      x.entriesFrom t (nextSlot x p.idx) ++ (b.blocks.drop (p.blk + 1)).flatMap (Block.entries t) := by
  obtain ⟨hj, hxe⟩ := List.getElem?_eq_some_iff.1 hx
  unfold remaining
  rw [if_neg hi, List.drop_eq_getElem_cons hj, hxe, ahead]

theorem remaining_null {b : Bucket K V} (w : Wf t hash b) : remaining t b Ptr.null = b.entries t := by
  rw [remaining_of (x := b.main) (by simp [Bucket.blocks, Ptr.null]) (by decide)]
  have h1 : nextSlot b.main Ptr.null.idx = 0 := by
    unfold nextSlot; rw [w.main_cap]; simp [Ptr.null]
  rw [h1, entriesFrom_zero]
  simp [Bucket.entries, Bucket.blocks, Ptr.null]

theorem nextSlot_pointed {x : Block K V} {i : Nat} (h : i < x.cap) : nextSlot x i = i + 1 := by
  unfold nextSlot; rw [if_neg (by omega)]

/-- One cursor step: exactly the first remaining entry, or the fused state at the end. -/
theorem moveToNext_ok {b : Bucket K V} (w : Wf t hash b) (p : Ptr) :
    (remaining t b p = [] ∧ (b.moveToNext t p).2 = false ∧ (b.moveToNext t p).1.idx = usizeMax) ∨
    (∃ e rest, remaining t b p = e :: rest ∧ (b.moveToNext t p).2 = true ∧
      PointsTo t b (b.moveToNext t p).1 e ∧ remaining t b (b.moveToNext t p).1 = rest) := by
  unfold Bucket.moveToNext
  by_cases hm : p.idx = usizeMax
  · left
    rw [if_neg (by simp [hm])]
    exact ⟨by simp [remaining, hm], rfl, hm⟩
  · rw [if_pos hm]
    have hw := walk_ok (t := t) (hash := hash) (l := b.blocks.drop p.blk)
      (fun x hx => w.blocks x (List.mem_of_mem_drop hx))
      (by
        intro x hx
        rw [List.tail_drop] at hx
        have : x ∈ b.links := by
          have h2 : b.blocks.drop (p.blk + 1) = b.links.drop p.blk := by simp [Bucket.blocks]
          rw [h2] at hx
          exact List.mem_of_mem_drop hx
        exact w.link_cap x this) p.blk p.idx
    have hrem : remaining t b p = ahead t p.idx (b.blocks.drop p.blk) := by
      unfold remaining; rw [if_neg hm]
    cases hwk : walk t (b.blocks.drop p.blk) p.blk p.idx with
    | none =>
      rw [hwk] at hw
      left
      exact ⟨by rw [hrem]; exact hw, rfl, rfl⟩
    | some q =>
      rw [hwk] at hw
      right
      simp only at hw ⊢
      obtain ⟨h1, x, e, h2, h3, h4, h5, h6⟩ := hw
      have hq : b.blocks[q.blk]? = some x := by
        rw [List.getElem?_drop] at h2
        have : p.blk + (q.blk - p.blk) = q.blk := by omega
        rw [this] at h2; exact h2
      have hne : q.idx ≠ usizeMax := by
        have := (w.blocks x (List.mem_of_getElem? hq)).cap_le
        have : usizeMax = 2 ^ 64 - 1 := rfl
        omega
      refine ⟨e, _, hrem.trans h6, trivial, ⟨x, hq, h4, h5⟩, ?_⟩
      rw [remaining_of hq hne, nextSlot_pointed h3, List.drop_drop]
      have : p.blk + (q.blk - p.blk + 1) = q.blk + 1 := by omega
      rw [this]

theorem entriesFrom_congr {x y : Block K V} {c : Nat} (hc : y.cap = x.cap)
    (h : ∀ i, c ≤ i → slotVal t y i = slotVal t x i) : y.entriesFrom t c = x.entriesFrom t c := by
  unfold Block.entriesFrom
  rw [hc]
  generalize x.cap - c = n
  induction n generalizing c with
  | zero => rfl
  | succ n ih =>
    rw [List.range'_succ, List.filterMap_cons, List.filterMap_cons, h c (Nat.le_refl c),
      ih fun i hi => h i (by omega)]

theorem clearSlot_slotVal {x : Block K V} {i j : Nat} (h : j ≠ i) :
    slotVal t (x.clearSlot i) j = slotVal t x j := by
  have hv : ((x.clearSlot i).visible t).getLsbD j = (x.visible t).getLsbD j := by
    apply visible_congr
    · show (x.occ &&& ~~~bit i).getLsbD j = _
      rw [getLsbD_clear]; simp [h]
    · rfl
  unfold slotVal
  rw [hv]
  simp [Block.clearSlot, h]

/-- Removing the entry under the cursor changes nothing about what the cursor will visit next, also
when the link it is in gets unlinked. -/
theorem remove_remaining {b b' : Bucket K V} (w : Wf t hash b) {p p' : Ptr} {e : K × V}
    {r : Option (K × V)} (hp : PointsTo t b p e) (h : b.remove t p = some (b', r, p')) :
    remaining t b' p' = remaining t b p := by
  obtain ⟨j, i⟩ := p
  obtain ⟨x, hx, hv, hd⟩ := hp
  simp only at hx hv hd
  have hbw := w.blocks x (List.mem_of_getElem? hx)
  have hi : i < x.cap := hbw.hi i (visible_occ hv)
  have hne : i ≠ usizeMax := by
    have := hbw.cap_le
    have : usizeMax = 2 ^ 64 - 1 := rfl
    omega
  have hfrom : (x.clearSlot i).entriesFrom t (i + 1) = x.entriesFrom t (i + 1) :=
    entriesFrom_congr rfl fun k hk => clearSlot_slotVal (by omega)
  rw [remaining_of (p := ⟨j, i⟩) hx hne, nextSlot_pointed hi]
  cases j with
  | zero =>
    simp [Bucket.blocks] at hx; subst hx
    simp only [Bucket.remove] at h
    cases h
    have hx' : ({ b with
        len := b.len - 1
        main := b.main.clearSlot i
        lru := if t = .cache then b.lru.remove i else b.lru } : Bucket K V).blocks[0]? =
      some (b.main.clearSlot i) := by simp [Bucket.blocks]
    rw [remaining_of (p := ⟨0, i⟩) hx' hne, nextSlot_pointed (by exact hi), hfrom]
    simp [Bucket.blocks]
  | succ j =>
    have hx1 : b.links[j]? = some x := by simpa [Bucket.blocks] using hx
    have hjl : j < b.links.length := (List.getElem?_eq_some_iff.1 hx1).1
    simp only [Bucket.remove, hx1, Bucket.unlink] at h
    split at h
    · rename_i hc
      cases h
      have hfe : x.entriesFrom t (i + 1) = [] := by
        rw [← hfrom]
        apply List.eq_nil_iff_forall_not_mem.2
        intro e' he
        unfold Block.entriesFrom at he
        obtain ⟨k, _, hk⟩ := List.mem_filterMap.1 he
        have := visible_occ (slotVal_eq_some.1 hk).1
        rw [hc.1] at this; simp at this
      rw [hfe, List.nil_append]
      have hel : (b.links.set j (x.clearSlot i)).eraseIdx j = b.links.eraseIdx j := by
        rw [List.eraseIdx_eq_take_drop_succ, List.eraseIdx_eq_take_drop_succ, List.take_set_of_le (by omega),
          List.drop_set_of_lt (by omega)]
      simp only [List.length_set]
      by_cases hlast : j + 1 < b.links.length
      · rw [if_pos hlast]
        have hdrop : (b.links.eraseIdx j).drop j = b.links.drop (j + 1) := by
          rw [List.eraseIdx_eq_take_drop_succ, List.drop_append, List.length_take]
          have h1 : min j b.links.length = j := by omega
          rw [h1, List.drop_of_length_le (by rw [List.length_take]; omega), Nat.sub_self]
          simp
        have hget : (b.links.eraseIdx j)[j]? = some (b.links[j + 1]) := by
          have := congrArg (fun l => l[0]?) hdrop
          simp only [List.getElem?_drop, Nat.add_zero] at this
          rw [this, List.getElem?_eq_getElem hlast]
        have hcap : (b.links[j + 1]).cap = linkedBucketLen :=
          w.link_cap _ (List.getElem_mem hlast)
        rw [remaining_of (p := ⟨j + 1, linkedBucketLen⟩) (x := b.links[j + 1])
          (by simp only [Bucket.blocks, List.getElem?_cons_succ, hel]; exact hget)
          (show linkedBucketLen ≠ usizeMax by decide)]
        have hns : nextSlot (b.links[j + 1]) linkedBucketLen = 0 := by simp [nextSlot, hcap]
        rw [hns, entriesFrom_zero]
        simp only [Bucket.blocks, List.drop_succ_cons, hel]
        have hd2 : (b.links.eraseIdx j).drop (j + 1) = b.links.drop (j + 1 + 1) := by
          have h1 : (b.links.eraseIdx j).drop (j + 1) = ((b.links.eraseIdx j).drop j).drop 1 := by
            rw [List.drop_drop]
          rw [h1, hdrop, List.drop_drop]
        rw [hd2, List.drop_eq_getElem_cons hlast, List.flatMap_cons]
      · rw [if_neg hlast]
        have h1 : remaining t ({ b with len := b.len - 1, links := (b.links.set j (x.clearSlot i)).eraseIdx j } : Bucket K V)
            ⟨0, usizeMax⟩ = [] := by simp [remaining]
        rw [h1]
        simp only [Bucket.blocks, List.drop_succ_cons]
        rw [List.drop_of_length_le (by omega)]; rfl
    · cases h
      have hx' : ({ b with len := b.len - 1, links := b.links.set j (x.clearSlot i) } :
          Bucket K V).blocks[j + 1]? = some (x.clearSlot i) := by
        simp [Bucket.blocks, hjl]
      rw [remaining_of (p := ⟨j + 1, i⟩) hx' hne, nextSlot_pointed (by exact hi), hfrom]
      simp only [Bucket.blocks, List.drop_succ_cons]
      rw [List.drop_set_of_lt (by omega)]

theorem markRemoved_slotVal {x : Block K V} {i j ep : Nat} (h : j ≠ i) :
    slotVal t (x.markRemoved i ep) j = slotVal t x j := by
  have hv : ((x.markRemoved i ep).visible t).getLsbD j = (x.visible t).getLsbD j := by
    apply visible_congr
    · rfl
    · show (x.removed ||| bit i).getLsbD j = _
      rw [getLsbD_set]; simp [h]
  unfold slotVal
  rw [hv]; rfl

theorem markRemoved_remaining {b : Bucket K V} (w : Wf t hash b) {p : Ptr} {e : K × V} (ep : Nat)
    (hp : PointsTo t b p e) : remaining t (b.markRemoved p ep) p = remaining t b p := by
  obtain ⟨x, hx, hv, hd⟩ := hp
  have hbw := w.blocks x (List.mem_of_getElem? hx)
  have hi : p.idx < x.cap := hbw.hi _ (visible_occ hv)
  have hjl : p.blk < b.blocks.length := (List.getElem?_eq_some_iff.1 hx).1
  have hne : p.idx ≠ usizeMax := by
    have := hbw.cap_le
    have : usizeMax = 2 ^ 64 - 1 := rfl
    omega
  have hb : (b.markRemoved p ep).blocks = b.blocks.set p.blk (x.markRemoved p.idx ep) := by
    unfold Bucket.markRemoved
    rw [hx]
    exact blocks_setBlock b p.blk _
  rw [remaining_of hx hne, nextSlot_pointed hi,
    remaining_of (x := x.markRemoved p.idx ep) (by rw [hb]; simp [hjl]) hne,
    nextSlot_pointed (by exact hi), hb, List.drop_set_of_lt (by omega)]
  congr 1
  exact entriesFrom_congr rfl fun k hk => markRemoved_slotVal (by omega)

end Cursor

end Scc.Bucket
