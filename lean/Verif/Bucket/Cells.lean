import Verif.Bucket.OpsProof

/-!
# The cells of a bucket

A cell is a slot that holds a pair, visible or not: for `INDEX`, a slot whose removed bit is set is no
longer an entry, but its pair stays in memory until it is reclaimed. The theorems say what every bucket
operation does to the multiset of pairs held in cells.
-/

set_option linter.unusedSectionVars false
set_option linter.unusedSimpArgs false

namespace Scc.Bucket

variable {K V : Type}

/-- The pairs a block holds in memory. -/
def Block.cells (x : Block K V) : List (K × V) := (List.range x.cap).filterMap x.data

/-- The pairs a bucket holds in memory. -/
def Bucket.cells (b : Bucket K V) : List (K × V) := b.blocks.flatMap Block.cells

/-- The pairs `drop_unreachable_entries` drops from one block
(/repo/src/hash_table/bucket.rs 498-534). -/
def Block.reclaimed (recent : Nat → Bool) (x : Block K V) : List (K × V) :=
  (List.range x.cap).filterMap fun i => if (x.droppedBits recent).getLsbD i then x.data i else none

/-- The pairs `insert` reclaims before it writes the new entry
(/repo/src/hash_table/bucket.rs 150-157, 463-495). -/
def Bucket.reclaimed (t : Kind) (recent : Nat → Bool) (b : Bucket K V) : List (K × V) :=
  if t = .index ∧ b.main.occ = BitVec.allOnes 32 ∧ b.main.removed ≠ 0#32 then
    b.blocks.flatMap (Block.reclaimed recent)
  else []

section
variable {t : Kind} {hash : K → Nat} {b : Bucket K V}

theorem Block.cells_of_kind (ht : t ≠ .index) {x : Block K V} (w : BlockWf t hash x) :
    x.cells = x.entries t := by
  unfold Block.cells Block.entries
  apply filterMap_range_congr
  intro j _
  unfold slotVal
  have hv : (x.visible t).getLsbD j = x.occ.getLsbD j := by
    apply bool_eq_of_iff
    rw [visible_iff]
    exact ⟨fun h => h.1, fun h => ⟨h, fun h' => absurd h' ht⟩⟩
  rw [hv]
  cases ho : x.occ.getLsbD j with
  | true => rfl
  | false => simp [w.uninit j ho]

theorem flatMap_congr_mem {α β : Type} {l : List α} {f g : α → List β} (h : ∀ x ∈ l, f x = g x) :
    l.flatMap f = l.flatMap g := by
  induction l with
  | nil => rfl
  | cons x xs ih =>
    rw [List.flatMap_cons, List.flatMap_cons, h x (by simp), ih fun y hy => h y (by simp [hy])]

/-- Without a removed bitmap the cells are the entries. -/
theorem cells_of_kind (ht : t ≠ .index) (w : Wf t hash b) : b.cells = b.entries t :=
  flatMap_congr_mem fun x hx => Block.cells_of_kind ht (w.blocks x hx)

theorem Block.entries_sub_cells {x : Block K V} :
    (Block.entries t x).Sublist x.cells := by
  unfold Block.entries Block.cells
  induction List.range x.cap with
  | nil => exact List.Sublist.slnil
  | cons i l ih =>
    rw [List.filterMap_cons, List.filterMap_cons]
    cases hs : slotVal t x i with
    | none =>
      simp only
      cases hd : x.data i with
      | none => exact ih
      | some e => exact ih.cons _
    | some e =>
      rw [(slotVal_eq_some.1 hs).2]
      exact ih.cons_cons _

theorem empty_block_cells (c : Nat) : (Block.empty c : Block K V).cells = [] := by
  unfold Block.cells Block.empty
  simp

theorem empty_cells : (Bucket.empty : Bucket K V).cells = [] := by
  unfold Bucket.cells Bucket.empty Bucket.blocks
  simp [empty_block_cells]

theorem cells_split {j : Nat} {x : Block K V} (h : b.blocks[j]? = some x) :
    b.cells = (b.blocks.take j).flatMap Block.cells ++
      (x.cells ++ (b.blocks.drop (j + 1)).flatMap Block.cells) := by
  unfold Bucket.cells
  conv => lhs; rw [split_at h]
  simp

theorem set_cells {b' : Bucket K V} {j : Nat} {x' : Block K V}
    (hj : j < b.blocks.length) (hb : b'.blocks = b.blocks.set j x') :
    b'.cells = (b.blocks.take j).flatMap Block.cells ++
      (x'.cells ++ (b.blocks.drop (j + 1)).flatMap Block.cells) := by
  unfold Bucket.cells
  rw [hb, set_split hj]
  simp

theorem insertEntry_cells {x : Block K V} {i h : Nat} {e : K × V} (w : BlockWf t hash x)
    (hi : i < x.cap) (hf : x.occ.getLsbD i = false) :
    (x.insertEntry i h e).cells.Perm (e :: x.cells) := by
  unfold Block.cells
  apply filterMap_range_set (i := i) hi (w.uninit i hf)
  · simp [Block.insertEntry]
  · intro j _ hj; simp [Block.insertEntry, hj]

theorem clearSlot_cells {x : Block K V} {i : Nat} {e : K × V} (hi : i < x.cap)
    (hd : x.data i = some e) : x.cells.Perm (e :: (x.clearSlot i).cells) := by
  unfold Block.cells
  apply filterMap_range_set (i := i) hi
  · simp [Block.clearSlot]
  · exact hd
  · intro j _ hj; simp [Block.clearSlot, hj]

theorem dropUnreachable_cells (recent : Nat → Bool) (x : Block K V) :
    (x.reclaimed recent ++ (x.dropUnreachable recent).cells).Perm x.cells := by
  unfold Block.reclaimed Block.cells
  show ((List.range x.cap).filterMap _ ++ (List.range x.cap).filterMap _).Perm _
  induction List.range x.cap with
  | nil => exact List.Perm.nil
  | cons i l ih =>
    simp only [List.filterMap_cons]
    have hd : (x.dropUnreachable recent).data i =
        if (x.droppedBits recent).getLsbD i then none else x.data i := rfl
    rw [hd]
    cases (x.droppedBits recent).getLsbD i with
    | true =>
      simp only [if_pos]
      cases x.data i with
      | none => exact ih
      | some e => simpa using ih
    | false =>
      simp only [Bool.false_eq_true, if_false]
      cases x.data i with
      | none => exact ih
      | some e => exact List.perm_middle.trans (ih.cons e)

theorem perm_interleave {α : Type} {a b c d e f : List α} (h1 : (a ++ b).Perm e) (h2 : (c ++ d).Perm f) :
    ((a ++ c) ++ (b ++ d)).Perm (e ++ f) := by
  have h3 : ((a ++ c) ++ (b ++ d)).Perm ((a ++ b) ++ (c ++ d)) := by
    rw [List.append_assoc, List.append_assoc]
    apply List.Perm.append_left
    rw [← List.append_assoc, ← List.append_assoc]
    exact List.perm_append_comm.append_right d
  exact h3.trans (h1.append h2)

theorem clearLinks_cells {l : List (Block K V)} (hw : ∀ x ∈ l, BlockWf .index hash x)
    (recent : Nat → Bool) :
    (l.flatMap (Block.reclaimed recent) ++ (clearLinks recent l).flatMap Block.cells).Perm
      (l.flatMap Block.cells) := by
  induction l with
  | nil => exact List.Perm.nil
  | cons x xs ih =>
    have ih := ih fun y hy => hw y (by simp [hy])
    have hd := dropUnreachable_cells recent x
    have h := perm_interleave hd ih
    rw [List.flatMap_cons, List.flatMap_cons]
    unfold clearLinks
    simp only
    split
    · rename_i hc
      rw [Bool.and_eq_true, List.isEmpty_iff, beq_iff_eq] at hc
      obtain ⟨hr, ho⟩ := hc
      have w := (dropUnreachable_wf (hw x (by simp)) recent).1
      have hx : (x.dropUnreachable recent).cells = [] := by
        unfold Block.cells
        apply List.eq_nil_iff_forall_not_mem.2
        intro e he
        obtain ⟨i, _, hi⟩ := List.mem_filterMap.1 he
        rw [w.uninit i (by rw [ho]; simp)] at hi
        cases hi
      rw [hr, hx] at h
      simpa using h
    · simpa using h

theorem clearUnreachable_cells (w : Wf .index hash b) (recent : Nat → Bool) :
    (b.blocks.flatMap (Block.reclaimed recent) ++ (b.clearUnreachable recent).cells).Perm b.cells := by
  unfold Bucket.cells Bucket.blocks Bucket.clearUnreachable
  rw [List.flatMap_cons, List.flatMap_cons, List.flatMap_cons]
  exact perm_interleave (dropUnreachable_cells recent b.main)
    (clearLinks_cells (fun x hx => w.blocks x (by simp [Bucket.blocks, hx])) recent)

theorem insert_block_cells (w : Wf t hash b) {j i h : Nat} {x : Block K V} {e : K × V}
    (hx : b.blocks[j]? = some x) (hi : i < x.cap) (hf : x.occ.getLsbD i = false)
    {b' : Bucket K V} (hb : b'.blocks = b.blocks.set j (x.insertEntry i h e)) :
    b'.cells.Perm (e :: b.cells) := by
  have hjl : j < b.blocks.length := (List.getElem?_eq_some_iff.1 hx).1
  rw [set_cells hjl hb, cells_split hx]
  exact perm_mid (insertEntry_cells (w.blocks x (List.mem_of_getElem? hx)) hi hf)

theorem insertOverflow_cells (w : Wf t hash b) (h : Nat) (e : K × V) :
    (b.insertOverflow h e).1.cells.Perm (e :: b.cells) := by
  unfold Bucket.insertOverflow
  cases hff : findFree b.links 0 with
  | some ji =>
    obtain ⟨j, i⟩ := ji
    obtain ⟨_, x, hx, hi, hne⟩ := findFree_some hff
    simp only [Nat.sub_zero] at hx
    simp only [hx]
    have hm : x ∈ b.links := List.mem_of_getElem? hx
    have hbw := w.blocks x (by simp [Bucket.blocks, hm])
    subst hi
    obtain ⟨h1, h2⟩ := link_free hbw (w.link_cap x hm) hne
    exact insert_block_cells w (j := j + 1) (by simpa [Bucket.blocks] using hx) h1 h2 rfl
  | none =>
    simp only
    have he := empty_block_wf (K := K) (V := V) t hash (c := linkedBucketLen) (by decide)
    have hp := insertEntry_cells (i := 0) (h := h) (e := e) he
      (show 0 < linkedBucketLen by decide) (by simp [Block.empty])
    rw [empty_block_cells] at hp
    unfold Bucket.cells Bucket.blocks
    simp only [List.flatMap_cons]
    exact perm_mid (m := []) hp

/-- `insert` adds one cell; what it takes out of memory is exactly what it reclaims. -/
theorem insert_cells (w : Wf t hash b) (recent : Nat → Bool) (h : Nat) (e : K × V) :
    (b.reclaimed t recent ++ (b.insert t recent h e).1.cells).Perm (e :: b.cells) := by
  have key : ∀ b' : Bucket K V, Wf t hash b' →
      let r := if to b'.main.occ = bucketLen then b'.insertOverflow h e
        else ({ b' with len := b'.len + 1, main := b'.main.insertEntry (to b'.main.occ) h e },
          ⟨0, to b'.main.occ⟩)
      r.1.cells.Perm (e :: b'.cells) := by
    intro b' w'
    simp only
    split
    · exact insertOverflow_cells w' h e
    · rename_i hne
      obtain ⟨h1, h2⟩ := main_free w'.main_cap hne
      exact insert_block_cells w' (j := 0) (by simp [Bucket.blocks]) h1 h2 rfl
  unfold Bucket.insert Bucket.reclaimed
  simp only
  by_cases hc : t = .index ∧ b.main.occ = BitVec.allOnes 32 ∧ b.main.removed ≠ 0#32
  · rw [if_pos hc, if_pos hc]
    obtain ⟨ht, _⟩ := hc
    subst ht
    refine ((key _ (clearUnreachable_ok w recent).1).append_left _).trans ?_
    exact List.perm_middle.trans ((clearUnreachable_cells w recent).cons e)
  · rw [if_neg hc, if_neg hc]
    exact key b w

/-- `remove` moves exactly the pair under the cursor out of memory. -/
theorem remove_cells (w : Wf t hash b) {p p' : Ptr} {e : K × V} {b' : Bucket K V}
    {r : Option (K × V)} (h : PointsTo t b p e) (hr : b.remove t p = some (b', r, p')) :
    b.cells.Perm (e :: b'.cells) := by
  obtain ⟨j, i⟩ := p
  obtain ⟨x, hx, hv, hd⟩ := h
  simp only at hx hv hd
  have hbw := w.blocks x (List.mem_of_getElem? hx)
  have hjl : j < b.blocks.length := (List.getElem?_eq_some_iff.1 hx).1
  have hc := clearSlot_cells (hbw.hi i (visible_occ hv)) hd
  have key : ∀ b' : Bucket K V, b'.blocks = b.blocks.set j (x.clearSlot i) →
      b.cells.Perm (e :: b'.cells) := by
    intro b' hb
    rw [cells_split hx, set_cells hjl hb]
    exact perm_mid hc
  cases j with
  | zero =>
    simp [Bucket.blocks] at hx; subst hx
    simp only [Bucket.remove] at hr
    cases hr
    exact key _ rfl
  | succ j =>
    have hx' : b.links[j]? = some x := by simpa [Bucket.blocks] using hx
    have k1 := key { b with len := b.len - 1, links := b.links.set j (x.clearSlot i) } rfl
    simp only [Bucket.remove, hx', Bucket.unlink] at hr
    split at hr
    · rename_i hc0
      cases hr
      have w1 := (clearSlot_wf hbw hv hd).1
      have he0 : (x.clearSlot i).cells = [] := by
        unfold Block.cells
        apply List.eq_nil_iff_forall_not_mem.2
        intro e' he
        obtain ⟨k, _, hk⟩ := List.mem_filterMap.1 he
        rw [w1.uninit k (by rw [hc0.1]; simp)] at hk
        cases hk
      have hjl' : j < b.links.length := (List.getElem?_eq_some_iff.1 hx').1
      have hent : Bucket.cells { b with
            len := b.len - 1, links := (b.links.set j (x.clearSlot i)).eraseIdx j } =
          Bucket.cells { b with len := b.len - 1, links := b.links.set j (x.clearSlot i) } := by
        unfold Bucket.cells Bucket.blocks
        simp only [List.flatMap_cons]
        congr 1
        rw [List.eraseIdx_eq_take_drop_succ, List.take_set_of_le (by omega),
          List.drop_set_of_lt (by omega), set_split hjl']
        simp [he0]
      rw [hent]; exact k1
    · cases hr
      exact k1

/-- `mark_removed` keeps every pair in memory. -/
theorem markRemoved_cells (b : Bucket K V) (p : Ptr) (epoch : Nat) :
    (b.markRemoved p epoch).cells = b.cells := by
  unfold Bucket.markRemoved
  cases hx : b.blocks[p.blk]? with
  | none => rfl
  | some x =>
    have hjl : p.blk < b.blocks.length := (List.getElem?_eq_some_iff.1 hx).1
    rw [cells_split hx, set_cells (x' := x.markRemoved p.idx epoch) hjl
      (by exact blocks_setBlock b p.blk _)]
    rfl

/-- Writing through the cursor exchanges one pair. -/
theorem setVal_cells (w : Wf t hash b) {p : Ptr} {e : K × V} (v : V) (h : PointsTo t b p e) :
    ∃ l r, b.cells = l ++ e :: r ∧ (b.setVal p v).cells = l ++ (e.1, v) :: r := by
  obtain ⟨x, hx, hv, hd⟩ := h
  have hjl : p.blk < b.blocks.length := (List.getElem?_eq_some_iff.1 hx).1
  have hi := (w.blocks x (List.mem_of_getElem? hx)).hi _ (visible_occ hv)
  obtain ⟨l, r, h1, h2⟩ := filterMap_range_replace (f := x.data)
    (g := fun j => if j = p.idx then (x.data j).map (fun e => (e.1, v)) else x.data j) hi hd
    (e' := (e.1, v)) (by simp [hd]) (fun j _ hj => by simp [hj])
  have hb : (b.setVal p v).blocks = b.blocks.set p.blk
      { x with data := fun j => if j = p.idx then (x.data j).map (fun e => (e.1, v)) else x.data j } := by
    unfold Bucket.setVal
    rw [hx]
    exact blocks_setBlock b p.blk _
  refine ⟨(b.blocks.take p.blk).flatMap Block.cells ++ l,
    r ++ (b.blocks.drop (p.blk + 1)).flatMap Block.cells, ?_, ?_⟩
  · have h1' : x.cells = l ++ e :: r := h1
    rw [cells_split hx, h1']; simp
  · rw [set_cells hjl hb]
    have h2' : Block.cells { x with
        data := fun j => if j = p.idx then (x.data j).map (fun e => (e.1, v)) else x.data j } =
      l ++ (e.1, v) :: r := h2
    rw [h2']; simp

/-- `extract_from` moves exactly one pair from the source to the target. -/
theorem extractFrom_cells {src b' src' : Bucket K V} (wt : Wf t hash b) (ws : Wf t hash src)
    (recent : Nat → Bool) {h : Nat} {p : Ptr} {e : K × V} (hp : PointsTo t src p e)
    (hr : extractFrom t recent b h src p = some (b', src')) :
    (b.reclaimed t recent ++ b'.cells).Perm (e :: b.cells) ∧ src.cells.Perm (e :: src'.cells) := by
  obtain ⟨x, hx, hv, hd⟩ := hp
  have hjl : p.blk < src.blocks.length := (List.getElem?_eq_some_iff.1 hx).1
  have hi := (ws.blocks x (List.mem_of_getElem? hx)).hi _ (visible_occ hv)
  unfold extractFrom at hr
  rw [hx] at hr
  simp only [hd] at hr
  cases hr
  refine ⟨insert_cells wt recent h e, ?_⟩
  rw [cells_split hx, set_cells (x' := x.clearSlot p.idx) hjl (by exact blocks_setBlock src p.blk _)]
  exact perm_mid (clearSlot_cells hi hd)

/-- Extraction changes nothing about what the cursor over the source will visit next. -/
theorem extractFrom_remaining {src b' src' : Bucket K V} (w : Wf t hash src) (recent : Nat → Bool)
    {h : Nat} {p : Ptr} {e : K × V} (hp : PointsTo t src p e)
    (hr : extractFrom t recent b h src p = some (b', src')) :
    remaining t src' p = remaining t src p := by
  obtain ⟨x, hx, hv, hd⟩ := hp
  have hbw := w.blocks x (List.mem_of_getElem? hx)
  have hi : p.idx < x.cap := hbw.hi _ (visible_occ hv)
  have hjl : p.blk < src.blocks.length := (List.getElem?_eq_some_iff.1 hx).1
  have hne : p.idx ≠ usizeMax := by
    have := hbw.cap_le
    have : usizeMax = 2 ^ 64 - 1 := rfl
    omega
  unfold extractFrom at hr
  rw [hx] at hr
  simp only [hd] at hr
  cases hr
  have hb : ({ src.setBlock p.blk (x.clearSlot p.idx) with len := src.len - 1 } : Bucket K V).blocks =
      src.blocks.set p.blk (x.clearSlot p.idx) := blocks_setBlock src p.blk _
  rw [remaining_of hx hne, nextSlot_pointed hi,
    remaining_of (x := x.clearSlot p.idx) (by rw [hb]; simp [hjl]) hne,
    nextSlot_pointed (by exact hi), hb, List.drop_set_of_lt (by omega)]
  congr 1
  exact entriesFrom_congr rfl fun k hk => clearSlot_slotVal (by omega)

theorem reserveLinks_cells (additional fuel cap : Nat) (l : List (Block K V)) :
    (reserveLinks additional fuel cap l).flatMap Block.cells = l.flatMap Block.cells := by
  induction fuel generalizing cap l with
  | zero => unfold reserveLinks; rfl
  | succ fuel ih =>
    cases l with
    | nil => unfold reserveLinks; rfl
    | cons x xs =>
      unfold reserveLinks
      simp only
      split
      · rfl
      · cases xs with
        | nil =>
          simp only
          rw [List.flatMap_cons, ih]
          simp [empty_block_cells]
        | cons y ys =>
          simp only
          rw [List.flatMap_cons, ih, List.flatMap_cons (x := x)]

theorem reserveSlots_cells (b : Bucket K V) (additional : Nat) :
    (b.reserveSlots additional).cells = b.cells := by
  unfold Bucket.reserveSlots
  simp only
  split
  · unfold Bucket.cells Bucket.blocks
    rw [List.flatMap_cons, List.flatMap_cons, reserveLinks_cells]
  · rfl

/-- Dropping a bucket drops every pair it holds, each once. -/
theorem dropEntries_cells (w : Wf t hash b) : b.dropEntries.Perm b.cells := by
  have hx : ∀ x ∈ b.blocks, ((List.range 32).filterMap fun i =>
      if x.occ.getLsbD i then x.data i else none) = x.cells := by
    intro x hx
    have wx := w.blocks x hx
    unfold Block.cells
    obtain ⟨d, hd⟩ : ∃ d, 32 = x.cap + d := ⟨32 - x.cap, by have := wx.cap_le; omega⟩
    have hr : List.range 32 = List.range x.cap ++ List.map (x.cap + ·) (List.range d) := by
      rw [← List.range_add, ← hd]
    rw [hr, List.filterMap_append]
    have h2 : List.filterMap (fun i => if x.occ.getLsbD i then x.data i else none)
        (List.map (x.cap + ·) (List.range d)) = [] := by
      apply List.eq_nil_iff_forall_not_mem.2
      intro e he
      obtain ⟨i, hi, h⟩ := List.mem_filterMap.1 he
      obtain ⟨k, _, rfl⟩ := List.mem_map.1 hi
      split at h
      · rename_i ho; have := wx.hi _ ho; omega
      · cases h
    rw [h2, List.append_nil]
    apply filterMap_range_congr
    intro j _
    cases ho : x.occ.getLsbD j with
    | true => rfl
    | false => simp [wx.uninit j ho]
  unfold Bucket.dropEntries Bucket.cells Bucket.blocks
  rw [flatMap_congr_mem (g := Block.cells) (fun x h => hx x (by
    simp only [List.mem_append, List.mem_singleton] at h
    simp only [Bucket.blocks, List.mem_cons]
    exact h.symm))]
  rw [List.flatMap_append, List.flatMap_cons]
  simpa using List.perm_append_comm

end

end Scc.Bucket
