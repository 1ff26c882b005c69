import Verif.Seq.CacheProps

/-!
# A `HashCache` that does not shrink never needs overflow space (C26)
-/

set_option linter.unusedSectionVars false
set_option linter.unusedSimpArgs false
set_option linter.unusedVariables false

namespace Scc.Seq

open Scc.Index hiding bucketLen
open Scc.Bucket

variable {K V : Type}

/-! ## Relocation into empty targets -/

/-- Nothing in the current array uses overflow space, nor does anything in the part of the old array
that is still alive; the old array is not larger; and whatever is in the current array comes from a
killed bucket of the old one. -/
structure RoomPair (c : Cfg K) (a o : Arr K V) : Prop where
  cur : ∀ i, (a.bkt i).links = []
  old : ∀ i, o.dead i = false → (o.bkt i).links = []
  lg : o.lg ≤ a.lg
  sep : ∀ e ∈ a.entries c, o.dead (bucketIndex o.lg (c.hash e.1)) = true

section
variable [DecidableEq K] {c : Cfg K} {a o : Arr K V}

theorem extractFrom_links {t : Kind} (ht : t = .cache) {hash : K → Nat} {recent : Nat → Bool}
    {b src b' src' : Bucket K V} {h : Nat} {p : Ptr} (w : Wf t hash b) (hl : b.links = [])
    (room : (b.entries t).length < 32) (hr : extractFrom t recent b h src p = some (b', src')) :
    b'.links = [] := by
  subst ht
  have hne : b.main.occ ≠ BitVec.allOnes 32 := by
    intro h
    have := (full_iff w hl).2 h
    omega
  unfold extractFrom at hr
  split at hr
  · split at hr
    · cases hr
      exact ((insert_main recent h _ hne).1).trans hl
    · cases hr
  · cases hr

theorem moveLoop_room (hk : c.kind = .cache) (hc : c.Ok) (recent : Nat → Bool) (olg base fuel : Nat)
    (a : Arr K V) (src : Bucket K V) (p : Ptr) (hs : List Nat) (wa : ArrWf c a)
    (ws : Wf c.kind c.hash src)
    (hbase : olg ≥ a.lg → ∀ e ∈ remaining c.kind src p, bucketIndex a.lg (c.hash e.1) = base)
    (hhs : olg < a.lg → ∃ r, hs ++ r = (remaining c.kind src p).map fun e => c.hash e.1)
    (hl : ∀ i, (a.bkt i).links = [])
    (room : ∀ e ∈ remaining c.kind src p,
      ((a.bkt (bucketIndex a.lg (c.hash e.1))).entries c.kind).length +
        (remaining c.kind src p).length ≤ 32)
    {a' : Arr K V} {src' : Bucket K V} {g : List (K × V)}
    (h : moveLoop c recent olg base fuel a src p hs = some (a', src', g)) :
    ∀ i, (a'.bkt i).links = [] := by
  induction fuel generalizing a src p hs a' src' g with
  | zero => cases h
  | succ fuel ih =>
    unfold moveLoop at h
    rcases moveToNext_ok ws p with ⟨h1, h2, _⟩ | ⟨e, rest, h1, h2, h3, h4⟩
    · simp only [h2] at h
      cases h
      exact hl
    · simp only [h2, if_true, pointsTo_get h3] at h
      generalize hq : (src.moveToNext c.kind p).1 = q at *
      rw [h1] at hbase hhs room
      generalize hh : (if olg ≥ a.lg then phAt src q else hs.headD (c.hash e.1)) = h0 at h
      generalize hi : (if olg ≥ a.lg then base else bucketIndex a.lg h0) = i at h
      have hph : partialHash h0 = partialHash (c.hash e.1) := by
        rw [← hh]
        split
        · exact pointsTo_ph ws h3
        · rename_i hlt
          obtain ⟨r, hr⟩ := hhs (by omega)
          cases hs with
          | nil => rfl
          | cons x xs => simp at hr; simp [hr.1]
      have hidx : bucketIndex a.lg (c.hash e.1) = i := by
        rw [← hi]
        split
        · rename_i hge; exact hbase hge e (by simp)
        · rename_i hlt
          rw [← hh, if_neg hlt]
          obtain ⟨r, hr⟩ := hhs (by omega)
          cases hs with
          | nil => rfl
          | cons x xs => simp at hr; simp [hr.1]
      obtain ⟨b', src1, x1, x2, x3, x4, x5⟩ := extractFrom_ok (wa.wf i) ws recent h3 hph
      have y3 := extractFrom_remaining ws recent h3 x1
      rw [x1] at h
      simp only at h
      obtain ⟨r, h5, h6⟩ := Option.map_eq_some_iff.1 h
      obtain ⟨a2, src2, g2⟩ := r
      cases h6
      have hrem : remaining c.kind src1 q = rest := y3.trans h4
      have hroom : ((a.bkt i).entries c.kind).length + (rest.length + 1) ≤ 32 := by
        have := room e (by simp)
        rw [hidx] at this
        simpa using this
      have hb' : b'.links = [] := extractFrom_links hk (wa.wf i) (hl i) (by omega) x1
      have hlen : (b'.entries c.kind).length = ((a.bkt i).entries c.kind).length + 1 := by
        rw [x4.length_eq]; rfl
      refine ih (a.set i b') src1 q hs.tail
        (set_arrWf wa x2 (by
          intro e' he'
          rcases List.mem_cons.1 (x4.mem_iff.1 he') with h | h
          · subst h; exact hidx
          · exact wa.placed i e' h)) x3 ?_ ?_ ?_ ?_ h5
      · rw [hrem]; intro hge e' he'; exact hbase hge e' (by simp [he'])
      · rw [hrem]
        intro hlt
        obtain ⟨r, hr⟩ := hhs hlt
        cases hs with
        | nil => exact ⟨rest.map fun e => c.hash e.1, rfl⟩
        | cons x xs => simp at hr; exact ⟨r, hr.2⟩
      · intro i'
        rw [set_bkt]
        split
        · exact hb'
        · exact hl i'
      · rw [hrem]
        intro e' he'
        show (((a.set i b').bkt (bucketIndex a.lg (c.hash e'.1))).entries c.kind).length + _ ≤ 32
        rw [set_bkt]
        split
        · omega
        · have := room e' (by simp [he'])
          simp at this
          omega

/-- The finer index determines the coarser one. -/
theorem index_coarser {x y : Nat} (hxy : x ≤ y) (hy : y ≤ 57) {h h' : Nat}
    (he : bucketIndex y h = bucketIndex y h') : bucketIndex x h = bucketIndex x h' := by
  have h1 := c05_hash_in_range (a := y) (b := x) (hash := h) (by omega) (by omega)
  have h2 := c05_hash_in_range (a := y) (b := x) (hash := h') (by omega) (by omega)
  rw [he] at h1
  rw [range_shrink hxy] at h1 h2
  obtain ⟨h3, h4⟩ := h1
  obtain ⟨h5, h6⟩ := h2
  simp only at h3 h4 h5 h6
  omega

/-- Relocation keeps the arrays apart. -/
theorem sep_keep {a' o' : Arr K V} {g : List (K × V)} {S : Nat → Prop} (hk : c.kind = .cache)
    (r : RoomPair c a o) (wo : OldOk c o)
    (nd : ((a.entries c ++ o.entries c).map (·.1)).Nodup) (m : Moved c a o a' o' g S)
    (cr : Carried a o a' o') (hc : c.Ok) :
    ∀ e ∈ a'.entries c, o'.dead (bucketIndex o'.lg (c.hash e.1)) = true := by
  intro e he
  rw [m.oldLg]
  cases hd : o'.dead (bucketIndex o.lg (c.hash e.1)) with
  | true => rfl
  | false =>
    exfalso
    obtain ⟨k1, k2⟩ := cr.keep _ hd
    have hm : e ∈ a.entries c ++ o.entries c := m.entries.mem_iff.1 (List.mem_append_left _ he)
    rcases List.mem_append.1 hm with h | h
    · rw [r.sep e h] at k1; cases k1
    · obtain ⟨j, hj, hej⟩ := mem_arr_entries.1 h
      have hp := wo.wf.placed j e hej
      have he' : e ∈ o'.entries c := by
        refine mem_arr_entries.2 ⟨j, by rw [m.oldLg]; exact hj, ?_⟩
        rw [hp] at k2
        rw [k2]; exact hej
      have nd' := nodup_perm m.entries nd
      rw [List.map_append, List.nodup_append] at nd'
      exact nd'.2.2 e.1 (List.mem_map.2 ⟨e, he, rfl⟩) e.1 (List.mem_map.2 ⟨e, he', rfl⟩) rfl

theorem relocate_room (hk : c.kind = .cache) (hc : c.Ok) {recent : Nat → Bool} {a o a' o' : Arr K V}
    {j : Nat} {g : List (K × V)} (wa : ArrWf c a) (wo : OldOk c o) (hj : j < 2 ^ o.lg)
    (nd : ((a.entries c ++ o.entries c).map (·.1)).Nodup) (r : RoomPair c a o)
    (h : relocate c recent a o j = some (a', o', g)) : RoomPair c a' o' := by
  obtain ⟨a2, o2, g2, h2, m⟩ := relocate_ok hc recent wa wo hj
  rw [h] at h2
  cases h2
  have cr := relocate_carried hk wa wo hc hj h
  refine ⟨?_, ?_, by rw [m.oldLg, m.curLg]; exact r.lg, sep_keep hk r wo nd m cr hc⟩
  · unfold relocate at h
    split at h
    · cases h; exact r.cur
    · rename_i hd
      have hd' : o.dead j = false := by simpa using hd
      have ws := wo.wf.wf j
      have hll := r.old j hd'
      have hlen32 : ((o.bkt j).entries c.kind).length ≤ 32 := by
        rw [hk] at ws ⊢; exact len_le ws hll
      split at h
      · cases h; exact r.cur
      · simp only at h
        split at h
        · rename_i hbig
          exfalso
          have h1 := r.lg
          have h2 := ws.len
          have h32 : Bucket.bucketLen = 32 := rfl
          omega
        · obtain ⟨q, h1, h2⟩ := Option.map_eq_some_iff.1 h
          obtain ⟨qa, qs, qg⟩ := q
          cases h2
          have hrem : remaining c.kind (o.bkt j) Ptr.null = (o.bkt j).entries c.kind := remaining_null ws
          refine moveLoop_room hk hc recent o.lg _ _ a (o.bkt j) Ptr.null [] wa ws ?_ (fun _ => ⟨_, rfl⟩)
            r.cur ?_ h1
          · intro hge e he
            rw [hrem] at he
            have h1 := wo.wf.placed j e he
            have h2 := c05_hash_in_range (a := o.lg) (b := a.lg) (hash := c.hash e.1)
              (by have := wo.wf.lg_le; omega) (by have := wa.lg_le; omega)
            rw [h1] at h2
            rw [range_shrink hge] at h2 ⊢
            obtain ⟨h3, h4⟩ := h2
            simp only at h3 h4 ⊢
            omega
          · intro e he
            rw [hrem] at he ⊢
            have hemp : (a.bkt (bucketIndex a.lg (c.hash e.1))).entries c.kind = [] := by
              apply List.eq_nil_iff_forall_not_mem.2
              intro e' he'
              have hp := wa.placed _ e' he'
              have hlt : bucketIndex a.lg (c.hash e.1) < 2 ^ a.lg :=
                bucketIndex_lt (by have := wa.lg_le; omega) (hc e.1)
              have hs := r.sep e' (mem_arr_entries.2 ⟨_, hlt, he'⟩)
              rw [index_coarser r.lg wa.lg_le hp, wo.wf.placed j e he, hd'] at hs
              cases hs
            rw [hemp]
            simp only [List.length_nil]
            omega
  · intro i hi
    obtain ⟨k1, k2⟩ := cr.keep i hi
    rw [k2]; exact r.old i k1

theorem relocateRange_room (hk : c.kind = .cache) (hc : c.Ok) {recent : Nat → Bool} {n lo : Nat}
    {a o a' o' : Arr K V} {g : List (K × V)} (wa : ArrWf c a) (wo : OldOk c o) (hn : lo + n ≤ 2 ^ o.lg)
    (nd : ((a.entries c ++ o.entries c).map (·.1)).Nodup) (r : RoomPair c a o)
    (h : relocateRange c recent n lo a o = some (a', o', g)) : RoomPair c a' o' := by
  induction n generalizing lo a o g with
  | zero => cases h; exact r
  | succ n ih =>
    obtain ⟨a1, o1, g1, h1, m1⟩ := relocate_ok hc recent wa wo (j := lo) (by omega)
    unfold relocateRange at h
    rw [h1] at h
    simp only at h
    obtain ⟨q, h2, h3⟩ := Option.map_eq_some_iff.1 h
    cases h3
    exact ih m1.curWf m1.oldOk (by rw [m1.oldLg]; omega) (nodup_perm m1.entries nd)
      (relocate_room hk hc wa wo (by omega) nd r h1) h2

/-! ## Both arrays -/

/-- The same for a table with or without an old array. -/
structure Room (c : Cfg K) (w : Two K V) : Prop where
  cur : ∀ i, (w.cur.bkt i).links = []
  old : ∀ o, w.old = some o → RoomPair c w.cur o

theorem incrementalRehash_room (hk : c.kind = .cache) (hc : c.Ok) {recent : Nat → Bool} {w w' : Two K V}
    {g : List (K × V)} (ok : w.Ok c) (nd : ((w.entries c).map (·.1)).Nodup) (r : Room c w)
    (h : incrementalRehash c recent w = some (w', g)) : Room c w' := by
  unfold incrementalRehash at h
  split at h
  · cases h; exact r
  · rename_i o ho
    split at h
    · cases h; exact r
    · split at h
      · cases h
      · rename_i a1 o1 g1 hr
        have nd' : ((w.cur.entries c ++ o.entries c).map (·.1)).Nodup := by
          unfold Two.entries at nd; rw [ho] at nd; exact nd
        have cr := relocateRange_room hk hc ok.cur.wf (ok.old o ho) (by omega) nd' (r.old o ho) hr
        simp only at h
        split at h
        · cases h
          exact ⟨cr.cur, fun _ h => by cases h⟩
        · cases h
          exact ⟨cr.cur, fun _ h => by cases h; exact ⟨cr.cur, cr.old, cr.lg, cr.sep⟩⟩

theorem dedup_room (hk : c.kind = .cache) (hc : c.Ok) {recent : Nat → Bool} {w w' : Two K V} {i : Nat}
    {g : List (K × V)} (ok : w.Ok c) (hi : i < 2 ^ w.cur.lg) (nd : ((w.entries c).map (·.1)).Nodup)
    (r : Room c w) (h : dedup c recent w i = some (w', g)) : Room c w' := by
  unfold dedup at h
  split at h
  · cases h; exact r
  · rename_i o ho
    simp only at h
    obtain ⟨q, h1, h2⟩ := Option.map_eq_some_iff.1 h
    cases h2
    have hb := c05_range_bounds (a := w.cur.lg) (b := o.lg) hi
    have nd' : ((w.cur.entries c ++ o.entries c).map (·.1)).Nodup := by
      unfold Two.entries at nd; rw [ho] at nd; exact nd
    have cr := relocateRange_room hk hc ok.cur.wf (ok.old o ho) (by omega) nd' (r.old o ho) h1
    exact ⟨cr.cur, fun _ h => by cases h; exact cr⟩

theorem prepare_room (hk : c.kind = .cache) (hc : c.Ok) {recent : Nat → Bool} {T T' : Tbl K V}
    {w w' : Two K V} (ok : T.Ok c) (hw : T.arr = some w) {i : Nat} (hi : i < 2 ^ w.cur.lg)
    (r : Room c w) (h : prepare c recent T i = some T') (hw' : T'.arr = some w') : Room c w' := by
  unfold prepare at h
  rw [hw] at h
  simp only at h
  obtain ⟨w1, g1, h1, ok1, l1, e1, _⟩ := incrementalRehash_ok hc recent w (ok.two w hw)
  rw [h1] at h
  simp only at h
  obtain ⟨q, h2, h3⟩ := Option.map_eq_some_iff.1 h
  cases h3
  cases hw'
  have nd : ((w.entries c).map (·.1)).Nodup := by
    have := ok.nodup
    unfold Tbl.entries at this; rw [hw] at this; exact this
  exact dedup_room hk hc ok1 (by rw [l1]; exact hi) (nodup_perm e1 nd)
    (incrementalRehash_room hk hc (ok.two w hw) nd r h1) h2

/-! ## Counting -/

theorem length_le_of_classes {α : Type} (g : α → Nat) (n : Nat) (l : List α) (hb : ∀ x ∈ l, g x < n)
    (hl : ∀ i, i < n → (l.filter fun x => g x == i).length ≤ 32) : l.length ≤ 32 * n := by
  induction n generalizing l with
  | zero =>
    cases l with
    | nil => simp
    | cons x xs => have := hb x (by simp); omega
  | succ n ih =>
    have h1 := (List.filter_append_perm (fun x => g x == n) l).length_eq
    rw [List.length_append] at h1
    have h2 := hl n (by omega)
    have h3 := ih (l.filter fun x => !(g x == n)) (by
      intro x hx
      obtain ⟨m1, m2⟩ := List.mem_filter.1 hx
      have := hb x m1
      simp at m2
      omega) (by
      intro i hi
      refine Nat.le_trans ?_ (hl i (by omega))
      rw [List.filter_filter]
      rw [← List.countP_eq_length_filter, ← List.countP_eq_length_filter]
      apply List.countP_mono_left
      intro x _ hx
      simp at hx ⊢
      exact hx.1)
    omega

/-- At most 32 entries of the table belong to one bucket of the current array. -/
theorem room_class (hk : c.kind = .cache) (hc : c.Ok) {w : Two K V} (ok : w.Ok c) (r : Room c w)
    {i : Nat} (hi : i < 2 ^ w.cur.lg) :
    ((w.entries c).filter fun e => bucketIndex w.cur.lg (c.hash e.1) == i).length ≤ 32 := by
  have hcur : (w.cur.entries c).filter (fun e => bucketIndex w.cur.lg (c.hash e.1) == i) |>.Perm
      ((w.cur.bkt i).entries c.kind) := by
    have h1 := (entries_at (c := c) hi).filter fun e => bucketIndex w.cur.lg (c.hash e.1) == i
    refine h1.trans ?_
    rw [List.filter_append]
    have h2 : (w.cur.restE c i).filter (fun e => bucketIndex w.cur.lg (c.hash e.1) == i) = [] := by
      rw [List.filter_eq_nil_iff]
      intro e he
      have := restE_key ok.cur.wf he
      simpa using this
    have h3 : ((w.cur.bkt i).entries c.kind).filter
        (fun e => bucketIndex w.cur.lg (c.hash e.1) == i) = (w.cur.bkt i).entries c.kind := by
      rw [List.filter_eq_self]
      intro e he
      simpa using ok.cur.wf.placed i e he
    rw [h2, h3, List.append_nil]
  have hc32 : ((w.cur.bkt i).entries c.kind).length ≤ 32 := by
    have ws := ok.cur.wf.wf i
    rw [hk] at ws ⊢; exact len_le ws (r.cur i)
  unfold Two.entries
  rw [List.filter_append, List.length_append, hcur.length_eq]
  cases ho : w.old with
  | none => simpa using hc32
  | some o =>
    simp only
    have wo := ok.old o ho
    have rp := r.old o ho
    -- the source of bucket `i`
    by_cases hex : ∃ e ∈ o.entries c, bucketIndex w.cur.lg (c.hash e.1) = i
    · obtain ⟨e0, he0, hi0⟩ := hex
      obtain ⟨j, hj, hej⟩ := mem_arr_entries.1 he0
      have hpj := wo.wf.placed j e0 hej
      have hal : o.dead j = false := by
        cases hd : o.dead j with
        | false => rfl
        | true => rw [wo.dead j hd] at hej; cases hej
      have hemp : (w.cur.bkt i).entries c.kind = [] := by
        apply List.eq_nil_iff_forall_not_mem.2
        intro e' he'
        have hp := ok.cur.wf.placed _ e' he'
        have hs := rp.sep e' (mem_arr_entries.2 ⟨_, hi, he'⟩)
        rw [index_coarser rp.lg ok.cur.wf.lg_le (hp.trans hi0.symm), hpj, hal] at hs
        cases hs
      rw [hemp, List.length_nil, Nat.zero_add]
      have h1 := (entries_at (c := c) hj).filter fun e => bucketIndex w.cur.lg (c.hash e.1) == i
      rw [h1.length_eq, List.filter_append]
      have h2 : (o.restE c j).filter (fun e => bucketIndex w.cur.lg (c.hash e.1) == i) = [] := by
        rw [List.filter_eq_nil_iff]
        intro e he hx
        have hne := restE_key wo.wf he
        apply hne
        rw [← hpj]
        refine index_coarser rp.lg ok.cur.wf.lg_le ?_
        rw [hi0]; simpa using hx
      rw [h2, List.append_nil]
      have ws := wo.wf.wf j
      refine Nat.le_trans (List.length_filter_le _ _) ?_
      rw [hk] at ws ⊢; exact len_le ws (rp.old j hal)
    · have : (o.entries c).filter (fun e => bucketIndex w.cur.lg (c.hash e.1) == i) = [] := by
        rw [List.filter_eq_nil_iff]
        intro e he hx
        exact hex ⟨e, he, by simpa using hx⟩
      rw [this]; simpa using hc32

theorem room_capacity (hk : c.kind = .cache) (hc : c.Ok) {T : Tbl K V} (ok : T.Ok c)
    (r : ∀ w, T.arr = some w → Room c w) : (T.entries c).length ≤ T.capacity := by
  unfold Tbl.entries Tbl.capacity
  cases hT : T.arr with
  | none => simp
  | some w =>
    simp only
    have okw := ok.two w hT
    have := length_le_of_classes (fun e => bucketIndex w.cur.lg (c.hash e.1)) (2 ^ w.cur.lg) (w.entries c)
      (fun e _ => bucketIndex_lt (by have := okw.cur.wf.lg_le; omega) (hc e.1))
      (fun i hi => room_class hk hc okw (r w hT) hi)
    unfold numSlots Index.bucketLen
    omega

end

end Scc.Seq
