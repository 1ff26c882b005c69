import Verif.Bucket.Ops

/-!
# Refinement lemmas for the locked-bucket operations
-/

namespace Scc.Bucket

variable {K V : Type}

/-- The bucket represents the map `m`. -/
structure Rep (t : Kind) (hash : K → Nat) (b : Bucket K V) (m : K → Option V) : Prop where
  wf : Wf t hash b
  nodup : ((b.entries t).map (·.1)).Nodup
  mem : ∀ k v, m k = some v ↔ (k, v) ∈ b.entries t

section
variable {t : Kind} {hash : K → Nat} {b b' : Bucket K V} {m : K → Option V}

theorem rep_empty : Rep t hash (Bucket.empty : Bucket K V) (fun _ => none) where
  wf := empty_wf t hash
  nodup := by simp [Bucket.entries, Bucket.blocks, Bucket.empty, empty_block_entries]
  mem := by simp [Bucket.entries, Bucket.blocks, Bucket.empty, empty_block_entries]

theorem Rep.none_iff (r : Rep t hash b m) (k : K) : m k = none ↔ ∀ e ∈ b.entries t, e.1 ≠ k := by
  constructor
  · rintro h ⟨k', v⟩ he rfl
    have := (r.mem k' v).2 he
    simp only at h
    rw [h] at this; exact nomatch this
  · intro h
    cases hm : m k with
    | none => rfl
    | some v => exact absurd rfl (h (k, v) ((r.mem k v).1 hm))

theorem pointsTo_get {p : Ptr} {e : K × V} (h : PointsTo t b p e) : b.get p = some e := by
  obtain ⟨x, hx, _, hd⟩ := h
  simp [Bucket.get, hx, hd]

variable [DecidableEq K]

theorem rep_insert (r : Rep t hash b m) {k : K} {v : V} (hk : m k = none) (w : Wf t hash b')
    (hp : (b'.entries t).Perm ((k, v) :: b.entries t)) : Rep t hash b' (Spec.set m k (some v)) := by
  refine ⟨w, ?_, ?_⟩
  · refine (hp.map (·.1)).nodup_iff.2 ?_
    simp only [List.map_cons, List.nodup_cons]
    refine ⟨?_, r.nodup⟩
    intro h
    obtain ⟨e, he, hek⟩ := List.mem_map.1 h
    exact (r.none_iff k).1 hk e he hek
  · intro k' v'
    rw [hp.mem_iff, List.mem_cons, ← r.mem]
    unfold Spec.set
    by_cases h : k' = k
    · subst h
      simp [hk]
      exact eq_comm
    · simp [h]

theorem rep_remove (r : Rep t hash b m) {k : K} {v : V} (w : Wf t hash b')
    (hp : (b.entries t).Perm ((k, v) :: b'.entries t)) : Rep t hash b' (Spec.set m k none) := by
  have hn := (hp.map (·.1)).nodup_iff.1 r.nodup
  simp only [List.map_cons, List.nodup_cons] at hn
  refine ⟨w, hn.2, ?_⟩
  intro k' v'
  unfold Spec.set
  by_cases h : k' = k
  · subst h
    simp only [if_pos]
    constructor
    · intro h; exact nomatch h
    · intro he
      exact absurd (List.mem_map.2 ⟨_, he, rfl⟩) hn.1
  · rw [if_neg h, r.mem, hp.mem_iff, List.mem_cons]
    simp [h]

theorem rep_perm (r : Rep t hash b m) {b' : Bucket K V} (w : Wf t hash b')
    (hp : (b'.entries t).Perm (b.entries t)) : Rep t hash b' m :=
  ⟨w, (hp.map (·.1)).nodup_iff.2 r.nodup, fun k v => by rw [r.mem, hp.mem_iff]⟩

theorem rep_replace (r : Rep t hash b m) {k : K} {v v' : V} {R : List (K × V)} (w : Wf t hash b')
    (hp : (b.entries t).Perm ((k, v) :: R)) (hp' : (b'.entries t).Perm ((k, v') :: R)) :
    Rep t hash b' (Spec.set m k (some v')) := by
  have hn := (hp.map (·.1)).nodup_iff.1 r.nodup
  refine ⟨w, (hp'.map (·.1)).nodup_iff.2 (by simpa using hn), ?_⟩
  simp only [List.map_cons, List.nodup_cons] at hn
  intro k' w'
  unfold Spec.set
  rw [hp'.mem_iff, List.mem_cons]
  by_cases h : k' = k
  · subst h
    have : (k', w') ∉ R := fun he => hn.1 (List.mem_map.2 ⟨_, he, rfl⟩)
    simp [this]
    exact eq_comm
  · rw [if_neg h, r.mem, hp.mem_iff, List.mem_cons]
    simp [h]

/-! ### The copying update of `HashIndex` -/

theorem insertEntry_other {x : Block K V} {i h j : Nat} {e : K × V} (hj : j ≠ i) :
    ((x.insertEntry i h e).visible t).getLsbD j = (x.visible t).getLsbD j ∧
      (x.insertEntry i h e).data j = x.data j := by
  refine ⟨visible_congr t ?_ rfl, by simp [Block.insertEntry, hj]⟩
  show (x.occ ||| bit i).getLsbD j = _
  rw [getLsbD_set]; simp [hj]

theorem set_pointsTo {j i h : Nat} {x : Block K V} {e e' : K × V} {p : Ptr}
    (hx : b.blocks[j]? = some x) (hf : x.occ.getLsbD i = false)
    (hb : b'.blocks = b.blocks.set j (x.insertEntry i h e)) (hp : PointsTo t b p e') :
    PointsTo t b' p e' := by
  obtain ⟨y, hy, hv, hd⟩ := hp
  by_cases hj : p.blk = j
  · rw [hj, hx] at hy
    cases hy
    have hi : p.idx ≠ i := by
      intro h; rw [h] at hv; rw [visible_occ hv] at hf; exact absurd hf (by simp)
    obtain ⟨a1, a2⟩ := insertEntry_other (t := t) (x := x) (i := i) (h := h) (e := e) hi
    refine ⟨x.insertEntry i h e, ?_, by rw [a1]; exact hv, by rw [a2]; exact hd⟩
    have hjl : j < b.blocks.length := (List.getElem?_eq_some_iff.1 hx).1
    rw [hb, hj]; simp [hjl]
  · refine ⟨y, ?_, hv, hd⟩
    rw [hb, List.getElem?_set_ne (by omega)]; exact hy

theorem insert_pointsTo (w : Wf t hash b) (recent : Nat → Bool) {h : Nat} {e e' : K × V} {p : Ptr}
    (hp : PointsTo t b p e') :
    PointsTo t (b.insert t recent h e).1 (rebase t recent b p) e' := by
  have key : ∀ c : Bucket K V, Wf t hash c → PointsTo t c p e' →
      PointsTo t (if to c.main.occ = bucketLen then c.insertOverflow h e
        else ({ c with len := c.len + 1, main := c.main.insertEntry (to c.main.occ) h e },
          ⟨0, to c.main.occ⟩)).1
        (if ((decide (to c.main.occ = bucketLen) && (findFree c.links 0).isNone) = true ∧ p.blk ≠ 0)
          then ⟨p.blk + 1, p.idx⟩ else p) e' := by
    intro c wc hpc
    by_cases hfull : to c.main.occ = bucketLen
    · rw [if_pos hfull]
      unfold Bucket.insertOverflow
      cases hff : findFree c.links 0 with
      | some ji =>
        obtain ⟨j, i⟩ := ji
        obtain ⟨_, x, hx, hi, hne⟩ := findFree_some hff
        simp only [Nat.sub_zero] at hx
        simp only [hx]
        have hm : x ∈ c.links := List.mem_of_getElem? hx
        subst hi
        obtain ⟨_, h2⟩ := link_free (wc.blocks x (by simp [Bucket.blocks, hm])) (wc.link_cap x hm) hne
        simp
        exact set_pointsTo (j := j + 1) (by simpa [Bucket.blocks] using hx) h2 rfl hpc
      | none =>
        simp only [hfull]
        obtain ⟨y, hy, hv, hd⟩ := hpc
        by_cases hb0 : p.blk = 0
        · simp [hb0]
          refine ⟨y, ?_, hv, hd⟩
          rw [hb0] at hy ⊢
          simpa [Bucket.blocks] using hy
        · simp [hb0]
          refine ⟨y, ?_, hv, hd⟩
          obtain ⟨n, hn⟩ := Nat.exists_eq_succ_of_ne_zero hb0
          rw [hn] at hy
          simp only [hn]
          simpa [Bucket.blocks] using hy
    · rw [if_neg hfull]
      obtain ⟨_, h2⟩ := main_free wc.main_cap hfull
      simp [hfull]
      exact set_pointsTo (b := c) (x := c.main) (j := 0) (by simp [Bucket.blocks]) h2 rfl hpc
  unfold Bucket.insert rebase pushesHead
  simp only
  by_cases hc : t = .index ∧ b.main.occ = BitVec.allOnes 32 ∧ b.main.removed ≠ 0#32
  · rw [if_pos hc]
    obtain ⟨ht, _⟩ := hc
    subst ht
    obtain ⟨w', _, hpt⟩ := clearUnreachable_ok w recent
    exact key _ w' (hpt p e' hp)
  · rw [if_neg hc]
    exact key b w hp

theorem indexUpdate_ok (w : Wf .index hash b) (env : Env) {p : Ptr} {k : K} {v v' : V}
    (hp : PointsTo .index b p (k, v)) :
    ∃ b' q, b.indexUpdate env p v' = some (b', q) ∧ Wf .index hash b' ∧
      ∃ R, (b.entries .index).Perm ((k, v) :: R) ∧ (b'.entries .index).Perm ((k, v') :: R) := by
  obtain ⟨x, hx, hv, hd⟩ := hp
  have hph := (w.blocks x (List.mem_of_getElem? hx)).ph _ _ hv hd
  have hh : partialHash (x.ph p.idx) = partialHash (hash (k, v').1) := by
    rw [hph]; simp [partialHash]
  obtain ⟨w1, p1, _⟩ := insert_ok (e := (k, v')) w env.recent hh
  have pt := insert_pointsTo (e := (k, v')) (h := x.ph p.idx) w env.recent
    (p := p) (e' := (k, v)) ⟨x, hx, hv, hd⟩
  obtain ⟨w2, p2⟩ := markRemoved_ok w1 env.epoch pt
  refine ⟨_, _, by unfold Bucket.indexUpdate; rw [hx]; simp only [hd]; rfl, w2, ?_⟩
  obtain ⟨l, r, hlr⟩ := List.append_of_mem (PointsTo.mem w (p := p) ⟨x, hx, hv, hd⟩)
  have hR : (b.entries .index).Perm ((k, v) :: (l ++ r)) := by rw [hlr]; exact List.perm_middle
  refine ⟨l ++ r, hR, ?_⟩
  have h1 : ((k, v) :: Bucket.entries .index (((b.insert .index env.recent (x.ph p.idx) (k, v')).1).markRemoved
      (rebase .index env.recent b p) env.epoch)).Perm ((k, v') :: (k, v) :: (l ++ r)) :=
    p2.symm.trans (p1.trans (hR.cons _))
  exact (h1.trans (List.Perm.swap _ _ _)).cons_inv

/-- One point operation refines the map update. -/
theorem modify_ok (r : Rep t hash b m) (env : Env) (k : K) (f : Option V → Option V) :
    ∃ b', b.modify t hash env k f = some (b', m k) ∧ Rep t hash b' (Spec.set m k (f (m k))) := by
  have same : ∀ v : Option V, m k = v → Spec.set m k v = m := by
    intro v h
    funext k'
    unfold Spec.set
    split
    · rename_i e; rw [e, h]
    · rfl
  obtain ⟨g1, g2⟩ := getEntryPtr_ok r.wf k
  unfold Bucket.modify
  simp only
  by_cases hval : (b.getEntryPtr t k (hash k)).isValid = true
  · rw [if_pos hval]
    obtain ⟨⟨k', v⟩, hpt, hk⟩ := g1 hval
    simp only at hk; subst hk
    have hmk : m k' = some v := (r.mem k' v).2 (PointsTo.mem r.wf hpt)
    rw [pointsTo_get hpt, hmk]
    simp only
    cases hf : f (some v) with
    | some v' =>
      by_cases ht : t = .index
      · subst ht
        obtain ⟨b', q, h1, h2, R, h3, h4⟩ := indexUpdate_ok (v' := v') r.wf env hpt
        exact ⟨b', by simp only [h1]; rfl, rep_replace r h2 h3 h4⟩
      · obtain ⟨h1, l, rr, h2, h3⟩ := setVal_ok r.wf v' hpt
        refine ⟨b.setVal _ v', ?_, rep_replace (R := l ++ rr) (v := v) (v' := v') r h1 ?_ ?_⟩
        · cases t <;> first | rfl | exact absurd rfl ht
        · rw [h2]; exact List.perm_middle
        · rw [h3]; exact List.perm_middle
    | none =>
      by_cases ht : t = .index
      · subst ht
        obtain ⟨h1, h2⟩ := markRemoved_ok r.wf env.epoch hpt
        exact ⟨_, rfl, rep_remove r h1 h2⟩
      · obtain ⟨b', p', h1, h2, h3⟩ := remove_ok r.wf hpt
        refine ⟨b', ?_, rep_remove r h2 h3⟩
        cases t <;> first | (simp only [h1]; rfl) | exact absurd rfl ht
  · rw [if_neg hval]
    have hmk : m k = none := (r.none_iff k).2 (g2 (by simpa using hval))
    rw [hmk]
    cases hf : f none with
    | some v =>
      obtain ⟨h1, h2, _⟩ := insert_ok (h := hash k) (e := (k, v)) r.wf env.recent rfl
      exact ⟨_, rfl, rep_insert r hmk h1 h2⟩
    | none =>
      refine ⟨b, rfl, ?_⟩
      rw [same none hmk]; exact r

theorem search_rep (r : Rep t hash b m) (k : K) :
    (b.searchEntry t k (hash k)).map (·.2) = m k := by
  obtain ⟨s1, s2⟩ := searchEntry_ok r.wf k
  cases hs : b.searchEntry t k (hash k) with
  | none => exact ((r.none_iff k).2 (s2 hs)).symm
  | some e =>
    obtain ⟨he, hk⟩ := s1 e hs
    subst hk
    exact ((r.mem e.1 e.2).2 he).symm

theorem step_ok (r : Rep t hash b m) (env : Env) (op : Spec.Op K V) :
    ∃ b', b.step t hash env op = some (b', (Spec.step m op).2) ∧
      Rep t hash b' (Spec.step m op).1 := by
  cases op with
  | read k =>
    refine ⟨b, ?_, r⟩
    simp only [Bucket.step, Spec.step, search_rep r]
  | modify k f => exact modify_ok r env k f

theorem run_ok (ops : List (Env × Spec.Op K V)) (r : Rep t hash b m) :
    ∃ b', b.run t hash ops = some (b', (Spec.run m (ops.map (·.2))).2) ∧
      Rep t hash b' (Spec.run m (ops.map (·.2))).1 := by
  induction ops generalizing b m with
  | nil => exact ⟨b, rfl, r⟩
  | cons eo ops ih =>
    obtain ⟨env, op⟩ := eo
    obtain ⟨b1, h1, r1⟩ := step_ok r env op
    obtain ⟨b2, h2, r2⟩ := ih r1
    refine ⟨b2, ?_, r2⟩
    simp only [Bucket.run, h1, h2, List.map_cons, Spec.run]

omit [DecidableEq K] in
theorem size_ok (r : Rep t hash b m) : Spec.HasSize m b.len := by
  refine ⟨(b.entries t).map (·.1), r.nodup, ?_, by rw [List.length_map]; exact r.wf.len.symm⟩
  intro k
  rw [Ne, r.none_iff, List.mem_map]
  constructor
  · rintro ⟨e, he, hk⟩ h; exact h e he hk
  · intro h
    apply Classical.byContradiction
    intro h'
    exact h fun e he hk => h' ⟨e, he, hk⟩

/-! ### The retain loop -/

end

section Retain
variable {t : Kind} {hash : K → Nat} {σ : Type}

theorem setVal_pointsTo {b : Bucket K V} {p : Ptr} {e : K × V} (v : V) (hp : PointsTo t b p e) :
    PointsTo t (b.setVal p v) p (e.1, v) := by
  obtain ⟨x, hx, hv, hd⟩ := hp
  have hjl : p.blk < b.blocks.length := (List.getElem?_eq_some_iff.1 hx).1
  unfold Bucket.setVal
  rw [hx]
  refine ⟨{ x with data := fun j => if j = p.idx then (x.data j).map (fun e => (e.1, v)) else x.data j },
    ?_, ?_, ?_⟩
  · show (b.setBlock p.blk _).blocks[p.blk]? = _
    rw [blocks_setBlock]; simp [hjl]
  · rw [← hv]; exact visible_congr t rfl rfl
  · simp [hd]

theorem setVal_remaining {b : Bucket K V} (w : Wf t hash b) {p : Ptr} {e : K × V} (v : V)
    (hp : PointsTo t b p e) : remaining t (b.setVal p v) p = remaining t b p := by
  obtain ⟨x, hx, hv, hd⟩ := hp
  have hbw := w.blocks x (List.mem_of_getElem? hx)
  have hi : p.idx < x.cap := hbw.hi _ (visible_occ hv)
  have hjl : p.blk < b.blocks.length := (List.getElem?_eq_some_iff.1 hx).1
  have hne : p.idx ≠ usizeMax := by
    have := hbw.cap_le
    have : usizeMax = 2 ^ 64 - 1 := rfl
    omega
  let x' : Block K V :=
    { x with data := fun j => if j = p.idx then (x.data j).map (fun e => (e.1, v)) else x.data j }
  have hb : (b.setVal p v).blocks = b.blocks.set p.blk x' := by
    unfold Bucket.setVal
    rw [hx]
    exact blocks_setBlock b p.blk _
  rw [remaining_of hx hne, nextSlot_pointed hi,
    remaining_of (x := x') (by rw [hb]; simp [hjl]) hne,
    nextSlot_pointed (by exact hi), hb, List.drop_set_of_lt (by omega)]
  congr 1
  refine entriesFrom_congr rfl fun k hk => ?_
  unfold slotVal
  have h1 : (x'.visible t).getLsbD k = (x.visible t).getLsbD k := visible_congr t rfl rfl
  have h2 : x'.data k = x.data k := by
    have : k ≠ p.idx := by omega
    simp [x', this]
  rw [h1, h2]

theorem retain_ok (env : Env) (f : σ → K × V → σ × V × Bool)
    (hidx : t = .index → ∀ s e, (f s e).2.1 = e.2) (fuel : Nat) (b : Bucket K V) (p : Ptr) (s : σ)
    (w : Wf t hash b) (hf : (remaining t b p).length < fuel) (kept : List (K × V))
    (hk : (b.entries t).Perm (kept ++ remaining t b p)) :
    ∃ b', b.retain t env f fuel p s = some (b', (Spec.pass f s (remaining t b p)).1, remaining t b p) ∧
      Wf t hash b' ∧ (b'.entries t).Perm (kept ++ (Spec.pass f s (remaining t b p)).2) := by
  induction fuel generalizing b p s kept with
  | zero => omega
  | succ fuel ih =>
    unfold Bucket.retain
    rcases moveToNext_ok w p with ⟨h1, h2, _⟩ | ⟨e, rest, h1, h2, h3, h4⟩
    · simp only [h2]
      rw [h1] at hk ⊢
      exact ⟨b, by simp [Spec.pass], w, by simpa [Spec.pass] using hk⟩
    · simp only [h2, if_true]
      rw [pointsTo_get h3]
      simp only
      rw [h1] at hk hf ⊢
      generalize hq : (b.moveToNext t p).1 = q at *
      generalize hfe : f s e = r
      obtain ⟨s', v, keep⟩ := r
      simp only
      -- the write of the value
      have step1 : Wf t hash (if t = .index then b else b.setVal q v) ∧
          PointsTo t (if t = .index then b else b.setVal q v) q (e.1, v) ∧
          remaining t (if t = .index then b else b.setVal q v) q = rest ∧
          ((if t = .index then b else b.setVal q v).entries t).Perm ((e.1, v) :: (kept ++ rest)) := by
        by_cases ht : t = .index
        · have hv : v = e.2 := by
            have := hidx ht s e
            rw [hfe] at this; exact this
          subst hv
          rw [if_pos ht]
          exact ⟨w, h3, h4, hk.trans List.perm_middle⟩
        · rw [if_neg ht]
          obtain ⟨c1, l, r, c2, c3⟩ := setVal_ok w v h3
          refine ⟨c1, setVal_pointsTo v h3, (setVal_remaining w v h3).trans h4, ?_⟩
          rw [c3]
          refine List.perm_middle.trans ?_
          have h5 : (e :: (l ++ r)).Perm (e :: (kept ++ rest)) :=
            (List.perm_middle.symm.trans (by rw [← c2]; exact hk)).trans List.perm_middle
          exact (h5.cons_inv).cons _
      generalize (if t = .index then b else b.setVal q v) = b1 at *
      obtain ⟨w1, pt1, rem1, perm1⟩ := step1
      cases keep with
      | true =>
        simp only [if_true]
        obtain ⟨b', g1, g2, g3⟩ := ih b1 q s' w1 (by rw [rem1]; simp at hf; omega)
          (kept ++ [(e.1, v)]) (by
            rw [rem1]
            refine perm1.trans ?_
            have : (e.1, v) :: (kept ++ rest) = ([(e.1, v)] ++ kept) ++ rest := by simp
            rw [this]
            exact (List.perm_append_comm).append_right _)
        rw [rem1] at g1 g3
        refine ⟨b', by rw [g1]; simp [Spec.pass, hfe], g2, ?_⟩
        simpa [Spec.pass, hfe] using g3
      | false =>
        simp only [Bool.false_eq_true, if_false]
        by_cases ht : t = .index
        · subst ht
          simp only [if_true]
          obtain ⟨c1, c2⟩ := markRemoved_ok w1 env.epoch pt1
          have c3 := markRemoved_remaining w1 env.epoch pt1
          obtain ⟨b', g1, g2, g3⟩ := ih (b1.markRemoved q env.epoch) q s' c1
            (by rw [c3, rem1]; simp at hf; omega) kept
            (by rw [c3, rem1]; exact (c2.symm.trans perm1).cons_inv)
          rw [c3, rem1] at g1 g3
          refine ⟨b', by rw [g1]; simp [Spec.pass, hfe], g2, ?_⟩
          simpa [Spec.pass, hfe] using g3
        · rw [if_neg ht]
          obtain ⟨b2, q', c1, c2, c3⟩ := remove_ok w1 pt1
          have c4 := remove_remaining w1 pt1 c1
          rw [c1]
          simp only
          obtain ⟨b', g1, g2, g3⟩ := ih b2 q' s' c2 (by rw [c4, rem1]; simp at hf; omega) kept
            (by rw [c4, rem1]; exact (c3.symm.trans perm1).cons_inv)
          rw [c4, rem1] at g1 g3
          refine ⟨b', by rw [g1]; simp [Spec.pass, hfe], g2, ?_⟩
          simpa [Spec.pass, hfe] using g3

end Retain

end Scc.Bucket
