import Verif.Seq.Traverse

/-!
# Passes over all entries: `iter`, `retain`, `clear`
-/

set_option linter.unusedSectionVars false
set_option linter.unusedSimpArgs false
set_option linter.unusedVariables false

namespace Scc.Seq

open Scc.Index hiding bucketLen
open Scc.Bucket

variable {K V σ : Type}

/-- The entries a pass drops, with the value the closure left. -/
def passDropped (f : σ → K × V → σ × V × Bool) : σ → List (K × V) → List (K × V)
  | _, [] => []
  | s, e :: es =>
    if (f s e).2.2 then passDropped f (f s e).1 es
    else (e.1, (f s e).2.1) :: passDropped f (f s e).1 es

section
variable {c : Cfg K} (f : σ → K × V → σ × V × Bool)

theorem pass_append (s : σ) (l l' : List (K × V)) :
    Spec.pass f s (l ++ l') =
      ((Spec.pass f (Spec.pass f s l).1 l').1,
        (Spec.pass f s l).2 ++ (Spec.pass f (Spec.pass f s l).1 l').2) := by
  induction l generalizing s with
  | nil => simp [Spec.pass]
  | cons e es ih =>
    simp only [List.cons_append, Spec.pass, ih]
    split <;> simp

theorem pass_keys (s : σ) (l : List (K × V)) :
    ((Spec.pass f s l).2.map (·.1)).Sublist (l.map (·.1)) := by
  induction l generalizing s with
  | nil => simp [Spec.pass]
  | cons e es ih =>
    simp only [Spec.pass]
    split
    · simp only [List.map_cons]; exact (ih _).cons_cons _
    · simp only [List.map_cons]; exact (ih _).cons _

theorem pass_mem_key {s : σ} {l : List (K × V)} {y : K × V} (h : y ∈ (Spec.pass f s l).2) :
    ∃ e ∈ l, e.1 = y.1 := by
  have := (pass_keys f s l).subset (List.mem_map.2 ⟨y, h, rfl⟩)
  obtain ⟨e, h1, h2⟩ := List.mem_map.1 this
  exact ⟨e, h1, h2⟩

/-- `retain` on a `HashIndex` bucket leaves the pairs in memory. -/
theorem retain_index_cells (env : Env) (hidx : ∀ s e, (f s e).2.1 = e.2) (fuel : Nat) (b : Bucket K V)
    (p : Ptr) (s : σ) {b' : Bucket K V} {s' : σ} {l : List (K × V)}
    (h : b.retain .index env f fuel p s = some (b', s', l)) : b'.cells = b.cells := by
  induction fuel generalizing b p s b' s' l with
  | zero => cases h
  | succ fuel ih =>
    unfold Bucket.retain at h
    simp only [if_true] at h
    split at h
    · split at h
      · cases h
      · rename_i e he
        split at h
        · obtain ⟨r, h1, h2⟩ := Option.map_eq_some_iff.1 h
          cases h2
          exact ih _ _ _ h1
        · obtain ⟨r, h1, h2⟩ := Option.map_eq_some_iff.1 h
          cases h2
          rw [ih _ _ _ h1, markRemoved_cells]
    · cases h; rfl

/-- For `HashMap` and `HashCache` the pairs in memory are the entries. -/
theorem arr_cells_of_kind (ht : c.kind ≠ .index) {a : Arr K V} (w : ArrWf c a) : a.cells = a.entries c :=
  flatMap_congr_mem fun i _ => cells_of_kind ht (w.wf i)

theorem tbl_cells_of_kind (ht : c.kind ≠ .index) {T : Tbl K V} (ok : T.Ok c) : T.cells = T.entries c := by
  unfold Tbl.cells Tbl.entries
  cases hT : T.arr with
  | none => rfl
  | some w =>
    have okw := ok.two w hT
    unfold Two.cells Two.entries
    simp only
    rw [arr_cells_of_kind ht okw.cur.wf]
    cases ho : w.old with
    | none => rfl
    | some o => simp only [arr_cells_of_kind ht (okw.old o ho).wf]

theorem retainLoop_ok (hc : c.Ok) (env : Env) (hidx : c.kind = .index → ∀ s e, (f s e).2.1 = e.2)
    (n j : Nat) (T : Tbl K V) (s : σ) (ok : T.Ok c) {w : Two K V} (hw : T.arr = some w)
    (hn : j + n = 2 ^ w.cur.lg) :
    ∃ T' l Q fl, retainLoop c env f n j T s = some (T', (Spec.pass f s l).1, l, fl) ∧ T'.Ok c ∧
      (∃ w', T'.arr = some w') ∧
      (T.entries c).Perm (l ++ Q) ∧ (T'.entries c).Perm ((Spec.pass f s l).2 ++ Q) ∧
      (∀ e ∈ l, j ≤ bucketIndex w.cur.lg (c.hash e.1)) ∧
      (∀ e ∈ Q, bucketIndex w.cur.lg (c.hash e.1) < j) ∧
      (c.kind = .index → (T'.cells ++ T'.gone).Perm (T.cells ++ T.gone)) ∧
      (c.kind ≠ .index → T'.gone.Perm T.gone) ∧ T'.minCap = T.minCap := by
  induction n generalizing j T s w with
  | zero =>
    refine ⟨T, [], T.entries c, false, rfl, ok, ⟨w, hw⟩, List.Perm.refl _, List.Perm.refl _,
      (fun e h => by cases h), ?_, fun _ => List.Perm.refl _, fun _ => List.Perm.refl _, rfl⟩
    intro e he
    have := bucketIndex_lt (lg := w.cur.lg) (hash := c.hash e.1)
      (by have := (ok.two w hw).cur.wf.lg_le; omega) (hc e.1)
    omega
  | succ n ih =>
    have hj : j < 2 ^ w.cur.lg := by omega
    obtain ⟨T1, w1, h1, hw1, hl, k1, cl, ho⟩ := prepare_ok hc env.recent T ok hw hj
    have hj1 : j < 2 ^ w1.cur.lg := by rw [hl]; exact hj
    obtain ⟨E, C, r⟩ := ready_cur k1.ok hw1 hj1 cl
    have hrem := remaining_null r.wf
    obtain ⟨b', g1, g2, g3⟩ := retain_ok (hash := c.hash) env f hidx ((w1.cur.bkt j).len + 1)
      (w1.cur.bkt j) Ptr.null s r.wf (by rw [hrem, r.wf.len]; omega) [] (by rw [hrem]; exact List.Perm.refl _)
    rw [hrem] at g1 g3
    rw [List.nil_append] at g3
    generalize hB : (w1.cur.bkt j).entries c.kind = B at *
    have hpl : ∀ e ∈ b'.entries c.kind, bucketIndex w1.cur.lg (c.hash e.1) = j := by
      intro e he
      obtain ⟨e', he', hk⟩ := pass_mem_key f (g3.mem_iff.1 he)
      rw [← hk]; exact r.placed e' (hB ▸ he')
    obtain ⟨p1, p2, p3, p4, p5, p6, p7⟩ := r.put b' g2 hpl
    have hset : T1.setBucket .cur j b' = { T1 with arr := some { w1 with cur := w1.cur.set j b' } } := by
      unfold Tbl.setBucket; rw [hw1]
    have hn1 : ((T1.entries c).map (·.1)).Nodup := k1.ok.nodup
    have ent1 : (T1.entries c).Perm (B ++ E) := hB ▸ r.entries
    have ok2 : (T1.setBucket .cur j b').Ok c := by
      refine ⟨p1, ?_⟩
      have h2 := nodup_perm ent1.symm hn1
      have h3 : (((Spec.pass f s B).2 ++ E).map (·.1)).Nodup := by
        rw [List.map_append] at h2 ⊢
        exact ((pass_keys f s B).append_right _).nodup h2
      exact nodup_perm (p2.trans (g3.append_right E)) h3
    obtain ⟨T', l, Q, fl, i1, i2, i2', i3, i4, i5, i6, i7, i8, i9⟩ := ih (j + 1) (T1.setBucket .cur j b')
      (Spec.pass f s B).1 ok2 (w := { w1 with cur := w1.cur.set j b' }) (by rw [hset])
      (by show j + 1 + n = 2 ^ w1.cur.lg; rw [hl]; omega)
    have i5' : ∀ e ∈ l, j + 1 ≤ bucketIndex w1.cur.lg (c.hash e.1) := i5
    have i6' : ∀ e ∈ Q, bucketIndex w1.cur.lg (c.hash e.1) < j + 1 := i6
    -- the entries not visited later: those of bucket `j` and the earlier ones
    have hQ : ∃ Q', Q.Perm ((Spec.pass f s B).2 ++ Q') ∧ E.Perm (l ++ Q') ∧
        ∀ e ∈ Q', bucketIndex w1.cur.lg (c.hash e.1) < j := by
      have e1 : (b'.entries c.kind ++ E).Perm (l ++ Q) := p2.symm.trans i3
      have fl1 : (fut c w1.cur.lg (j + 1) (b'.entries c.kind ++ E)).Perm l := by
        refine (fut_perm e1).trans ?_
        rw [fut_append, fut_all i5', fut_none i6', List.append_nil]
      rw [fut_append, fut_none (l := b'.entries c.kind)
        (fun e he => by rw [hpl e he]; exact Nat.lt_succ_self _), List.nil_append] at fl1
      have hsplit : E.Perm (fut c w1.cur.lg (j + 1) E ++
          E.filter fun e => !decide (j + 1 ≤ bucketIndex w1.cur.lg (c.hash e.1))) :=
        (List.filter_append_perm _ E).symm
      refine ⟨E.filter fun e => !decide (j + 1 ≤ bucketIndex w1.cur.lg (c.hash e.1)), ?_,
        hsplit.trans (fl1.append_right _), ?_⟩
      · rw [perm_iff] at *
        intro x
        have z1 := e1 x
        have z2 := fl1 x
        have z3 := hsplit x
        have z4 := g3 x
        simp only [cnt_append] at *
        omega
      · intro e he
        obtain ⟨m1, m2⟩ := List.mem_filter.1 he
        have := r.others e m1
        simp at m2
        omega
    obtain ⟨Q', q1, q2, q3⟩ := hQ
    unfold retainLoop
    rw [h1]
    simp only [r.bucket, g1, i1, Option.map_some]
    have hpa := pass_append f s B l
    refine ⟨T', B ++ l, Q', _, by rw [hpa], i2, i2', ?_, ?_, ?_, ?_, ?_, ?_, ?_⟩
    · have z0 := k1.entries
      rw [perm_iff] at *
      intro x
      have z0 := z0 x
      have z1 := ent1 x
      have z2 := q2 x
      simp only [cnt_append] at *
      omega
    · rw [hpa]
      rw [perm_iff] at *
      intro x
      have z1 := i4 x
      have z2 := q1 x
      simp only [cnt_append] at *
      omega
    · rw [← hl]
      intro e he
      rcases List.mem_append.1 he with h | h
      · rw [r.placed e (hB ▸ h)]; exact Nat.le_refl _
      · have := i5' e h; omega
    · rw [← hl]; exact q3
    · intro ht
      refine (i7 ht).trans ?_
      rw [p4]
      have hcells : b'.cells = (w1.cur.bkt j).cells :=
        retain_index_cells f env (hidx ht) _ _ _ _ (ht ▸ g1)
      refine List.Perm.trans ?_ k1.mem
      refine List.Perm.append_right _ ?_
      rw [hcells] at p3
      exact p3.trans r.cells.symm
    · intro ht
      refine (i8 ht).trans ?_
      rw [p4]
      have z0 := k1.mem
      rw [tbl_cells_of_kind ht k1.ok, tbl_cells_of_kind ht ok] at z0
      have z1 := k1.entries
      rw [perm_iff] at *
      intro x
      have z0 := z0 x
      have z1 := z1 x
      simp only [cnt_append] at *
      omega
    · exact i9.trans (p5.trans k1.minCap)

/-- `retain`: the closure sees a list `l` that names every entry once, and exactly the entries it keeps
remain. -/
theorem retainOp_ok (hc : c.Ok) (env : Env) (hidx : c.kind = .index → ∀ s e, (f s e).2.1 = e.2)
    (T : Tbl K V) (s : σ) (ok : T.Ok c) :
    ∃ T' l, retainOp c env T f s = some (T', (Spec.pass f s l).1, l) ∧ T'.Ok c ∧
      (T.entries c).Perm l ∧ (T'.entries c).Perm (Spec.pass f s l).2 ∧
      (c.kind = .index → (T'.cells ++ T'.gone).Perm (T.cells ++ T.gone)) ∧
      (c.kind ≠ .index → T'.gone.Perm T.gone) ∧ T'.minCap = T.minCap := by
  unfold retainOp
  cases hT : T.arr with
  | none =>
    have he : T.entries c = [] := by unfold Tbl.entries; rw [hT]
    exact ⟨T, [], rfl, ok, by rw [he], by rw [he]; exact List.Perm.refl _, fun _ => List.Perm.refl _, fun _ => List.Perm.refl _, rfl⟩
  | some w =>
    obtain ⟨T', l, Q, fl, i1, i2, i2', i3, i4, i5, i6, i7, i8, i9⟩ :=
      retainLoop_ok f hc env hidx (2 ^ w.cur.lg) 0 T s ok hT (by simp)
    have hQ : Q = [] := List.eq_nil_iff_forall_not_mem.2 fun e he => by have := i6 e he; omega
    subst hQ
    rw [List.append_nil] at i3 i4
    simp only [i1, Option.map_some]
    cases fl with
    | false => exact ⟨T', l, rfl, i2, i3, i4, i7, i8, i9⟩
    | true =>
      have hk := tryShrink_keeps T' i2 0
      refine ⟨_, l, rfl, hk.ok, i3, hk.entries.trans i4, fun ht => hk.mem.trans (i7 ht), fun ht => ?_,
        hk.minCap.trans i9⟩
      refine List.Perm.trans ?_ (i8 ht)
      simp only [if_true]
      have z0 := hk.mem
      rw [tbl_cells_of_kind ht hk.ok, tbl_cells_of_kind ht i2] at z0
      have z1 := hk.entries
      rw [perm_iff] at *
      intro x
      have z0 := z0 x
      have z1 := z1 x
      simp only [cnt_append] at *
      omega

theorem iterLoop_ok (hc : c.Ok) (env : Env) (n j : Nat) (T : Tbl K V) (ok : T.Ok c) {w : Two K V}
    (hw : T.arr = some w) (hn : j + n = 2 ^ w.cur.lg) :
    ∃ T' l, iterLoop c env n j T = some (T', l) ∧ Keeps c T T' ∧
      (fut c w.cur.lg j (T.entries c)).Perm l := by
  induction n generalizing j T w with
  | zero =>
    refine ⟨T, [], rfl, Keeps.refl ok, ?_⟩
    rw [fut_none]
    intro e he
    have := bucketIndex_lt (lg := w.cur.lg) (hash := c.hash e.1)
      (by have := (ok.two w hw).cur.wf.lg_le; omega) (hc e.1)
    omega
  | succ n ih =>
    have hj : j < 2 ^ w.cur.lg := by omega
    obtain ⟨T1, w1, h1, hw1, hl, k1, cl, ho⟩ := prepare_ok hc env.recent T ok hw hj
    have hj1 : j < 2 ^ w1.cur.lg := by rw [hl]; exact hj
    obtain ⟨E, C, r⟩ := ready_cur k1.ok hw1 hj1 cl
    have hrem := remaining_null r.wf
    obtain ⟨T', l, i1, i2, i3⟩ := ih (j + 1) T1 k1.ok hw1 (by rw [hl]; omega)
    unfold iterLoop
    rw [h1]
    simp only [r.bucket]
    rw [collect_ok r.wf _ _ (by rw [hrem, r.wf.len]; omega), hrem]
    simp only [i1, Option.map_some]
    refine ⟨T', _, rfl, k1.trans i2, ?_⟩
    rw [← hl]
    exact (fut_perm k1.entries.symm).trans ((fut_step k1.ok hw1 hj1 cl).trans (i3.append_left _))

/-- `iter` visits every entry once. -/
theorem iterOp_ok (hc : c.Ok) (env : Env) (T : Tbl K V) (ok : T.Ok c) :
    ∃ T' l, iterOp c env T = some (T', l) ∧ Keeps c T T' ∧ (T.entries c).Perm l := by
  unfold iterOp
  cases hT : T.arr with
  | none =>
    have he : T.entries c = [] := by unfold Tbl.entries; rw [hT]
    exact ⟨T, [], rfl, Keeps.refl ok, by rw [he]⟩
  | some w =>
    obtain ⟨T', l, i1, i2, i3⟩ := iterLoop_ok hc env (2 ^ w.cur.lg) 0 T ok hT (by simp)
    rw [fut_all (fun e _ => Nat.zero_le _)] at i3
    exact ⟨T', l, i1, i2, i3⟩

end

end Scc.Seq
