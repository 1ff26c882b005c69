import Verif.Tree.InsertTr

/-!
# Removal from a tree
-/

set_option linter.unusedSimpArgs false
set_option linter.unusedSectionVars false
set_option linter.unusedVariables false

namespace Scc.Tree

open Scc.Leaf Scc.Leaf.Spec

variable {K V C : Type} [KeyOrd K]

/-- A cover stays one if a child with a key is taken out. -/
theorem cov_drop {P : Option K → Option K → C → Prop} (hP : ∀ lo hi lo' hi' c, leLo lo' lo → leUp hi hi' →
    P lo hi c → P lo' hi' c) {hi lo : Option K} {A B : List (Option K × C)} {k : K} {c : C}
    (h : Cov P hi lo (A ++ (some k, c) :: B)) : Cov P hi lo (A ++ B) := by
  obtain ⟨h1, h2, h3, h4, h5⟩ := cov_focus.1 h
  rw [cov_append h1]
  exact ⟨h2, cov_mono hP (leLo_of_gt h4.1) (leUp_refl _) h5⟩

theorem cov_filter {P : Option K → Option K → C → Prop} (hP : ∀ lo hi lo' hi' c, leLo lo' lo → leUp hi hi' →
    P lo hi c → P lo' hi' c) {hi : Option K} (q : K × C → Bool) (R : List (K × C)) {T : List (Option K × C)} :
    ∀ {lo : Option K}, Cov P hi lo (keyed R ++ T) → Cov P hi lo (keyed (R.filter q) ++ T) := by
  induction R with
  | nil => intro lo h; exact h
  | cons a R ih =>
    intro lo h
    rw [List.filter_cons]
    by_cases hq : q a = true
    · rw [if_pos hq]
      exact ⟨h.1, h.2.1, ih h.2.2⟩
    · rw [if_neg hq]
      exact ih (cov_drop (A := []) hP h)

/-! ## Leaf nodes -/

/-- The leaves of `R` that are not retired. -/
def kept (H : Hp K V) (R : List (K × Nat)) : List (K × Nat) := R.filter (fun e => !retired (H.leaf e.2).w)

theorem leavesE_keyed (R : List (K × Nat)) : leavesE 0 (keyed R : List (Option K × Tr K 0)) = R.map (·.2) := by
  induction R with
  | nil => rfl
  | cons a R ih =>
    show leaves 0 (K := K) a.2 ++ leavesE 0 (keyed R : List (Option K × Tr K 0)) = _
    rw [ih]; rfl

theorem coalesceLeaves_spec (T : List (Option K × Nat)) : ∀ (R D : List (K × Nat)) (n : Nd K Nat) (H : Hp K V)
    (valid unc : Bool), WL n.kids → frozen n.kids.w = false → ents n = keyed D ++ (keyed R ++ T) →
    (R.map (·.2)).Nodup → (∀ i ∈ R.map (·.2), i < H.fresh) →
    ∃ n' H' valid' unc', coalesceLeaves R n H valid unc = (n', H', valid', unc') ∧
      WL n'.kids ∧ frozen n'.kids.w = false ∧ ents n' = keyed D ++ (keyed (kept H R) ++ T) ∧
      n'.ub = n.ub ∧ n'.dead = n.dead ∧ H'.leaf = H.leaf ∧ H'.fresh = H.fresh ∧
      Eff H H' (R.map (·.2)) ((kept H R).map (·.2)) ∧
      valid' = (valid || !(kept H R).isEmpty) := by
  intro R
  induction R with
  | nil =>
    intro D n H valid unc w hf hE _ _
    refine ⟨n, H, valid, unc, rfl, w, hf, hE, rfl, rfl, rfl, rfl, Eff.refl (by simp [kept]) (by simp [kept]), ?_⟩
    simp [kept]
  | cons a R ih =>
    intro D n H valid unc w hf hE hnd hlt
    obtain ⟨k, i⟩ := a
    rw [List.map_cons] at hnd hlt
    have hnd' := (List.nodup_cons.1 hnd)
    have hi : i < H.fresh := hlt i (List.mem_cons_self ..)
    have hlt' : ∀ j ∈ R.map (·.2), j < H.fresh := fun j hj => hlt j (List.mem_cons_of_mem _ hj)
    rw [coalesceLeaves]
    by_cases hr : retired (H.leaf i).w = true
    · rw [if_pos hr]
      have hk : kept H ((k, i) :: R) = kept H R := by
        unfold kept; rw [List.filter_cons]; simp [hr]
      rw [hk]
      obtain ⟨e1, e2, e3⟩ := ents_remove w hf (A := keyed D) (B := keyed R ++ T) (k := k) (c := i) hE (allSome_keyed D)
      obtain ⟨n', H', v', u', h1, h2, h3, h4, h5, h6, h7, h8, h9, h10⟩ :=
        ih D { n with kids := (n.kids.removeIf k (fun _ => true)).1 } (H.deleteSelf i) valid (unc || !valid)
          e2 e3 e1 hnd'.2 hlt'
      refine ⟨n', H', v', u', h1, h2, h3, h4, h5, h6, h7, h8, ?_, h10⟩
      have hd := (Eff.delete hi).embed (X := []) (Y := R.map (·.2)) (by simpa using hnd) (by simpa using hlt)
      simp only [List.nil_append] at hd
      exact Eff.trans (by simpa using hd) h9
    · rw [if_neg hr]
      have hr' : retired (H.leaf i).w = false := by simpa using hr
      have hk : kept H ((k, i) :: R) = (k, i) :: kept H R := by
        unfold kept; rw [List.filter_cons]; simp [hr']
      rw [hk]
      obtain ⟨n', H', v', u', h1, h2, h3, h4, h5, h6, h7, h8, h9, h10⟩ :=
        ih (D ++ [(k, i)]) n H true unc w hf (by rw [hE]; simp [keyed]) hnd'.2 hlt'
      refine ⟨n', H', v', u', h1, h2, h3, ?_, h5, h6, h7, h8, ?_, ?_⟩
      · rw [h4]; simp [keyed]
      · have := h9.embed (X := [i]) (Y := []) (by simpa using hnd) (by simpa using hlt)
        simpa using this
      · rw [h10]; simp

theorem contE_kept (H : Hp K V) (R : List (K × Nat)) (hw : ∀ e ∈ R, WL (H.leaf e.2)) :
    contE H 0 (keyed (kept H R) : List (Option K × Tr K 0)) = contE H 0 (keyed R : List (Option K × Tr K 0)) := by
  induction R with
  | nil => rfl
  | cons a R ih =>
    have ih := ih (fun e he => hw e (List.mem_cons_of_mem _ he))
    have h2 : contE H 0 (keyed (a :: R) : List (Option K × Tr K 0)) =
        (H.leaf a.2).toList ++ contE H 0 (keyed R : List (Option K × Tr K 0)) := by
      show cont H 0 (K := K) a.2 ++ contE H 0 (keyed R : List (Option K × Tr K 0)) = _
      rw [cont_zero]
    rw [h2]
    unfold kept
    rw [List.filter_cons]
    by_cases hr : retired (H.leaf a.2).w = true
    · simp only [hr, Bool.not_true]
      rw [(hw a (List.mem_cons_self ..)).retired hr, List.nil_append]
      exact ih
    · have hr' : retired (H.leaf a.2).w = false := by simpa using hr
      simp only [hr', Bool.not_false, if_true]
      have h3 : contE H 0 (keyed (a :: R.filter (fun e => !retired (H.leaf e.2).w)) : List (Option K × Tr K 0)) =
          (H.leaf a.2).toList ++ contE H 0 (keyed (kept H R) : List (Option K × Tr K 0)) := by
        show cont H 0 (K := K) a.2 ++ contE H 0 (keyed (kept H R) : List (Option K × Tr K 0)) = _
        rw [cont_zero]
      rw [h3, ih]

theorem coalesceLeafNode_spec {H : Hp K V} {lo hi : Option K} {n : Nd K Nat}
    (hw : WF H 1 lo hi n) (hnd : (leaves 1 (n : Tr K 1)).Nodup) (hlt : ∀ i ∈ leaves 1 (n : Tr K 1), i < H.fresh) :
    ∃ n' H' r, coalesceLeafNode n H = (n', H', r) ∧
      (((r = .success ∨ r = .cleanup) ∧ WF H' 1 lo hi n' ∧ cont H' 1 (n' : Tr K 1) = cont H 1 (n : Tr K 1) ∧
        Eff H H' (leaves 1 (n : Tr K 1)) (leaves 1 (n' : Tr K 1))) ∨
      (r = .retired ∧ n'.dead = true ∧ cont H 1 (n : Tr K 1) = [] ∧
        Eff H H' (leaves 1 (n : Tr K 1)) [])) := by
  obtain ⟨w, hf, hd, hu, hcov⟩ := hw
  obtain ⟨u, hu⟩ := Option.isSome_iff_exists.1 hu
  have hE : ents n = keyed n.kids.toList ++ [(none, u)] := by unfold ents; rw [hu]; rfl
  have hls : leaves 1 (n : Tr K 1) = n.kids.toList.map (·.2) ++ [u] := by
    rw [leaves_succ, hE, leavesE_append, leavesE_keyed]; rfl
  rw [hls] at hnd hlt
  have hnd1 := (List.nodup_append.1 hnd).1
  have hlt1 : ∀ i ∈ n.kids.toList.map (·.2), i < H.fresh := fun i hi => hlt i (by
    rw [List.mem_append]; exact .inl hi)
  have hu1 : u < H.fresh := hlt u (by simp)
  obtain ⟨n', H', v', u', h1, h2, h3, h4, h5, h6, h7, h8, h9, h10⟩ :=
    coalesceLeaves_spec [(none, u)] n.kids.toList [] n H false false w hf hE hnd1 hlt1
  have h4' : ents n' = keyed (kept H n.kids.toList) ++ [(none, u)] := h4
  rw [hE] at hcov
  have hwl : ∀ e ∈ n.kids.toList, WL (H.leaf e.2) := by
    intro e he
    have hm : (some e.1, e.2) ∈ keyed n.kids.toList ++ [(none, u)] :=
      List.mem_append.2 (.inl (List.mem_map.2 ⟨e, he, rfl⟩))
    obtain ⟨A, B, hAB⟩ := List.append_of_mem hm
    rw [hAB] at hcov
    exact (cov_focus.1 hcov).2.2.1.1
  have hcu := (cov_focus.1 hcov).2.2.1
  -- the node after the loop
  have hcov' : Cov (WF H' 0) hi lo (keyed (kept H n.kids.toList) ++ [(none, u)]) :=
    cov_imp (cov_filter (wf_mono H 0) _ n.kids.toList hcov) (fun e _ lo hi => wf_frame 0 e.2 (fun i _ => by rw [h7]) lo hi)
  have hwf : WF H' 1 lo hi n' := ⟨h2, h3, by rw [h6]; exact hd, by rw [h5, hu]; rfl, by rw [h4']; exact hcov'⟩
  have hcont : cont H' 1 (n' : Tr K 1) = cont H 1 (n : Tr K 1) := by
    rw [cont_succ, cont_succ, h4', hE, contE_frame (H := H) 0 _ (fun i _ => by rw [h7]), contE_append, contE_append,
      contE_kept H _ hwl]
  have hls' : leaves 1 (n' : Tr K 1) = (kept H n.kids.toList).map (·.2) ++ [u] := by
    rw [leaves_succ, h4', leavesE_append, leavesE_keyed]; rfl
  have heff : Eff H H' (leaves 1 (n : Tr K 1)) (leaves 1 (n' : Tr K 1)) := by
    rw [hls, hls']
    have := h9.embed (X := []) (Y := [u]) (by simpa using hnd) (by simpa using hlt)
    simpa using this
  unfold coalesceLeafNode
  simp only [h1]
  have keep : ∃ n'' H'' r, (n', H', (if u' = true then RRes.cleanup else RRes.success)) = (n'', H'', r) ∧
      (((r = .success ∨ r = .cleanup) ∧ WF H'' 1 lo hi n'' ∧ cont H'' 1 (n'' : Tr K 1) = cont H 1 (n : Tr K 1) ∧
        Eff H H'' (leaves 1 (n : Tr K 1)) (leaves 1 (n'' : Tr K 1))) ∨
      (r = .retired ∧ n''.dead = true ∧ cont H 1 (n : Tr K 1) = [] ∧
        Eff H H'' (leaves 1 (n : Tr K 1)) [])) := by
    refine ⟨_, _, _, rfl, .inl ⟨?_, hwf, hcont, heff⟩⟩
    cases u' <;> simp
  by_cases hv : v' = true
  · rw [if_pos hv]; exact keep
  · rw [if_neg hv, h5, hu]
    simp only []
    rw [h7]
    by_cases hru : retired (H.leaf u).w = true
    · rw [if_pos hru]
      have hv' : v' = false := by simpa using hv
      rw [h10] at hv'
      have hk : kept H n.kids.toList = [] := by simpa using hv'
      refine ⟨_, _, _, rfl, .inr ⟨rfl, rfl, ?_, ?_⟩⟩
      · rw [cont_succ, hE, contE_append, ← contE_kept H _ hwl, hk]
        show [] ++ (cont H 0 (K := K) u ++ []) = []
        rw [cont_zero, hcu.1.retired hru]; rfl
      · have hu1' : u < H'.fresh := by rw [h8]; exact hu1
        have := heff.trans (by rw [hls', hk]; exact Eff.delete hu1')
        exact this
    · rw [if_neg hru]; exact keep

/-- What a removal does to a node. -/
structure Kept (H : Hp K V) (lo hi : Option K) (h : Nat) (n n' : Tr K (h + 1)) (H' : Hp K V)
    (xs : List (K × V)) : Prop where
  wf : WF H' (h + 1) lo hi n'
  cont : cont H' (h + 1) n' = xs
  eff : Eff H H' (leaves (h + 1) n) (leaves (h + 1) n')

/-- The result of a removal. -/
def RemOk (H : Hp K V) (lo hi : Option K) (k : K) (cond : V → Bool) (h : Nat) (n : Tr K (h + 1))
    (r : Tr K (h + 1) × Hp K V × RRes) : Prop :=
  (r.2.2 = .fail ∧ (∀ e, get (cont H (h + 1) n) k = some e → cond e.2 = false) ∧
    Kept H lo hi h n r.1 r.2.1 (cont H (h + 1) n)) ∨
  ((∃ e, get (cont H (h + 1) n) k = some e ∧ cond e.2 = true) ∧
    (((r.2.2 = .success ∨ r.2.2 = .cleanup) ∧ Kept H lo hi h n r.1 r.2.1 (del (cont H (h + 1) n) k)) ∨
     (r.2.2 = .retired ∧ Nd.dead r.1 = true ∧ del (cont H (h + 1) n) k = [] ∧
      Eff H r.2.1 (leaves (h + 1) n) [])))

/-- Writing to a leaf of a leaf node. -/
theorem leaf_set {H : Hp K V} {lo hi : Option K} {n : Nd K Nat}
    (hw : WF H 1 lo hi n)
    (hnd : (leaves 1 (n : Tr K 1)).Nodup) (hlt : ∀ i ∈ leaves 1 (n : Tr K 1), i < H.fresh)
    {A B : List (Option K × Nat)} {s : Option K} {id : Nat} (hE : ents n = A ++ (s, id) :: B) {l : Leaf K V}
    (wl : WL l) (fl : frozen l.w = false) (hb : ∀ e ∈ l.toList, gtLo (endLo lo A) e.1 ∧ leHi (s.or hi) e.1) :
    WF (H.setLeaf id l) 1 lo hi n ∧
    cont (H.setLeaf id l) 1 (n : Tr K 1) = contE H 0 A ++ l.toList ++ contE H 0 B ∧
    Eff H (H.setLeaf id l) (leaves 1 (n : Tr K 1)) (leaves 1 (n : Tr K 1)) := by
  obtain ⟨w, hf, hd, hu, hcov⟩ := hw
  rw [leaves_succ, hE] at hnd hlt
  have hcov0 := hcov
  rw [hE] at hcov0
  have hid : id < H.fresh := hlt id (List.mem_flatMap.2 ⟨(s, id), by simp, List.mem_singleton.2 rfl⟩)
  have hl : (H.setLeaf id l).leaf id = l := by simp [Hp.setLeaf]
  have e : Eff H (H.setLeaf id l) [id] [id] :=
    Eff.setLeaf (by simp) (by intro i hi; simp at hi; omega) (by simp) l
  have hwl : WF (H.setLeaf id l) 0 (endLo lo A) (s.or hi) id :=
    ⟨by rw [hl]; exact wl, by rw [hl]; exact fl, by rw [hl]; exact hb⟩
  obtain ⟨r1, r2, r3⟩ := cov_replace (h := 0) hcov0 hnd hlt (c' := id) e hwl
  refine ⟨⟨w, hf, hd, hu, by rw [hE]; exact r1⟩, ?_, by rw [leaves_succ, hE]; exact r3⟩
  rw [cont_succ, hE, r2, cont_zero, hl]

theorem remLeafNode_spec {H : Hp K V} {lo hi : Option K} {n : Nd K Nat} {k : K} {cond : V → Bool}
    (hw : WF H 1 lo hi n) (hlo : gtLo lo k) (hhi : leHi hi k)
    (hnd : (leaves 1 (n : Tr K 1)).Nodup) (hlt : ∀ i ∈ leaves 1 (n : Tr K 1), i < H.fresh) :
    RemOk H lo hi k cond 0 n (remLeafNode k cond n H) := by
  obtain ⟨A, s, id, B, hat, hloc⟩ := locate_at hw.1 hw.2.2.2.1 k
  have hcov := hw.2.2.2.2
  rw [hat.eq] at hcov
  obtain ⟨wid, fid, bid⟩ := (cov_focus.1 hcov).2.2.1
  obtain ⟨g1, g2, g3, g4⟩ := sides_lt (h := 0) hcov hlo hhi (by rw [← hat.eq]; exact hat)
  have hcont : cont H 1 (n : Tr K 1) = contE H 0 A ++ (H.leaf id).toList ++ contE H 0 B := by
    rw [cont_succ, hat.eq, contE_append, contE_cons, cont_zero, List.append_assoc]
  unfold remLeafNode
  simp only [hloc]
  rcases wid.removeIf fid k cond with ⟨h1, h2⟩ | ⟨e, h1, h2, l', h3, h4, h5, h6⟩
  · rw [h2]
    simp only []
    rw [setLeaf_self]
    refine .inl ⟨rfl, ?_, hw, rfl, Eff.refl hnd hlt⟩
    rw [hcont, get_mid g1 g2]; exact h1
  · have hex : ∃ e, get (cont H 1 (n : Tr K 1)) k = some e ∧ cond e.2 = true :=
      ⟨e, by rw [hcont, get_mid g1 g2]; exact h1, h2⟩
    have hb : ∀ e ∈ l'.toList, gtLo (endLo lo A) e.1 ∧ leHi (s.or hi) e.1 := by
      rw [h4]; intro e he; exact bid e (mem_del.1 he).1
    obtain ⟨s1, s2, s3⟩ := leaf_set hw hnd hlt hat.eq h3 h5 hb
    have hdel : del (cont H 1 (n : Tr K 1)) k = cont (H.setLeaf id l') 1 (n : Tr K 1) := by
      rw [s2, hcont, del_mid g1 g2, h4]
    rcases h6 with ⟨_, _, h6⟩ | ⟨_, _, h6⟩
    · rw [h6]
      simp only []
      obtain ⟨n', H', r, c1, c2⟩ := coalesceLeafNode_spec s1 s3.nodup s3.lt
      rw [c1]
      refine .inr ⟨hex, ?_⟩
      rcases c2 with ⟨a1, a2, a3, a4⟩ | ⟨a1, a2, a3, a4⟩
      · exact .inl ⟨a1, a2, by rw [hdel]; exact a3, s3.trans a4⟩
      · exact .inr ⟨a1, a2, by rw [hdel]; exact a3, s3.trans a4⟩
    · rw [h6]
      exact .inr ⟨hex, .inl ⟨.inl rfl, s1, hdel.symm, s3⟩⟩

/-! ## Internal nodes -/

theorem coalesceKids_append (A B : List (K × Nd K C)) (n : Nd K (Nd K C)) (mx : Option (K × Nd K C)) (d : Bool) :
    coalesceKids (A ++ B) n mx d = coalesceKids B (coalesceKids A n mx d).1 (coalesceKids A n mx d).2.1
      (coalesceKids A n mx d).2.2 := by
  induction A generalizing n mx d with
  | nil => rfl
  | cons a A ih =>
    obtain ⟨k, c⟩ := a
    rw [List.cons_append, coalesceKids, coalesceKids]
    split
    · exact ih ..
    · exact ih ..

theorem coalesceKids_alive (A : List (K × Nd K C)) (n : Nd K (Nd K C)) (mx : Option (K × Nd K C)) (d : Bool)
    (h : ∀ e ∈ A, e.2.dead = false) : coalesceKids A n mx d = (n, A.getLast?.or mx, d) := by
  induction A generalizing mx with
  | nil => rfl
  | cons a A ih =>
    obtain ⟨k, c⟩ := a
    have hc : c.dead = false := h _ (List.mem_cons_self ..)
    rw [coalesceKids, if_neg (by unfold Nd.retired; rw [hc]; simp), ih _ (fun e he => h e (List.mem_cons_of_mem _ he))]
    cases A with
    | nil => rfl
    | cons b B =>
      rw [List.getLast?_cons_cons]
      cases hg : (b :: B).getLast? with
      | none => simp at hg
      | some x => rfl

/-- A child has retired and is taken out. -/
theorem coalesce_spec {H H' : Hp K V} {lo hi : Option K} {h : Nat} {n : Tr K (h + 2)}
    (hw : WF H (h + 2) lo hi n)
    (hnd : (leaves (h + 2) n).Nodup) (hlt : ∀ i ∈ leaves (h + 2) n, i < H.fresh)
    {A B : List (Option K × Tr K (h + 1))} {s : Option K} {c c' : Tr K (h + 1)} (hE : ents n = A ++ (s, c) :: B)
    (hd : Nd.dead c' = true) (he : Eff H H' (leaves (h + 1) c) []) :
    ((coalesce (n.set s c')).2 = .cleanup ∧
      Kept H lo hi (h + 1) n (coalesce (n.set s c')).1 H' (contE H (h + 1) A ++ contE H (h + 1) B)) ∨
    ((coalesce (n.set s c')).2 = .retired ∧ Nd.dead (coalesce (n.set s c')).1 = true ∧ A = [] ∧ B = []) := by
  obtain ⟨w, hf, hdd, hu, hcov⟩ := hw
  rw [leaves_succ, hE] at hnd hlt
  rw [hE] at hcov
  obtain ⟨c1, c2, c3, c4, c5⟩ := cov_focus.1 hcov
  obtain ⟨fA, fB⟩ := frame_sides hnd hlt he
  obtain ⟨s1, s2, s3, s4, s5⟩ := ents_set w hE c1 c'
  have heff : Eff H H' (leaves (h + 2) n) (leavesE (h + 1) A ++ leavesE (h + 1) B) := by
    have hle : leavesE (h + 1) (A ++ (s, c) :: B) = leavesE (h + 1) A ++ leaves (h + 1) c ++ leavesE (h + 1) B := by
      rw [leavesE_append, leavesE_cons, List.append_assoc]
    have := he.embed (X := leavesE (h + 1) A) (Y := leavesE (h + 1) B) (by rw [← hle]; exact hnd)
      (by rw [← hle]; exact hlt)
    rw [leaves_succ, hE, hle]
    rw [List.append_nil] at this
    exact this
  have alive : ∀ (E : List (Option K × Tr K (h + 1))) (lo : Option K), Cov (WF H (h + 1)) hi lo E →
      ∀ e ∈ E, Nd.dead e.2 = false := by
    intro E lo hc e hm
    obtain ⟨X, Y, hXY⟩ := List.append_of_mem hm
    obtain ⟨a, b⟩ := e
    rw [hXY] at hc
    exact (cov_focus.1 hc).2.2.1.2.2.1
  have hset := s1
  generalize hn1 : Nd.set n s c' = n1 at *
  have hub1 := s5 hu
  obtain ⟨u, hu1⟩ := Option.isSome_iff_exists.1 hub1
  have hcovA' : Cov (WF H' (h + 1)) hi lo A := cov_frame (h + 1) c2 fA
  rcases ents_split hset c1 with ⟨k, A', B', rfl, e1, e2, e3⟩ | ⟨rfl, e1, e2, e3⟩
  · -- a child with a key
    left
    rw [hu1] at e3
    have hA : ∀ e ∈ A', e.2.dead = false := by
      intro e he
      exact alive A lo c2 (some e.1, e.2) (by rw [e2]; exact List.mem_map.2 ⟨e, he, rfl⟩)
    have hB : ∀ e ∈ B', e.2.dead = false := by
      intro e he
      exact alive B (some k) c5 (some e.1, e.2) (by rw [e3]; exact List.mem_append.2 (.inl (List.mem_map.2 ⟨e, he, rfl⟩)))
    have hud : u.dead = false := alive B (some k) c5 (none, u) (by rw [e3]; simp)
    obtain ⟨r1, r2, r3⟩ := ents_remove s2 (by rw [s3]; exact hf) hset c1
    have hco : coalesce n1 = ({ n1 with kids := (n1.kids.removeIf k (fun _ => true)).1 }, .cleanup) := by
      unfold coalesce
      have hck : coalesceKids n1.kids.toList n1 none false =
          ({ n1 with kids := (n1.kids.removeIf k (fun _ => true)).1 }, B'.getLast?.or (A'.getLast?.or none), true) := by
        rw [e1, coalesceKids_append, coalesceKids_alive A' n1 none false hA, coalesceKids]
        simp only []
        rw [if_pos (show Nd.retired c' = true from hd), coalesceKids_alive B' _ _ _ hB]
      rw [hck]
      simp only [hu1]
      rw [if_neg (by unfold Nd.retired; rw [hud]; simp)]
      rfl
    rw [hco]
    have hcov2 : Cov (WF H' (h + 1)) hi lo (A ++ B) := by
      rw [cov_append c1]
      exact ⟨hcovA', cov_mono (wf_mono H' (h + 1)) (leLo_of_gt c4.1) (leUp_refl _) (cov_frame (h + 1) c5 fB)⟩
    refine ⟨rfl, ⟨r2, r3, by rw [s4]; exact hdd, by rw [hu1]; rfl, by rw [r1]; exact hcov2⟩, ?_, ?_⟩
    · have hcs := cont_succ H' (h + 1) ({ n1 with kids := (n1.kids.removeIf k (fun _ => true)).1 } : Nd K (Tr K (h + 1)))
      rw [r1, contE_append, contE_frame (h + 1) A fA, contE_frame (h + 1) B fB] at hcs
      exact hcs
    · have hls := leaves_succ (h + 1) ({ n1 with kids := (n1.kids.removeIf k (fun _ => true)).1 } : Nd K (Tr K (h + 1)))
      rw [r1, leavesE_append] at hls
      exact hls ▸ heff
  · -- the unbounded child
    have huc : u = c' := by rw [hu1] at e1; cases e1; rfl
    subst huc
    subst e2
    have hA : ∀ e ∈ n1.kids.toList, e.2.dead = false := by
      intro e he
      exact alive A lo c2 (some e.1, e.2) (by rw [e3]; exact List.mem_map.2 ⟨e, he, rfl⟩)
    have hck : coalesceKids n1.kids.toList n1 none false = (n1, n1.kids.toList.getLast?.or none, false) :=
      coalesceKids_alive _ n1 none false hA
    cases hl : n1.kids.toList.getLast? with
    | none =>
      right
      have hnil : n1.kids.toList = [] := List.getLast?_eq_none_iff.1 hl
      have hco : coalesce n1 = ({ n1 with ub := none, dead := true }, .retired) := by
        unfold coalesce
        rw [hck, hl]
        simp only [hu1]
        rw [if_pos (show Nd.retired u = true from hd)]
        rfl
      rw [hco]
      exact ⟨rfl, rfl, by rw [e3, hnil]; rfl, rfl⟩
    | some x =>
      left
      obtain ⟨k, y⟩ := x
      obtain ⟨D, hD⟩ : ∃ D, n1.kids.toList = D ++ [(k, y)] := by
        obtain ⟨D, hD⟩ := List.getLast?_eq_some_iff.1 hl
        exact ⟨D, hD⟩
      have hAD : A = keyed D ++ [(some k, y)] := by rw [e3, hD]; simp [keyed]
      have hco : coalesce n1 =
          ({ n1 with ub := some y, kids := (n1.kids.removeIf k (fun _ => true)).1 }, .cleanup) := by
        unfold coalesce
        rw [hck, hl]
        simp only [hu1]
        rw [if_pos (show Nd.retired u = true from hd)]
        rfl
      rw [hco]
      obtain ⟨w1, w2, w3⟩ := s2.removeKey (by rw [s3]; exact hf) (B := []) hD
      rw [List.append_nil] at w2
      have hents : ents ({ n1 with ub := some y, kids := (n1.kids.removeIf k (fun _ => true)).1 } : Nd K (Tr K (h + 1))) =
          keyed D ++ [(none, y)] := by
        unfold ents; simp only []; rw [w2]; rfl
      rw [hAD] at hcovA'
      obtain ⟨d1, d2, d3, d4, _⟩ := cov_focus.1 hcovA'
      have hcov2 : Cov (WF H' (h + 1)) hi lo (keyed D ++ [(none, y)]) :=
        cov_focus.2 ⟨d1, d2, wf_mono H' (h + 1) _ _ _ _ _ (leLo_refl _) (leUp_of_lt d4.2) d3, rfl, trivial⟩
      refine ⟨rfl, ⟨w1, w3, by rw [s4]; exact hdd, rfl, by rw [hents]; exact hcov2⟩, ?_, ?_⟩
      · have hcs := cont_succ H' (h + 1)
          ({ n1 with ub := some y, kids := (n1.kids.removeIf k (fun _ => true)).1 } : Nd K (Tr K (h + 1)))
        rw [hents] at hcs
        refine Eq.trans hcs ?_
        rw [← contE_frame (h + 1) A fA, hAD, contE_append, contE_append, contE_cons, contE_cons, contE_nil]
        exact (List.append_nil _).symm
      · have hls := leaves_succ (h + 1)
          ({ n1 with ub := some y, kids := (n1.kids.removeIf k (fun _ => true)).1 } : Nd K (Tr K (h + 1)))
        rw [hents] at hls
        have : leavesE (h + 1) (keyed D ++ [(none, y)]) =
            leavesE (h + 1) A ++ leavesE (h + 1) ([] : List (Option K × Tr K (h + 1))) := by
          rw [hAD, leavesE_append, leavesE_append, leavesE_cons, leavesE_cons, leavesE_nil]
          exact (List.append_nil _).symm
        rw [this] at hls
        exact hls ▸ heff

theorem remTr_spec (k : K) (cond : V → Bool) (h : Nat) : ∀ (H : Hp K V) (lo hi : Option K) (n : Tr K (h + 1)),
    WF H (h + 1) lo hi n → gtLo lo k → leHi hi k → (leaves (h + 1) n).Nodup →
    (∀ i ∈ leaves (h + 1) n, i < H.fresh) → RemOk H lo hi k cond h n (remTr k cond h n H) := by
  induction h with
  | zero => intro H lo hi n hw hlo hhi hnd hlt; exact remLeafNode_spec hw hlo hhi hnd hlt
  | succ h ih =>
    intro H lo hi n hw hlo hhi hnd hlt
    obtain ⟨A, s, c, B, hat, hloc⟩ := locate_at hw.1 hw.2.2.2.1 k
    have hE := hat.eq
    have hA := hat.before.some
    have hw' := hw
    obtain ⟨w, hf, hdd, hu, hcov⟩ := hw'
    have hnd' := hnd
    have hlt' := hlt
    rw [leaves_succ, hE] at hnd' hlt'
    rw [hE] at hcov
    obtain ⟨g1, g2, g3, g4⟩ := sides_lt hcov hlo hhi (by rw [← hE]; exact hat)
    have hcw := (cov_focus.1 hcov).2.2.1
    have hnd2 : (leaves (h + 1) c).Nodup := by
      rw [leavesE_append, leavesE_cons] at hnd'
      exact (List.nodup_append.1 (List.nodup_append.1 hnd').2.1).1
    have hlt2 : ∀ i ∈ leaves (h + 1) c, i < H.fresh := fun i hi => hlt' i (by
      rw [leavesE_append, leavesE_cons]
      exact List.mem_append.2 (.inr (List.mem_append.2 (.inl hi))))
    have hrem := ih H _ _ c hcw g3 g4 hnd2 hlt2
    have hcont : cont H (h + 2) n = contE H (h + 1) A ++ cont H (h + 1) c ++ contE H (h + 1) B := by
      rw [cont_succ H (h + 1) n, hE, contE_append, contE_cons, List.append_assoc]
    -- the child stays
    have stay : ∀ (c' : Tr K (h + 1)) (H' : Hp K V) (xs : List (K × V)),
        Kept H (endLo lo A) (s.or hi) h c c' H' xs →
        Kept H lo hi (h + 1) n (n.set s c') H' (contE H (h + 1) A ++ xs ++ contE H (h + 1) B) := by
      intro c' H' xs hk
      obtain ⟨r1, r2, r3⟩ := cov_replace hcov hnd' hlt' hk.eff hk.wf
      obtain ⟨s1, s2, s3, s4, s5⟩ := ents_set w hE hA c'
      refine ⟨⟨s2, by rw [s3]; exact hf, by rw [s4]; exact hdd, s5 hu, by rw [s1]; exact r1⟩, ?_, ?_⟩
      · rw [cont_succ H' (h + 1) (n.set s c'), s1, r2, hk.cont]
      · rw [leaves_succ, leaves_succ (h + 1) (n.set s c'), s1, hE]; exact r3
    unfold RemOk
    rw [hcont, get_mid g1 g2, del_mid g1 g2]
    show (_ ∨ _ : Prop)
    rw [show remTr k cond (h + 1) n H = remNode (remTr k cond h) (cleanTr k (h + 1) false) k n H from rfl]
    unfold remNode
    simp only [hloc]
    rcases hx : remTr k cond h c H with ⟨c', H', r⟩
    rw [hx] at hrem
    rcases hrem with ⟨h1, h2, h3⟩ | ⟨h1, ⟨h2, h3⟩ | ⟨h2, h3, h4, h5⟩⟩
    · simp only [] at h1 h3
      subst h1
      exact .inl ⟨rfl, h2, stay _ _ _ h3⟩
    · simp only [] at h2 h3
      refine .inr ⟨h1, .inl ?_⟩
      rcases h2 with h2 | h2
      · subst h2
        exact ⟨.inl rfl, stay _ _ _ h3⟩
      · subst h2
        refine ⟨?_, stay _ _ _ h3⟩
        simp only []
        split
        · exact .inl rfl
        · exact .inr rfl
    · simp only [] at h2 h3 h5
      subst h2
      simp only []
      refine .inr ⟨h1, ?_⟩
      rw [h4, List.append_nil]
      rcases coalesce_spec hw hnd hlt hE h3 h5 with ⟨a1, a2⟩ | ⟨a1, a2, a3, a4⟩
      · exact .inl ⟨.inr a1, a2⟩
      · refine .inr ⟨a1, a2, by rw [a3, a4]; rfl, ?_⟩
        have : Eff H H' (leavesE (h + 1) (A ++ (s, c) :: B)) (leavesE (h + 1) A ++ [] ++ leavesE (h + 1) B) := by
          have hle : leavesE (h + 1) (A ++ (s, c) :: B) =
              leavesE (h + 1) A ++ leaves (h + 1) c ++ leavesE (h + 1) B := by
            rw [leavesE_append, leavesE_cons, List.append_assoc]
          rw [hle] at hnd' hlt' ⊢
          exact h5.embed (X := leavesE (h + 1) A) (Y := leavesE (h + 1) B) hnd' hlt'
        rw [leaves_succ, hE]
        rw [a3, a4] at this ⊢
        exact this

/-- Unneeded roots are taken off. -/
theorem cleanupRoot_wf {H : Hp K V} (h : Nat) : ∀ (n : Tr K (h + 1)), WF H (h + 1) none none n →
    ∃ h' n', cleanupRoot h n = some ⟨h', n'⟩ ∧ WF H (h' + 1) none none n' ∧
      leaves (h' + 1) n' = leaves (h + 1) n := by
  induction h with
  | zero =>
    intro n hw
    refine ⟨0, n, ?_, hw, rfl⟩
    unfold cleanupRoot
    rw [if_neg (by rw [hw.2.2.1]; simp)]
  | succ h ih =>
    intro n hw
    unfold cleanupRoot
    rw [if_neg (by rw [hw.2.2.1]; simp)]
    split
    · rename_i he
      rw [hw.1.isEmpty, List.isEmpty_iff] at he
      obtain ⟨u, hu⟩ := Option.isSome_iff_exists.1 hw.2.2.2.1
      rw [hu]
      have hE : ents n = [(none, u)] := by unfold ents; rw [he, hu]; rfl
      have hc := hw.2.2.2.2
      rw [hE] at hc
      obtain ⟨h', n', h1, h2, h3⟩ := ih u hc.1
      refine ⟨h', n', h1, h2, ?_⟩
      rw [h3, leaves_succ (h + 1) n, hE, leavesE_cons, leavesE_nil, List.append_nil]
    · exact ⟨h + 1, n, rfl, hw, rfl⟩

theorem cleanupRoot_dead (h : Nat) (n : Tr K (h + 1)) (hd : Nd.dead n = true) : cleanupRoot h n = none := by
  cases h with
  | zero => unfold cleanupRoot; rw [if_pos hd]
  | succ h => unfold cleanupRoot; rw [if_pos hd]

end Scc.Tree
