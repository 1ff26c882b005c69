import Verif.Weak.Steps

/-!
# Each step of a thread that has a bucket locked keeps the invariant (2)
-/

namespace Scc.Weak

variable {H : Nat → Nat} {md : Bool}

section
variable {s : St} {t b i e : Nat} (h : Inv H md s)

include h

theorem Inv.insOcc {k : Option (Nat × Nat)} (hp : s.ph t = .insOcc b i e k) :
    Inv H md { (s.write t ⟨b, .occ⟩ (.bits (fun x => x == i || (s.now ⟨b, .occ⟩).bit x)) true).phase t
          (.insLen b i e k) with
        g := { s.g with sl := upd2 s.g.sl b i .used, born := upd2 s.g.born b i (s.cnt ⟨b, .occ⟩ + 1) } } := by
  have P := h.ph t
  rw [hp] at P
  obtain ⟨o, sw, dt, fr, hd, hh⟩ := P
  have q := h.slot b i
  have ff : (s.g.sl b i).full = false := by rw [sw]; rfl
  have nc : i ∉ s.g.counted b := not_counted h (by rw [sw]; decide) (by rw [sw]; decide)
  have us : upd2 s.g.sl b i .used b i = .used := upd2_same ..
  refine h.write (d := s.dead) o (fun c j hc => by rw [hp] at hc; exact hc.1.symm)
    (fun c j hc => ⟨upd2_ne (fun w => hc w.1), upd2_ne (fun w => hc w.1), rfl, rfl, rfl, rfl, rfl, rfl, rfl⟩)
    (fun _ _ => rfl) (fun _ _ => rfl) (fun _ => id) (fun j => ?_) ⟨o, us, nc, ?_, ?_, hd⟩ (fun u j w k h1 h2 h3 h4 => ?_)
    (fun u j w k h1 h2 h3 h4 h5 => ?_) (fun u w hu j => h.act u w hu b j) ?_
  · by_cases ej : j = i
    · subst ej
      have c : ∀ f' v, f' ≠ Field.occ → (s.write t ⟨b, .occ⟩ v true).cnt ⟨b, f'⟩ = s.cnt ⟨b, f'⟩ :=
        fun f' v h' => write_cnt_ne (fld_ne h')
      have m : ∀ f' v, f' ≠ Field.occ → (s.write t ⟨b, .occ⟩ v true).msg ⟨b, f'⟩ = s.msg ⟨b, f'⟩ :=
        fun f' v h' => write_msg_ne (fld_ne h')
      have w : ∀ f' v, f' ≠ Field.occ → (s.write t ⟨b, .occ⟩ v true).now ⟨b, f'⟩ = s.now ⟨b, f'⟩ :=
        fun f' v h' => write_now_ne (fld_ne h')
      refine SlotOk.of (s := s) rfl rfl ?_ ?_ ?_ (fun c => absurd c nc) ?_ ?_ ?_ (fun _ => ⟨o, rfl, rfl⟩) (fun T hT => away_write h o _ _ hT)
      · show OccOk _ _ (upd2 s.g.sl b j .used b j) _ (upd2 s.g.born b j _ b j) _ _ _ _ _ _ _
        rw [us, upd2_same, write_cnt, write_msg, c _ _ (by simp), c _ _ (by simp)]
        refine q.occ.push_born ff ?_ (new_view h o (by simp) rfl) (new_view h o (by simp) rfl)
        show (j == j || _) = true
        simp
      · show RemOk _ _ (upd2 s.g.sl b j .used b j) _ _ _ _ _ _
        rw [us, c .rem _ (by simp), m .rem _ (by simp)]
        exact q.rem.calm (by rw [sw]; decide) (by rw [sw]; decide) (by decide) (by decide)
      · show LenOk _ _ _ (upd2 s.g.sl b j .used b j) _ _ _ _
        rw [us, c .len _ (by simp), m .len _ (by simp)]
        exact q.len.calm (by decide) _
      · show upd2 s.g.sl b j .used b j = .moved → _
        rw [us]; intro x; cases x
      · intro _
        rw [w _ _ (by simp)]; exact ⟨e, dt⟩
      · intro _ _ e' he
        rw [w _ _ (by simp)] at he ⊢
        rw [dt] at he
        injection he with he
        subst he
        exact hh
    · refine other_occ h o ⟨upd2_ne (fun w => ej w.2), upd2_ne (fun w => ej w.2), rfl, rfl, rfl, rfl, rfl, rfl, rfl⟩ rfl id
        (at_rest h o (by rw [hp]; exact fun w => ej w.2.symm)) ?_
      show (j == i || _) = _
      have : (j == i) = false := by simpa using ej
      rw [this]; rfl
  · exact (congrArg Val.entry (write_now_ne (fld_ne (by simp)))).trans dt
  · exact fr.frame fun b' i' nb ob => ⟨ob, upd2_ne (fun w => nb w.1), rfl, rfl, write_now_ne (loc_ne nb)⟩
  · show upd2 s.g.sl b i .used b j ≠ .recycling ∧ _ ∧ (upd2 s.g.sl b i .used b j = .marked → _)
    by_cases ej : j = i
    · subst ej
      rw [upd2_same]
      exact ⟨by decide, h4.2.1, (fun x => by cases x)⟩
    · rw [upd2_ne (fun w => ej w.2)]; exact h4
  · show (upd2 s.g.sl b i .used b j).full = true ∧ _ ∧ (upd2 s.g.sl b i .used b j = .marked → _)
    have ej : j ≠ i := by rintro rfl; rw [ff] at h4; cases h4
    rw [upd2_ne (fun w => ej w.2)]
    exact ⟨h4, by simp, h5⟩
  · rw [write_now_ne (fld_ne (by simp))]; exact h.cs b

theorem Inv.insLen {k : Option (Nat × Nat)} (hp : s.ph t = .insLen b i e k) :
    Inv H md { (s.write t ⟨b, .len⟩ (.num ((s.now ⟨b, .len⟩).n + 1)) md).phase t
          (.after b i k) with
        g := { s.g with lenIx := upd2 s.g.lenIx b i (s.cnt ⟨b, .len⟩ + 1),
                        counted := upd s.g.counted b (i :: s.g.counted b) } } := by
  have P := h.ph t
  rw [hp] at P
  obtain ⟨o, us, nc, dt, fr, hd⟩ := P
  have q := h.slot b i
  have cb : upd s.g.counted b (i :: s.g.counted b) b = i :: s.g.counted b := upd_same ..
  refine h.write (d := s.dead) o (fun c j hc => by rw [hp] at hc; exact hc.1.symm)
    (fun c j hc => ⟨rfl, rfl, rfl, rfl, rfl, rfl, upd2_ne (fun w => hc w.1), rfl, rfl⟩)
    (fun c hc => upd_ne hc) (fun _ _ => rfl) (fun _ => id) (fun j => ?_) ?_ (fun u j w k h1 h2 h3 h4 => h4)
    (fun u j w k h1 h2 h3 h4 h5 => ⟨h4, by simp, h5⟩) (fun u w hu j => h.act u w hu b j) ?_
  · by_cases ej : j = i
    · subst ej
      have c : ∀ f' v, f' ≠ Field.len → (s.write t ⟨b, .len⟩ v md).cnt ⟨b, f'⟩ = s.cnt ⟨b, f'⟩ :=
        fun f' v h' => write_cnt_ne (fld_ne h')
      have m : ∀ f' v, f' ≠ Field.len → (s.write t ⟨b, .len⟩ v md).msg ⟨b, f'⟩ = s.msg ⟨b, f'⟩ :=
        fun f' v h' => write_msg_ne (fld_ne h')
      have w : ∀ f' v, f' ≠ Field.len → (s.write t ⟨b, .len⟩ v md).now ⟨b, f'⟩ = s.now ⟨b, f'⟩ :=
        fun f' v h' => write_now_ne (fld_ne h')
      refine SlotOk.of (s := s) rfl rfl ?_ ?_ ?_ (fun _ => ⟨.inl us, hd⟩) ?_ ?_ ?_ ?_ (fun T hT => away_write h o _ _ hT)
      · rw [c _ _ (by simp), c _ _ (by simp), c _ _ (by simp), m _ _ (by simp)]
        exact q.occ
      · rw [c .rem _ (by simp), m .rem _ (by simp)]
        exact q.rem
      · show LenOk _ _ _ _ (upd2 s.g.lenIx b j _ b j) _ (upd s.g.counted b _ b) _
        rw [upd2_same, cb, write_cnt, write_msg]
        exact LenOk.push_in (List.mem_cons_self) (Nat.succ_ne_zero _)
      · intro x; rw [show s.g.sl b j = .moved from x] at us; cases us
      · rw [w _ _ (by simp)]; exact q.data
      · rw [w _ _ (by simp), w _ _ (by simp)]; exact q.hash
      · intro x
        have x : s.g.sl b j = .writing ∨ s.g.sl b j = .recycling ∨
          (s.g.sl b j = .used ∧ j ∉ upd s.g.counted b (j :: s.g.counted b) b) := x
        rw [us, cb] at x
        rcases x with x | x | x
        · cases x
        · cases x
        · exact absurd List.mem_cons_self x.2
    · refine other_len h o ⟨rfl, rfl, rfl, rfl, rfl, rfl, upd2_ne (fun w => ej w.2), rfl, rfl⟩ ?_ id
        (at_rest h o (by rw [hp]; exact fun w => ej w.2.symm)) (fun _ => Nat.succ_ne_zero _)
      show j ∈ upd s.g.counted b (i :: s.g.counted b) b ↔ _
      rw [cb, List.mem_cons]
      exact ⟨fun x => x.resolve_left ej, .inr⟩
  · cases k with
    | none => trivial
    | some k =>
      obtain ⟨b', i'⟩ := k
      obtain ⟨h1, h2, h3, h4, h5, h6⟩ := fr b' i' rfl
      refine ⟨h1, o, h2, h3, ?_, h5, us, ?_⟩
      · show i' ∈ upd s.g.counted b _ b'
        rw [upd_ne h2]; exact h4
      · show i ∈ upd s.g.counted b _ b
        rw [cb]; exact List.mem_cons_self
  · show (upd s.g.counted b _ b).Nodup ∧ _ = (upd s.g.counted b _ b).length
    rw [cb, write_now]
    refine ⟨List.nodup_cons.2 ⟨nc, (h.cs b).1⟩, ?_⟩
    show (s.now ⟨b, .len⟩).n + 1 = _
    rw [(h.cs b).2]; rfl

theorem Inv.out {c j : Nat} (hp : s.ph t = .out b i c j) :
    Inv H md { (s.write t ⟨b, .occ⟩ (.bits (fun x => !(x == i) && (s.now ⟨b, .occ⟩).bit x)) true).phase t
          (.outLen b i) with
        g := { s.g with sl := upd2 s.g.sl b i .moved,
                        tgt := upd2 s.g.tgt b i (some ⟨c, j, s.g.born c j, s.g.lenIx c j, s.g.rc c j⟩) } } := by
  have P := h.ph t
  rw [hp] at P
  obtain ⟨o, oc, nbc, us, ct, dd, uc, cc⟩ := P
  have q := h.slot b i
  have qc := h.slot c j
  have mv : upd2 s.g.sl b i .moved b i = .moved := upd2_same ..
  have le : Tgt.le ⟨c, j, s.g.born c j, s.g.lenIx c j, s.g.rc c j⟩ (s.view t) := by
    refine ⟨?_, ?_, ?_⟩
    · show _ ≤ s.view t ⟨c, .occ⟩
      rw [seen h oc .occ rfl]; exact qc.occ.born_le (by rw [uc]; rfl)
    · show _ ≤ s.view t ⟨c, .len⟩
      rw [seen h oc .len rfl]; exact qc.len.le cc
    · show _ ≤ s.view t ⟨c, .rem⟩
      rw [seen h oc .rem rfl]; exact qc.rem.rc_le
  refine h.write (d := s.dead) o (fun c j hc => by rw [hp] at hc; exact hc.elim)
    (fun c j hc => ⟨upd2_ne (fun w => hc w.1), rfl, rfl, rfl, rfl, rfl, rfl, upd2_ne (fun w => hc w.1), rfl⟩)
    (fun _ _ => rfl) (fun _ _ => rfl) (fun _ => id) (fun j' => ?_) ⟨o, mv, ct⟩ (fun u j w k h1 h2 h3 h4 => ?_)
    (fun u j w k h1 h2 h3 h4 h5 => ?_) (fun u w hu j => h.act u w hu b j) ?_
  · by_cases ej : j' = i
    · subst ej
      have c : ∀ f' v, f' ≠ Field.occ → (s.write t ⟨b, .occ⟩ v true).cnt ⟨b, f'⟩ = s.cnt ⟨b, f'⟩ :=
        fun f' v h' => write_cnt_ne (fld_ne h')
      have m : ∀ f' v, f' ≠ Field.occ → (s.write t ⟨b, .occ⟩ v true).msg ⟨b, f'⟩ = s.msg ⟨b, f'⟩ :=
        fun f' v h' => write_msg_ne (fld_ne h')
      have w : ∀ f' v, f' ≠ Field.occ → (s.write t ⟨b, .occ⟩ v true).now ⟨b, f'⟩ = s.now ⟨b, f'⟩ :=
        fun f' v h' => write_now_ne (fld_ne h')
      refine SlotOk.of (s := s) rfl rfl ?_ ?_ ?_ (fun _ => ⟨.inr mv, (q.ctd ct).2⟩) (fun _ => ⟨dd, (q.ctd ct).2⟩) ?_ ?_ ?_ ?_
      · show OccOk _ _ (upd2 s.g.sl b j' .moved b j') _ _ _ _ _ _ _ _ (upd2 s.g.tgt b j' _ b j')
        rw [mv, upd2_same, write_cnt, write_msg, c _ _ (by simp), c _ _ (by simp)]
        have q' := q.occ
        rw [us] at q'
        refine q'.push_out ?_ (new_view h o (by simp) rfl) (new_view h o (by simp) rfl) ?_
        · show (!(j' == j') && _) = false
          simp
        · refine le.mono fun l => ?_
          show s.view t l ≤ upd (s.view t) _ _ l
          by_cases e : l = ⟨b, .occ⟩
          · subst e; rw [upd_same]; exact Nat.le_succ_of_le (h.v.vle _ _)
          · rw [upd_ne e]; exact Nat.le_refl _
      · show RemOk _ _ (upd2 s.g.sl b j' .moved b j') _ _ _ _ _ _
        rw [mv, c .rem _ (by simp), m .rem _ (by simp)]
        exact q.rem.calm (by rw [us]; decide) (by rw [us]; decide) (by decide) (by decide)
      · show LenOk _ _ _ (upd2 s.g.sl b j' .moved b j') _ _ _ _
        rw [c .len _ (by simp), m .len _ (by simp)]
        exact q.len.keep ct _
      · intro _
        rw [w _ _ (by simp)]; exact q.data (by rw [us]; rfl)
      · intro _ hh
        rw [w _ _ (by simp), w _ _ (by simp)]
        exact q.hash (by rw [us]; rfl) hh
      · intro x
        have x : upd2 s.g.sl b j' .moved b j' = .writing ∨ upd2 s.g.sl b j' .moved b j' = .recycling ∨
          (upd2 s.g.sl b j' .moved b j' = .used ∧ _) := x
        rw [mv] at x
        rcases x with x | x | x
        · cases x
        · cases x
        · cases x.1
      · intro T hT
        have hT : upd2 s.g.tgt b j' _ b j' = some T := hT
        rw [upd2_same] at hT
        injection hT with hT
        subst hT
        refine ⟨fun u hu => ?_, fun x => by rw [o] at x; cases x⟩
        rw [o] at hu
        injection hu with hu
        subst hu
        exact le.mono (write_grow h.v t)
    · refine other_occ h o ⟨upd2_ne (fun w => ej w.2), rfl, rfl, rfl, rfl, rfl, rfl, upd2_ne (fun w => ej w.2), rfl⟩ rfl id
        (at_rest h o (by rw [hp]; exact id)) ?_
      show (!(j' == i) && _) = _
      have : (j' == i) = false := by simpa using ej
      rw [this]; rfl
  · show upd2 s.g.sl b i .moved b j ≠ .recycling ∧ _ ∧ (upd2 s.g.sl b i .moved b j = .marked → _)
    by_cases ej : j = i
    · subst ej
      rw [upd2_same]
      exact ⟨by decide, h4.2.1, (fun x => by cases x)⟩
    · rw [upd2_ne (fun w => ej w.2)]; exact h4
  · show (upd2 s.g.sl b i .moved b j).full = true ∧ _ ∧ (upd2 s.g.sl b i .moved b j = .marked → _)
    by_cases ej : j = i
    · subst ej
      rw [upd2_same]
      exact ⟨rfl, by simp, (fun x => by cases x)⟩
    · rw [upd2_ne (fun w => ej w.2)]
      exact ⟨h4, by simp, h5⟩
  · rw [write_now_ne (fld_ne (by simp))]; exact h.cs b

/-- The slots that stay counted. -/
theorem erase_pos {j : Nat} (c : i ∈ s.g.counted b) (c' : j ∈ s.g.counted b) (ej : j ≠ i) : (s.now ⟨b, .len⟩).n - 1 ≠ 0 := by
  rw [(h.cs b).2]
  have m : j ∈ (s.g.counted b).erase i := ((h.cs b).1.mem_erase_iff).2 ⟨ej, c'⟩
  have := List.length_erase_of_mem c
  have : 0 < ((s.g.counted b).erase i).length := List.length_pos_of_mem m
  omega

theorem Inv.outLen (hp : s.ph t = .outLen b i) :
    Inv H md { (s.write t ⟨b, .len⟩ (.num ((s.now ⟨b, .len⟩).n - 1)) md).phase t .idle with
        g := { s.g with counted := upd s.g.counted b ((s.g.counted b).erase i) } } := by
  have P := h.ph t
  rw [hp] at P
  obtain ⟨o, mv, ct⟩ := P
  have q := h.slot b i
  have cb : upd s.g.counted b ((s.g.counted b).erase i) b = (s.g.counted b).erase i := upd_same ..
  have ni : i ∉ (s.g.counted b).erase i := fun x => (((h.cs b).1.mem_erase_iff).1 x).1 rfl
  refine h.write (d := s.dead) o (fun c j hc => by rw [hp] at hc; exact hc.elim)
    (fun c j hc => ⟨rfl, rfl, rfl, rfl, rfl, rfl, rfl, rfl, rfl⟩)
    (fun c hc => upd_ne hc) (fun _ _ => rfl) (fun _ => id) (fun j => ?_) trivial (fun u j w k h1 h2 h3 h4 => h4)
    (fun u j w k h1 h2 h3 h4 h5 => ⟨h4, by simp, h5⟩) (fun u w hu j => h.act u w hu b j) ?_
  · by_cases ej : j = i
    · subst ej
      have c : ∀ f' v, f' ≠ Field.len → (s.write t ⟨b, .len⟩ v md).cnt ⟨b, f'⟩ = s.cnt ⟨b, f'⟩ :=
        fun f' v h' => write_cnt_ne (fld_ne h')
      have m : ∀ f' v, f' ≠ Field.len → (s.write t ⟨b, .len⟩ v md).msg ⟨b, f'⟩ = s.msg ⟨b, f'⟩ :=
        fun f' v h' => write_msg_ne (fld_ne h')
      have w : ∀ f' v, f' ≠ Field.len → (s.write t ⟨b, .len⟩ v md).now ⟨b, f'⟩ = s.now ⟨b, f'⟩ :=
        fun f' v h' => write_now_ne (fld_ne h')
      refine SlotOk.of (s := s) rfl rfl ?_ ?_ ?_ (fun x => absurd (cb ▸ x) ni) q.mvd ?_ ?_ ?_ (fun T hT => away_write h o _ _ hT)
      · rw [c _ _ (by simp), c _ _ (by simp), c _ _ (by simp), m _ _ (by simp)]
        exact q.occ
      · rw [c .rem _ (by simp), m .rem _ (by simp)]
        exact q.rem
      · show LenOk _ _ _ _ _ _ (upd s.g.counted b _ b) _
        rw [cb, write_cnt, write_msg]
        refine q.len.push_gone ct ni (fun e T hT => ?_)
        subst e
        exact new_tgt h o hT
      · rw [w _ _ (by simp)]; exact q.data
      · rw [w _ _ (by simp), w _ _ (by simp)]; exact q.hash
      · intro x
        have x : s.g.sl b j = .writing ∨ s.g.sl b j = .recycling ∨ (s.g.sl b j = .used ∧ _) := x
        rw [mv] at x
        rcases x with x | x | x
        · cases x
        · cases x
        · cases x.1
    · refine other_len h o ⟨rfl, rfl, rfl, rfl, rfl, rfl, rfl, rfl, rfl⟩ ?_ id
        (at_rest h o (by rw [hp]; exact id)) (fun cj => erase_pos h ct cj ej)
      show j ∈ upd s.g.counted b ((s.g.counted b).erase i) b ↔ _
      rw [cb, (h.cs b).1.mem_erase_iff]
      exact ⟨fun x => x.2, fun x => ⟨ej, x⟩⟩
  · show (upd s.g.counted b _ b).Nodup ∧ _ = (upd s.g.counted b _ b).length
    rw [cb, write_now]
    refine ⟨(h.cs b).1.erase _, ?_⟩
    show (s.now ⟨b, .len⟩).n - 1 = _
    rw [(h.cs b).2, List.length_erase_of_mem ct]

theorem Inv.mark (o : s.own b = some t) (hp : s.ph t = .idle) (hd : s.dead b = false)
    (hb : (s.now ⟨b, .occ⟩).bit i = true) (hr : (s.now ⟨b, .rem⟩).bit i = false) :
    Inv H md { (s.write t ⟨b, .len⟩ (.num ((s.now ⟨b, .len⟩).n - 1)) md).phase t (.mkHash b i) with
        g := { s.g with counted := upd s.g.counted b ((s.g.counted b).erase i) } } := by
  obtain ⟨us, ct⟩ := is_used h o hp hb hr
  have q := h.slot b i
  have cb : upd s.g.counted b ((s.g.counted b).erase i) b = (s.g.counted b).erase i := upd_same ..
  have ni : i ∉ (s.g.counted b).erase i := fun x => (((h.cs b).1.mem_erase_iff).1 x).1 rfl
  refine h.write (d := s.dead) o (fun c j hc => by rw [hp] at hc; exact hc.elim)
    (fun c j hc => ⟨rfl, rfl, rfl, rfl, rfl, rfl, rfl, rfl, rfl⟩)
    (fun c hc => upd_ne hc) (fun _ _ => rfl) (fun _ => id) (fun j => ?_) ⟨o, us, fun x => ni (cb ▸ x), hd⟩ (fun u j w k h1 h2 h3 h4 => h4)
    (fun u j w k h1 h2 h3 h4 h5 => ⟨h4, by simp, h5⟩) (fun u w hu j => h.act u w hu b j) ?_
  · by_cases ej : j = i
    · subst ej
      have c : ∀ f' v, f' ≠ Field.len → (s.write t ⟨b, .len⟩ v md).cnt ⟨b, f'⟩ = s.cnt ⟨b, f'⟩ :=
        fun f' v h' => write_cnt_ne (fld_ne h')
      have m : ∀ f' v, f' ≠ Field.len → (s.write t ⟨b, .len⟩ v md).msg ⟨b, f'⟩ = s.msg ⟨b, f'⟩ :=
        fun f' v h' => write_msg_ne (fld_ne h')
      have w : ∀ f' v, f' ≠ Field.len → (s.write t ⟨b, .len⟩ v md).now ⟨b, f'⟩ = s.now ⟨b, f'⟩ :=
        fun f' v h' => write_now_ne (fld_ne h')
      refine SlotOk.of (s := s) rfl rfl ?_ ?_ ?_ (fun x => absurd (cb ▸ x) ni) q.mvd ?_ ?_ (fun _ => ⟨o, rfl, rfl⟩) (fun T hT => away_write h o _ _ hT)
      · rw [c _ _ (by simp), c _ _ (by simp), c _ _ (by simp), m _ _ (by simp)]
        exact q.occ
      · rw [c .rem _ (by simp), m .rem _ (by simp)]
        exact q.rem
      · show LenOk _ _ _ _ _ _ (upd s.g.counted b _ b) _
        rw [cb, write_cnt, write_msg]
        refine q.len.push_gone ct ni (fun e T hT => ?_)
        subst e
        exact new_tgt h o hT
      · rw [w _ _ (by simp)]; exact q.data
      · rw [w _ _ (by simp), w _ _ (by simp)]; exact q.hash
    · refine other_len h o ⟨rfl, rfl, rfl, rfl, rfl, rfl, rfl, rfl, rfl⟩ ?_ id
        (at_rest h o (by rw [hp]; exact id)) (fun cj => erase_pos h ct cj ej)
      show j ∈ upd s.g.counted b ((s.g.counted b).erase i) b ↔ _
      rw [cb, (h.cs b).1.mem_erase_iff]
      exact ⟨fun x => x.2, fun x => ⟨ej, x⟩⟩
  · show (upd s.g.counted b _ b).Nodup ∧ _ = (upd s.g.counted b _ b).length
    rw [cb, write_now]
    refine ⟨(h.cs b).1.erase _, ?_⟩
    show (s.now ⟨b, .len⟩).n - 1 = _
    rw [(h.cs b).2, List.length_erase_of_mem ct]

end

end Scc.Weak
