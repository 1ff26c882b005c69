import Verif.Weak.Writer

/-!
# Each step of a thread that has a bucket locked keeps the invariant
-/

namespace Scc.Weak

variable {H : Nat → Nat} {md : Bool}

theorem SlotOk.of {s w : St} {t b i : Nat} {p : Phase} {d : Nat → Bool} {g : Ghost} (hw : w.own = s.own) (hl : w.lockView = s.lockView)
    (occ : OccOk (w.cnt ⟨b, .occ⟩) (w.msg ⟨b, .occ⟩) (g.sl b i) (g.oc b i) (g.born b i) i ⟨b, .data i⟩ ⟨b, .hash i⟩
      (w.cnt ⟨b, .data i⟩) (w.cnt ⟨b, .hash i⟩) (g.hashed b i) (g.tgt b i))
    (rem : RemOk (w.cnt ⟨b, .rem⟩) (w.msg ⟨b, .rem⟩) (g.sl b i) (g.oc b i) (g.rc b i) (g.floor b i) (g.mark b i) i ⟨b, .occ⟩)
    (len : LenOk md (w.cnt ⟨b, .len⟩) (w.msg ⟨b, .len⟩) (g.sl b i) (g.lenIx b i) i (g.counted b) (g.tgt b i))
    (ctd : i ∈ g.counted b → (g.sl b i = .used ∨ g.sl b i = .moved) ∧ g.hashed b i = true)
    (mvd : g.sl b i = .moved → d b = true ∧ g.hashed b i = true)
    (data : (g.sl b i).full = true → ∃ e, (w.now ⟨b, .data i⟩).entry = some e)
    (hash : (g.sl b i).full = true → g.hashed b i = true →
      ∀ e, (w.now ⟨b, .data i⟩).entry = some e → (w.now ⟨b, .hash i⟩).n = H e)
    (busy : (g.sl b i = .writing ∨ g.sl b i = .recycling ∨ (g.sl b i = .used ∧ i ∉ g.counted b)) →
      s.own b = some t ∧ p.touch b i)
    (away : ∀ T, g.tgt b i = some T → (∀ u, s.own b = some u → T.le (w.view u)) ∧ (s.own b = none → T.le (s.lockView b))) :
    SlotOk H md { w.phase t p with dead := d, g := g } b i := by
  refine ⟨occ, rem, len, ctd, mvd, data, hash, fun u => ⟨t, ?_, ?_⟩, ?_⟩
  · show w.own b = some t
    rw [hw]; exact (busy u).1
  · show (upd w.ph t p t).touch b i
    rw [upd_same]; exact (busy u).2
  · show ∀ T, g.tgt b i = some T → (∀ u, w.own b = some u → T.le (w.view u)) ∧ (w.own b = none → T.le (w.lockView b))
    rw [hw, hl]; exact away

theorem From.frame {s s' : St} {t b e : Nat} {k : Option (Nat × Nat)} (h : From s t b e k)
    (hs : ∀ b' i', b' ≠ b → s.own b' = some t → s'.own b' = some t ∧ s'.g.sl b' i' = s.g.sl b' i' ∧
      s'.g.counted b' = s.g.counted b' ∧ s'.dead b' = s.dead b' ∧ s'.now ⟨b', .data i'⟩ = s.now ⟨b', .data i'⟩) :
    From s' t b e k := by
  intro b' i' hk
  obtain ⟨h1, h2, h3, h4, h5, h6⟩ := h b' i' hk
  obtain ⟨g1, g2, g3, g4, g5⟩ := hs b' i' h2 h1
  exact ⟨g1, h2, by rw [g2]; exact h3, by rw [g3]; exact h4, by rw [g4]; exact h5, by rw [g5]; exact h6⟩

section
variable {s : St} {t b i e : Nat} (h : Inv H md s)

include h

/-- A slot without its bit that is at rest, in a bucket that is not being emptied, is free. -/
theorem is_free (o : s.own b = some t) (hp : s.ph t = .idle) (hd : s.dead b = false)
    (hb : (s.now ⟨b, .occ⟩).bit i = false) : s.g.sl b i = .free := by
  have r := at_rest h o (i := i) (by rw [hp]; exact id)
  have q := h.slot b i
  cases e : s.g.sl b i with
  | free => rfl
  | writing => exact absurd (.inl e) r
  | recycling => exact absurd (.inr (.inl e)) r
  | moved => have := (q.mvd e).1; rw [hd] at this; cases this
  | used =>
    have := q.occ.set (.inl e) _ (q.occ.born_le (by rw [e]; rfl)) (Nat.le_refl _)
    rw [show (s.msg ⟨b, .occ⟩ (s.cnt ⟨b, .occ⟩)).val.bit i = false from hb] at this
    cases this
  | marked =>
    have := q.occ.set (.inr e) _ (q.occ.born_le (by rw [e]; rfl)) (Nat.le_refl _)
    rw [show (s.msg ⟨b, .occ⟩ (s.cnt ⟨b, .occ⟩)).val.bit i = false from hb] at this
    cases this

/-- A slot with its bit that is at rest and not marked is in use. -/
theorem is_used (o : s.own b = some t) (hp : s.ph t = .idle)
    (hb : (s.now ⟨b, .occ⟩).bit i = true) (hr : (s.now ⟨b, .rem⟩).bit i = false) :
    s.g.sl b i = .used ∧ i ∈ s.g.counted b := by
  have r := at_rest h o (i := i) (by rw [hp]; exact id)
  have q := h.slot b i
  have us : s.g.sl b i = .used := by
    by_cases e1 : s.g.sl b i = .used
    · exact e1
    · by_cases e2 : s.g.sl b i = .marked
      · have := q.rem.marked e2 _ (q.rem.mark_le e2) (Nat.le_refl _)
        rw [show (s.msg ⟨b, .rem⟩ (s.cnt ⟨b, .rem⟩)).val.bit i = false from hr] at this
        cases this
      · have := q.occ.unset e1 e2
        rw [show (s.msg ⟨b, .occ⟩ (s.cnt ⟨b, .occ⟩)).val.bit i = true from hb] at this
        cases this
  refine ⟨us, ?_⟩
  by_cases c : i ∈ s.g.counted b
  · exact c
  · exact absurd (.inr (.inr ⟨us, c⟩)) r

theorem is_marked (o : s.own b = some t) (hp : s.ph t = .idle) (hr : (s.now ⟨b, .rem⟩).bit i = true) :
    s.g.sl b i = .marked := by
  have r := at_rest h o (i := i) (by rw [hp]; exact id)
  have q := h.slot b i
  by_cases e1 : s.g.sl b i = .marked
  · exact e1
  · by_cases e2 : s.g.sl b i = .recycling
    · exact absurd (.inr (.inl e2)) r
    · have := q.rem.clear e1 e2 _ q.rem.rc_le (Nat.le_refl _)
      rw [show (s.msg ⟨b, .rem⟩ (s.cnt ⟨b, .rem⟩)).val.bit i = true from hr] at this
      cases this

theorem not_counted (f : s.g.sl b i ≠ .used) (g : s.g.sl b i ≠ .moved) : i ∉ s.g.counted b := by
  intro c
  rcases ((h.slot b i).ctd c).1 with e | e
  · exact f e
  · exact g e

/-- Writing the entry. -/
theorem Inv.data (o : s.own b = some t) (hp : s.ph t = .idle) (hd : s.dead b = false)
    (hb : (s.now ⟨b, .occ⟩).bit i = false) {k : Option (Nat × Nat)} {d : Nat → Bool}
    (hk : From { (s.write t ⟨b, .data i⟩ (.pair (some e)) false).phase t (.insHash b i e k) with
        dead := d, g := { s.g with sl := upd2 s.g.sl b i .writing } } t b e k)
    (hd1 : ∀ c, s.own c ≠ some t → d c = s.dead c) (hd2 : ∀ c, s.dead c = true → d c = true) :
    Inv H md { (s.write t ⟨b, .data i⟩ (.pair (some e)) false).phase t (.insHash b i e k) with
        dead := d, g := { s.g with sl := upd2 s.g.sl b i .writing } } := by
  have fr := is_free h o hp hd hb
  have nc : i ∉ s.g.counted b := not_counted h (by rw [fr]; decide) (by rw [fr]; decide)
  have q := h.slot b i
  have ff : (s.g.sl b i).full = false := by rw [fr]; rfl
  refine h.write o (fun c j hc => by rw [hp] at hc; exact hc.elim) (fun c j hc => ⟨upd2_ne (fun w => hc w.1), rfl, rfl, rfl, rfl, rfl, rfl, rfl, rfl⟩)
    (fun _ _ => rfl) hd1 hd2 (fun j => ?_) ⟨o, upd2_same .., congrArg Val.entry write_now, hk⟩ (fun u j w k h1 h2 h3 h4 => ?_)
    (fun u j w k h1 h2 h3 h4 h5 => ?_) (fun u w hu j => h.act u w hu b j) ?_
  · by_cases ej : j = i
    · subst ej
      have c : ∀ f', f' ≠ Field.data j → (s.write t ⟨b, .data j⟩ (.pair (some e)) false).cnt ⟨b, f'⟩ = s.cnt ⟨b, f'⟩ :=
        fun f' h' => write_cnt_ne (fld_ne h')
      have m : ∀ f', f' ≠ Field.data j → (s.write t ⟨b, .data j⟩ (.pair (some e)) false).msg ⟨b, f'⟩ = s.msg ⟨b, f'⟩ :=
        fun f' h' => write_msg_ne (fld_ne h')
      have us : upd2 s.g.sl b j .writing b j = .writing := upd2_same ..
      refine SlotOk.of (s := s) rfl rfl ?_ ?_ ?_ (fun c => absurd c nc) ?_ ?_ ?_ (fun _ => ⟨o, rfl, rfl⟩) (fun T hT => away_write h o _ _ hT)
      · show OccOk _ _ (upd2 s.g.sl b j .writing b j) _ _ _ _ _ _ _ _ _
        rw [us, c .occ (by simp), m .occ (by simp)]
        exact q.occ.calm ff rfl _ _ _
      · show RemOk _ _ (upd2 s.g.sl b j .writing b j) _ _ _ _ _ _
        rw [us, c .rem (by simp), m .rem (by simp)]
        exact q.rem.calm (by rw [fr]; decide) (by rw [fr]; decide) (by decide) (by decide)
      · show LenOk _ _ _ (upd2 s.g.sl b j .writing b j) _ _ _ _
        rw [us, c .len (by simp), m .len (by simp)]
        exact q.len.calm (by decide) _
      · show upd2 s.g.sl b j .writing b j = .moved → _
        rw [us]; intro x; cases x
      · show (upd2 s.g.sl b j .writing b j).full = true → _
        rw [us]; intro x; cases x
      · show (upd2 s.g.sl b j .writing b j).full = true → _
        rw [us]; intro x; cases x
    · refine other_cell h o ?_ ⟨upd2_ne (fun w => ej w.2), rfl, rfl, rfl, rfl, rfl, rfl, rfl, rfl⟩ rfl (hd2 b)
        (at_rest h o (by rw [hp]; exact id))
      simp only [Field.of, beq_eq_false_iff_ne]
      exact fun w => ej w.symm
  · show upd2 s.g.sl b i .writing b j ≠ .recycling ∧ _ ∧ (upd2 s.g.sl b i .writing b j = .marked → _)
    by_cases ej : j = i
    · subst ej
      rw [upd2_same]
      exact ⟨by decide, h4.2.1, (fun x => by cases x)⟩
    · rw [upd2_ne (fun w => ej w.2)]; exact h4
  · show (upd2 s.g.sl b i .writing b j).full = true ∧ _ ∧ (upd2 s.g.sl b i .writing b j = .marked → _)
    have ej : j ≠ i := by rintro rfl; rw [ff] at h4; cases h4
    rw [upd2_ne (fun w => ej w.2)]
    exact ⟨h4, fun w => ej (by injection w with w; exact w.symm), h5⟩
  · rw [write_now_ne (fld_ne (by simp))]; exact h.cs b

theorem Inv.insHash {k : Option (Nat × Nat)} (hp : s.ph t = .insHash b i e k) :
    Inv H md { (s.write t ⟨b, .hash i⟩ (.num (H e)) false).phase t (.insOcc b i e k) with
        g := { s.g with hashed := upd2 s.g.hashed b i true } } := by
  have P := h.ph t
  rw [hp] at P
  obtain ⟨o, sw, dt, fr⟩ := P
  have q := h.slot b i
  have ff : (s.g.sl b i).full = false := by rw [sw]; rfl
  have nc : i ∉ s.g.counted b := not_counted h (by rw [sw]; decide) (by rw [sw]; decide)
  refine h.write (d := s.dead) o (fun c j hc => by rw [hp] at hc; exact hc.1.symm) (fun c j hc => ⟨rfl, rfl, rfl, rfl, rfl, rfl, rfl, rfl, upd2_ne (fun w => hc w.1)⟩)
    (fun _ _ => rfl) (fun _ _ => rfl) (fun _ => id) (fun j => ?_) ⟨o, sw, ?_, ?_, upd2_same .., ?_⟩ (fun u j w k h1 h2 h3 h4 => h4)
    (fun u j w k h1 h2 h3 h4 h5 => ⟨h4, by simp, h5⟩) (fun u w hu j => h.act u w hu b j) ?_
  · by_cases ej : j = i
    · subst ej
      have c : ∀ f', f' ≠ Field.hash j → (s.write t ⟨b, .hash j⟩ (.num (H e)) false).cnt ⟨b, f'⟩ = s.cnt ⟨b, f'⟩ :=
        fun f' h' => write_cnt_ne (fld_ne h')
      have m : ∀ f', f' ≠ Field.hash j → (s.write t ⟨b, .hash j⟩ (.num (H e)) false).msg ⟨b, f'⟩ = s.msg ⟨b, f'⟩ :=
        fun f' h' => write_msg_ne (fld_ne h')
      refine SlotOk.of (s := s) rfl rfl ?_ ?_ ?_ (fun c => absurd c nc) ?_ ?_ ?_ (fun _ => ⟨o, rfl, rfl⟩) (fun T hT => away_write h o _ _ hT)
      · rw [c .occ (by simp), m .occ (by simp)]
        exact q.occ.calm ff ff _ _ _
      · rw [c .rem (by simp), m .rem (by simp)]; exact q.rem
      · rw [c .len (by simp), m .len (by simp)]; exact q.len
      · intro x; rw [show s.g.sl b j = .moved from x] at sw; cases sw
      · intro x; rw [show (s.g.sl b j).full = true from x] at ff; cases ff
      · intro x; rw [show (s.g.sl b j).full = true from x] at ff; cases ff
    · refine other_cell h o ?_ ⟨rfl, rfl, rfl, rfl, rfl, rfl, rfl, rfl, upd2_ne (fun w => ej w.2)⟩ rfl id
        (at_rest h o (by rw [hp]; exact fun w => ej w.2.symm))
      simp only [Field.of, beq_eq_false_iff_ne]
      exact fun w => ej w.symm
  · exact (congrArg Val.entry (write_now_ne (fld_ne (by simp)))).trans dt
  · exact fr.frame fun b' i' nb ob => ⟨ob, rfl, rfl, rfl, write_now_ne (loc_ne nb)⟩
  · exact congrArg Val.n write_now
  · rw [write_now_ne (fld_ne (by simp))]; exact h.cs b

end

end Scc.Weak
