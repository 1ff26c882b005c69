import Verif.Weak.Steps2

/-!
# Each step of a thread that has a bucket locked keeps the invariant (3)
-/

namespace Scc.Weak

variable {H : Nat → Nat} {md : Bool}

section
variable {s : St} {t b i : Nat} (h : Inv H md s)

include h

theorem Inv.mkHash (ep : Nat) (hp : s.ph t = .mkHash b i) :
    Inv H md { (s.write t ⟨b, .hash i⟩ (.num ep) false).phase t (.mkRem b i) with
        g := { s.g with hashed := upd2 s.g.hashed b i false } } := by
  have P := h.ph t
  rw [hp] at P
  obtain ⟨o, us, nc, hd⟩ := P
  have q := h.slot b i
  have hf : upd2 s.g.hashed b i false b i = false := upd2_same ..
  refine h.write (d := s.dead) o (fun c j hc => by rw [hp] at hc; exact hc.1.symm)
    (fun c j hc => ⟨rfl, rfl, rfl, rfl, rfl, rfl, rfl, rfl, upd2_ne (fun w => hc w.1)⟩)
    (fun _ _ => rfl) (fun _ _ => rfl) (fun _ => id) (fun j => ?_) ⟨o, us, nc, hd⟩ (fun u j w k h1 h2 h3 h4 => h4)
    (fun u j w k h1 h2 h3 h4 h5 => ⟨h4, by simp, h5⟩) (fun u w hu j => h.act u w hu b j) ?_
  · by_cases ej : j = i
    · subst ej
      have c : ∀ f' v, f' ≠ Field.hash j → (s.write t ⟨b, .hash j⟩ v false).cnt ⟨b, f'⟩ = s.cnt ⟨b, f'⟩ :=
        fun f' v h' => write_cnt_ne (fld_ne h')
      have m : ∀ f' v, f' ≠ Field.hash j → (s.write t ⟨b, .hash j⟩ v false).msg ⟨b, f'⟩ = s.msg ⟨b, f'⟩ :=
        fun f' v h' => write_msg_ne (fld_ne h')
      have w : ∀ f' v, f' ≠ Field.hash j → (s.write t ⟨b, .hash j⟩ v false).now ⟨b, f'⟩ = s.now ⟨b, f'⟩ :=
        fun f' v h' => write_now_ne (fld_ne h')
      refine SlotOk.of (s := s) rfl rfl ?_ ?_ ?_ (fun c => absurd c nc) ?_ ?_ ?_ (fun _ => ⟨o, rfl, rfl⟩) (fun T hT => away_write h o _ _ hT)
      · show OccOk _ _ _ _ _ _ _ _ _ _ (upd2 s.g.hashed b j false b j) _
        rw [hf, c .occ _ (by simp), m .occ _ (by simp), c (.data j) _ (by simp)]
        exact q.occ.unhash _
      · rw [c .rem _ (by simp), m .rem _ (by simp)]; exact q.rem
      · rw [c .len _ (by simp), m .len _ (by simp)]; exact q.len
      · intro x; rw [show s.g.sl b j = .moved from x] at us; cases us
      · rw [w _ _ (by simp)]; exact q.data
      · show _ → upd2 s.g.hashed b j false b j = true → _
        rw [hf]; intro _ x; cases x
    · refine other_cell h o ?_ ⟨rfl, rfl, rfl, rfl, rfl, rfl, rfl, rfl, upd2_ne (fun w => ej w.2)⟩ rfl id
        (at_rest h o (by rw [hp]; exact fun w => ej w.2.symm))
      simp only [Field.of, beq_eq_false_iff_ne]
      exact fun w => ej w.symm
  · rw [write_now_ne (fld_ne (by simp))]; exact h.cs b

theorem Inv.mkRem (hp : s.ph t = .mkRem b i) :
    Inv H md { (s.write t ⟨b, .rem⟩ (.bits (fun x => x == i || (s.now ⟨b, .rem⟩).bit x)) true).phase t .idle with
        g := { s.g with sl := upd2 s.g.sl b i .marked, mark := upd2 s.g.mark b i (s.cnt ⟨b, .rem⟩ + 1) } } := by
  have P := h.ph t
  rw [hp] at P
  obtain ⟨o, us, nc, hd⟩ := P
  have q := h.slot b i
  have ma : upd2 s.g.sl b i .marked b i = .marked := upd2_same ..
  refine h.write (d := s.dead) o (fun c j hc => by rw [hp] at hc; exact hc.1.symm)
    (fun c j hc => ⟨upd2_ne (fun w => hc w.1), rfl, upd2_ne (fun w => hc w.1), rfl, rfl, rfl, rfl, rfl, rfl⟩)
    (fun _ _ => rfl) (fun _ _ => rfl) (fun _ => id) (fun j => ?_) trivial (fun u j w k h1 h2 h3 h4 => ?_)
    (fun u j w k h1 h2 h3 h4 h5 => ?_) (fun u w hu j => h.act u w hu b j) ?_
  · by_cases ej : j = i
    · subst ej
      have c : ∀ f' v, f' ≠ Field.rem → (s.write t ⟨b, .rem⟩ v true).cnt ⟨b, f'⟩ = s.cnt ⟨b, f'⟩ :=
        fun f' v h' => write_cnt_ne (fld_ne h')
      have m : ∀ f' v, f' ≠ Field.rem → (s.write t ⟨b, .rem⟩ v true).msg ⟨b, f'⟩ = s.msg ⟨b, f'⟩ :=
        fun f' v h' => write_msg_ne (fld_ne h')
      have w : ∀ f' v, f' ≠ Field.rem → (s.write t ⟨b, .rem⟩ v true).now ⟨b, f'⟩ = s.now ⟨b, f'⟩ :=
        fun f' v h' => write_now_ne (fld_ne h')
      refine SlotOk.of (s := s) rfl rfl ?_ ?_ ?_ (fun c => absurd c nc) ?_ ?_ ?_ ?_ (fun T hT => away_write h o _ _ hT)
      · show OccOk _ _ (upd2 s.g.sl b j .marked b j) _ _ _ _ _ _ _ _ _
        rw [ma, c .occ _ (by simp), m .occ _ (by simp), c (.data j) _ (by simp), c (.hash j) _ (by simp)]
        have q' := q.occ
        rw [us] at q'
        exact q'.mark
      · show RemOk _ _ (upd2 s.g.sl b j .marked b j) _ _ _ (upd2 s.g.mark b j _ b j) _ _
        rw [ma, upd2_same, write_cnt, write_msg]
        have q' := q.rem
        rw [us] at q'
        refine q'.push_mark ?_ ?_
        · show (j == j || _) = true
          simp
        · show _ ≤ upd (s.view t) _ _ _
          rw [new_view h o (by simp) rfl]; exact q.occ.oc_le
      · show LenOk _ _ _ (upd2 s.g.sl b j .marked b j) _ _ _ _
        rw [ma, c .len _ (by simp), m .len _ (by simp)]
        exact q.len.calm (by decide) _
      · show upd2 s.g.sl b j .marked b j = .moved → _
        rw [ma]; intro x; cases x
      · intro _
        rw [w _ _ (by simp)]; exact q.data (by rw [us]; rfl)
      · intro _ x
        rw [w _ _ (by simp), w _ _ (by simp)]; exact q.hash (by rw [us]; rfl) x
      · intro x
        have x : upd2 s.g.sl b j .marked b j = .writing ∨ upd2 s.g.sl b j .marked b j = .recycling ∨
          (upd2 s.g.sl b j .marked b j = .used ∧ _) := x
        rw [ma] at x
        rcases x with x | x | x
        · cases x
        · cases x
        · cases x.1
    · refine other_rem h o ⟨upd2_ne (fun w => ej w.2), rfl, upd2_ne (fun w => ej w.2), rfl, rfl, rfl, rfl, rfl, rfl⟩ rfl id
        (at_rest h o (by rw [hp]; exact fun w => ej w.2.symm)) ?_
      show (j == i || _) = _
      have : (j == i) = false := by simpa using ej
      rw [this]; rfl
  · show upd2 s.g.sl b i .marked b j ≠ .recycling ∧ _ ∧ (upd2 s.g.sl b i .marked b j = .marked → _ < upd2 s.g.mark b i _ b j)
    by_cases ej : j = i
    · subst ej
      rw [upd2_same, upd2_same]
      exact ⟨by decide, h4.2.1, fun _ => Nat.lt_succ_of_le h3⟩
    · rw [upd2_ne (fun w => ej w.2), upd2_ne (fun w => ej w.2)]; exact h4
  · show (upd2 s.g.sl b i .marked b j).full = true ∧ _ ∧ (upd2 s.g.sl b i .marked b j = .marked → _ < upd2 s.g.mark b i _ b j)
    by_cases ej : j = i
    · subst ej
      rw [upd2_same, upd2_same]
      exact ⟨rfl, by simp, fun _ => Nat.lt_succ_of_le h3⟩
    · rw [upd2_ne (fun w => ej w.2), upd2_ne (fun w => ej w.2)]
      exact ⟨h4, by simp, h5⟩
  · rw [write_now_ne (fld_ne (by simp))]; exact h.cs b

theorem Inv.rcOcc {D : Nat → Bool} (o : s.own b = some t) (hp : s.ph t = .idle)
    (hD : ∀ i, D i = true → (s.now ⟨b, .rem⟩).bit i = true)
    (hE : ∀ i, D i = true → ∀ u v, s.act u = some v → s.g.mark b i ≤ v ⟨b, .rem⟩) :
    Inv H md { (s.write t ⟨b, .occ⟩ (.bits (fun x => !D x && (s.now ⟨b, .occ⟩).bit x)) true).phase t (.rcRem b D) with
        g := { s.g with
          sl := fun y i => if y = b ∧ D i = true then .recycling else s.g.sl y i,
          oc := fun y i => if y = b ∧ D i = true then s.cnt ⟨b, .occ⟩ + 1 else s.g.oc y i,
          floor := fun y i => if y = b ∧ D i = true then s.g.mark y i else s.g.floor y i } } := by
  have ot : ∀ c j, c ≠ b → ¬(c = b ∧ D j = true) := fun c j hc x => hc x.1
  refine h.write (d := s.dead) o (fun c j hc => by rw [hp] at hc; exact hc.elim)
    (fun c j hc => ⟨if_neg (ot c j hc), rfl, rfl, if_neg (ot c j hc), if_neg (ot c j hc), rfl, rfl, rfl, rfl⟩)
    (fun _ _ => rfl) (fun _ _ => rfl) (fun _ => id) (fun j => ?_) ⟨o, fun j hj => if_pos ⟨rfl, hj⟩⟩ (fun u j w k h1 h2 h3 h4 => ?_)
    (fun u j w k h1 h2 h3 h4 h5 => ?_) (fun u w hu j => ?_) ?_
  · by_cases ej : D j = true
    · have q := h.slot b j
      have ma := is_marked h o hp (hD j ej)
      have c : ∀ f' v, f' ≠ Field.occ → (s.write t ⟨b, .occ⟩ v true).cnt ⟨b, f'⟩ = s.cnt ⟨b, f'⟩ :=
        fun f' v h' => write_cnt_ne (fld_ne h')
      have m : ∀ f' v, f' ≠ Field.occ → (s.write t ⟨b, .occ⟩ v true).msg ⟨b, f'⟩ = s.msg ⟨b, f'⟩ :=
        fun f' v h' => write_msg_ne (fld_ne h')
      have nc : j ∉ s.g.counted b := not_counted h (by rw [ma]; decide) (by rw [ma]; decide)
      have pos : b = b ∧ D j = true := ⟨rfl, ej⟩
      have rr : (if b = b ∧ D j = true then Slot.recycling else s.g.sl b j) = .recycling := if_pos pos
      refine SlotOk.of (s := s) rfl rfl ?_ ?_ ?_ (fun c => absurd c nc) ?_ ?_ ?_ (fun _ => ⟨o, rfl, ej⟩) (fun T hT => away_write h o _ _ hT)
      · show OccOk _ _ (if b = b ∧ D j = true then _ else _) (if b = b ∧ D j = true then _ else _) _ _ _ _ _ _ _ _
        rw [rr, if_pos pos, write_cnt, write_msg, c _ _ (by simp), c _ _ (by simp)]
        refine q.occ.push_clear ?_
        show (!D j && _) = false
        rw [ej]; rfl
      · show RemOk _ _ (if b = b ∧ D j = true then _ else _) (if b = b ∧ D j = true then _ else _) _
          (if b = b ∧ D j = true then _ else _) _ _ _
        rw [rr, if_pos pos, if_pos pos, c .rem _ (by simp), m .rem _ (by simp)]
        have q' := q.rem
        rw [ma] at q'
        exact q'.recycle _
      · show LenOk _ _ _ (if b = b ∧ D j = true then _ else _) _ _ _ _
        rw [rr, c .len _ (by simp), m .len _ (by simp)]
        exact q.len.calm (by decide) _
      · show (if b = b ∧ D j = true then _ else _) = Slot.moved → _
        rw [rr]; intro x; cases x
      · show (if b = b ∧ D j = true then Slot.recycling else _).full = true → _
        rw [rr]; intro x; cases x
      · show (if b = b ∧ D j = true then Slot.recycling else _).full = true → _
        rw [rr]; intro x; cases x
    · have neg : ¬(b = b ∧ D j = true) := fun x => ej x.2
      refine other_occ h o ⟨if_neg neg, rfl, rfl, if_neg neg, if_neg neg, rfl, rfl, rfl, rfl⟩ rfl id
        (at_rest h o (by rw [hp]; exact id)) ?_
      show (!D j && _) = _
      have : D j = false := by cases e : D j with | true => exact absurd e ej | false => rfl
      rw [this]; rfl
  · show (if b = b ∧ D j = true then Slot.recycling else s.g.sl b j) ≠ .recycling ∧ (if b = b ∧ D j = true then _ else _) ≤ _ ∧
      ((if b = b ∧ D j = true then Slot.recycling else s.g.sl b j) = .marked → _)
    by_cases ej : D j = true
    · have := h4.2.2 (is_marked h o hp (hD j ej))
      have := hE j ej u w h1
      omega
    · have neg : ¬(b = b ∧ D j = true) := fun x => ej x.2
      rw [if_neg neg, if_neg neg]; exact h4
  · show (if b = b ∧ D j = true then Slot.recycling else s.g.sl b j).full = true ∧ _ ∧
      ((if b = b ∧ D j = true then Slot.recycling else s.g.sl b j) = .marked → _)
    by_cases ej : D j = true
    · have := h5 (is_marked h o hp (hD j ej))
      have := hE j ej u w h1
      omega
    · have neg : ¬(b = b ∧ D j = true) := fun x => ej x.2
      rw [if_neg neg]; exact ⟨h4, by simp, h5⟩
  · show (if b = b ∧ D j = true then _ else _) ≤ _
    by_cases ej : D j = true
    · rw [if_pos ⟨rfl, ej⟩]; exact hE j ej u w hu
    · rw [if_neg (fun x => ej x.2)]; exact h.act u w hu b j
  · rw [write_now_ne (fld_ne (by simp))]; exact h.cs b

theorem Inv.rcRem {D : Nat → Bool} (hp : s.ph t = .rcRem b D) :
    Inv H md { (s.write t ⟨b, .rem⟩ (.bits (fun x => !D x && (s.now ⟨b, .rem⟩).bit x)) true).phase t (.rcDrop b D) with
        g := { s.g with
          sl := fun y i => if y = b ∧ D i = true then .free else s.g.sl y i,
          rc := fun y i => if y = b ∧ D i = true then s.cnt ⟨b, .rem⟩ + 1 else s.g.rc y i } } := by
  have P := h.ph t
  rw [hp] at P
  obtain ⟨o, hr⟩ := P
  have ot : ∀ c j, c ≠ b → ¬(c = b ∧ D j = true) := fun c j hc x => hc x.1
  refine h.write (d := s.dead) o (fun c j hc => by rw [hp] at hc; exact hc.1.symm)
    (fun c j hc => ⟨if_neg (ot c j hc), rfl, rfl, rfl, rfl, if_neg (ot c j hc), rfl, rfl, rfl⟩)
    (fun _ _ => rfl) (fun _ _ => rfl) (fun _ => id) (fun j => ?_) ⟨o, fun j hj => if_pos ⟨rfl, hj⟩⟩ (fun u j w k h1 h2 h3 h4 => ?_)
    (fun u j w k h1 h2 h3 h4 h5 => ?_) (fun u w hu j => h.act u w hu b j) ?_
  · by_cases ej : D j = true
    · have q := h.slot b j
      have re := hr j ej
      have c : ∀ f' v, f' ≠ Field.rem → (s.write t ⟨b, .rem⟩ v true).cnt ⟨b, f'⟩ = s.cnt ⟨b, f'⟩ :=
        fun f' v h' => write_cnt_ne (fld_ne h')
      have m : ∀ f' v, f' ≠ Field.rem → (s.write t ⟨b, .rem⟩ v true).msg ⟨b, f'⟩ = s.msg ⟨b, f'⟩ :=
        fun f' v h' => write_msg_ne (fld_ne h')
      have nc : j ∉ s.g.counted b := not_counted h (by rw [re]; decide) (by rw [re]; decide)
      have pos : b = b ∧ D j = true := ⟨rfl, ej⟩
      have rr : (if b = b ∧ D j = true then Slot.free else s.g.sl b j) = .free := if_pos pos
      refine SlotOk.of (s := s) rfl rfl ?_ ?_ ?_ (fun c => absurd c nc) ?_ ?_ ?_ ?_ (fun T hT => away_write h o _ _ hT)
      · show OccOk _ _ (if b = b ∧ D j = true then _ else _) _ _ _ _ _ _ _ _ _
        rw [rr, c .occ _ (by simp), m .occ _ (by simp), c _ _ (by simp), c _ _ (by simp)]
        exact q.occ.calm (by rw [re]; rfl) rfl _ _ _
      · show RemOk _ _ (if b = b ∧ D j = true then _ else _) _ (if b = b ∧ D j = true then _ else _) _ _ _ _
        rw [rr, if_pos pos, write_cnt, write_msg]
        have q' := q.rem
        rw [re] at q'
        refine q'.push_clear ?_ ?_
        · show (!D j && _) = false
          rw [ej]; rfl
        · show _ ≤ upd (s.view t) _ _ _
          rw [new_view h o (by simp) rfl]; exact q.occ.oc_le
      · show LenOk _ _ _ (if b = b ∧ D j = true then _ else _) _ _ _ _
        rw [rr, c .len _ (by simp), m .len _ (by simp)]
        exact q.len.calm (by decide) _
      · show (if b = b ∧ D j = true then _ else _) = Slot.moved → _
        rw [rr]; intro x; cases x
      · show (if b = b ∧ D j = true then Slot.free else _).full = true → _
        rw [rr]; intro x; cases x
      · show (if b = b ∧ D j = true then Slot.free else _).full = true → _
        rw [rr]; intro x; cases x
      · show (if b = b ∧ D j = true then Slot.free else _) = .writing ∨ (if b = b ∧ D j = true then Slot.free else _) = .recycling ∨
          ((if b = b ∧ D j = true then Slot.free else _) = .used ∧ _) → _
        rw [rr]
        intro x
        rcases x with x | x | x
        · cases x
        · cases x
        · cases x.1
    · have neg : ¬(b = b ∧ D j = true) := fun x => ej x.2
      refine other_rem h o ⟨if_neg neg, rfl, rfl, rfl, rfl, if_neg neg, rfl, rfl, rfl⟩ rfl id
        (at_rest h o (by rw [hp]; exact fun w => ej w.2)) ?_
      show (!D j && _) = _
      have : D j = false := by cases e : D j with | true => exact absurd e ej | false => rfl
      rw [this]; rfl
  · show (if b = b ∧ D j = true then Slot.free else s.g.sl b j) ≠ .recycling ∧ _ ∧
      ((if b = b ∧ D j = true then Slot.free else s.g.sl b j) = .marked → _)
    by_cases ej : D j = true
    · exact absurd (hr j ej) h4.1
    · have neg : ¬(b = b ∧ D j = true) := fun x => ej x.2
      rw [if_neg neg]; exact h4
  · show (if b = b ∧ D j = true then Slot.free else s.g.sl b j).full = true ∧ _ ∧
      ((if b = b ∧ D j = true then Slot.free else s.g.sl b j) = .marked → _)
    by_cases ej : D j = true
    · rw [hr j ej] at h4; cases h4
    · have neg : ¬(b = b ∧ D j = true) := fun x => ej x.2
      rw [if_neg neg]; exact ⟨h4, by simp, h5⟩
  · rw [write_now_ne (fld_ne (by simp))]; exact h.cs b

theorem Inv.rcDrop {D : Nat → Bool} (hp : s.ph t = .rcDrop b D) (hi : D i = true) :
    Inv H md ((s.write t ⟨b, .data i⟩ (.pair none) false).phase t (.rcDrop b (fun x => !(x == i) && D x))) := by
  have P := h.ph t
  rw [hp] at P
  obtain ⟨o, hr⟩ := P
  have fr := hr i hi
  have q := h.slot b i
  have ff : (s.g.sl b i).full = false := by rw [fr]; rfl
  refine h.write (d := s.dead) (g := s.g) o (fun c j hc => by rw [hp] at hc; exact hc.elim) (fun c j hc => SameG.refl _ _ _)
    (fun _ _ => rfl) (fun _ _ => rfl) (fun _ => id) (fun j => ?_) ⟨o, fun j hj => hr j ?_⟩ (fun u j w k h1 h2 h3 h4 => h4)
    (fun u j w k h1 h2 h3 h4 h5 => ?_) (fun u w hu j => h.act u w hu b j) ?_
  · by_cases ej : j = i
    · subst ej
      have c : ∀ f' v, f' ≠ Field.data j → (s.write t ⟨b, .data j⟩ v false).cnt ⟨b, f'⟩ = s.cnt ⟨b, f'⟩ :=
        fun f' v h' => write_cnt_ne (fld_ne h')
      have m : ∀ f' v, f' ≠ Field.data j → (s.write t ⟨b, .data j⟩ v false).msg ⟨b, f'⟩ = s.msg ⟨b, f'⟩ :=
        fun f' v h' => write_msg_ne (fld_ne h')
      refine SlotOk.of (s := s) rfl rfl ?_ ?_ ?_ q.ctd q.mvd ?_ ?_ ?_ (fun T hT => away_write h o _ _ hT)
      · rw [c .occ _ (by simp), m .occ _ (by simp)]
        exact q.occ.calm ff ff _ _ _
      · rw [c .rem _ (by simp), m .rem _ (by simp)]; exact q.rem
      · rw [c .len _ (by simp), m .len _ (by simp)]; exact q.len
      · intro x; rw [ff] at x; cases x
      · intro x; rw [ff] at x; cases x
      · intro x
        rw [fr] at x
        rcases x with x | x | x
        · cases x
        · cases x
        · cases x.1
    · refine other_cell h o ?_ (SameG.refl _ _ _) rfl id (at_rest h o (by rw [hp]; exact id))
      simp only [Field.of, beq_eq_false_iff_ne]
      exact fun w => ej w.symm
  · cases e : D j with
    | true => rfl
    | false => simp [e] at hj
  · have ej : j ≠ i := by rintro rfl; rw [ff] at h4; cases h4
    exact ⟨h4, fun w => ej (by injection w with w; exact w.symm), h5⟩
  · rw [write_now_ne (fld_ne (by simp))]; exact h.cs b

theorem Inv.rcDone {D : Nat → Bool} (hp : s.ph t = .rcDrop b D) : Inv H md (s.phase t .idle) := by
  refine ⟨⟨h.v.vle, h.v.lle, h.v.mle, h.v.act, h.v.own, h.v.free⟩, fun c i => ?_, fun u => ?_,
    fun u => (h.rd u).frame rfl (fun _ => Nat.le_refl _) (fun _ => Nat.le_refl _) (fun _ _ _ _ _ _ _ x => x) (fun _ _ _ _ _ _ _ x => x),
    h.act, h.cs⟩
  · refine (h.slot c i).frame (fun _ _ => rfl) (fun _ _ => rfl) (SameG.refl _ _ _) rfl id ?_ (h.slot c i).away
    intro un
    obtain ⟨u, h1, h2⟩ := (h.slot c i).busy un
    refine ⟨u, h1, ?_⟩
    have : u ≠ t := by rintro rfl; rw [hp] at h2; exact h2.elim
    show (upd s.ph t .idle u).touch c i
    rw [upd_ne this]; exact h2
  · show PhOk H _ u (upd s.ph t .idle u)
    by_cases e : u = t
    · subst e; rw [upd_same]; trivial
    · rw [upd_ne e]
      exact (h.ph u).frame fun c hc => ⟨hc, rfl, rfl, fun _ => ⟨rfl, rfl, rfl, rfl⟩⟩

end

end Scc.Weak
