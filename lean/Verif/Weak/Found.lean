import Verif.Weak.Proof

/-!
# Lookups of a key that stays where it is, or is moved to the new array
-/

namespace Scc.Weak

variable {H : Nat → Nat} {md : Bool}

/-- The key is in slot `i` of bucket `b`: bits and cell are written, and nobody is at inserting or removing it. -/
def Settled (s : St) (b i e : Nat) : Prop :=
  (s.now ⟨b, .occ⟩).bit i = true ∧ (s.now ⟨b, .rem⟩).bit i = false ∧ (s.now ⟨b, .data i⟩).entry = some e ∧
    ∀ t, ¬(s.ph t).touch b i

/-- A part of an execution in which all states are in `P`. -/
inductive Path (H : Nat → Nat) (m : Bool) (P : St → Prop) : St → St → Prop
  | refl {s} : P s → Path H m P s s
  | step {s s' s''} : Path H m P s s' → Step H m s' s'' → P s'' → Path H m P s s''

theorem Path.last {P : St → Prop} {s s' : St} (p : Path H md P s s') : P s' := by
  cases p with
  | refl h => exact h
  | step _ _ h => exact h

theorem Path.reach {P : St → Prop} {s s' : St} (p : Path H md P s s') (r : Reach H md s) : Reach H md s' := by
  induction p with
  | refl _ => exact r
  | step _ st _ ih => exact ih.step st

/-- In use and counted. -/
def Rest (s : St) (b i : Nat) : Prop := s.g.sl b i = .used ∧ i ∈ s.g.counted b

theorem Settled.rest {s : St} (h : Inv H md s) {b i e : Nat} (c : Settled s b i e) : Rest s b i := by
  obtain ⟨h1, h2, _, h4⟩ := c
  have q := h.slot b i
  have us : s.g.sl b i = .used := by
    by_cases e1 : s.g.sl b i = .used
    · exact e1
    · by_cases e2 : s.g.sl b i = .marked
      · have := q.rem.marked e2 _ (q.rem.mark_le e2) (Nat.le_refl _)
        rw [show (s.msg ⟨b, .rem⟩ (s.cnt ⟨b, .rem⟩)).val.bit i = false from h2] at this
        cases this
      · have := q.occ.unset e1 e2
        rw [show (s.msg ⟨b, .occ⟩ (s.cnt ⟨b, .occ⟩)).val.bit i = true from h1] at this
        cases this
  refine ⟨us, ?_⟩
  by_cases c : i ∈ s.g.counted b
  · exact c
  · obtain ⟨u, _, h3⟩ := q.busy (.inr (.inr ⟨us, c⟩))
    exact absurd h3 (h4 u)

/-- Thread `t` has seen the key being inserted into the slot. -/
def Known (s : St) (t b i : Nat) : Prop :=
  s.g.born b i ≤ s.view t ⟨b, .occ⟩ ∧ s.g.lenIx b i ≤ s.view t ⟨b, .len⟩ ∧ s.g.rc b i ≤ s.view t ⟨b, .rem⟩

/-- No thread forgets. -/
theorem Step.grow {s s' : St} (h : Inv H md s) (st : Step H md s s') (u : Nat) (l : Loc) : s.view u l ≤ s'.view u l := by
  have up : ∀ (t : Nat) (w : View), (∀ l, s.view t l ≤ w l) → s.view u l ≤ upd s.view t w u l := by
    intro t w hw
    by_cases e : u = t
    · subst e; rw [upd_same]; exact hw l
    · rw [upd_ne e]; exact Nat.le_refl _
  have up1 : ∀ (t : Nat) (l' : Loc) (l : Loc), s.view t l ≤ upd (s.view t) l' (s.cnt l' + 1) l := by
    intro t l' l
    by_cases e : l = l'
    · subst e; rw [upd_same]; exact Nat.le_succ_of_le (h.v.vle _ _)
    · rw [upd_ne e]; exact Nat.le_refl _
  cases st with
  | sync t u => exact up _ _ (join_l _ _)
  | lock => exact up _ _ (join_l _ _)
  | unlock => exact Nat.le_refl _
  | insData => exact up _ _ (up1 _ _)
  | exData => exact up _ _ (up1 _ _)
  | insHash => exact up _ _ (up1 _ _)
  | insOcc => exact up _ _ (up1 _ _)
  | insLen => exact up _ _ (up1 _ _)
  | out => exact up _ _ (up1 _ _)
  | outLen => exact up _ _ (up1 _ _)
  | mark => exact up _ _ (up1 _ _)
  | mkHash => exact up _ _ (up1 _ _)
  | mkRem => exact up _ _ (up1 _ _)
  | rcOcc => exact up _ _ (up1 _ _)
  | rcRem => exact up _ _ (up1 _ _)
  | rcDrop => exact up _ _ (up1 _ _)
  | rcDone => exact Nat.le_refl _
  | start => exact Nat.le_refl _
  | stop => exact Nat.le_refl _
  | search => exact Nat.le_refl _
  | lenZero _ hk => exact see_grow hk u l
  | lenPos _ hk => exact see_grow hk u l
  | loadRem _ hk => exact see_grow hk u l
  | loadOcc _ hk => exact see_grow hk u l
  | hit => exact Nat.le_refl _
  | miss => exact Nat.le_refl _
  | begin => exact up _ _ (fun l => Nat.le_trans (up1 _ _ l) (join_l _ _ l))
  | «end» => exact up _ _ (fun l => up1 _ _ l)
  | unlink => exact up _ _ (fun l => up1 _ _ l)
  | noLink _ hk => exact see_grow hk u l

/-- What the steps of one lookup do: `p` and `s'` are where it gets. All other steps leave lookups alone. -/
inductive Load (H : Nat → Nat) (s : St) (t : Nat) : RPc → St → Prop
  | idle {s'} : Load H s t .idle s'
  | search {b e s'} : Load H s t (.len b e) s'
  | lenZero {b e k s'} : s.pc t = .len b e → s.can t ⟨b, .len⟩ k → (s.msg ⟨b, .len⟩ k).val.n = 0 →
      (∀ l, (s.msg ⟨b, .len⟩ k).view l ≤ s'.view t l) → Load H s t (.empty b e) s'
  | lenPos {b e s'} : Load H s t (.rem b e) s'
  | loadRem {b e k s'} : s.pc t = .rem b e → s.can t ⟨b, .rem⟩ k → Load H s t (.occ b e (s.msg ⟨b, .rem⟩ k).val.bit k) s'
  | loadOcc {b e f r k s'} : s.pc t = .occ b e f r → s.can t ⟨b, .occ⟩ k →
      (∀ l, (s.msg ⟨b, .occ⟩ k).view l ≤ s'.view t l) →
      Load H s t (.look b e (fun x => !f x && (s.msg ⟨b, .occ⟩ k).val.bit x) r) s'
  | hit {b e i s'} : Load H s t (.hit b e i) s'
  | miss {b e bm r s'} : s.pc t = .look b e bm r →
      (∀ i, bm i = true → (∃ k, s.can t ⟨b, .hash i⟩ k ∧ (s.msg ⟨b, .hash i⟩ k).val.n ≠ H e) ∨
        ∃ k, s.can t ⟨b, .data i⟩ k ∧ (s.msg ⟨b, .data i⟩ k).val.entry ≠ some e) → Load H s t (.miss b e) s'

theorem Step.load {s s' : St} (st : Step H md s s') (t : Nat) :
    s'.pc t = s.pc t ∨ (Load H s t (s'.pc t) s' ∧ s'.cnt = s.cnt ∧ s'.msg = s.msg ∧ s'.g = s.g) := by
  have go : ∀ (u : Nat) (p : RPc) (s1 : St), s1.pc = upd s.pc u p → s1.cnt = s.cnt → s1.msg = s.msg → s1.g = s.g →
      (u = t → Load H s t p s1) → s1.pc t = s.pc t ∨ (Load H s t (s1.pc t) s1 ∧ s1.cnt = s.cnt ∧ s1.msg = s.msg ∧ s1.g = s.g) := by
    intro u p s1 h1 h2 h3 h4 h5
    by_cases e : t = u
    · right
      rw [h1, e, upd_same, ← e]
      exact ⟨h5 e.symm, h2, h3, h4⟩
    · left; rw [h1, upd_ne e]
  cases st with
  | sync => exact .inl rfl
  | lock => exact .inl rfl
  | unlock => exact .inl rfl
  | insData => exact .inl rfl
  | exData => exact .inl rfl
  | insHash => exact .inl rfl
  | insOcc => exact .inl rfl
  | insLen => exact .inl rfl
  | out => exact .inl rfl
  | outLen => exact .inl rfl
  | mark => exact .inl rfl
  | mkHash => exact .inl rfl
  | mkRem => exact .inl rfl
  | rcOcc => exact .inl rfl
  | rcRem => exact .inl rfl
  | rcDrop => exact .inl rfl
  | rcDone => exact .inl rfl
  | start => exact .inl rfl
  | begin => exact .inl rfl
  | «end» => exact .inl rfl
  | unlink => exact .inl rfl
  | noLink => exact .inl rfl
  | stop => exact go _ _ _ rfl rfl rfl rfl (fun _ => .idle)
  | search => exact go _ _ _ rfl rfl rfl rfl (fun _ => .search)
  | lenZero h1 h2 h3 => exact go _ _ _ rfl rfl rfl rfl (fun e => by subst e; exact .lenZero h1 h2 h3 see_msg)
  | lenPos => exact go _ _ _ rfl rfl rfl rfl (fun _ => .lenPos)
  | loadRem h1 h2 => exact go _ _ _ rfl rfl rfl rfl (fun e => by subst e; exact .loadRem h1 h2)
  | loadOcc h1 h2 => exact go _ _ _ rfl rfl rfl rfl (fun e => by subst e; exact .loadOcc h1 h2 see_msg)
  | hit => exact go _ _ _ rfl rfl rfl rfl (fun _ => .hit)
  | miss h1 h2 => exact go _ _ _ rfl rfl rfl rfl (fun e => by subst e; exact .miss h1 h2)

/-- What does not change about an entry nobody is at. -/
structure Kept (s s' : St) (b i : Nat) : Prop where
  cd : s'.cnt ⟨b, .data i⟩ = s.cnt ⟨b, .data i⟩
  ch : s'.cnt ⟨b, .hash i⟩ = s.cnt ⟨b, .hash i⟩
  md : s'.msg ⟨b, .data i⟩ = s.msg ⟨b, .data i⟩
  born : s'.g.born b i = s.g.born b i
  lenIx : s'.g.lenIx b i = s.g.lenIx b i
  rc : s'.g.rc b i = s.g.rc b i
  mv : s.g.sl b i = .moved → s'.g.sl b i = .moved ∧ s'.g.tgt b i = s.g.tgt b i

theorem Kept.write {s : St} {t b i c : Nat} {f : Field} {v : Val} {r : Bool} {p : Phase} {d : Nat → Bool} {g : Ghost}
    (n1 : (⟨c, f⟩ : Loc) ≠ ⟨b, .data i⟩) (n2 : (⟨c, f⟩ : Loc) ≠ ⟨b, .hash i⟩) (h1 : g.born b i = s.g.born b i)
    (h2 : g.lenIx b i = s.g.lenIx b i) (h3 : g.rc b i = s.g.rc b i)
    (h4 : s.g.sl b i = .moved → g.sl b i = .moved ∧ g.tgt b i = s.g.tgt b i) :
    Kept s { (s.write t ⟨c, f⟩ v r).phase t p with dead := d, g := g } b i :=
  ⟨upd_ne n1.symm, upd_ne n2.symm, by funext k; exact if_neg (fun e => n1 e.1.symm), h1, h2, h3, h4⟩

theorem loc_inj {b c i j : Nat} (h : ¬(c = b ∧ j = i)) : (⟨c, .data j⟩ : Loc) ≠ ⟨b, .data i⟩ ∧ (⟨c, .hash j⟩ : Loc) ≠ ⟨b, .hash i⟩ := by
  refine ⟨fun e => ?_, fun e => ?_⟩
  · injection e with e1 e2; injection e2 with e2; exact h ⟨e1, e2⟩
  · injection e with e1 e2; injection e2 with e2; exact h ⟨e1, e2⟩

theorem Step.kept {s s' : St} (h : Inv H md s) (st : Step H md s s') {b i : Nat} (f : (s.g.sl b i).full = true)
    (nt : ∀ t, ¬(s.ph t).touch b i) : Kept s s' b i := by
  have nfl : ∀ {g : Field} {c : Nat}, (∀ j, g ≠ .data j) → (⟨c, g⟩ : Loc) ≠ ⟨b, .data i⟩ :=
    fun hg e => by injection e with _ e; exact hg i e
  have nfh : ∀ {g : Field} {c : Nat}, (∀ j, g ≠ .hash j) → (⟨c, g⟩ : Loc) ≠ ⟨b, .hash i⟩ :=
    fun hg e => by injection e with _ e; exact hg i e
  have far : ∀ {x : Nat → Nat → Slot} {c j : Nat} {y : Slot}, ¬(c = b ∧ j = i) → upd2 x c j y b i = x b i :=
    fun hne => upd2_ne (fun w => hne ⟨w.1.symm, w.2.symm⟩)
  have far2 : ∀ {x : Nat → Nat → Nat} {c j : Nat} {y : Nat}, ¬(c = b ∧ j = i) → upd2 x c j y b i = x b i :=
    fun hne => upd2_ne (fun w => hne ⟨w.1.symm, w.2.symm⟩)
  cases st with
  | sync => exact ⟨rfl, rfl, rfl, rfl, rfl, rfl, fun x => ⟨x, rfl⟩⟩
  | lock => exact ⟨rfl, rfl, rfl, rfl, rfl, rfl, fun x => ⟨x, rfl⟩⟩
  | unlock => exact ⟨rfl, rfl, rfl, rfl, rfl, rfl, fun x => ⟨x, rfl⟩⟩
  | @insData t c j e o hp hd hb =>
    have ne : ¬(c = b ∧ j = i) := by
      rintro ⟨rfl, rfl⟩; rw [is_free h o hp hd hb] at f; cases f
    exact Kept.write (d := s.dead) (loc_inj ne).1 (nfh (by simp)) rfl rfl rfl (fun x => ⟨(far ne).trans x, rfl⟩)
  | @exData t c j e b' i' o hp hd hb =>
    have ne : ¬(c = b ∧ j = i) := by
      rintro ⟨rfl, rfl⟩; rw [is_free h o hp hd hb] at f; cases f
    exact Kept.write (loc_inj ne).1 (nfh (by simp)) rfl rfl rfl (fun x => ⟨(far ne).trans x, rfl⟩)
  | @insHash t c j e k hp =>
    have ne : ¬(c = b ∧ j = i) := fun w => nt t (by rw [hp]; exact w)
    exact Kept.write (d := s.dead) (nfl (by simp)) (loc_inj ne).2 rfl rfl rfl (fun x => ⟨x, rfl⟩)
  | @insOcc t c j e k hp =>
    have ne : ¬(c = b ∧ j = i) := fun w => nt t (by rw [hp]; exact w)
    exact Kept.write (d := s.dead) (nfl (by simp)) (nfh (by simp)) (far2 ne) rfl rfl (fun x => ⟨(far ne).trans x, rfl⟩)
  | @insLen t c j e k hp =>
    have ne : ¬(c = b ∧ j = i) := fun w => nt t (by rw [hp]; exact w)
    exact Kept.write (d := s.dead) (nfl (by simp)) (nfh (by simp)) rfl (far2 ne) rfl (fun x => ⟨x, rfl⟩)
  | @out t c j c' j' hp =>
    refine Kept.write (d := s.dead) (nfl (by simp)) (nfh (by simp)) rfl rfl rfl (fun x => ?_)
    have ne : ¬(c = b ∧ j = i) := by
      rintro ⟨rfl, rfl⟩
      have P := h.ph t
      rw [hp] at P
      rw [P.2.2.2.1] at x; cases x
    exact ⟨(far ne).trans x, upd2_ne (fun w => ne ⟨w.1.symm, w.2.symm⟩)⟩
  | outLen hp => exact Kept.write (d := s.dead) (nfl (by simp)) (nfh (by simp)) rfl rfl rfl (fun x => ⟨x, rfl⟩)
  | mark => exact Kept.write (d := s.dead) (nfl (by simp)) (nfh (by simp)) rfl rfl rfl (fun x => ⟨x, rfl⟩)
  | @mkHash t c j ep hp =>
    have ne : ¬(c = b ∧ j = i) := fun w => nt t (by rw [hp]; exact w)
    exact Kept.write (d := s.dead) (nfl (by simp)) (loc_inj ne).2 rfl rfl rfl (fun x => ⟨x, rfl⟩)
  | @mkRem t c j hp =>
    have ne : ¬(c = b ∧ j = i) := fun w => nt t (by rw [hp]; exact w)
    exact Kept.write (d := s.dead) (nfl (by simp)) (nfh (by simp)) rfl rfl rfl (fun x => ⟨(far ne).trans x, rfl⟩)
  | @rcOcc t c D o hp hd hD hE =>
    refine Kept.write (d := s.dead) (nfl (by simp)) (nfh (by simp)) rfl rfl rfl (fun x => ⟨?_, rfl⟩)
    have ne : ¬(b = c ∧ D i = true) := by
      rintro ⟨rfl, w⟩
      rw [is_marked h o hp (hD i w)] at x; cases x
    exact (if_neg ne).trans x
  | @rcRem t c D hp =>
    have ne : ¬(b = c ∧ D i = true) := fun w => nt t (by rw [hp]; exact ⟨w.1.symm, w.2⟩)
    exact Kept.write (d := s.dead) (nfl (by simp)) (nfh (by simp)) rfl rfl (if_neg ne) (fun x => ⟨(if_neg ne).trans x, rfl⟩)
  | @rcDrop t c D j hp hi =>
    have ne : ¬(c = b ∧ j = i) := by
      rintro ⟨rfl, rfl⟩
      have P := h.ph t
      rw [hp] at P
      rw [P.2 j hi] at f; cases f
    exact Kept.write (d := s.dead) (g := s.g) (loc_inj ne).1 (nfh (by simp)) rfl rfl rfl (fun x => ⟨x, rfl⟩)
  | rcDone => exact ⟨rfl, rfl, rfl, rfl, rfl, rfl, fun x => ⟨x, rfl⟩⟩
  | start => exact ⟨rfl, rfl, rfl, rfl, rfl, rfl, fun x => ⟨x, rfl⟩⟩
  | stop => exact ⟨rfl, rfl, rfl, rfl, rfl, rfl, fun x => ⟨x, rfl⟩⟩
  | search => exact ⟨rfl, rfl, rfl, rfl, rfl, rfl, fun x => ⟨x, rfl⟩⟩
  | lenZero => exact ⟨rfl, rfl, rfl, rfl, rfl, rfl, fun x => ⟨x, rfl⟩⟩
  | lenPos => exact ⟨rfl, rfl, rfl, rfl, rfl, rfl, fun x => ⟨x, rfl⟩⟩
  | loadRem => exact ⟨rfl, rfl, rfl, rfl, rfl, rfl, fun x => ⟨x, rfl⟩⟩
  | loadOcc => exact ⟨rfl, rfl, rfl, rfl, rfl, rfl, fun x => ⟨x, rfl⟩⟩
  | hit => exact ⟨rfl, rfl, rfl, rfl, rfl, rfl, fun x => ⟨x, rfl⟩⟩
  | miss => exact ⟨rfl, rfl, rfl, rfl, rfl, rfl, fun x => ⟨x, rfl⟩⟩
  | begin =>
    exact ⟨upd_ne (by simp), upd_ne (by simp), by funext k; exact if_neg (by simp), rfl, rfl, rfl, fun x => ⟨x, rfl⟩⟩
  | «end» =>
    exact ⟨upd_ne (by simp), upd_ne (by simp), by funext k; exact if_neg (by simp), rfl, rfl, rfl, fun x => ⟨x, rfl⟩⟩
  | unlink =>
    exact ⟨upd_ne (by simp), upd_ne (by simp), by funext k; exact if_neg (by simp), rfl, rfl, rfl, fun x => ⟨x, rfl⟩⟩
  | noLink => exact ⟨rfl, rfl, rfl, rfl, rfl, rfl, fun x => ⟨x, rfl⟩⟩

/-! ## The key stays -/

/-- Where a lookup can be that has seen the key being inserted. -/
def Sees (s : St) (t b i e : Nat) : RPc → Prop
  | .occ b' _ f _ => b' = b → f i = false
  | .look b' _ bm _ => b' = b → bm i = true ∧ s.view t ⟨b, .hash i⟩ = s.cnt ⟨b, .hash i⟩
  | .miss b' e' => ¬(b' = b ∧ e' = e)
  | .empty b' e' => ¬(b' = b ∧ e' = e)
  | _ => True

theorem Kept.sees {s s' : St} (hi' : Inv H md s') {t b i e : Nat} (kp : Kept s s' b i)
    (hv : ∀ l, s.view t l ≤ s'.view t l) {p : RPc} (h : Sees s t b i e p) : Sees s' t b i e p := by
  cases p with
  | look b' e' bm r =>
    intro eb
    obtain ⟨h1, h2⟩ := h eb
    refine ⟨h1, ?_⟩
    have a := hv ⟨b, .hash i⟩
    have c := hi'.v.vle t ⟨b, .hash i⟩
    rw [kp.ch] at c ⊢
    omega
  | idle => trivial
  | len => trivial
  | rem => trivial
  | occ => exact h
  | hit => trivial
  | miss => exact h
  | empty => exact h

/-- One step of a lookup that has seen the key. -/
theorem Sees.load {s s' : St} (hi : Inv H md s) (hi' : Inv H md s') {t b i e : Nat} (kn : Known s t b i) (c : Settled s b i e)
    (h : Sees s t b i e (s.pc t)) {p : RPc} (ld : Load H s t p s') (hc : s'.cnt = s.cnt) : Sees s' t b i e p := by
  have us := c.rest hi
  have q := hi.slot b i
  have fu : (s.g.sl b i).full = true := by rw [us.1]; rfl
  cases ld with
  | idle => trivial
  | search => trivial
  | @lenZero b' e' k _ hpc hk h0 _ =>
    rintro ⟨rfl, rfl⟩
    exact q.len.pos us.2 k (Nat.le_trans kn.2.1 hk.1) hk.2 h0
  | lenPos => trivial
  | @loadRem b' e' k _ hpc hk =>
    rintro rfl
    exact q.rem.clear (by rw [us.1]; decide) (by rw [us.1]; decide) k (Nat.le_trans kn.2.2 hk.1) hk.2
  | @loadOcc b' e' f r k _ hpc hk hv =>
    rintro rfl
    rw [hpc] at h
    have fi : f i = false := h rfl
    have bk := Nat.le_trans kn.1 hk.1
    refine ⟨?_, ?_⟩
    · show (!f i && _) = true
      rw [fi, q.occ.set (.inl us.1) k bk hk.2]; rfl
    · have h1 := q.occ.hash fu (q.ctd us.2).2 k bk hk.2
      have h2 := hv ⟨b', .hash i⟩
      have h3 := hi'.v.vle t ⟨b', .hash i⟩
      rw [hc] at h3 ⊢
      omega
  | hit => trivial
  | @miss b' e' bm r _ hpc hm =>
    rintro ⟨rfl, rfl⟩
    have R := hi.rd t
    rw [hpc] at h R
    obtain ⟨h1, h2⟩ := h rfl
    obtain ⟨v, _, _, _, R⟩ := R
    have hd := (R i h1).2.1
    rcases hm i h1 with ⟨k, hk, hn⟩ | ⟨k, hk, hn⟩
    · have : k = s.cnt ⟨b', .hash i⟩ := by have := hk.1; have := hk.2; omega
      subst this
      exact hn (q.hash fu (q.ctd us.2).2 e' c.2.2.1)
    · have : k = s.cnt ⟨b', .data i⟩ := by have := hk.1; have := hk.2; omega
      subst this
      exact hn c.2.2.1

theorem sees_step {s s' : St} (hi : Inv H md s) (st : Step H md s s') {t b i e : Nat} (c : Settled s b i e)
    (h : Known s t b i ∧ Sees s t b i e (s.pc t)) : Known s' t b i ∧ Sees s' t b i e (s'.pc t) := by
  have us := c.rest hi
  have kp := st.kept hi (b := b) (i := i) (by rw [us.1]; rfl) c.2.2.2
  have gr := st.grow hi t
  have hi' := hi.step st
  refine ⟨⟨by rw [kp.born]; exact Nat.le_trans h.1.1 (gr _), by rw [kp.lenIx]; exact Nat.le_trans h.1.2.1 (gr _),
    by rw [kp.rc]; exact Nat.le_trans h.1.2.2 (gr _)⟩, ?_⟩
  rcases st.load t with e1 | ⟨ld, e2, _, _⟩
  · rw [e1]; exact kp.sees hi' gr h.2
  · exact h.2.load hi hi' h.1 c ld e2

theorem sees_path {s s' : St} (r : Reach H md s) {t b i e : Nat} (p : Path H md (fun s => Settled s b i e) s s')
    (h : Known s t b i ∧ Sees s t b i e (s.pc t)) : Known s' t b i ∧ Sees s' t b i e (s'.pc t) := by
  induction p with
  | refl _ => exact h
  | step p st _ ih => exact sees_step (p.reach r).inv st p.last ih

/-! ## The key is moved -/

/-- Where a lookup in the old bucket can be that has seen the key being inserted there, after it was moved. -/
def Sees2 (md : Bool) (s : St) (t b i e : Nat) (T : Tgt) : RPc → Prop
  | .occ b' _ f _ => b' = b → f i = false
  | .look b' _ bm _ => b' = b → (bm i = true ∧ s.view t ⟨b, .hash i⟩ = s.cnt ⟨b, .hash i⟩) ∨ T.le (s.view t)
  | .miss b' e' => b' = b → e' = e → T.le (s.view t)
  | .empty b' e' => b' = b → e' = e → md = true → T.le (s.view t)
  | _ => True

/-- The entry was moved from slot `i` of `b` according to `T`, and is there. -/
structure Gone (s : St) (b i e : Nat) (T : Tgt) : Prop where
  mv : s.g.sl b i = .moved
  tgt : s.g.tgt b i = some T
  ent : (s.now ⟨b, .data i⟩).entry = some e
  nt : ∀ t, ¬(s.ph t).touch b i
  born : s.g.born T.c T.j = T.born
  len : s.g.lenIx T.c T.j = T.len
  rc : s.g.rc T.c T.j = T.rc

theorem untouched {s : St} (h : Inv H md s) {b i : Nat} (mv : s.g.sl b i = .moved) (t : Nat) : ¬(s.ph t).touch b i := by
  intro c
  have P := h.ph t
  cases hp : s.ph t with
  | idle => rw [hp] at c; exact c
  | insHash => rw [hp] at c P; obtain ⟨rfl, rfl⟩ := c; have q := P.2.1; rw [mv] at q; cases q
  | insOcc => rw [hp] at c P; obtain ⟨rfl, rfl⟩ := c; have q := P.2.1; rw [mv] at q; cases q
  | insLen => rw [hp] at c P; obtain ⟨rfl, rfl⟩ := c; have q := P.2.1; rw [mv] at q; cases q
  | out => rw [hp] at c; exact c
  | outLen => rw [hp] at c; exact c
  | mkHash => rw [hp] at c P; obtain ⟨rfl, rfl⟩ := c; have q := P.2.1; rw [mv] at q; cases q
  | mkRem => rw [hp] at c P; obtain ⟨rfl, rfl⟩ := c; have q := P.2.1; rw [mv] at q; cases q
  | rcRem => rw [hp] at c P; obtain ⟨rfl, x⟩ := c; have := P.2 i x; rw [mv] at this; cases this
  | rcDrop => rw [hp] at c; exact c

theorem Kept.sees2 {s s' : St} (hi' : Inv H md s') {t b i e : Nat} {T : Tgt} (kp : Kept s s' b i)
    (hv : ∀ l, s.view t l ≤ s'.view t l) {p : RPc} (h : Sees2 md s t b i e T p) : Sees2 md s' t b i e T p := by
  cases p with
  | look b' e' bm r =>
    intro eb
    rcases h eb with ⟨h1, h2⟩ | h
    · refine .inl ⟨h1, ?_⟩
      have a := hv ⟨b, .hash i⟩
      have c := hi'.v.vle t ⟨b, .hash i⟩
      rw [kp.ch] at c ⊢
      omega
    · exact .inr (h.mono hv)
  | idle => trivial
  | len => trivial
  | rem => trivial
  | occ => exact h
  | hit => trivial
  | miss => exact fun x y => (h x y).mono hv
  | empty => exact fun x y z => (h x y z).mono hv

theorem Sees2.load {s s' : St} (hi : Inv H md s) (hi' : Inv H md s') {t b i e : Nat} {T : Tgt} (kn : Known s t b i)
    (g : Gone s b i e T) (h : Sees2 md s t b i e T (s.pc t)) (gr : ∀ l, s.view t l ≤ s'.view t l)
    {p : RPc} (ld : Load H s t p s') (hc : s'.cnt = s.cnt) : Sees2 md s' t b i e T p := by
  have q := hi.slot b i
  have fu : (s.g.sl b i).full = true := by rw [g.mv]; rfl
  cases ld with
  | idle => trivial
  | search => trivial
  | @lenZero b' e' k _ hpc hk h0 hv =>
    intro e1 e2 m
    subst e1
    have lk := Nat.le_trans kn.2.1 hk.1
    by_cases c : i ∈ s.g.counted b'
    · exact absurd h0 (q.len.pos c k lk hk.2)
    · exact (q.len.away m g.mv c T g.tgt k lk hk.2 h0).mono hv
  | lenPos => trivial
  | @loadRem b' e' k _ hpc hk =>
    intro e1
    subst e1
    exact q.rem.clear (by rw [g.mv]; decide) (by rw [g.mv]; decide) k (Nat.le_trans kn.2.2 hk.1) hk.2
  | @loadOcc b' e' f r k _ hpc hk hv =>
    intro e1
    subst e1
    rw [hpc] at h
    have fi : f i = false := h rfl
    have bk := Nat.le_trans kn.1 hk.1
    cases hb : (s.msg ⟨b', .occ⟩ k).val.bit i with
    | true =>
      refine .inl ⟨?_, ?_⟩
      · show (!f i && _) = true
        rw [fi, hb]; rfl
      · have h1 := q.occ.hash fu (q.mvd g.mv).2 k bk hk.2
        have h2 := hv ⟨b', .hash i⟩
        have h3 := hi'.v.vle t ⟨b', .hash i⟩
        rw [hc] at h3 ⊢
        omega
    | false =>
      obtain ⟨T', hT, h5⟩ := q.occ.tgt g.mv
      rw [g.tgt] at hT
      injection hT with hT
      subst hT
      exact .inr ((h5 k bk hk.2 hb).mono hv)
  | hit => trivial
  | @miss b' e' bm r _ hpc hm =>
    intro e1 e2
    subst e1; subst e2
    have R := hi.rd t
    rw [hpc] at h R
    rcases h rfl with ⟨h1, h2⟩ | h
    · obtain ⟨v, _, _, _, R⟩ := R
      have hd := (R i h1).2.1
      rcases hm i h1 with ⟨k, hk, hn⟩ | ⟨k, hk, hn⟩
      · have : k = s.cnt ⟨b', .hash i⟩ := by have := hk.1; have := hk.2; omega
        subst this
        exact absurd (q.hash fu (q.mvd g.mv).2 e' g.ent) hn
      · have : k = s.cnt ⟨b', .data i⟩ := by have := hk.1; have := hk.2; omega
        subst this
        exact absurd g.ent hn
    · exact h.mono gr

theorem sees2_step {s s' : St} (hi : Inv H md s) (st : Step H md s s') {t b i e : Nat} {T : Tgt}
    (c : Settled s T.c T.j e) (g : Gone s b i e T)
    (h : Known s t b i ∧ Sees2 md s t b i e T (s.pc t)) :
    Gone s' b i e T ∧ Known s' t b i ∧ Sees2 md s' t b i e T (s'.pc t) := by
  have kp := st.kept hi (b := b) (i := i) (by rw [g.mv]; rfl) g.nt
  have kc := st.kept hi (b := T.c) (i := T.j) (by rw [(c.rest hi).1]; rfl) c.2.2.2
  have gr := st.grow hi t
  have hi' := hi.step st
  refine ⟨⟨(kp.mv g.mv).1, (kp.mv g.mv).2.trans g.tgt, ?_, untouched hi' (kp.mv g.mv).1, kc.born.trans g.born, kc.lenIx.trans g.len,
    kc.rc.trans g.rc⟩, ⟨by rw [kp.born]; exact Nat.le_trans h.1.1 (gr _), by rw [kp.lenIx]; exact Nat.le_trans h.1.2.1 (gr _),
    by rw [kp.rc]; exact Nat.le_trans h.1.2.2 (gr _)⟩, ?_⟩
  · have : s'.now ⟨b, .data i⟩ = s.now ⟨b, .data i⟩ := by simp only [St.now, kp.cd, kp.md]
    rw [this]; exact g.ent
  · rcases st.load t with e1 | ⟨ld, e2, _, _⟩
    · rw [e1]; exact kp.sees2 hi' gr h.2
    · exact h.2.load hi hi' h.1 g gr ld e2

theorem sees2_path {s s' : St} (r : Reach H md s) {t b i e : Nat} {T : Tgt} (p : Path H md (fun s => Settled s T.c T.j e) s s')
    (h : Gone s b i e T ∧ Known s t b i ∧ Sees2 md s t b i e T (s.pc t)) :
    Gone s' b i e T ∧ Known s' t b i ∧ Sees2 md s' t b i e T (s'.pc t) := by
  induction p with
  | refl _ => exact h
  | step p st _ ih => exact sees2_step (p.reach r).inv st p.last ih.1 ih.2

/-- The step with which the entry leaves the old bucket. -/
theorem out_step {s : St} {u b i c j : Nat} (hp : s.ph u = .out b i c j) {s' : St} (st : Step H md s s')
    (hs : s'.ph u ≠ .out b i c j) :
    s' = { (s.write u ⟨b, .occ⟩ (.bits (fun x => !(x == i) && (s.now ⟨b, .occ⟩).bit x)) true).phase u
          (.outLen b i) with
        g := { s.g with sl := upd2 s.g.sl b i .moved,
                        tgt := upd2 s.g.tgt b i (some ⟨c, j, s.g.born c j, s.g.lenIx c j, s.g.rc c j⟩) } } := by
  have same : ∀ (v : Nat) (p : Phase), v ≠ u → upd s.ph v p u = .out b i c j := fun v p ne => by rw [upd_ne ne.symm]; exact hp
  have other : ∀ (v : Nat) (p q : Phase), s.ph v = q → q ≠ .out b i c j → upd s.ph v p u = .out b i c j := by
    intro v p q hq nq
    refine same v p ?_
    rintro rfl
    rw [hp] at hq
    exact nq hq.symm
  cases st with
  | @out v b' i' c' j' hv =>
    by_cases e : v = u
    · subst e
      rw [hp] at hv
      injection hv with e1 e2 e3 e4
      subst e1; subst e2; subst e3; subst e4
      rfl
    · exact absurd (same v _ e) hs
  | insData _ hq => exact absurd (other _ _ _ hq (by simp)) hs
  | exData _ hq => exact absurd (other _ _ _ hq (by simp)) hs
  | insHash hq => exact absurd (other _ _ _ hq (by simp)) hs
  | insOcc hq => exact absurd (other _ _ _ hq (by simp)) hs
  | insLen hq => exact absurd (other _ _ _ hq (by simp)) hs
  | outLen hq => exact absurd (other _ _ _ hq (by simp)) hs
  | mark _ hq => exact absurd (other _ _ _ hq (by simp)) hs
  | mkHash _ hq => exact absurd (other _ _ _ hq (by simp)) hs
  | mkRem hq => exact absurd (other _ _ _ hq (by simp)) hs
  | rcOcc _ hq => exact absurd (other _ _ _ hq (by simp)) hs
  | rcRem hq => exact absurd (other _ _ _ hq (by simp)) hs
  | rcDrop hq => exact absurd (other _ _ _ hq (by simp)) hs
  | rcDone hq => exact absurd (other _ _ _ hq (by simp)) hs
  | _ => exact absurd hp hs

theorem gone_out {s : St} (hi : Inv H md s) {u b i c j e : Nat} (hp : s.ph u = .out b i c j) {s' : St}
    (st : Step H md s s') (hs : s'.ph u ≠ .out b i c j) (hc : Settled s b i e) :
    Gone s' b i e ⟨c, j, s.g.born c j, s.g.lenIx c j, s.g.rc c j⟩ := by
  have key := out_step hp st hs
  have us := hc.rest hi
  have kp := st.kept hi (b := b) (i := i) (by rw [us.1]; rfl) hc.2.2.2
  have hi' := hi.step st
  have mv : s'.g.sl b i = .moved := by rw [key]; exact upd2_same ..
  refine ⟨mv, by rw [key]; exact upd2_same .., ?_, untouched hi' mv, by rw [key], by rw [key], by rw [key]⟩
  have : s'.now ⟨b, .data i⟩ = s.now ⟨b, .data i⟩ := by simp only [St.now, kp.cd, kp.md]
  rw [this]; exact hc.2.2.1

theorem sees_out {s : St} (hi : Inv H md s) {t u b i c j e : Nat} (hp : s.ph u = .out b i c j) {s' : St}
    (st : Step H md s s') (hs : s'.ph u ≠ .out b i c j) (hc : Settled s b i e) (h : Known s t b i ∧ Sees s t b i e (s.pc t)) :
    Gone s' b i e ⟨c, j, s.g.born c j, s.g.lenIx c j, s.g.rc c j⟩ ∧ Known s' t b i ∧
      Sees2 md s' t b i e ⟨c, j, s.g.born c j, s.g.lenIx c j, s.g.rc c j⟩ (s'.pc t) := by
  have key := out_step hp st hs
  have us := hc.rest hi
  have kp := st.kept hi (b := b) (i := i) (by rw [us.1]; rfl) hc.2.2.2
  have gr := st.grow hi t
  have hi' := hi.step st
  refine ⟨gone_out hi hp st hs hc,
    ⟨by rw [kp.born]; exact Nat.le_trans h.1.1 (gr _), by rw [kp.lenIx]; exact Nat.le_trans h.1.2.1 (gr _),
    by rw [kp.rc]; exact Nat.le_trans h.1.2.2 (gr _)⟩, ?_⟩
  · have e1 : s'.pc = s.pc := by rw [key]; rfl
    rw [e1]
    have h2 := kp.sees hi' gr h.2
    cases hpc : s.pc t with
    | idle => trivial
    | len => trivial
    | rem => trivial
    | hit => trivial
    | occ => rw [hpc] at h2; exact h2
    | look => rw [hpc] at h2; exact fun x => .inl (h2 x)
    | miss => rw [hpc] at h2; exact fun x y => absurd ⟨x, y⟩ h2
    | empty => rw [hpc] at h2; exact fun x y => absurd ⟨x, y⟩ h2

end Scc.Weak
