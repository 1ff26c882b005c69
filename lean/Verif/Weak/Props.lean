import Verif.Weak.Found

/-!
# C60: lock-free lookups of `HashIndex` under weak memory
-/

namespace Scc.Weak

variable {H : Nat → Nat} {md : Bool}

/-! ## Entries -/

/-- The cell of an entry is written only before and after its time. -/
theorem Step.cell {s s' : St} (h : Inv H md s) (st : Step H md s s') {b i : Nat} (f : (s.g.sl b i).full = true) :
    s'.now ⟨b, .data i⟩ = s.now ⟨b, .data i⟩ := by
  have nfl : ∀ {g : Field} {c : Nat}, (∀ j, g ≠ .data j) → (⟨c, g⟩ : Loc) ≠ ⟨b, .data i⟩ :=
    fun hg e => by injection e with _ e; exact hg i e
  cases st with
  | @insData t c j e o hp hd hb =>
    have ne : ¬(c = b ∧ j = i) := by
      rintro ⟨rfl, rfl⟩; rw [is_free h o hp hd hb] at f; cases f
    exact write_now_ne (t := t) (v := .pair (some e)) (r := false) (loc_inj ne).1.symm
  | @exData t c j e b' i' o hp hd hb =>
    have ne : ¬(c = b ∧ j = i) := by
      rintro ⟨rfl, rfl⟩; rw [is_free h o hp hd hb] at f; cases f
    exact write_now_ne (t := t) (v := .pair (some e)) (r := false) (loc_inj ne).1.symm
  | @rcDrop t c D j hp hi =>
    have ne : ¬(c = b ∧ j = i) := by
      rintro ⟨rfl, rfl⟩
      have P := h.ph t
      rw [hp] at P
      rw [P.2 j hi] at f; cases f
    exact write_now_ne (t := t) (v := .pair none) (r := false) (loc_inj ne).1.symm
  | @insHash t c j e k hp => exact write_now_ne (t := t) (v := .num (H e)) (r := false) (nfl (by simp)).symm
  | @insOcc t c j e k hp => exact write_now_ne (s := s) (t := t) (l := ⟨c, .occ⟩) (r := true) (nfl (by simp)).symm
  | @insLen t c j e k hp => exact write_now_ne (s := s) (t := t) (l := ⟨c, .len⟩) (nfl (by simp)).symm
  | @out t c j c' j' hp => exact write_now_ne (s := s) (t := t) (l := ⟨c, .occ⟩) (r := true) (nfl (by simp)).symm
  | @outLen t c j hp => exact write_now_ne (s := s) (t := t) (l := ⟨c, .len⟩) (nfl (by simp)).symm
  | @mark t c j => exact write_now_ne (s := s) (t := t) (l := ⟨c, .len⟩) (nfl (by simp)).symm
  | @mkHash t c j ep hp => exact write_now_ne (s := s) (t := t) (l := ⟨c, .hash j⟩) (nfl (by simp)).symm
  | @mkRem t c j hp => exact write_now_ne (s := s) (t := t) (l := ⟨c, .rem⟩) (nfl (by simp)).symm
  | @rcOcc t c D => exact write_now_ne (s := s) (t := t) (l := ⟨c, .occ⟩) (nfl (by simp)).symm
  | @rcRem t c D => exact write_now_ne (s := s) (t := t) (l := ⟨c, .rem⟩) (nfl (by simp)).symm
  | begin =>
    have e : (⟨b, .data i⟩ : Loc) ≠ ⟨0, .helpers⟩ := by simp
    simp [St.now, upd]
  | «end» => simp [St.now, upd]
  | @unlink t _ => exact write_now_ne (s := { s with last := none }) (t := t) (l := ⟨0, .link⟩) (nfl (by simp)).symm
  | _ => rfl

/-- A lookup that has found a slot: the key is in it, completely written before, and is not dropped. -/
theorem Reach.hit {s : St} (r : Reach H md s) : ∀ t b e i, s.pc t = .hit b e i → (s.now ⟨b, .data i⟩).entry = some e := by
  induction r with
  | init => intro t b e i h; cases h
  | @step s s' r st ih =>
    intro t b e i h
    have hi := r.inv
    have up : ∀ (u : Nat) (p : RPc), (∀ b' e' i', p = .hit b' e' i' → (s.now ⟨b', .data i'⟩).entry = some e') →
        upd s.pc u p t = .hit b e i → (s.now ⟨b, .data i⟩).entry = some e := by
      intro u p hp hu
      by_cases q : t = u
      · subst q; rw [upd_same] at hu; exact hp b e i hu
      · rw [upd_ne q] at hu; exact ih t b e i hu
    have stay : s.pc t = .hit b e i → (s'.now ⟨b, .data i⟩).entry = some e := by
      intro hp
      have R := hi.rd t
      rw [hp] at R
      obtain ⟨v, r, _, _, _, f, _⟩ := R
      rw [st.cell hi f]
      exact ih t b e i hp
    cases st with
    | stop => exact up _ _ (fun _ _ _ q => by cases q) h
    | search => exact up _ _ (fun _ _ _ q => by cases q) h
    | lenZero => exact up _ _ (fun _ _ _ q => by cases q) h
    | lenPos => exact up _ _ (fun _ _ _ q => by cases q) h
    | loadRem => exact up _ _ (fun _ _ _ q => by cases q) h
    | loadOcc => exact up _ _ (fun _ _ _ q => by cases q) h
    | miss => exact up _ _ (fun _ _ _ q => by cases q) h
    | @hit u b1 e1 bm r1 i1 kh kd hpc hb _ _ hk hd =>
      refine up _ _ (fun b' e' i' q => ?_) h
      injection q with q1 q2 q3
      subst q1; subst q2; subst q3
      have R := hi.rd u
      rw [hpc] at R
      obtain ⟨v, _, _, _, R⟩ := R
      have q := (R i1 hb).2.1
      have : kd = s.cnt ⟨b1, .data i1⟩ := by have := hk.1; have := hk.2; omega
      rw [this] at hd
      exact hd
    | _ => exact stay h

/-- The slots a lookup looks at: the entry was completely written before, in the sense of the memory model, so that there
is nothing else that could be read, and it has not been dropped; and whatever it hands out stays until its guard is
dropped. Full statement (`c60_race_violated`): all that a lookup reads was written before or is atomic. -/
theorem c60_entry_partial {s : St} (r : Reach H md s) (t : Nat) :
    (∀ b e bm k, s.pc t = .look b e bm k → ∀ i, bm i = true →
      ∃ e', ∀ x, s.can t ⟨b, .data i⟩ x → (s.msg ⟨b, .data i⟩ x).val.entry = some e') ∧
    (∀ b e i, s.pc t = .hit b e i → ∀ x, s.can t ⟨b, .data i⟩ x → (s.msg ⟨b, .data i⟩ x).val.entry = some e) := by
  have hi := r.inv
  refine ⟨fun b e bm k hp i hb => ?_, fun b e i hp x hx => ?_⟩
  · have R := hi.rd t
    rw [hp] at R
    obtain ⟨v, _, _, _, R⟩ := R
    obtain ⟨f, q, _⟩ := R i hb
    obtain ⟨e', he⟩ := (hi.slot b i).data f
    refine ⟨e', fun x hx => ?_⟩
    have : x = s.cnt ⟨b, .data i⟩ := by have := hx.1; have := hx.2; omega
    rw [this]
    exact he
  · have R := hi.rd t
    rw [hp] at R
    obtain ⟨v, k, _, _, _, f, q, _⟩ := R
    have : x = s.cnt ⟨b, .data i⟩ := by have := hx.1; have := hx.2; omega
    rw [this]
    exact r.hit t b e i hp

/-! ## Keys that are there -/

/-- Whoever has the lock knows. -/
theorem known_own {s : St} (h : Inv H md s) {u b i e : Nat} (o : s.own b = some u) (c : Settled s b i e) : Known s u b i := by
  have us := c.rest h
  have q := h.slot b i
  have fu : (s.g.sl b i).full = true := by rw [us.1]; rfl
  refine ⟨?_, ?_, ?_⟩
  · rw [h.v.own b u o .occ rfl]; exact q.occ.born_le fu
  · rw [h.v.own b u o .len rfl]; exact q.len.le us.2
  · rw [h.v.own b u o .rem rfl]; exact q.rem.rc_le

theorem same_path {s s' : St} (r : Reach H md s) {b i e : Nat} (p : Path H md (fun s => Settled s b i e) s s') :
    s'.g.born b i = s.g.born b i ∧ s'.g.lenIx b i = s.g.lenIx b i ∧ s'.g.rc b i = s.g.rc b i := by
  induction p with
  | refl _ => exact ⟨rfl, rfl, rfl⟩
  | step p st _ ih =>
    have hi := (p.reach r).inv
    have kp := st.kept hi (b := b) (i := i) (by rw [(p.last.rest hi).1]; rfl) p.last.2.2.2
    exact ⟨kp.born.trans ih.1, kp.lenIx.trans ih.2.1, kp.rc.trans ih.2.2⟩

/-- Knowledge is passed on. -/
theorem Known.pass {s s' : St} {u t b i : Nat} (h : Known s u b i) (hb : ∀ l, s.view u l ≤ s'.view t l)
    (e : s'.g.born b i = s.g.born b i ∧ s'.g.lenIx b i = s.g.lenIx b i ∧ s'.g.rc b i = s.g.rc b i) : Known s' t b i :=
  ⟨by rw [e.1]; exact Nat.le_trans h.1 (hb _), by rw [e.2.1]; exact Nat.le_trans h.2.1 (hb _),
    by rw [e.2.2]; exact Nat.le_trans h.2.2 (hb _)⟩

/-- Thread `u` has a bucket locked in which there is a key, for instance because it has inserted it; later, as long as the
key stays there, another thread `t` that has seen everything `u` had seen then looks it up in that bucket: it finds
it. Full statement (`c60_len_violated`, `c60_unlink_violated`): lookups in the table find it. -/
theorem c60_found_partial {s1 s2 s3 : St} {u t b i e : Nat} (r : Reach H md s1) (o : s1.own b = some u)
    (p1 : Path H md (fun s => Settled s b i e) s1 s2) (hb : ∀ l, s1.view u l ≤ s2.view t l) (ht : s2.pc t = .idle)
    (p2 : Path H md (fun s => Settled s b i e) s2 s3) : s3.pc t ≠ .miss b e ∧ s3.pc t ≠ .empty b e := by
  have c1 : Settled s1 b i e := by
    clear p2 hb ht
    induction p1 with
    | refl h => exact h
    | step p _ _ ih => exact ih
  have k1 := known_own r.inv o c1
  have k2 := k1.pass hb (same_path r p1)
  have h := sees_path (p1.reach r) p2 ⟨k2, by rw [ht]; trivial⟩
  refine ⟨fun x => ?_, fun x => ?_⟩
  · have := h.2; rw [x] at this; exact this ⟨rfl, rfl⟩
  · have := h.2; rw [x] at this; exact this ⟨rfl, rfl⟩

theorem Path.first {P : St → Prop} {s s' : St} (p : Path H md P s s') : P s := by
  induction p with
  | refl h => exact h
  | step _ _ _ ih => exact ih

theorem gone_path {s s' : St} (r : Reach H md s) {b i e : Nat} {T : Tgt} (p : Path H md (fun s => Settled s T.c T.j e) s s')
    (h : Gone s b i e T) : Gone s' b i e T ∧
      s'.g.born b i = s.g.born b i ∧ s'.g.lenIx b i = s.g.lenIx b i ∧ s'.g.rc b i = s.g.rc b i := by
  induction p with
  | refl _ => exact ⟨h, rfl, rfl, rfl⟩
  | @step s1 s2 p st _ ih =>
    obtain ⟨g, h1, h2, h3⟩ := ih
    have hi := (p.reach r).inv
    have c := p.last
    have kp := st.kept hi (b := b) (i := i) (by rw [g.mv]; rfl) g.nt
    have kc := st.kept hi (b := T.c) (i := T.j) (by rw [(c.rest hi).1]; rfl) c.2.2.2
    refine ⟨⟨(kp.mv g.mv).1, (kp.mv g.mv).2.trans g.tgt, ?_, untouched (hi.step st) (kp.mv g.mv).1, kc.born.trans g.born,
      kc.lenIx.trans g.len, kc.rc.trans g.rc⟩, kp.born.trans h1, kp.lenIx.trans h2, kp.rc.trans h3⟩
    have : s2.now ⟨b, .data i⟩ = s1.now ⟨b, .data i⟩ := by simp only [St.now, kp.cd, kp.md]
    rw [this]; exact g.ent

/-- Thread `t` has finished looking in the old bucket. -/
def Past (md : Bool) (b e : Nat) (p : RPc) : Prop := p = .miss b e ∨ (md = true ∧ p = .empty b e)

theorem after_old {s s' : St} (r : Reach H md s) {t b i e : Nat} {T : Tgt} (ne : b ≠ T.c)
    (h : Gone s b i e T ∧ Known s t b i ∧ Sees2 md s t b i e T (s.pc t)) (hp : Past md b e (s.pc t))
    (p : Path H md (fun s => Settled s T.c T.j e) s s') : s'.pc t ≠ .miss T.c e ∧ s'.pc t ≠ .empty T.c e := by
  obtain ⟨g, _, k⟩ := h
  have kn : Known s t T.c T.j := by
    have : T.le (s.view t) := by
      rcases hp with x | ⟨m, x⟩
      · rw [x] at k; exact k rfl rfl
      · rw [x] at k; exact k rfl rfl m
    exact ⟨by rw [g.born]; exact this.1, by rw [g.len]; exact this.2.1, by rw [g.rc]; exact this.2.2⟩
  have se : Sees s t T.c T.j e (s.pc t) := by
    rcases hp with x | ⟨m, x⟩
    · rw [x]; exact fun q => ne q.1
    · rw [x]; exact fun q => ne q.1
  have h := sees_path r p ⟨kn, se⟩
  refine ⟨fun x => ?_, fun x => ?_⟩
  · have := h.2; rw [x] at this; exact this ⟨rfl, rfl⟩
  · have := h.2; rw [x] at this; exact this ⟨rfl, rfl⟩

/-- A key is moved from bucket `b` to bucket `c` of the new array (the step from `s3` to `s4`). Thread `t`, which has seen
the key being in `b` (as in `c60_found_partial`), looks it up in `b`, at any time before or after, and having looked at
the slots without finding it, in `c`: it finds it there. The same if it did not look at the slots of `b` because `len` was 0, provided `len`
is stored with `Release` and loaded with `Acquire` (`md = true`), which it is not (`c60_len_violated`). -/
theorem c60_moved_partial {s1 s2 s3 s4 s5 s6 : St} {u v t b i c j e : Nat} (r : Reach H md s1) (o : s1.own b = some u)
    (p1 : Path H md (fun s => Settled s b i e) s1 s2) (hb : ∀ l, s1.view u l ≤ s2.view t l) (ht : s2.pc t = .idle)
    (p2 : Path H md (fun s => Settled s b i e) s2 s3)
    (hv : s3.ph v = .out b i c j) (st : Step H md s3 s4) (hv' : s4.ph v ≠ .out b i c j)
    (p3 : Path H md (fun s => Settled s c j e) s4 s5)
    (hp : s5.pc t = .miss b e ∨ (md = true ∧ s5.pc t = .empty b e))
    (p4 : Path H md (fun s => Settled s c j e) s5 s6) : s6.pc t ≠ .miss c e ∧ s6.pc t ≠ .empty c e := by
  have k1 := known_own r.inv o p1.first
  have k2 := k1.pass hb (same_path r p1)
  have r2 := p1.reach r
  have r3 := p2.reach r2
  have h3 := sees_path r2 p2 ⟨k2, by rw [ht]; trivial⟩
  have h4 := sees_out r3.inv hv st hv' p2.last h3
  have h5 := sees2_path (r3.step st) p3 h4
  have P := r3.inv.ph v
  rw [hv] at P
  exact after_old (p3.reach (r3.step st)) P.2.2.1 h5 hp p4

/-- The same if `t` gets to know of the key only after it was moved, but by way of someone who knew it before. -/
theorem c60_moved_late_partial {s1 s3 s4 s5 s6 s7 : St} {u v t b i c j e : Nat} (r : Reach H md s1) (o : s1.own b = some u)
    (p1 : Path H md (fun s => Settled s b i e) s1 s3)
    (hv : s3.ph v = .out b i c j) (st : Step H md s3 s4) (hv' : s4.ph v ≠ .out b i c j)
    (p3 : Path H md (fun s => Settled s c j e) s4 s5) (hb : ∀ l, s1.view u l ≤ s5.view t l) (ht : s5.pc t = .idle)
    (p4 : Path H md (fun s => Settled s c j e) s5 s6)
    (hp : s6.pc t = .miss b e ∨ (md = true ∧ s6.pc t = .empty b e))
    (p5 : Path H md (fun s => Settled s c j e) s6 s7) : s7.pc t ≠ .miss c e ∧ s7.pc t ≠ .empty c e := by
  have r3 := p1.reach r
  have P := r3.inv.ph v
  rw [hv] at P
  have k1 := known_own r.inv o p1.first
  have e3 := same_path r p1
  have kp := st.kept r3.inv (b := b) (i := i) (by rw [(p1.last.rest r3.inv).1]; rfl) p1.last.2.2.2
  have g4 : Gone s4 b i e ⟨c, j, s3.g.born c j, s3.g.lenIx c j, s3.g.rc c j⟩ :=
    gone_out r3.inv hv st hv' p1.last
  have g5 := gone_path (r3.step st) p3 g4
  have k5 : Known s5 t b i := k1.pass hb ⟨g5.2.1.trans (kp.born.trans e3.1), g5.2.2.1.trans (kp.lenIx.trans e3.2.1),
    g5.2.2.2.trans (kp.rc.trans e3.2.2)⟩
  have r5 := p3.reach (r3.step st)
  have h6 := sees2_path r5 p4 ⟨g5.1, k5, by rw [ht]; trivial⟩
  exact after_old (p4.reach r5) P.2.2.1 h6 hp p5

end Scc.Weak
