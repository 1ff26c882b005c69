import Verif.Weak.Steps3

/-!
# Every step keeps the invariant
-/

namespace Scc.Weak

variable {H : Nat → Nat} {md : Bool}

theorem see_grow {s : St} {t : Nat} {l : Loc} {k : Nat} {w : View} (hk : s.can t l k) (u : Nat) (l' : Loc) :
    s.view u l' ≤ (s.see t l k w).view u l' := by
  show _ ≤ upd s.view t _ u l'
  by_cases e : u = t
  · subst e
    rw [upd_same]
    refine Nat.le_trans ?_ (join_l _ _ _)
    by_cases el : l' = l
    · subst el; rw [upd_same]; exact hk.1
    · rw [upd_ne el]; exact Nat.le_refl _
  · rw [upd_ne e]; exact Nat.le_refl _

theorem see_msg {s : St} {t : Nat} {l : Loc} {k : Nat} {w : View} (l' : Loc) : w l' ≤ (s.see t l k w).view t l' := by
  show _ ≤ upd s.view t _ t l'
  rw [upd_same]; exact join_r _ _ _

theorem see_at {s : St} {t : Nat} {l : Loc} {k : Nat} {w : View} : k ≤ (s.see t l k w).view t l := by
  show _ ≤ upd s.view t _ t l
  rw [upd_same]
  refine Nat.le_trans ?_ (join_l _ _ _)
  rw [upd_same]; exact Nat.le_refl _

theorem Views.see {s : St} (h : Views s) {t : Nat} {l : Loc} {k : Nat} {w : View} (hk : s.can t l k)
    (hw : ∀ l', w l' ≤ s.cnt l') : Views (s.see t l k w) := by
  refine h.grow (fun l' => ?_) (fun l' => ?_)
  · have := see_grow (w := w) hk t l'
    rwa [show (s.see t l k w).view t = View.join (upd (s.view t) l k) w from upd_same ..] at this
  · refine join_le ?_ (hw l')
    by_cases el : l' = l
    · subst el; rw [upd_same]; exact hk.2
    · rw [upd_ne el]; exact h.vle t l'

section
variable {s : St} (h : Inv H md s)
include h

/-- A load, after which the lookup goes on at `p`. -/
theorem Inv.see {t : Nat} {l : Loc} {k : Nat} {w : View} {p : RPc} (hk : s.can t l k) (hw : ∀ l', w l' ≤ s.cnt l')
    (hp : RdOk ((s.see t l k w).at t p) t p) : Inv H md ((s.see t l k w).at t p) := by
  have V := h.v.see hk hw
  refine h.same (s' := (s.see t l k w).at t p) ⟨V.vle, V.lle, V.mle, V.act, V.own, V.free⟩ (fun _ _ _ => rfl)
    (fun _ _ _ => rfl) rfl rfl rfl (see_grow hk) (fun _ _ x => .inl x) (fun b i T hT => ?_) (fun u => ?_) h.act
  · obtain ⟨h1, h2⟩ := (h.slot b i).away T hT
    exact ⟨fun u hu => (h1 u hu).mono (see_grow hk u), h2⟩
  · show RdOk _ u (upd s.pc t p u)
    by_cases e : u = t
    · subst e; rw [upd_same]; exact hp
    · rw [upd_ne e]
      refine (h.rd u).frame rfl (see_grow hk u) (fun _ => Nat.le_refl _) (fun _ _ _ _ _ _ _ x => x) (fun b i v r _ _ _ x => ⟨x.1, ?_, x.2.2⟩)
      show upd s.view t _ u _ = _
      rw [upd_ne e]; exact x.2.1

/-- The lookup goes on at `p` without a load. -/
theorem Inv.at {t : Nat} {p : RPc} (hp : RdOk (s.at t p) t p) : Inv H md (s.at t p) := by
  have V := h.v
  refine h.same (s' := s.at t p) ⟨V.vle, V.lle, V.mle, V.act, V.own, V.free⟩ (fun _ _ _ => rfl)
    (fun _ _ _ => rfl) rfl rfl rfl (fun _ _ => Nat.le_refl _) (fun _ _ x => .inl x) (fun b i => (h.slot b i).away) (fun u => ?_) h.act
  show RdOk _ u (upd s.pc t p u)
  by_cases e : u = t
  · subst e; rw [upd_same]; exact hp
  · rw [upd_ne e]
    exact (h.rd u).frame rfl (fun _ => Nat.le_refl _) (fun _ => Nat.le_refl _) (fun _ _ _ _ _ _ _ x => x) (fun _ _ _ _ _ _ _ x => x)

/-- Something else than buckets is written, and thread `t` knows more. -/
theorem Inv.misc {s' : St} {t : Nat} (hV : Views s')
    (hc : ∀ c f, f.inB = true → s'.cnt ⟨c, f⟩ = s.cnt ⟨c, f⟩) (hm : ∀ c f, f.inB = true → s'.msg ⟨c, f⟩ = s.msg ⟨c, f⟩)
    (hg : s'.g = s.g) (hd : s'.dead = s.dead) (hp : s'.ph = s.ph) (hv : ∀ u l, s.view u l ≤ s'.view u l)
    (ho : s'.own = s.own) (hl : s'.lockView = s.lockView) (ha : s'.act = s.act) (hpc : s'.pc = s.pc) : Inv H md s' := by
  refine h.same hV hc hm hg hd hp hv (fun u b x => .inl (by rw [ho]; exact x)) (fun b i T hT => ?_) (fun u => ?_) (fun u w hu => h.act u w (by rw [← ha]; exact hu))
  · obtain ⟨h1, h2⟩ := (h.slot b i).away T hT
    rw [ho, hl]
    exact ⟨fun u hu => (h1 u hu).mono (hv u), h2⟩
  · rw [hpc]
    refine (h.rd u).frame (by rw [ha]) (hv u) (fun b => ?_) (fun _ _ _ _ _ _ _ x => by rw [hg]; exact x) (fun b i v r _ _ _ x => ?_)
    · rw [hc b .rem rfl]; exact Nat.le_refl _
    · rw [hg, hc b (.data i) rfl]
      refine ⟨x.1, ?_, x.2.2⟩
      have h1 := hv u ⟨b, .data i⟩
      have h2 := hV.vle u ⟨b, .data i⟩
      rw [hc b (.data i) rfl] at h2
      have h3 := x.2.1
      omega

end

/-- A value is appended to something else than a bucket. -/
theorem Views.misc {s s' : St} (h : Views s) {t : Nat} {l : Loc} {w w' : View} (hl : l.f.inB = false)
    (hc : s'.cnt = upd s.cnt l (s.cnt l + 1))
    (hm : ∀ l' k, (s'.msg l' k).view = w ∨ s'.msg l' k = s.msg l' k)
    (hv : s'.view = upd s.view t w') (hw : ∀ l', w l' ≤ s'.cnt l') (hw' : ∀ l', w' l' ≤ s'.cnt l') (hg : ∀ l', s.view t l' ≤ w' l')
    (hk : s'.lockView = s.lockView) (ho : s'.own = s.own) (ha : s'.act = s.act) : Views s' := by
  have le : ∀ l', s.cnt l' ≤ s'.cnt l' := by
    intro l'; rw [hc]
    by_cases e : l' = l
    · subst e; rw [upd_same]; exact Nat.le_succ _
    · rw [upd_ne e]; exact Nat.le_refl _
  have same : ∀ b f, f.inB = true → s'.cnt ⟨b, f⟩ = s.cnt ⟨b, f⟩ := by
    intro b f hf
    rw [hc, upd_ne]
    intro e
    subst e
    rw [show f.inB = false from hl] at hf
    cases hf
  have grow : ∀ u l', s.view u l' ≤ s'.view u l' := by
    intro u l'; rw [hv]
    by_cases e : u = t
    · subst e; rw [upd_same]; exact hg l'
    · rw [upd_ne e]; exact Nat.le_refl _
  have vle : ∀ u l', s'.view u l' ≤ s'.cnt l' := by
    intro u l'; rw [hv]
    by_cases e : u = t
    · subst e; rw [upd_same]; exact hw' l'
    · rw [upd_ne e]; exact Nat.le_trans (h.vle u l') (le l')
  refine ⟨vle, fun b l' => by rw [hk]; exact Nat.le_trans (h.lle b l') (le l'), fun l' k l'' => ?_, fun u v hu l' => ?_,
    fun b u hb f hf => ?_, fun b hb f hf => ?_⟩
  · rcases hm l' k with e | e
    · rw [e]; exact hw l''
    · rw [e]; exact Nat.le_trans (h.mle l' k l'') (le l'')
  · rw [ha] at hu
    exact Nat.le_trans (h.act u v hu l') (grow u l')
  · rw [ho] at hb
    have h1 := h.own b u hb f hf
    have h2 := grow u ⟨b, f⟩
    have h3 := vle u ⟨b, f⟩
    have h4 := same b f hf
    omega
  · rw [ho] at hb
    rw [hk, same b f hf]; exact h.free b hb f hf

theorem Inv.step {s s' : St} (h : Inv H md s) (st : Step H md s s') : Inv H md s' := by
  cases st with
  | sync t u =>
    have V := h.v.grow (t := u) (w := View.join (s.view u) (s.view t)) (join_l _ _) (fun l => join_le (h.v.vle u l) (h.v.vle t l))
    refine h.misc (t := u) V (fun _ _ _ => rfl) (fun _ _ _ => rfl) rfl rfl rfl (fun x l => ?_) rfl rfl rfl rfl
    show _ ≤ upd s.view u _ x l
    by_cases e : x = u
    · subst e; rw [upd_same]; exact join_l _ _ _
    · rw [upd_ne e]; exact Nat.le_refl _
  | @lock t b o =>
    have grow : ∀ u l, s.view u l ≤ upd s.view t (View.join (s.view t) (s.lockView b)) u l := by
      intro u l
      by_cases e : u = t
      · subst e; rw [upd_same]; exact join_l _ _ _
      · rw [upd_ne e]; exact Nat.le_refl _
    have vle : ∀ u l, upd s.view t (View.join (s.view t) (s.lockView b)) u l ≤ s.cnt l := by
      intro u l
      by_cases e : u = t
      · subst e; rw [upd_same]; exact join_le (h.v.vle u l) (h.v.lle b l)
      · rw [upd_ne e]; exact h.v.vle u l
    refine h.same ⟨vle, h.v.lle, h.v.mle, fun u v hu l => Nat.le_trans (h.v.act u v hu l) (grow u l), fun c u hc f hf => ?_,
      fun c hc f hf => ?_⟩ (fun _ _ _ => rfl) (fun _ _ _ => rfl) rfl rfl rfl grow (fun u c hc => .inl ?_) (fun c i T hT => ?_) (fun u => ?_) h.act
    · have hc : upd s.own b (some t) c = some u := hc
      show upd s.view t _ u _ = s.cnt _
      by_cases e : c = b
      · subst e
        rw [upd_same] at hc
        injection hc with hc
        subst hc
        have h1 := vle t ⟨c, f⟩
        have h2 : s.lockView c ⟨c, f⟩ ≤ upd s.view t (View.join (s.view t) (s.lockView c)) t ⟨c, f⟩ := by
          rw [upd_same]; exact join_r _ _ _
        have h3 := h.v.free c o f hf
        omega
      · rw [upd_ne e] at hc
        have h1 := vle u ⟨c, f⟩
        have h2 := grow u ⟨c, f⟩
        have h3 := h.v.own c u hc f hf
        omega
    · have hc : upd s.own b (some t) c = none := hc
      have e : c ≠ b := by rintro rfl; rw [upd_same] at hc; cases hc
      rw [upd_ne e] at hc
      exact h.v.free c hc f hf
    · show upd s.own b (some t) c = some u
      rw [upd_ne (by rintro rfl; rw [o] at hc; cases hc)]; exact hc
    · obtain ⟨h1, h2⟩ := (h.slot c i).away T hT
      show (∀ u, upd s.own b (some t) c = some u → T.le (upd s.view t _ u)) ∧ (upd s.own b (some t) c = none → _)
      by_cases e : c = b
      · subst e
        rw [upd_same]
        refine ⟨fun u hu => ?_, (fun x => by cases x)⟩
        injection hu with hu
        subst hu
        refine (h2 o).mono fun l => ?_
        rw [upd_same]; exact join_r _ _ _
      · rw [upd_ne e]
        exact ⟨fun u hu => (h1 u hu).mono (grow u), h2⟩
    · refine (h.rd u).frame rfl (grow u) (fun _ => Nat.le_refl _) (fun _ _ _ _ _ _ _ x => x) (fun b' i v r _ _ _ x => ⟨x.1, ?_, x.2.2⟩)
      have h1 := vle u ⟨b', .data i⟩
      have h2 := grow u ⟨b', .data i⟩
      have h3 := x.2.1
      show upd s.view t _ u _ = s.cnt _
      omega
  | @unlock t b o hp =>
    refine h.same ⟨h.v.vle, fun c l => ?_, h.v.mle, h.v.act, fun c u hc f hf => ?_, fun c hc f hf => ?_⟩ (fun _ _ _ => rfl)
      (fun _ _ _ => rfl) rfl rfl rfl (fun _ _ => Nat.le_refl _) (fun u c hc => ?_) (fun c i T hT => ?_) (fun u => ?_) h.act
    · show upd s.lockView b _ c l ≤ _
      by_cases e : c = b
      · subst e; rw [upd_same]; exact h.v.vle t l
      · rw [upd_ne e]; exact h.v.lle c l
    · have hc : upd s.own b none c = some u := hc
      have e : c ≠ b := by rintro rfl; rw [upd_same] at hc; cases hc
      rw [upd_ne e] at hc
      exact h.v.own c u hc f hf
    · have hc : upd s.own b none c = none := hc
      show upd s.lockView b _ c _ = _
      by_cases e : c = b
      · subst e; rw [upd_same]; exact h.v.own c t o f hf
      · rw [upd_ne e] at hc ⊢; exact h.v.free c hc f hf
    · by_cases e : c = b
      · subst e
        rw [o] at hc
        injection hc with hc
        subst hc
        exact .inr hp
      · refine .inl ?_
        show upd s.own b none c = some u
        rw [upd_ne e]; exact hc
    · obtain ⟨h1, h2⟩ := (h.slot c i).away T hT
      show (∀ u, upd s.own b none c = some u → _) ∧ (upd s.own b none c = none → T.le (upd s.lockView b _ c))
      by_cases e : c = b
      · subst e
        rw [upd_same, upd_same]
        exact ⟨(fun u x => by cases x), fun _ => h1 t o⟩
      · rw [upd_ne e, upd_ne e]; exact ⟨h1, h2⟩
    · exact (h.rd u).frame rfl (fun _ => Nat.le_refl _) (fun _ => Nat.le_refl _) (fun _ _ _ _ _ _ _ x => x) (fun _ _ _ _ _ _ _ x => x)
  | insData o hp hd hb => exact h.data (d := s.dead) o hp hd hb (fun _ _ hk => by cases hk) (fun _ _ => rfl) (fun _ => id)
  | @exData t b i e b' i' o hp hd hb o' nb hb' hr' he =>
    obtain ⟨us, ct⟩ := is_used h o' hp hb' hr'
    refine h.data (d := upd s.dead b' true) o hp hd hb (fun b2 i2 hk => ?_) (fun c hc => ?_) (fun c hc => ?_)
    · injection hk with hk
      injection hk with e1 e2
      subst e1; subst e2
      refine ⟨o', nb, ?_, ct, upd_same .., ?_⟩
      · show upd2 s.g.sl b i .writing b' i' = .used
        rw [upd2_ne (fun w => nb w.1)]; exact us
      · exact (congrArg Val.entry (write_now_ne (loc_ne nb))).trans he
    · exact upd_ne (by rintro rfl; exact hc o')
    · by_cases e : c = b'
      · subst e; exact upd_same ..
      · rw [upd_ne e]; exact hc
  | insHash hp => exact h.insHash hp
  | insOcc hp => exact h.insOcc hp
  | insLen hp => exact h.insLen hp
  | out hp => exact h.out hp
  | outLen hp => exact h.outLen hp
  | mark o hp hd hb hr => exact h.mark o hp hd hb hr
  | mkHash ep hp => exact h.mkHash ep hp
  | mkRem hp => exact h.mkRem hp
  | rcOcc o hp hd hD hE => exact h.rcOcc o hp hD hE
  | rcRem hp => exact h.rcRem hp
  | rcDrop hp hi => exact h.rcDrop hp hi
  | rcDone hp => exact h.rcDone hp
  | @start t ha hf =>
    refine h.same ⟨h.v.vle, h.v.lle, h.v.mle, fun u v hu l => ?_, h.v.own, h.v.free⟩ (fun _ _ _ => rfl) (fun _ _ _ => rfl) rfl rfl rfl
      (fun _ _ => Nat.le_refl _) (fun _ _ x => .inl x) (fun b i => (h.slot b i).away) (fun u => ?_) (fun u w hu b i => ?_)
    · have hu : upd s.act t (some (s.view t)) u = some v := hu
      by_cases e : u = t
      · subst e; rw [upd_same] at hu; injection hu with hu; subst hu; exact Nat.le_refl _
      · rw [upd_ne e] at hu; exact h.v.act u v hu l
    · have R := h.rd u
      by_cases e : u = t
      · subst e
        show RdOk _ u (s.pc u)
        cases hpc : s.pc u with
        | idle => trivial
        | hit b e i => rw [hpc] at R; obtain ⟨v, r, R, _⟩ := R; rw [ha] at R; cases R
        | empty => trivial
        | miss => trivial
        | len b e => rw [hpc] at R; obtain ⟨v, R⟩ := R; rw [ha] at R; cases R
        | rem b e => rw [hpc] at R; obtain ⟨v, R⟩ := R; rw [ha] at R; cases R
        | occ b e f r => rw [hpc] at R; obtain ⟨v, R, _⟩ := R; rw [ha] at R; cases R
        | look b e f r => rw [hpc] at R; obtain ⟨v, R, _⟩ := R; rw [ha] at R; cases R
      · exact R.frame (upd_ne e) (fun _ => Nat.le_refl _) (fun _ => Nat.le_refl _) (fun _ _ _ _ _ _ _ x => x) (fun _ _ _ _ _ _ _ x => x)
    · have hu : upd s.act t (some (s.view t)) u = some w := hu
      by_cases e : u = t
      · subst e; rw [upd_same] at hu; injection hu with hu; subst hu; exact hf b i
      · rw [upd_ne e] at hu; exact h.act u w hu b i
  | @stop t =>
    refine h.same ⟨h.v.vle, h.v.lle, h.v.mle, fun u v hu l => ?_, h.v.own, h.v.free⟩ (fun _ _ _ => rfl) (fun _ _ _ => rfl) rfl rfl rfl
      (fun _ _ => Nat.le_refl _) (fun _ _ x => .inl x) (fun b i => (h.slot b i).away) (fun u => ?_) (fun u w hu b i => ?_)
    · have hu : upd s.act t none u = some v := hu
      by_cases e : u = t
      · subst e; rw [upd_same] at hu; cases hu
      · rw [upd_ne e] at hu; exact h.v.act u v hu l
    · show RdOk _ u (upd s.pc t .idle u)
      by_cases e : u = t
      · subst e; rw [upd_same]; trivial
      · rw [upd_ne e]
        exact (h.rd u).frame (upd_ne e) (fun _ => Nat.le_refl _) (fun _ => Nat.le_refl _) (fun _ _ _ _ _ _ _ x => x) (fun _ _ _ _ _ _ _ x => x)
    · have hu : upd s.act t none u = some w := hu
      by_cases e : u = t
      · subst e; rw [upd_same] at hu; cases hu
      · rw [upd_ne e] at hu; exact h.act u w hu b i
  | @search t v b e ha => exact h.at ⟨v, ha⟩
  | @lenZero t b e k hpc hk h0 => exact h.see hk (h.v.mle _ _) trivial
  | @lenPos t b e k hpc hk h0 =>
    have R := h.rd t
    rw [hpc] at R
    exact h.see hk (h.v.mle _ _) R
  | @loadRem t b e k hpc hk =>
    have R := h.rd t
    rw [hpc] at R
    obtain ⟨v, hv⟩ := R
    have low : v ⟨b, .rem⟩ ≤ k := Nat.le_trans (h.v.act t v hv _) hk.1
    refine h.see hk (h.v.mle _ _) ⟨v, hv, low, hk.2, fun i hi => ?_⟩
    have q := h.slot b i
    have fl := h.act t v hv b i
    have fk : s.g.floor b i ≤ k := Nat.le_trans fl low
    refine ⟨fun e => ?_, ?_, fun e => ?_⟩
    · have := q.rem.again e k fk hk.2
      rw [hi] at this; cases this
    · have rk : s.g.rc b i ≤ k := by
        refine Nat.le_of_not_lt fun lt => ?_
        have := q.rem.low k fk lt
        rw [hi] at this; cases this
      have ne : s.g.sl b i ≠ .recycling := by
        intro e
        have := q.rem.again e k fk hk.2
        rw [hi] at this; cases this
      exact Nat.le_trans (q.rem.ocv ne k rk hk.2) (see_msg (s := s) (l := ⟨b, .rem⟩) (k := k) _)
    · refine Nat.lt_of_not_le fun le => ?_
      have := q.rem.marked e k le hk.2
      rw [hi] at this; cases this
  | @loadOcc t b e f r k hpc hk =>
    have R := h.rd t
    rw [hpc] at R
    obtain ⟨v, hv, h1, h2, h3⟩ := R
    have V := h.v.see hk (h.v.mle ⟨b, .occ⟩ k)
    refine h.see hk (h.v.mle _ _) ⟨v, hv, h1, h2, fun i hi => ?_⟩
    have fi : f i = false := by
      cases e : f i with
      | false => rfl
      | true => simp [e] at hi
    have bi : (s.msg ⟨b, .occ⟩ k).val.bit i = true := by simpa [fi] using hi
    obtain ⟨k1, k2, k3⟩ := h3 i fi
    have q := h.slot b i
    rcases q.occ.old k hk.2 bi with x | ⟨x, fu⟩
    · exact absurd (Nat.lt_of_lt_of_le x (Nat.le_trans k2 hk.1)) (Nat.lt_irrefl _)
    · refine ⟨fu, ?_, k3⟩
      have d1 := q.occ.data fu k x hk.2
      have d2 := see_msg (s := s) (t := t) (l := ⟨b, .occ⟩) (k := k) (w := (s.msg ⟨b, .occ⟩ k).view) ⟨b, .data i⟩
      have d3 := V.vle t ⟨b, .data i⟩
      rw [d1] at d2
      exact Nat.le_antisymm d3 d2
  | @hit t b e bm r i kh kd hpc hb =>
    have R := h.rd t
    rw [hpc] at R
    obtain ⟨v, h1, h2, h3, h4⟩ := R
    exact h.at ⟨v, r, h1, h2, h3, h4 i hb⟩
  | miss => exact h.at trivial
  | @begin t h1 h2 h3 =>
    have w : ∀ l', View.join (upd (s.view t) ⟨0, .helpers⟩ (s.cnt ⟨0, .helpers⟩ + 1)) (s.msg ⟨0, .helpers⟩ (s.cnt ⟨0, .helpers⟩)).view l' ≤
        upd s.cnt ⟨0, .helpers⟩ (s.cnt ⟨0, .helpers⟩ + 1) l' := by
      intro l'
      by_cases e : l' = ⟨0, .helpers⟩
      · subst e; rw [upd_same]; exact join_le (by rw [upd_same]; exact Nat.le_refl _) (Nat.le_succ_of_le (h.v.mle _ _ _))
      · rw [upd_ne e]; exact join_le (by rw [upd_ne e]; exact h.v.vle t l') (h.v.mle _ _ _)
    have gr : ∀ l', s.view t l' ≤ View.join (upd (s.view t) ⟨0, .helpers⟩ (s.cnt ⟨0, .helpers⟩ + 1)) (s.msg ⟨0, .helpers⟩ (s.cnt ⟨0, .helpers⟩)).view l' := by
      intro l'
      refine Nat.le_trans ?_ (join_l _ _ _)
      by_cases e : l' = ⟨0, .helpers⟩
      · subst e; rw [upd_same]; exact Nat.le_succ_of_le (h.v.vle _ _)
      · rw [upd_ne e]; exact Nat.le_refl _
    refine h.misc (t := t) (h.v.misc (t := t) (l := ⟨0, .helpers⟩) (w := (s.msg ⟨0, .helpers⟩ (s.cnt ⟨0, .helpers⟩)).view) rfl rfl (fun l' k => ?_) rfl
      (fun l' => Nat.le_trans (join_r _ _ _) (w l')) w gr rfl rfl rfl) (fun c f hf => ?_) (fun c f hf => ?_) rfl rfl rfl (fun u l => ?_) rfl rfl rfl rfl
    · show (ite _ _ _ : Msg).view = _ ∨ (ite _ _ _ : Msg) = _
      split
      · exact .inl rfl
      · exact .inr rfl
    · exact upd_ne (fun e => by injection e with _ e; subst e; cases hf)
    · funext k
      exact if_neg (fun e => by injection e.1 with _ e; subst e; cases hf)
    · show _ ≤ upd s.view t _ u l
      by_cases e : u = t
      · subst e; rw [upd_same]; exact gr l
      · rw [upd_ne e]; exact Nat.le_refl _
  | @«end» t h1 h2 h3 =>
    have w0 : ∀ l', upd (s.view t) ⟨0, .helpers⟩ (s.cnt ⟨0, .helpers⟩ + 1) l' ≤ upd s.cnt ⟨0, .helpers⟩ (s.cnt ⟨0, .helpers⟩ + 1) l' := by
      intro l'
      by_cases e : l' = ⟨0, .helpers⟩
      · subst e; rw [upd_same, upd_same]; exact Nat.le_refl _
      · rw [upd_ne e, upd_ne e]; exact h.v.vle t l'
    have w : ∀ l', View.join (upd (s.view t) ⟨0, .helpers⟩ (s.cnt ⟨0, .helpers⟩ + 1)) (s.msg ⟨0, .helpers⟩ (s.cnt ⟨0, .helpers⟩)).view l' ≤
        upd s.cnt ⟨0, .helpers⟩ (s.cnt ⟨0, .helpers⟩ + 1) l' := by
      intro l'
      refine join_le (w0 l') ?_
      by_cases e : l' = ⟨0, .helpers⟩
      · subst e; rw [upd_same]; exact Nat.le_succ_of_le (h.v.mle _ _ _)
      · rw [upd_ne e]; exact h.v.mle _ _ _
    have gr : ∀ l', s.view t l' ≤ upd (s.view t) ⟨0, .helpers⟩ (s.cnt ⟨0, .helpers⟩ + 1) l' := by
      intro l'
      by_cases e : l' = ⟨0, .helpers⟩
      · subst e; rw [upd_same]; exact Nat.le_succ_of_le (h.v.vle _ _)
      · rw [upd_ne e]; exact Nat.le_refl _
    refine h.misc (t := t) (h.v.misc (t := t) (l := ⟨0, .helpers⟩) rfl rfl (fun l' k => ?_) rfl
      w w0 gr rfl rfl rfl) (fun c f hf => ?_) (fun c f hf => ?_) rfl rfl rfl (fun u l => ?_) rfl rfl rfl rfl
    · show (ite _ _ _ : Msg).view = _ ∨ (ite _ _ _ : Msg) = _
      split
      · exact .inl rfl
      · exact .inr rfl
    · exact upd_ne (fun e => by injection e with _ e; subst e; cases hf)
    · funext k
      exact if_neg (fun e => by injection e.1 with _ e; subst e; cases hf)
    · show _ ≤ upd s.view t _ u l
      by_cases e : u = t
      · subst e; rw [upd_same]; exact gr l
      · rw [upd_ne e]; exact Nat.le_refl _
  | @unlink t hl =>
    have w : ∀ l', upd (s.view t) ⟨0, .link⟩ (s.cnt ⟨0, .link⟩ + 1) l' ≤ upd s.cnt ⟨0, .link⟩ (s.cnt ⟨0, .link⟩ + 1) l' := by
      intro l'
      by_cases e : l' = ⟨0, .link⟩
      · subst e; rw [upd_same, upd_same]; exact Nat.le_refl _
      · rw [upd_ne e, upd_ne e]; exact h.v.vle t l'
    have gr : ∀ l', s.view t l' ≤ upd (s.view t) ⟨0, .link⟩ (s.cnt ⟨0, .link⟩ + 1) l' := by
      intro l'
      by_cases e : l' = ⟨0, .link⟩
      · subst e; rw [upd_same]; exact Nat.le_succ_of_le (h.v.vle _ _)
      · rw [upd_ne e]; exact Nat.le_refl _
    refine h.misc (t := t) (h.v.misc (t := t) (l := ⟨0, .link⟩) rfl rfl (fun l' k => ?_) rfl
      w w gr rfl rfl rfl) (fun c f hf => ?_) (fun c f hf => ?_) rfl rfl rfl (fun u l => ?_) rfl rfl rfl rfl
    · show (ite _ _ _ : Msg).view = _ ∨ (ite _ _ _ : Msg) = _
      split
      · exact .inl rfl
      · exact .inr rfl
    · exact upd_ne (fun e => by injection e with _ e; subst e; cases hf)
    · funext k
      exact if_neg (fun e => by injection e.1 with _ e; subst e; cases hf)
    · show _ ≤ upd s.view t _ u l
      by_cases e : u = t
      · subst e; rw [upd_same]; exact gr l
      · rw [upd_ne e]; exact Nat.le_refl _
  | @noLink t v k ha hk h0 =>
    have V := h.v.see hk (h.v.mle ⟨0, .link⟩ k)
    exact h.misc (t := t) V (fun _ _ _ => rfl) (fun _ _ _ => rfl) rfl rfl rfl (see_grow hk) rfl rfl rfl rfl

theorem Reach.inv {s : St} (r : Reach H md s) : Inv H md s := by
  induction r with
  | init => exact Inv.init H md
  | step _ st ih => exact ih.step st

end Scc.Weak
