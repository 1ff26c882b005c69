import Verif.Weak.Push

/-!
# What a step leaves alone
-/

namespace Scc.Weak

variable {H : Nat → Nat} {md : Bool}

structure SameG (g g' : Ghost) (c i : Nat) : Prop where
  sl : g'.sl c i = g.sl c i
  born : g'.born c i = g.born c i
  mark : g'.mark c i = g.mark c i
  floor : g'.floor c i = g.floor c i
  oc : g'.oc c i = g.oc c i
  rc : g'.rc c i = g.rc c i
  lenIx : g'.lenIx c i = g.lenIx c i
  tgt : g'.tgt c i = g.tgt c i
  hashed : g'.hashed c i = g.hashed c i

theorem SameG.refl (g : Ghost) (c i : Nat) : SameG g g c i := ⟨rfl, rfl, rfl, rfl, rfl, rfl, rfl, rfl, rfl⟩

/-- The fields that matter for slot `i`. -/
def Field.of (i : Nat) : Field → Bool
  | .len => true
  | .occ => true
  | .rem => true
  | .hash j => j == i
  | .data j => j == i
  | _ => false

theorem of_data (i : Nat) : (Field.data i).of i = true := by simp [Field.of]

theorem of_hash (i : Nat) : (Field.hash i).of i = true := by simp [Field.of]

theorem of_inB {i : Nat} {f : Field} (h : f.of i = true) : f.inB = true := by
  cases f <;> first | rfl | cases h

/-- Nothing about the slot is written to. -/
theorem SlotOk.frame {s s' : St} {c i : Nat} (h : SlotOk H md s c i)
    (hc : ∀ f, f.of i = true → s'.cnt ⟨c, f⟩ = s.cnt ⟨c, f⟩) (hm : ∀ f, f.of i = true → s'.msg ⟨c, f⟩ = s.msg ⟨c, f⟩)
    (hg : SameG s.g s'.g c i) (hcs : s'.g.counted c = s.g.counted c) (hd : s.dead c = true → s'.dead c = true)
    (hb : Unrest s c i → ∃ t, s'.own c = some t ∧ (s'.ph t).touch c i)
    (ha : ∀ T, s.g.tgt c i = some T → (∀ t, s'.own c = some t → T.le (s'.view t)) ∧ (s'.own c = none → T.le (s'.lockView c))) :
    SlotOk H md s' c i := by
  have nw : ∀ f, f.of i = true → s'.now ⟨c, f⟩ = s.now ⟨c, f⟩ := by
    intro f hf; simp only [St.now, hc f hf, hm f hf]
  refine ⟨?_, ?_, ?_, ?_, ?_, ?_, ?_, ?_, ?_⟩
  · rw [hc .occ rfl, hm .occ rfl, hc (.data i) (of_data i), hc (.hash i) (of_hash i), hg.sl, hg.oc, hg.born, hg.hashed, hg.tgt]; exact h.occ
  · rw [hc .rem rfl, hm .rem rfl, hg.sl, hg.oc, hg.rc, hg.floor, hg.mark]; exact h.rem
  · rw [hc .len rfl, hm .len rfl, hg.sl, hg.lenIx, hg.tgt, hcs]; exact h.len
  · rw [hcs, hg.sl, hg.hashed]; exact h.ctd
  · rw [hg.sl, hg.hashed]; exact fun e => ⟨hd (h.mvd e).1, (h.mvd e).2⟩
  · rw [hg.sl, nw _ (of_data i)]; exact h.data
  · rw [hg.sl, hg.hashed, nw _ (of_data i), nw _ (of_hash i)]; exact h.hash
  · intro u
    refine hb ?_
    simpa only [Unrest, hg.sl, hcs] using u
  · rw [hg.tgt]; exact ha

theorem PhOk.frame {s s' : St} {u : Nat} {p : Phase} (h : PhOk H s u p)
    (hf : ∀ b, s.own b = some u → s'.own b = some u ∧ s'.dead b = s.dead b ∧ s'.g.counted b = s.g.counted b ∧
      ∀ i, s'.g.sl b i = s.g.sl b i ∧ s'.g.hashed b i = s.g.hashed b i ∧ s'.now ⟨b, .data i⟩ = s.now ⟨b, .data i⟩ ∧
        s'.now ⟨b, .hash i⟩ = s.now ⟨b, .hash i⟩) : PhOk H s' u p := by
  have fr : ∀ b e k, From s u b e k → From s' u b e k := by
    intro b e k q b' i' hk
    obtain ⟨h1, h2, h3, h4, h5, h6⟩ := q b' i' hk
    obtain ⟨g1, g2, g3, g4⟩ := hf b' h1
    refine ⟨g1, h2, ?_, ?_, ?_, ?_⟩
    · rw [(g4 i').1]; exact h3
    · rw [g3]; exact h4
    · rw [g2]; exact h5
    · rw [(g4 i').2.2.1]; exact h6
  cases p with
  | idle => trivial
  | insHash b i e k =>
    obtain ⟨h1, h2, h3, h4⟩ := h
    obtain ⟨g1, g2, g3, g4⟩ := hf b h1
    exact ⟨g1, by rw [(g4 i).1]; exact h2, by rw [(g4 i).2.2.1]; exact h3, fr _ _ _ h4⟩
  | insOcc b i e k =>
    obtain ⟨h1, h2, h3, h4, h5, h6⟩ := h
    obtain ⟨g1, g2, g3, g4⟩ := hf b h1
    exact ⟨g1, by rw [(g4 i).1]; exact h2, by rw [(g4 i).2.2.1]; exact h3, fr _ _ _ h4, by rw [(g4 i).2.1]; exact h5,
      by rw [(g4 i).2.2.2]; exact h6⟩
  | insLen b i e k =>
    obtain ⟨h1, h2, h3, h4, h5, h6⟩ := h
    obtain ⟨g1, g2, g3, g4⟩ := hf b h1
    exact ⟨g1, by rw [(g4 i).1]; exact h2, by rw [g3]; exact h3, by rw [(g4 i).2.2.1]; exact h4, fr _ _ _ h5,
      by rw [(g4 i).2.1]; exact h6⟩
  | out b i c j =>
    obtain ⟨h1, h2, h3, h4, h5, h6, h7, h8⟩ := h
    obtain ⟨g1, g2, g3, g4⟩ := hf b h1
    obtain ⟨k1, k2, k3, k4⟩ := hf c h2
    exact ⟨g1, k1, h3, by rw [(g4 i).1]; exact h4, by rw [g3]; exact h5, by rw [g2]; exact h6, by rw [(k4 j).1]; exact h7,
      by rw [k3]; exact h8⟩
  | outLen b i =>
    obtain ⟨h1, h2, h3⟩ := h
    obtain ⟨g1, g2, g3, g4⟩ := hf b h1
    exact ⟨g1, by rw [(g4 i).1]; exact h2, by rw [g3]; exact h3⟩
  | mkHash b i =>
    obtain ⟨h1, h2, h3, h4⟩ := h
    obtain ⟨g1, g2, g3, g4⟩ := hf b h1
    exact ⟨g1, by rw [(g4 i).1]; exact h2, by rw [g3]; exact h3, by rw [g2]; exact h4⟩
  | mkRem b i =>
    obtain ⟨h1, h2, h3, h4⟩ := h
    obtain ⟨g1, g2, g3, g4⟩ := hf b h1
    exact ⟨g1, by rw [(g4 i).1]; exact h2, by rw [g3]; exact h3, by rw [g2]; exact h4⟩
  | rcRem b D =>
    obtain ⟨h1, h2⟩ := h
    obtain ⟨g1, g2, g3, g4⟩ := hf b h1
    exact ⟨g1, fun i hi => by rw [(g4 i).1]; exact h2 i hi⟩
  | rcDrop b D =>
    obtain ⟨h1, h2⟩ := h
    obtain ⟨g1, g2, g3, g4⟩ := hf b h1
    exact ⟨g1, fun i hi => by rw [(g4 i).1]; exact h2 i hi⟩

/-- What a lookup relies on. -/
theorem RdOk.frame {s s' : St} {u : Nat} {p : RPc} (h : RdOk s u p) (ha : s'.act u = s.act u)
    (hv : ∀ l, s.view u l ≤ s'.view u l) (hr : ∀ b, s.cnt ⟨b, .rem⟩ ≤ s'.cnt ⟨b, .rem⟩)
    (hA : ∀ b i v r, s.act u = some v → v ⟨b, .rem⟩ ≤ r → r ≤ s.cnt ⟨b, .rem⟩ →
      (s.g.sl b i ≠ .recycling ∧ s.g.oc b i ≤ s.view u ⟨b, .occ⟩ ∧ (s.g.sl b i = .marked → r < s.g.mark b i)) →
      (s'.g.sl b i ≠ .recycling ∧ s'.g.oc b i ≤ s.view u ⟨b, .occ⟩ ∧ (s'.g.sl b i = .marked → r < s'.g.mark b i)))
    (hB : ∀ b i v r, s.act u = some v → v ⟨b, .rem⟩ ≤ r → r ≤ s.cnt ⟨b, .rem⟩ →
      ((s.g.sl b i).full = true ∧ s.view u ⟨b, .data i⟩ = s.cnt ⟨b, .data i⟩ ∧ (s.g.sl b i = .marked → r < s.g.mark b i)) →
      ((s'.g.sl b i).full = true ∧ s'.view u ⟨b, .data i⟩ = s'.cnt ⟨b, .data i⟩ ∧ (s'.g.sl b i = .marked → r < s'.g.mark b i))) :
    RdOk s' u p := by
  cases p with
  | idle => trivial
  | len b e => obtain ⟨v, h⟩ := h; exact ⟨v, by rw [ha]; exact h⟩
  | rem b e => obtain ⟨v, h⟩ := h; exact ⟨v, by rw [ha]; exact h⟩
  | occ b e f r =>
    obtain ⟨v, h1, h2, h3, h4⟩ := h
    refine ⟨v, by rw [ha]; exact h1, h2, Nat.le_trans h3 (hr b), fun i hi => ?_⟩
    obtain ⟨k1, k2, k3⟩ := hA b i v r h1 h2 h3 (h4 i hi)
    exact ⟨k1, Nat.le_trans k2 (hv _), k3⟩
  | look b e bm r =>
    obtain ⟨v, h1, h2, h3, h4⟩ := h
    exact ⟨v, by rw [ha]; exact h1, h2, Nat.le_trans h3 (hr b), fun i hi => hB b i v r h1 h2 h3 (h4 i hi)⟩
  | hit b e i =>
    obtain ⟨v, r, h1, h2, h3, h4⟩ := h
    exact ⟨v, r, by rw [ha]; exact h1, h2, Nat.le_trans h3 (hr b), hB b i v r h1 h2 h3 h4⟩
  | empty => trivial
  | miss => trivial

theorem loc_ne {b c : Nat} {f g : Field} (h : c ≠ b) : (⟨c, g⟩ : Loc) ≠ ⟨b, f⟩ := by
  intro e; injection e; exact h ‹_›

theorem fld_ne {b : Nat} {f g : Field} (h : g ≠ f) : (⟨b, g⟩ : Loc) ≠ ⟨b, f⟩ := by
  intro e; injection e; exact h ‹_›

theorem write_grow {s : St} (hv : Views s) {t : Nat} {l : Loc} {v : Val} {r : Bool} (u : Nat) (l' : Loc) :
    s.view u l' ≤ (s.write t l v r).view u l' := by
  by_cases e : u = t ∧ l' = l
  · obtain ⟨rfl, rfl⟩ := e
    rw [write_view]
    exact Nat.le_succ_of_le (hv.vle _ _)
  · rw [write_view_ne e]; exact Nat.le_refl _

/-- Thread `t`, which has the lock of `b`, writes to `b` and changes what it is doing. -/
theorem Inv.write {s : St} (h : Inv H md s) {t b : Nat} {f : Field} {v : Val} {r : Bool} {p : Phase} {d : Nat → Bool}
    {g : Ghost} (o : s.own b = some t)
    (tch : ∀ c i, (s.ph t).touch c i → c = b)
    (hg : ∀ c i, c ≠ b → SameG s.g g c i) (hcs : ∀ c, c ≠ b → g.counted c = s.g.counted c)
    (hd : ∀ c, s.own c ≠ some t → d c = s.dead c) (hd' : ∀ c, s.dead c = true → d c = true)
    (hslot : ∀ i, SlotOk H md { (s.write t ⟨b, f⟩ v r).phase t p with dead := d, g := g } b i)
    (hph : PhOk H { (s.write t ⟨b, f⟩ v r).phase t p with dead := d, g := g } t p)
    (hA : ∀ u i w k, s.act u = some w → w ⟨b, .rem⟩ ≤ k → k ≤ s.cnt ⟨b, .rem⟩ →
      (s.g.sl b i ≠ .recycling ∧ s.g.oc b i ≤ s.view u ⟨b, .occ⟩ ∧ (s.g.sl b i = .marked → k < s.g.mark b i)) →
      (g.sl b i ≠ .recycling ∧ g.oc b i ≤ s.view u ⟨b, .occ⟩ ∧ (g.sl b i = .marked → k < g.mark b i)))
    (hB : ∀ u i w k, s.act u = some w → w ⟨b, .rem⟩ ≤ k → k ≤ s.cnt ⟨b, .rem⟩ → (s.g.sl b i).full = true →
      (s.g.sl b i = .marked → k < s.g.mark b i) →
      (g.sl b i).full = true ∧ f ≠ .data i ∧ (g.sl b i = .marked → k < g.mark b i))
    (hfl : ∀ u w, s.act u = some w → ∀ i, g.floor b i ≤ w ⟨b, .rem⟩)
    (hn : (g.counted b).Nodup ∧ ((s.write t ⟨b, f⟩ v r).now ⟨b, .len⟩).n = (g.counted b).length) :
    Inv H md { (s.write t ⟨b, f⟩ v r).phase t p with dead := d, g := g } := by
  have V := h.v.write (f := f) (v := v) (r := r) o
  refine ⟨⟨V.vle, V.lle, V.mle, V.act, V.own, V.free⟩, fun c i => ?_, fun u => ?_, fun u => ?_, fun u w hu c i => ?_, fun c => ?_⟩
  · by_cases e : c = b
    · subst e; exact hslot i
    · refine (h.slot c i).frame (fun f' _ => write_cnt_ne (t := t) (v := v) (r := r) (loc_ne e))
        (fun f' _ => write_msg_ne (t := t) (v := v) (r := r) (loc_ne e)) (hg c i e)
        (hcs c e) (hd' c) ?_ ?_
      · intro un
        obtain ⟨u, h1, h2⟩ := (h.slot c i).busy un
        refine ⟨u, h1, ?_⟩
        have : u ≠ t := by rintro rfl; exact e (tch c i h2)
        show (upd s.ph t p u).touch c i
        rw [upd_ne this]; exact h2
      · intro T hT
        obtain ⟨h1, h2⟩ := (h.slot c i).away T hT
        exact ⟨fun u hu => (h1 u hu).mono (write_grow (v := v) (r := r) h.v u), h2⟩
  · show PhOk H _ u (upd s.ph t p u)
    by_cases e : u = t
    · subst e; rw [upd_same]; exact hph
    · rw [upd_ne e]
      refine (h.ph u).frame fun c hc => ?_
      have cb : c ≠ b := by rintro rfl; rw [o] at hc; injection hc with hc; exact e hc.symm
      refine ⟨hc, hd c (by rw [hc]; intro q; injection q with q; exact e q), hcs c cb, fun i => ?_⟩
      exact ⟨(hg c i cb).sl, (hg c i cb).hashed, write_now_ne (loc_ne cb), write_now_ne (loc_ne cb)⟩
  · refine (h.rd u).frame rfl (write_grow (v := v) (r := r) h.v u) (fun c => write_cnt_le (t := t) (v := v) (r := r) _) (fun c i w k h1 h2 h3 h4 => ?_)
      (fun c i w k h1 h2 h3 h4 => ?_)
    · by_cases e : c = b
      · subst e; exact hA u i w k h1 h2 h3 h4
      · show g.sl c i ≠ .recycling ∧ g.oc c i ≤ _ ∧ (g.sl c i = .marked → k < g.mark c i)
        rw [(hg c i e).sl, (hg c i e).oc, (hg c i e).mark]; exact h4
    · show (g.sl c i).full = true ∧ (s.write t ⟨b, f⟩ v r).view u _ = (s.write t ⟨b, f⟩ v r).cnt _ ∧
        (g.sl c i = .marked → k < g.mark c i)
      by_cases e : c = b
      · subst e
        obtain ⟨k1, k2, k3⟩ := hB u i w k h1 h2 h3 h4.1 h4.2.2
        have ne : (⟨c, .data i⟩ : Loc) ≠ ⟨c, f⟩ := fld_ne (Ne.symm k2)
        rw [write_view_ne (fun q => ne q.2), write_cnt_ne ne]
        exact ⟨k1, h4.2.1, k3⟩
      · have ne : (⟨c, .data i⟩ : Loc) ≠ ⟨b, f⟩ := loc_ne e
        rw [write_view_ne (fun q => ne q.2), write_cnt_ne ne, (hg c i e).sl, (hg c i e).mark]
        exact h4
  · by_cases e : c = b
    · subst e; exact hfl u w hu i
    · show g.floor c i ≤ _
      rw [(hg c i e).floor]; exact h.act u w hu c i
  · show (g.counted c).Nodup ∧ ((s.write t ⟨b, f⟩ v r).now ⟨c, .len⟩).n = (g.counted c).length
    by_cases e : c = b
    · subst e; exact hn
    · rw [hcs c e, write_now_ne (loc_ne e)]; exact h.cs c

/-- Nothing in buckets changes, and no thread knows less. -/
theorem Inv.same {s s' : St} (h : Inv H md s) (hV : Views s')
    (hc : ∀ c f, f.inB = true → s'.cnt ⟨c, f⟩ = s.cnt ⟨c, f⟩) (hm : ∀ c f, f.inB = true → s'.msg ⟨c, f⟩ = s.msg ⟨c, f⟩)
    (hg : s'.g = s.g) (hd : s'.dead = s.dead) (hp : s'.ph = s.ph) (hv : ∀ u l, s.view u l ≤ s'.view u l)
    (ho : ∀ u b, s.own b = some u → s'.own b = some u ∨ s.ph u = .idle)
    (ha : ∀ b i T, s.g.tgt b i = some T → (∀ t, s'.own b = some t → T.le (s'.view t)) ∧ (s'.own b = none → T.le (s'.lockView b)))
    (hr : ∀ u, RdOk s' u (s'.pc u)) (hf : ∀ u w, s'.act u = some w → ∀ b i, s.g.floor b i ≤ w ⟨b, .rem⟩) : Inv H md s' := by
  have nw : ∀ c f, f.inB = true → s'.now ⟨c, f⟩ = s.now ⟨c, f⟩ := by
    intro c f hf; simp only [St.now, hc c f hf, hm c f hf]
  refine ⟨hV, fun c i => ?_, fun u => ?_, hr, fun u w hu b i => ?_, fun c => ?_⟩
  · refine (h.slot c i).frame (fun f hf => hc c f (of_inB hf)) (fun f hf => hm c f (of_inB hf)) (by rw [hg]; exact SameG.refl _ _ _) (by rw [hg]) (by rw [hd]; exact id) ?_
      (ha c i)
    intro un
    obtain ⟨u, h1, h2⟩ := (h.slot c i).busy un
    refine ⟨u, ?_, by rw [hp]; exact h2⟩
    rcases ho u c h1 with h3 | h3
    · exact h3
    · rw [h3] at h2; exact h2.elim
  · rw [hp]
    by_cases e : s.ph u = .idle
    · rw [e]; trivial
    · refine (h.ph u).frame fun b hb => ⟨(ho u b hb).resolve_right e, by rw [hd], by rw [hg], fun i => ?_⟩
      rw [hg]
      exact ⟨rfl, rfl, nw _ _ rfl, nw _ _ rfl⟩
  · rw [hg]; exact hf u w hu b i
  · rw [hg, nw _ _ rfl]; exact h.cs c

end Scc.Weak
