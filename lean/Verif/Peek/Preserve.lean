import Verif.Peek.Inv

/-!
# Steps of the owner of the lock preserve the invariant
-/

set_option linter.unusedSimpArgs false
set_option linter.unusedSectionVars false
set_option linter.unusedVariables false

namespace Scc.Peek

variable {K V : Type} [DecidableEq K]

theorem rd_frame {s s' : St K V} (h : ∀ r, RdOk s r) (hr : s'.rd = s.rd) (hf : s'.refs = s.refs)
    (hk : ∀ r b i e, (s.rd r).alive = true → Kept s r b i e → Kept s' r b i e)
    (hp : ∀ r b i, (s.rd r).alive = true → (s.rem b i = true → s.pin b i r = true) →
      s'.rem b i = true → s'.pin b i r = true) : ∀ r, RdOk s' r := by
  intro r
  refine ⟨fun ha b i e he => ?_, ?_, fun hn => ?_⟩
  · rw [hr] at ha; rw [hf] at he
    exact hk r b i e ha ((h r).refs ha b i e he)
  · have h1 := (h r).pc
    rw [hr]
    cases hp' : s.rd r <;> rw [hp'] at h1 <;> simp only [PcOk] at h1 ⊢ <;>
      have ha : (s.rd r).alive = true := by rw [hp']; rfl
    · exact fun i hi => hp r _ i ha (h1 i hi)
    · exact fun i hi => (h1 i hi).imp (fun e he => hk r _ i e ha he)
    · exact fun i hi => (h1 i hi).imp (fun e he => hk r _ i e ha he)
    · exact fun i hi => hp r _ i ha (h1 i hi)
  · rw [hf]; rw [hr] at hn; exact (h r).none hn

theorem Reach.lt {s : St K V} {hp : K → Nat} (h : Inv hp s) {a b : Nat} (hr : Reach s.next a b) (ha : a < s.fresh) :
    b < s.fresh := by
  induction hr with
  | refl a => exact ha
  | cons h1 _ ih => exact ih (h.nextLt _ _ h1)

/-- The first store of an insertion. -/
theorem inv_insert {hp : K → Nat} {s : St K V} (h : Inv hp s) {k v b i u} (hw : s.w = .idle) (he : s.ext = false)
    (hu : OldOk s k u) (hb : Reach s.next 0 b) (hi : i < blkLen b) (ho : s.occ b i = false) :
    Inv hp { s with cell := upd2 s.cell b i (some (k, v)), w := .insHash k v b i u } := by
  have hrem : s.rem b i = false := by
    cases hr : s.rem b i with
    | false => rfl
    | true =>
      rcases h.remOcc b i hr with h1 | ⟨d, h1, _⟩
      · rw [h1] at ho; cases ho
      · rw [hw] at h1; cases h1
  refine ⟨h.freshPos, h.unalloc, h.nextLt, ?_, ?_, h.pinNew, ?_, h.nodup, ?_, ?_, ?_, ?_, ?_⟩
  · have := h.cellOk
    grind [upd2]
  · have := h.remOcc
    grind
  · refine ⟨he, ho, hrem, ?_, hi, hb, ?_⟩
    · simp [upd2]
    · cases u with
      | none =>
        intro v' ⟨b', i', h1, h2⟩
        refine hu v' ⟨b', i', h1, ?_⟩
        have := h1.1
        grind [upd2]
      | some o =>
        obtain ⟨h1, h2, v', h3⟩ := hu
        have := h2.1
        exact ⟨h1, h2, v', by grind [upd2]⟩
  · have := h.lenOk; rw [hw] at this; exact this
  · intro k' hk
    obtain ⟨b', i', v', ⟨h1, h2, h3, h4⟩, h5⟩ := h.mustSlot k' hk
    have := h2.1
    refine ⟨b', i', v', ⟨h1, h2, by grind [upd2], h4⟩, h5⟩
  · have := h.uniq
    rw [hw] at this
    intro k' b1 i1 v1 b2 i2 v2 h1 h2 h3 h4
    have := this k' b1 i1 v1 b2 i2 v2 h1
    have := h1.1
    have := h3.1
    grind [upd2, Two, St.live]
  · have := h.liveMust
    rw [hw] at this
    intro k' b1 i1 v1 h1 h2
    have := this k' b1 i1 v1 h1
    have := h1.1
    grind [upd2, Busy]
  · refine rd_frame h.rdOk rfl rfl ?_ ?_
    · intro r b' i' e ha ⟨h1, h2⟩
      refine ⟨?_, h2⟩
      grind [upd2]
    · intro r b' i' ha h1
      exact h1

/-- The partial hash of the new entry. -/
theorem inv_insHash {hp : K → Nat} {s : St K V} (h : Inv hp s) {k v b i u} (hw : s.w = .insHash k v b i u) :
    Inv hp { s with ph := upd2 s.ph b i (hp k), w := .insOcc k v b i u } := by
  obtain ⟨g1, g2, g3, g4, g5, g6, g7⟩ : WOk hp s (.insHash k v b i u) := hw ▸ h.wOk
  refine ⟨h.freshPos, h.unalloc, h.nextLt, h.cellOk, ?_, h.pinNew, ?_, h.nodup, ?_, ?_, ?_, ?_, ?_⟩
  · have := h.remOcc
    grind
  · exact ⟨g1, g2, g3, g4, g5, g6, g7, by simp [upd2]⟩
  · have := h.lenOk; rw [hw] at this; exact this
  · intro k' hk
    obtain ⟨b', i', v', ⟨h1, h2, h3, h4⟩, h5⟩ := h.mustSlot k' hk
    have := h2.1
    refine ⟨b', i', v', ⟨h1, h2, h3, by grind [upd2]⟩, h5⟩
  · have := h.uniq
    rw [hw] at this
    exact this
  · have := h.liveMust
    rw [hw] at this
    exact this
  · exact rd_frame h.rdOk rfl rfl (fun r b i e _ h => h) (fun r b i _ h => h)

/-- The new entry becomes visible. -/
theorem inv_insOcc {hp : K → Nat} {s : St K V} (h : Inv hp s) {k v b i u} (hw : s.w = .insOcc k v b i u) :
    Inv hp { s with occ := upd2 s.occ b i true, w := .insLen k b i u } := by
  obtain ⟨g1, g2, g3, g4, g5, g6, g7, g8⟩ : WOk hp s (.insOcc k v b i u) := hw ▸ h.wOk
  have hb := g6.lt h h.freshPos
  have hlive : ∀ {b' i'}, s.live b' i' → St.live { s with occ := upd2 s.occ b i true, w := .insLen k b i u } b' i' := by
    intro b' i' ⟨h1, h2⟩
    exact ⟨by grind [upd2], h2⟩
  refine ⟨h.freshPos, ?_, h.nextLt, ?_, ?_, h.pinNew, ?_, h.nodup, ?_, ?_, ?_, ?_, ?_⟩
  · intro c hc
    obtain ⟨h1, h2, h3⟩ := h.unalloc c hc
    have : c ≠ b := by simp only at hc; omega
    exact ⟨fun j => by simp [upd2, this, h1], h2, h3⟩
  · have := h.cellOk
    grind [upd2]
  · have := h.remOcc
    grind [upd2]
  · refine ⟨g1, ⟨v, g5, ⟨by simp [upd2], g3⟩, g4, g8⟩, g6, ?_⟩
    cases u with
    | none =>
      intro hk
      obtain ⟨b', i', v', ⟨h1, h2, h3, h4⟩, h5⟩ := h.mustSlot k hk
      exact g7 v' ⟨b', i', h2, h3⟩
    | some o =>
      obtain ⟨h1, h2, h3⟩ := g7
      refine ⟨?_, h1, hlive h2, h3⟩
      intro ho
      subst ho
      have := h2.1
      simp only at this
      rw [g2] at this; cases this
  · have := h.lenOk; rw [hw] at this; exact this
  · intro k' hk
    obtain ⟨b', i', v', ⟨h1, h2, h3, h4⟩, h5⟩ := h.mustSlot k' hk
    exact ⟨b', i', v', ⟨h1, hlive h2, h3, h4⟩, h5⟩
  · have hu := h.uniq
    rw [hw] at hu
    intro k' b1 i1 v1 b2 i2 v2 h1 h2 h3 h4
    have key : ∀ {b' i' v'}, St.live { s with occ := upd2 s.occ b i true, w := .insLen k b i u } b' i' →
        s.cell b' i' = some (k', v') → (b', i') = (b, i) ∧ k' = k ∨ s.live b' i' := by
      intro b' i' v' h5 h6
      obtain ⟨h7, h8⟩ := h5
      by_cases hh : b' = b ∧ i' = i
      · obtain ⟨rfl, rfl⟩ := hh
        rw [g4] at h6
        simp only [Option.some.injEq, Prod.mk.injEq] at h6
        exact .inl ⟨rfl, h6.1.symm⟩
      · refine .inr ⟨?_, h8⟩
        simpa [upd2, hh] using h7
    have old : ∀ {b' i' v'}, s.live b' i' → s.cell b' i' = some (k, v') → u = some (b', i') := by
      intro b' i' v' h5 h6
      cases u with
      | none => exact absurd ⟨b', i', h5, h6⟩ (g7 v')
      | some o =>
        obtain ⟨h7, h8, v3, h9⟩ := g7
        rcases hu k b' i' v' o.1 o.2 v3 h5 h6 h8 h9 with h10 | h10
        · rw [h10]
        · cases h10
    rcases key h1 h2 with ⟨h5, h6⟩ | h5 <;> rcases key h3 h4 with ⟨h7, h8⟩ | h7
    · exact .inl (h5.trans h7.symm)
    · subst h6
      have := old h7 h4
      subst this
      exact .inr ⟨rfl, .inr ⟨rfl, h5⟩⟩
    · subst h8
      have := old h5 h2
      subst this
      exact .inr ⟨rfl, .inl ⟨rfl, h7⟩⟩
    · rcases hu k' b1 i1 v1 b2 i2 v2 h5 h2 h7 h4 with h8 | h8
      · exact .inl h8
      · cases h8
  · intro k' b' i' v' h1 h2
    by_cases hh : b' = b ∧ i' = i
    · obtain ⟨rfl, rfl⟩ := hh
      simp only at h2
      rw [g4] at h2
      simp only [Option.some.injEq, Prod.mk.injEq] at h2
      cases u with
      | none => exact .inr h2.1
      | some o => rw [← h2.1]; exact .inl g7.1
    · have h3 : s.live b' i' := ⟨by simpa [upd2, hh] using h1.1, h1.2⟩
      rcases h.liveMust k' b' i' v' h3 h2 with h4 | h4
      · exact .inl h4
      · rw [hw] at h4; cases h4
  · refine rd_frame h.rdOk rfl rfl ?_ ?_
    · intro r b' i' e ha ⟨h1, h2⟩
      refine ⟨h1, ?_⟩
      rcases h2 with h2 | ⟨h2, h3⟩
      · exact .inl h2
      · exact .inr ⟨by grind [upd2], h3⟩
    · intro r b' i' ha h1
      exact h1

/-- A new block with the new entry becomes visible. -/
theorem inv_link {hp : K → Nat} {s : St K V} (h : Inv hp s) {k v u} (hw : s.w = .idle) (hx : s.ext = false)
    (g7 : OldOk s k u) :
    Inv hp { s with
        cell := upd2 s.cell s.fresh 0 (some (k, v)), ph := upd2 s.ph s.fresh 0 (hp k)
        occ := upd2 s.occ s.fresh 0 true, next := upd1 (upd1 s.next s.fresh (s.next 0)) 0 (some s.fresh)
        fresh := s.fresh + 1, w := .insLen k s.fresh 0 u } := by
  obtain ⟨un1, un2, un3⟩ := h.unalloc s.fresh (Nat.le_refl _)
  have hf := h.freshPos
  have hne : ∀ {b' i'}, s.live b' i' → b' ≠ s.fresh := by
    intro b' i' hl hb
    have := hl.1
    rw [hb, un1 i'] at this
    cases this
  generalize hs' : ({ s with
        cell := upd2 s.cell s.fresh 0 (some (k, v)), ph := upd2 s.ph s.fresh 0 (hp k)
        occ := upd2 s.occ s.fresh 0 true, next := upd1 (upd1 s.next s.fresh (s.next 0)) 0 (some s.fresh)
        fresh := s.fresh + 1, w := .insLen k s.fresh 0 u } : St K V) = s'
  have q1 : s'.cell = upd2 s.cell s.fresh 0 (some (k, v)) := by rw [← hs']
  have q2 : s'.ph = upd2 s.ph s.fresh 0 (hp k) := by rw [← hs']
  have q3 : s'.occ = upd2 s.occ s.fresh 0 true := by rw [← hs']
  have q4 : s'.next = upd1 (upd1 s.next s.fresh (s.next 0)) 0 (some s.fresh) := by rw [← hs']
  have q5 : s'.fresh = s.fresh + 1 := by rw [← hs']
  have q6 : s'.w = .insLen k s.fresh 0 u := by rw [← hs']
  have q7 : s'.rem = s.rem := by rw [← hs']
  have q8 : s'.pin = s.pin := by rw [← hs']
  have q9 : s'.must = s.must := by rw [← hs']
  have q10 : s'.len = s.len := by rw [← hs']
  have q11 : s'.ext = s.ext := by rw [← hs']
  have q12 : s'.rd = s.rd := by rw [← hs']
  have q13 : s'.refs = s.refs := by rw [← hs']
  clear hs'
  have hlive : ∀ {b' i'}, s.live b' i' → s'.live b' i' := by
    intro b' i' ⟨h1, h2⟩
    refine ⟨?_, by rw [q7]; exact h2⟩
    rw [q3]; unfold upd2; split
    · rfl
    · exact h1
  have hreach : ∀ {b}, Reach s.next 0 b → Reach s'.next 0 b := by
    intro b hb
    refine hb.head (n := s.fresh) un3 (by omega) ?_ ?_ ?_
    · rw [q4]; simp [upd1]
    · rw [q4]; simp [upd1, show s.fresh ≠ 0 by omega]
    · intro a h0 h1
      rw [q4]; simp [upd1, h0, h1]
  have hcell : ∀ {b' i'}, b' ≠ s.fresh → s'.cell b' i' = s.cell b' i' := by
    intro b' i' hb; rw [q1]; simp [upd2, hb]
  have hself : s'.cell s.fresh 0 = some (k, v) := by rw [q1]; simp [upd2]
  have key : ∀ {b' i'}, s'.live b' i' → (b', i') = (s.fresh, 0) ∨ s.live b' i' := by
    intro b' i' h5
    obtain ⟨h7, h8⟩ := h5
    by_cases hh : b' = s.fresh ∧ i' = 0
    · obtain ⟨rfl, rfl⟩ := hh
      exact .inl rfl
    · refine .inr ⟨?_, by rw [← q7]; exact h8⟩
      rw [q3] at h7
      simpa [upd2, hh] using h7
  have hslot : Slot hp s' k s.fresh 0 v := by
    refine ⟨?_, ⟨?_, ?_⟩, hself, ?_⟩
    · simp [blkLen, show s.fresh ≠ 0 by omega]
    · rw [q3]; simp [upd2]
    · rw [q7]; exact un2 0
    · rw [q2]; simp [upd2]
  refine ⟨?_, ?_, ?_, ?_, ?_, ?_, ?_, ?_, ?_, ?_, ?_, ?_, ?_⟩
  · omega
  · intro c hc
    rw [q5] at hc
    obtain ⟨h1, h2, h3⟩ := h.unalloc c (by omega)
    refine ⟨fun j => ?_, fun j => by rw [q7]; exact h2 j, ?_⟩
    · rw [q3]; simp [upd2, show c ≠ s.fresh by omega, h1]
    · rw [q4]; simp [upd1, show c ≠ s.fresh by omega, show c ≠ 0 by omega, h3]
  · intro a c hac
    rw [q4] at hac
    rw [q5]
    unfold upd1 at hac
    split at hac
    · injection hac with hac; omega
    · split at hac
      · have := h.nextLt _ _ hac; omega
      · have := h.nextLt _ _ hac; omega
  · intro b i ho
    by_cases hb : b = s.fresh ∧ i = 0
    · obtain ⟨rfl, rfl⟩ := hb
      exact ⟨_, hself⟩
    · rw [q3] at ho
      simp only [upd2, hb, if_false] at ho
      obtain ⟨e, he⟩ := h.cellOk b i ho
      refine ⟨e, ?_⟩
      rw [hcell]; exact he
      intro hb'
      rw [hb', un1] at ho; cases ho
  · intro b i hr
    rw [q7] at hr
    rcases h.remOcc b i hr with h1 | ⟨d, h1, _⟩
    · left
      rw [q3]; unfold upd2; split
      · rfl
      · exact h1
    · rw [hw] at h1; cases h1
  · intro r b i hr
    rw [q8]; rw [q12] at hr; exact h.pinNew r b i hr
  · rw [q6]
    refine ⟨by rw [q11]; exact hx, ⟨v, hslot⟩, ?_, ?_⟩
    · exact .cons (c := s.fresh) (by rw [q4]; simp [upd1]) (.refl _)
    · cases u with
      | none =>
        intro hk
        rw [q9] at hk
        obtain ⟨b', i', v', ⟨h1, h2, h3, h4⟩, h5⟩ := h.mustSlot k hk
        exact g7 v' ⟨b', i', h2, h3⟩
      | some o =>
        obtain ⟨h1, h2, v', h3⟩ := g7
        refine ⟨?_, by rw [q9]; exact h1, hlive h2, v', ?_⟩
        · intro ho
          exact hne h2 (by rw [ho])
        · rw [hcell (hne h2)]; exact h3
  · rw [q9]; exact h.nodup
  · have := h.lenOk; rw [hw] at this; rw [q10, q9, q6]; exact this
  · intro k' hk
    rw [q9] at hk
    obtain ⟨b', i', v', ⟨h1, h2, h3, h4⟩, h5⟩ := h.mustSlot k' hk
    refine ⟨b', i', v', ⟨h1, hlive h2, by rw [hcell (hne h2)]; exact h3, ?_⟩, hreach h5⟩
    rw [q2]; simp [upd2, hne h2, h4]
  · have hu := h.uniq
    rw [hw] at hu
    intro k' b1 i1 v1 b2 i2 v2 h1 h2 h3 h4
    rw [q6]
    have old : ∀ {b' i' v'}, s.live b' i' → s.cell b' i' = some (k, v') → u = some (b', i') := by
      intro b' i' v' h5 h6
      cases u with
      | none => exact absurd ⟨b', i', h5, h6⟩ (g7 v')
      | some o =>
        obtain ⟨h7, h8, v3, h9⟩ := g7
        rcases hu k b' i' v' o.1 o.2 v3 h5 h6 h8 h9 with h10 | h10
        · rw [h10]
        · cases h10
    rcases key h1 with h5 | h5 <;> rcases key h3 with h7 | h7
    · exact .inl (h5.trans h7.symm)
    · injection h5 with e1 e2; subst e1 e2
      rw [hself] at h2
      injection h2 with h2; injection h2 with h2 _; subst h2
      rw [hcell (hne h7)] at h4
      have := old h7 h4
      subst this
      exact .inr ⟨rfl, .inr ⟨rfl, rfl⟩⟩
    · injection h7 with e1 e2; subst e1 e2
      rw [hself] at h4
      injection h4 with h2; injection h2 with h2 _; subst h2
      rw [hcell (hne h5)] at h2
      have := old h5 h2
      subst this
      exact .inr ⟨rfl, .inl ⟨rfl, rfl⟩⟩
    · rw [hcell (hne h5)] at h2
      rw [hcell (hne h7)] at h4
      rcases hu k' b1 i1 v1 b2 i2 v2 h5 h2 h7 h4 with h8 | h8
      · exact .inl h8
      · cases h8
  · intro k' b' i' v' h1 h2
    rw [q6, q9]
    rcases key h1 with h3 | h3
    · injection h3 with e1 e2; subst e1 e2
      rw [hself] at h2
      injection h2 with h2; injection h2 with h2 _; subst h2
      cases u with
      | none => exact .inr rfl
      | some o => exact .inl g7.1
    · rw [hcell (hne h3)] at h2
      rcases h.liveMust k' b' i' v' h3 h2 with h4 | h4
      · exact .inl h4
      · rw [hw] at h4; cases h4
  · refine rd_frame h.rdOk q12 q13 ?_ ?_
    · intro r b' i' e ha ⟨h1, h2⟩
      rcases h2 with h2 | ⟨h2, h3⟩
      · rw [hx] at h2; cases h2
      · have hb : b' ≠ s.fresh := by
          intro hb; rw [hb, un1] at h2; cases h2
        refine ⟨by rw [hcell hb]; exact h1, .inr ⟨?_, by rw [q7, q8]; exact h3⟩⟩
        rw [q3]; simp [upd2, hb, h2]
    · intro r b' i' ha h1
      rw [q7, q8]; exact h1

theorem inv_insLen {hp : K → Nat} {s : St K V} (h : Inv hp s) {k b i} (hw : s.w = .insLen k b i none) :
    Inv hp { s with len := s.len + 1, must := k :: s.must, w := .idle } := by
  obtain ⟨g1, ⟨v, g2⟩, g3, g4⟩ : WOk hp s (.insLen k b i none) := hw ▸ h.wOk
  refine ⟨h.freshPos, h.unalloc, h.nextLt, h.cellOk, ?_, h.pinNew, trivial, ?_, ?_, ?_, ?_, ?_, ?_⟩
  · intro b' i' hr
    rcases h.remOcc b' i' hr with h1 | ⟨d, h1, _⟩
    · exact .inl h1
    · rw [hw] at h1; cases h1
  · exact List.nodup_cons.2 ⟨g4, h.nodup⟩
  · have := h.lenOk; rw [hw] at this
    simp only [adj, List.length_cons] at this ⊢; omega
  · intro k' hk
    rcases List.mem_cons.1 hk with rfl | hk
    · exact ⟨b, i, v, g2, g3⟩
    · exact h.mustSlot k' hk
  · intro k' b1 i1 v1 b2 i2 v2 h1 h2 h3 h4
    have := h.uniq k' b1 i1 v1 b2 i2 v2 h1 h2 h3 h4
    rw [hw] at this
    exact this
  · intro k' b1 i1 v1 h1 h2
    rcases h.liveMust k' b1 i1 v1 h1 h2 with h3 | h3
    · exact .inl (List.mem_cons_of_mem _ h3)
    · rw [hw] at h3
      have h3 : k = k' := h3
      subst h3
      exact .inl List.mem_cons_self
  · exact rd_frame h.rdOk rfl rfl (fun r b i e _ h => h) (fun r b i _ h => h)

theorem inv_updLen {hp : K → Nat} {s : St K V} (h : Inv hp s) {k b i b' i'}
    (hw : s.w = .insLen k b i (some (b', i'))) :
    Inv hp { s with len := s.len + 1, w := .rmLen k b' i' (b, i) } := by
  obtain ⟨g1, ⟨v, g2⟩, g3, g4, g5, g6, g7⟩ : WOk hp s (.insLen k b i (some (b', i'))) := hw ▸ h.wOk
  refine ⟨h.freshPos, h.unalloc, h.nextLt, h.cellOk, ?_, h.pinNew, ?_, h.nodup, ?_, h.mustSlot, ?_, ?_, ?_⟩
  · intro b' i' hr
    rcases h.remOcc b' i' hr with h1 | ⟨d, h1, _⟩
    · exact .inl h1
    · rw [hw] at h1; cases h1
  · exact ⟨g1, g6, g7, g5, fun h => g4 h.symm, ⟨v, g2⟩, g3⟩
  · have := h.lenOk; rw [hw] at this
    simp only [adj] at this ⊢; omega
  · intro k' b1 i1 v1 b2 i2 v2 h1 h2 h3 h4
    rcases h.uniq k' b1 i1 v1 b2 i2 v2 h1 h2 h3 h4 with h5 | h5
    · exact .inl h5
    · rw [hw] at h5
      refine .inr ⟨h5.1, ?_⟩
      rcases h5.2 with h6 | h6
      · exact .inr ⟨h6.2, h6.1⟩
      · exact .inl ⟨h6.2, h6.1⟩
  · intro k' b1 i1 v1 h1 h2
    rcases h.liveMust k' b1 i1 v1 h1 h2 with h3 | h3
    · exact .inl h3
    · rw [hw] at h3; cases h3
  · exact rd_frame h.rdOk rfl rfl (fun r b i e _ h => h) (fun r b i _ h => h)

theorem inv_remove {hp : K → Nat} {s : St K V} (h : Inv hp s) {k v b i} (hw : s.w = .idle) (he : s.ext = false)
    (hl : s.live b i) (hc : s.cell b i = some (k, v)) :
    Inv hp { s with len := s.len - 1, must := s.must.erase k, w := .rmHash k b i none } := by
  have hm : k ∈ s.must := by
    rcases h.liveMust k b i v hl hc with h1 | h1
    · exact h1
    · rw [hw] at h1; cases h1
  refine ⟨h.freshPos, h.unalloc, h.nextLt, h.cellOk, ?_, h.pinNew, ?_, h.nodup.erase k, ?_, ?_, ?_, ?_, ?_⟩
  · intro b' i' hr
    rcases h.remOcc b' i' hr with h1 | ⟨d, h1, _⟩
    · exact .inl h1
    · rw [hw] at h1; cases h1
  · exact ⟨he, hl, ⟨v, hc⟩, fun hk => (h.nodup.mem_erase_iff.1 hk).1 rfl⟩
  · have := h.lenOk; rw [hw] at this
    have hlen := List.length_erase_of_mem hm
    have hpos := List.length_pos_of_mem hm
    simp only [adj] at this ⊢; omega
  · intro k' hk
    exact h.mustSlot k' (h.nodup.mem_erase_iff.1 hk).2
  · intro k' b1 i1 v1 b2 i2 v2 h1 h2 h3 h4
    rcases h.uniq k' b1 i1 v1 b2 i2 v2 h1 h2 h3 h4 with h5 | h5
    · exact .inl h5
    · rw [hw] at h5; cases h5
  · intro k' b1 i1 v1 h1 h2
    rcases h.liveMust k' b1 i1 v1 h1 h2 with h3 | h3
    · by_cases hk : k' = k
      · exact .inr hk.symm
      · exact .inl (h.nodup.mem_erase_iff.2 ⟨hk, h3⟩)
    · rw [hw] at h3; cases h3
  · exact rd_frame h.rdOk rfl rfl (fun r b i e _ h => h) (fun r b i _ h => h)

theorem inv_rmLen {hp : K → Nat} {s : St K V} (h : Inv hp s) {k b i n} (hw : s.w = .rmLen k b i n) :
    Inv hp { s with len := s.len - 1, w := .rmHash k b i (some n) } := by
  have g : WOk hp s (.rmLen k b i n) := hw ▸ h.wOk
  refine ⟨h.freshPos, h.unalloc, h.nextLt, h.cellOk, ?_, h.pinNew, g, h.nodup, ?_, h.mustSlot, ?_, ?_, ?_⟩
  · intro b' i' hr
    rcases h.remOcc b' i' hr with h1 | ⟨d, h1, _⟩
    · exact .inl h1
    · rw [hw] at h1; cases h1
  · have := h.lenOk; rw [hw] at this
    simp only [adj] at this ⊢; omega
  · have := h.uniq
    rw [hw] at this
    exact this
  · have := h.liveMust
    rw [hw] at this
    exact this
  · exact rd_frame h.rdOk rfl rfl (fun r b i e _ h => h) (fun r b i _ h => h)

theorem inv_rmHash {hp : K → Nat} {s : St K V} (h : Inv hp s) {k b i u} {e : Nat} (hw : s.w = .rmHash k b i u) :
    Inv hp { s with ph := upd2 s.ph b i e, w := .rmRem k b i u } := by
  obtain ⟨g1, g2, ⟨v, g3⟩, g4⟩ : WOk hp s (.rmHash k b i u) := hw ▸ h.wOk
  refine ⟨h.freshPos, h.unalloc, h.nextLt, h.cellOk, ?_, h.pinNew, ?_, h.nodup, ?_, ?_, ?_, ?_, ?_⟩
  · intro b' i' hr
    rcases h.remOcc b' i' hr with h1 | ⟨d, h1, _⟩
    · exact .inl h1
    · rw [hw] at h1; cases h1
  · refine ⟨g1, g2, ⟨v, g3⟩, ?_⟩
    cases u with
    | none => exact g4
    | some n =>
      obtain ⟨h1, h2, ⟨v', h3, h4, h5, h6⟩, h7⟩ := g4
      refine ⟨h1, h2, ⟨v', h3, h4, h5, ?_⟩, h7⟩
      have : ¬ (n.1 = b ∧ n.2 = i) := fun hh => h2 (Prod.ext hh.1 hh.2)
      simp [upd2, this, h6]
  · have := h.lenOk; rw [hw] at this
    exact this
  · intro k' hk
    obtain ⟨b', i', v', ⟨h1, h2, h3, h4⟩, h5⟩ := h.mustSlot k' hk
    by_cases hh : b' = b ∧ i' = i
    · obtain ⟨rfl, rfl⟩ := hh
      rw [g3] at h3
      injection h3 with h3; injection h3 with h3 _; subst h3
      cases u with
      | none => exact absurd hk g4
      | some n =>
        obtain ⟨h1, h2, ⟨v', h3, h4, h5, h6⟩, h7⟩ := g4
        have : ¬ (n.1 = b' ∧ n.2 = i') := fun hh => h2 (Prod.ext hh.1 hh.2)
        exact ⟨n.1, n.2, v', ⟨h3, h4, h5, by simp [upd2, this, h6]⟩, h7⟩
    · exact ⟨b', i', v', ⟨h1, h2, h3, by simp [upd2, hh, h4]⟩, h5⟩
  · have := h.uniq
    rw [hw] at this
    intro k' b1 i1 v1 b2 i2 v2 h1 h2 h3 h4
    rcases this k' b1 i1 v1 b2 i2 v2 h1 h2 h3 h4 with h5 | h5
    · exact .inl h5
    · cases u with
      | none => cases h5
      | some n => exact .inr h5
  · have := h.liveMust
    rw [hw] at this
    intro k' b1 i1 v1 h1 h2
    rcases this k' b1 i1 v1 h1 h2 with h5 | h5
    · exact .inl h5
    · cases u with
      | none => exact .inr h5
      | some n => cases h5
  · exact rd_frame h.rdOk rfl rfl (fun r b i e _ h => h) (fun r b i _ h => h)

theorem inv_rmRem {hp : K → Nat} {s : St K V} (h : Inv hp s) {k b i u} (hw : s.w = .rmRem k b i u) :
    Inv hp { s with rem := upd2 s.rem b i true, pin := upd2 s.pin b i (fun r => (s.rd r).alive), w := .idle } := by
  obtain ⟨g1, g2, ⟨v, g3⟩, g4⟩ : WOk hp s (.rmRem k b i u) := hw ▸ h.wOk
  have key : ∀ {b' i'}, St.live { s with rem := upd2 s.rem b i true, pin := upd2 s.pin b i (fun r => (s.rd r).alive), w := .idle } b' i' →
      ¬ (b' = b ∧ i' = i) ∧ s.live b' i' := by
    intro b' i' ⟨h1, h2⟩
    by_cases hh : b' = b ∧ i' = i
    · simp [upd2, hh] at h2
    · exact ⟨hh, h1, by simpa [upd2, hh] using h2⟩
  have hlive : ∀ {b' i'}, ¬ (b' = b ∧ i' = i) → s.live b' i' →
      St.live { s with rem := upd2 s.rem b i true, pin := upd2 s.pin b i (fun r => (s.rd r).alive), w := .idle } b' i' := by
    intro b' i' hh ⟨h1, h2⟩
    exact ⟨h1, by simp [upd2, hh, h2]⟩
  refine ⟨h.freshPos, ?_, h.nextLt, h.cellOk, ?_, ?_, trivial, h.nodup, ?_, ?_, ?_, ?_, ?_⟩
  · intro c hc
    obtain ⟨h1, h2, h3⟩ := h.unalloc c hc
    refine ⟨h1, fun j => ?_, h3⟩
    have : c ≠ b := by
      intro hcb; subst hcb
      have := g2.1; rw [h1 i] at this; cases this
    simp [upd2, this, h2]
  · intro b' i' hr
    by_cases hh : b' = b ∧ i' = i
    · obtain ⟨rfl, rfl⟩ := hh
      exact .inl g2.1
    · simp only [upd2, hh, if_false] at hr
      rcases h.remOcc b' i' hr with h1 | ⟨d, h1, _⟩
      · exact .inl h1
      · rw [hw] at h1; cases h1
  · intro r b' i' hr
    simp only [upd2]
    split
    · show (s.rd r).alive = false
      simp only at hr; rw [hr]; rfl
    · exact h.pinNew r b' i' hr
  · have := h.lenOk; rw [hw] at this
    exact this
  · intro k' hk
    obtain ⟨b', i', v', ⟨h1, h2, h3, h4⟩, h5⟩ := h.mustSlot k' hk
    by_cases hh : b' = b ∧ i' = i
    · obtain ⟨rfl, rfl⟩ := hh
      rw [g3] at h3
      injection h3 with h3; injection h3 with h3 _; subst h3
      cases u with
      | none => exact absurd hk g4
      | some n =>
        obtain ⟨h1, h2, ⟨v', h3, h4, h5, h6⟩, h7⟩ := g4
        have : ¬ (n.1 = b' ∧ n.2 = i') := fun hh => h2 (Prod.ext hh.1 hh.2)
        exact ⟨n.1, n.2, v', ⟨h3, hlive this h4, h5, h6⟩, h7⟩
    · exact ⟨b', i', v', ⟨h1, hlive hh h2, h3, h4⟩, h5⟩
  · intro k' b1 i1 v1 b2 i2 v2 h1 h2 h3 h4
    obtain ⟨h5, h6⟩ := key h1
    obtain ⟨h7, h8⟩ := key h3
    rcases h.uniq k' b1 i1 v1 b2 i2 v2 h6 h2 h8 h4 with h9 | h9
    · exact .inl h9
    · rw [hw] at h9
      cases u with
      | none => cases h9
      | some n =>
        exfalso
        rcases h9.2 with h10 | h10
        · exact h7 ⟨congrArg Prod.fst h10.2, congrArg Prod.snd h10.2⟩
        · exact h5 ⟨congrArg Prod.fst h10.2, congrArg Prod.snd h10.2⟩
  · intro k' b1 i1 v1 h1 h2
    obtain ⟨h5, h6⟩ := key h1
    rcases h.liveMust k' b1 i1 v1 h6 h2 with h7 | h7
    · exact .inl h7
    · rw [hw] at h7
      cases u with
      | some n => cases h7
      | none =>
        have h7 : k = k' := h7
        subst h7
        rcases h.uniq k b1 i1 v1 b i v h6 h2 g2 g3 with h9 | h9
        · exact absurd ⟨congrArg Prod.fst h9, congrArg Prod.snd h9⟩ h5
        · rw [hw] at h9; cases h9
  · refine rd_frame h.rdOk rfl rfl ?_ ?_
    · intro r b' i' e ha ⟨h1, h2⟩
      refine ⟨h1, ?_⟩
      rcases h2 with h2 | ⟨h2, h3⟩
      · exact .inl h2
      · refine .inr ⟨h2, ?_⟩
        simp only [upd2]
        split
        · exact fun _ => ha
        · exact h3
    · intro r b' i' ha h1
      simp only [upd2]
      split
      · exact fun _ => ha
      · exact h1

theorem inv_clear {hp : K → Nat} {s : St K V} (h : Inv hp s) {b} {d : Nat → Bool} (hw : s.w = .idle) (he : s.ext = false)
    (hd : ∀ i, d i = true → s.rem b i = true ∧ ∀ r, (s.rd r).alive = true → s.pin b i r = false) :
    Inv hp { s with w := .clrOcc b d } := by
  refine ⟨h.freshPos, h.unalloc, h.nextLt, h.cellOk, ?_, h.pinNew, ⟨he, hd⟩, h.nodup, ?_, h.mustSlot, ?_, ?_, ?_⟩
  · intro b' i' hr
    rcases h.remOcc b' i' hr with h1 | ⟨d, h1, _⟩
    · exact .inl h1
    · rw [hw] at h1; cases h1
  · have := h.lenOk; rw [hw] at this
    exact this
  · have := h.uniq
    rw [hw] at this
    exact this
  · have := h.liveMust
    rw [hw] at this
    exact this
  · exact rd_frame h.rdOk rfl rfl (fun r b i e _ h => h) (fun r b i _ h => h)

theorem inv_clrOcc {hp : K → Nat} {s : St K V} (h : Inv hp s) {b} {d : Nat → Bool} (hw : s.w = .clrOcc b d) :
    Inv hp { s with occ := fun c i => s.occ c i && !(c == b && d i), w := .clrRem b d } := by
  obtain ⟨g1, g2⟩ : WOk hp s (.clrOcc b d) := hw ▸ h.wOk
  have key : ∀ {b' i'}, St.live { s with occ := fun c i => s.occ c i && !(c == b && d i), w := .clrRem b d } b' i' →
      s.live b' i' := by
    intro b' i' ⟨h1, h2⟩
    simp only [Bool.and_eq_true] at h1
    exact ⟨h1.1, h2⟩
  have hlive : ∀ {b' i'}, s.live b' i' →
      St.live { s with occ := fun c i => s.occ c i && !(c == b && d i), w := .clrRem b d } b' i' := by
    intro b' i' ⟨h1, h2⟩
    refine ⟨?_, h2⟩
    show (s.occ b' i' && !(b' == b && d i')) = true
    rw [h1, Bool.true_and, Bool.not_eq_true']
    cases hd : d i' with
    | false => exact Bool.and_false _
    | true =>
      rw [Bool.and_true]
      by_cases hb : b' = b
      · subst hb
        rw [(g2 i' hd).1] at h2; cases h2
      · simpa using hb
  refine ⟨h.freshPos, ?_, h.nextLt, ?_, ?_, h.pinNew, ⟨g1, ?_⟩, h.nodup, ?_, ?_, ?_, ?_, ?_⟩
  · intro c hc
    obtain ⟨h1, h2, h3⟩ := h.unalloc c hc
    exact ⟨fun j => by simp [h1], h2, h3⟩
  · intro b' i' ho
    simp only [Bool.and_eq_true] at ho
    exact h.cellOk b' i' ho.1
  · intro b' i' hr
    rcases h.remOcc b' i' hr with h1 | ⟨d, h1, _⟩
    · cases hd : (b' == b && d i') with
      | false => left; simp only [h1, hd, Bool.not_false, Bool.and_true]
      | true =>
        right
        simp only [Bool.and_eq_true, beq_iff_eq] at hd
        obtain ⟨rfl, hd⟩ := hd
        exact ⟨d, rfl, hd⟩
    · rw [hw] at h1; cases h1
  · intro i hi
    exact ⟨by simp [hi], (g2 i hi).1⟩
  · have := h.lenOk; rw [hw] at this
    exact this
  · intro k' hk
    obtain ⟨b', i', v', ⟨h1, h2, h3, h4⟩, h5⟩ := h.mustSlot k' hk
    exact ⟨b', i', v', ⟨h1, hlive h2, h3, h4⟩, h5⟩
  · have := h.uniq
    rw [hw] at this
    intro k' b1 i1 v1 b2 i2 v2 h1 h2 h3 h4
    exact this k' b1 i1 v1 b2 i2 v2 (key h1) h2 (key h3) h4
  · have := h.liveMust
    rw [hw] at this
    intro k' b1 i1 v1 h1 h2
    exact this k' b1 i1 v1 (key h1) h2
  · refine rd_frame h.rdOk rfl rfl ?_ ?_
    · intro r b' i' e ha ⟨h1, h2⟩
      refine ⟨h1, ?_⟩
      rcases h2 with h2 | ⟨h2, h3⟩
      · exact .inl h2
      · refine .inr ⟨?_, h3⟩
        show (s.occ b' i' && !(b' == b && d i')) = true
        rw [h2, Bool.true_and, Bool.not_eq_true']
        cases hd : d i' with
        | false => exact Bool.and_false _
        | true =>
          rw [Bool.and_true]
          by_cases hb : b' = b
          · subst hb
            have h4 := g2 i' hd
            have h5 := h4.2 r ha
            rw [h3 h4.1] at h5; cases h5
          · simpa using hb
    · intro r b' i' ha h1
      exact h1

theorem inv_clrRem {hp : K → Nat} {s : St K V} (h : Inv hp s) {b} {d : Nat → Bool} (hw : s.w = .clrRem b d) :
    Inv hp { s with rem := fun c i => s.rem c i && !(c == b && d i), w := .clrDrop b d } := by
  obtain ⟨g1, g2⟩ : WOk hp s (.clrRem b d) := hw ▸ h.wOk
  have key : ∀ {b' i'}, St.live { s with rem := fun c i => s.rem c i && !(c == b && d i), w := .clrDrop b d } b' i' →
      s.live b' i' := by
    intro b' i' ⟨h1, h2⟩
    refine ⟨h1, ?_⟩
    simp only [Bool.and_eq_false_iff] at h2
    rcases h2 with h2 | h2
    · exact h2
    · simp only [Bool.not_eq_false', Bool.and_eq_true, beq_iff_eq] at h2
      obtain ⟨rfl, hd⟩ := h2
      simp only at h1
      rw [(g2 i' hd).1] at h1; cases h1
  have hlive : ∀ {b' i'}, s.live b' i' →
      St.live { s with rem := fun c i => s.rem c i && !(c == b && d i), w := .clrDrop b d } b' i' := by
    intro b' i' ⟨h1, h2⟩
    exact ⟨h1, by simp [h2]⟩
  refine ⟨h.freshPos, ?_, h.nextLt, h.cellOk, ?_, h.pinNew, ⟨g1, ?_⟩, h.nodup, ?_, ?_, ?_, ?_, ?_⟩
  · intro c hc
    obtain ⟨h1, h2, h3⟩ := h.unalloc c hc
    exact ⟨h1, fun j => by simp [h2], h3⟩
  · intro b' i' hr
    simp only [Bool.and_eq_true, Bool.not_eq_true'] at hr
    rcases h.remOcc b' i' hr.1 with h1 | ⟨d', h1, h2⟩
    · exact .inl h1
    · rw [hw] at h1
      injection h1 with h3 h4; subst h3 h4
      simp [h2] at hr
  · intro i hi
    exact ⟨(g2 i hi).1, by simp [hi]⟩
  · have := h.lenOk; rw [hw] at this
    exact this
  · intro k' hk
    obtain ⟨b', i', v', ⟨h1, h2, h3, h4⟩, h5⟩ := h.mustSlot k' hk
    exact ⟨b', i', v', ⟨h1, hlive h2, h3, h4⟩, h5⟩
  · have := h.uniq
    rw [hw] at this
    intro k' b1 i1 v1 b2 i2 v2 h1 h2 h3 h4
    exact this k' b1 i1 v1 b2 i2 v2 (key h1) h2 (key h3) h4
  · have := h.liveMust
    rw [hw] at this
    intro k' b1 i1 v1 h1 h2
    exact this k' b1 i1 v1 (key h1) h2
  · refine rd_frame h.rdOk rfl rfl ?_ ?_
    · intro r b' i' e ha ⟨h1, h2⟩
      refine ⟨h1, ?_⟩
      rcases h2 with h2 | ⟨h2, h3⟩
      · exact .inl h2
      · refine .inr ⟨h2, fun h4 => h3 ?_⟩
        simp only [Bool.and_eq_true] at h4
        exact h4.1
    · intro r b' i' ha h1 h4
      simp only [Bool.and_eq_true] at h4
      exact h1 h4.1

theorem inv_clrDrop {hp : K → Nat} {s : St K V} (h : Inv hp s) {b} {d : Nat → Bool} (hw : s.w = .clrDrop b d) :
    Inv hp { s with cell := fun c i => if (c == b && d i) = true then none else s.cell c i, w := .idle } := by
  obtain ⟨g1, g2⟩ : WOk hp s (.clrDrop b d) := hw ▸ h.wOk
  have hc : ∀ {b' i'}, s.occ b' i' = true →
      (if (b' == b && d i') = true then none else s.cell b' i') = s.cell b' i' := by
    intro b' i' ho
    split
    · rename_i hd
      simp only [Bool.and_eq_true, beq_iff_eq] at hd
      obtain ⟨rfl, hd⟩ := hd
      rw [(g2 i' hd).1] at ho; cases ho
    · rfl
  refine ⟨h.freshPos, h.unalloc, h.nextLt, ?_, ?_, h.pinNew, trivial, h.nodup, ?_, ?_, ?_, ?_, ?_⟩
  · intro b' i' ho
    obtain ⟨e, he⟩ := h.cellOk b' i' ho
    exact ⟨e, (hc ho).trans he⟩
  · intro b' i' hr
    rcases h.remOcc b' i' hr with h1 | ⟨d', h1, h2⟩
    · exact .inl h1
    · rw [hw] at h1; cases h1
  · have := h.lenOk; rw [hw] at this
    exact this
  · intro k' hk
    obtain ⟨b', i', v', ⟨h1, h2, h3, h4⟩, h5⟩ := h.mustSlot k' hk
    exact ⟨b', i', v', ⟨h1, h2, (hc h2.1).trans h3, h4⟩, h5⟩
  · have := h.uniq
    rw [hw] at this
    intro k' b1 i1 v1 b2 i2 v2 h1 h2 h3 h4
    exact this k' b1 i1 v1 b2 i2 v2 h1 ((hc h1.1).symm.trans h2) h3 ((hc h3.1).symm.trans h4)
  · have := h.liveMust
    rw [hw] at this
    intro k' b1 i1 v1 h1 h2
    exact this k' b1 i1 v1 h1 ((hc h1.1).symm.trans h2)
  · refine rd_frame h.rdOk rfl rfl ?_ ?_
    · intro r b' i' e ha ⟨h1, h2⟩
      rcases h2 with h2 | ⟨h2, h3⟩
      · rw [g1] at h2; cases h2
      · exact ⟨(hc h2).trans h1, .inr ⟨h2, h3⟩⟩
    · intro r b' i' ha h1
      exact h1

theorem inv_cut {hp : K → Nat} {s : St K V} (h : Inv hp s) {b} (hw : s.w = .idle)
    (hd : ∀ c d i, s.next b = some c → Reach s.next c d → ¬ s.live d i) :
    Inv hp { s with next := upd1 s.next b none } := by
  refine ⟨h.freshPos, ?_, ?_, h.cellOk, h.remOcc, h.pinNew, ?_, h.nodup, h.lenOk, ?_, h.uniq, h.liveMust, ?_⟩
  · intro c hc
    obtain ⟨h1, h2, h3⟩ := h.unalloc c hc
    refine ⟨h1, h2, ?_⟩
    simp only [upd1]; split
    · rfl
    · exact h3
  · intro a c hac
    simp only [upd1] at hac
    split at hac
    · cases hac
    · exact h.nextLt _ _ hac
  · show WOk hp _ s.w
    rw [hw]; trivial
  · intro k' hk
    obtain ⟨b', i', v', ⟨h1, h2, h3, h4⟩, h5⟩ := h.mustSlot k' hk
    exact ⟨b', i', v', ⟨h1, h2, h3, h4⟩, h5.cut (t := b) (fun a ha => by simp [upd1, ha])
      (fun c hc hr => hd c b' i' hc hr h2)⟩
  · exact rd_frame h.rdOk rfl rfl (fun r b i e _ h => h) (fun r b i _ h => h)

theorem inv_append {hp : K → Nat} {s : St K V} (h : Inv hp s) {b} (hw : s.w = .idle)
    (hb : Reach s.next 0 b) (hn : s.next b = none) :
    Inv hp { s with next := upd1 s.next b (some s.fresh), fresh := s.fresh + 1 } := by
  have hlt := hb.lt h h.freshPos
  refine ⟨Nat.succ_pos _, ?_, ?_, h.cellOk, h.remOcc, h.pinNew, ?_, h.nodup, h.lenOk, ?_, h.uniq, h.liveMust, ?_⟩
  · intro c hc
    simp only at hc
    obtain ⟨h1, h2, h3⟩ := h.unalloc c (by omega)
    refine ⟨h1, h2, ?_⟩
    simp [upd1, show c ≠ b by omega, h3]
  · intro a c hac
    simp only [upd1] at hac ⊢
    split at hac
    · injection hac with hac; omega
    · have := h.nextLt _ _ hac; omega
  · show WOk hp _ s.w
    rw [hw]; trivial
  · intro k' hk
    obtain ⟨b', i', v', ⟨h1, h2, h3, h4⟩, h5⟩ := h.mustSlot k' hk
    exact ⟨b', i', v', ⟨h1, h2, h3, h4⟩, h5.extend (t := b) hn (fun a ha => by simp [upd1, ha])⟩
  · exact rd_frame h.rdOk rfl rfl (fun r b i e _ h => h) (fun r b i _ h => h)

theorem inv_extract {hp : K → Nat} {s : St K V} (h : Inv hp s) {k v b i} (hw : s.w = .idle)
    (hl : s.live b i) (hc : s.cell b i = some (k, v)) :
    Inv hp { s with occ := upd2 s.occ b i false, ext := true, must := s.must.erase k, w := .exLen } := by
  have hm : k ∈ s.must := by
    rcases h.liveMust k b i v hl hc with h1 | h1
    · exact h1
    · rw [hw] at h1; cases h1
  have key : ∀ {b' i'}, St.live { s with occ := upd2 s.occ b i false, ext := true, must := s.must.erase k, w := .exLen } b' i' →
      ¬ (b' = b ∧ i' = i) ∧ s.live b' i' := by
    intro b' i' ⟨h1, h2⟩
    by_cases hh : b' = b ∧ i' = i
    · simp [upd2, hh] at h1
    · exact ⟨hh, by simpa [upd2, hh] using h1, h2⟩
  have hlive : ∀ {b' i'}, ¬ (b' = b ∧ i' = i) → s.live b' i' →
      St.live { s with occ := upd2 s.occ b i false, ext := true, must := s.must.erase k, w := .exLen } b' i' := by
    intro b' i' hh ⟨h1, h2⟩
    exact ⟨by simp [upd2, hh, h1], h2⟩
  refine ⟨h.freshPos, ?_, h.nextLt, ?_, ?_, h.pinNew, rfl, h.nodup.erase k, ?_, ?_, ?_, ?_, ?_⟩
  · intro c hc
    obtain ⟨h1, h2, h3⟩ := h.unalloc c hc
    refine ⟨fun j => ?_, h2, h3⟩
    simp only [upd2]; split
    · rfl
    · exact h1 j
  · intro b' i' ho
    simp only [upd2] at ho
    split at ho
    · cases ho
    · exact h.cellOk b' i' ho
  · intro b' i' hr
    rcases h.remOcc b' i' hr with h1 | ⟨d, h1, _⟩
    · left
      simp only [upd2]; split
      · rename_i hh
        obtain ⟨rfl, rfl⟩ := hh
        simp only at hr
        rw [hl.2] at hr; cases hr
      · exact h1
    · rw [hw] at h1; cases h1
  · have := h.lenOk; rw [hw] at this
    have hlen := List.length_erase_of_mem hm
    have hpos := List.length_pos_of_mem hm
    simp only [adj] at this ⊢; omega
  · intro k' hk
    obtain ⟨h6, h7⟩ := h.nodup.mem_erase_iff.1 hk
    obtain ⟨b', i', v', ⟨h1, h2, h3, h4⟩, h5⟩ := h.mustSlot k' h7
    refine ⟨b', i', v', ⟨h1, hlive ?_ h2, h3, h4⟩, h5⟩
    rintro ⟨rfl, rfl⟩
    rw [hc] at h3
    injection h3 with h3; injection h3 with h3 _
    exact h6 h3.symm
  · intro k' b1 i1 v1 b2 i2 v2 h1 h2 h3 h4
    rcases h.uniq k' b1 i1 v1 b2 i2 v2 (key h1).2 h2 (key h3).2 h4 with h5 | h5
    · exact .inl h5
    · rw [hw] at h5; cases h5
  · intro k' b1 i1 v1 h1 h2
    obtain ⟨h5, h6⟩ := key h1
    rcases h.liveMust k' b1 i1 v1 h6 h2 with h3 | h3
    · left
      refine h.nodup.mem_erase_iff.2 ⟨?_, h3⟩
      intro hk; subst hk
      rcases h.uniq k' b1 i1 v1 b i v h6 h2 hl hc with h7 | h7
      · exact h5 ⟨congrArg Prod.fst h7, congrArg Prod.snd h7⟩
      · rw [hw] at h7; cases h7
    · rw [hw] at h3; cases h3
  · refine rd_frame h.rdOk rfl rfl ?_ ?_
    · intro r b' i' e ha ⟨h1, h2⟩
      exact ⟨h1, .inl rfl⟩
    · intro r b' i' ha h1
      exact h1

theorem inv_exLen {hp : K → Nat} {s : St K V} (h : Inv hp s) (hw : s.w = .exLen) :
    Inv hp { s with len := s.len - 1, w := .idle } := by
  refine ⟨h.freshPos, h.unalloc, h.nextLt, h.cellOk, ?_, h.pinNew, trivial, h.nodup, ?_, h.mustSlot, ?_, ?_, ?_⟩
  · intro b' i' hr
    rcases h.remOcc b' i' hr with h1 | ⟨d, h1, _⟩
    · exact .inl h1
    · rw [hw] at h1; cases h1
  · have := h.lenOk; rw [hw] at this
    simp only [adj] at this ⊢; omega
  · have := h.uniq
    rw [hw] at this
    exact this
  · have := h.liveMust
    rw [hw] at this
    exact this
  · exact rd_frame h.rdOk rfl rfl (fun r b i e _ h => h) (fun r b i _ h => h)

theorem inv_step {hp : K → Nat} {s s' : St K V} (h : Inv hp s) (hs : Step hp s s') : Inv hp s' := by
  have al : ∀ {r p}, s.rd r = p → p.alive = true → (s.rd r).alive = true := by
    intro r p hp ha; rw [hp]; exact ha
  cases hs with
  | insert h1 h2 h3 h4 h5 h6 => exact inv_insert h h1 h2 h3 h4 h5 h6
  | @update k v b i b' i' v' h1 h2 h3 h4 h5 h6 h7 =>
    refine inv_insert h h1 h2 ⟨?_, h3, _, h4⟩ h5 h6 h7
    rcases h.liveMust k b' i' v' h3 h4 with h8 | h8
    · exact h8
    · rw [h1] at h8; cases h8
  | insHash h1 => exact inv_insHash h h1
  | insOcc h1 => exact inv_insOcc h h1
  | insLink h1 h2 h3 => exact inv_link h h1 h2 h3
  | @updLink k v b' i' v' h1 h2 h3 h4 =>
    refine inv_link h h1 h2 ⟨?_, h3, _, h4⟩
    rcases h.liveMust k b' i' v' h3 h4 with h8 | h8
    · exact h8
    · rw [h1] at h8; cases h8
  | insLen h1 => exact inv_insLen h h1
  | updLen h1 => exact inv_updLen h h1
  | remove h1 h2 h3 h4 => exact inv_remove h h1 h2 h3 h4
  | rmLen h1 => exact inv_rmLen h h1
  | rmHash e h1 => exact inv_rmHash h h1
  | rmRem h1 => exact inv_rmRem h h1
  | clear h1 h2 h3 => exact inv_clear h h1 h2 h3
  | clrOcc h1 => exact inv_clrOcc h h1
  | clrRem h1 => exact inv_clrRem h h1
  | clrDrop h1 => exact inv_clrDrop h h1
  | cut h1 h2 => exact inv_cut h h1 h2
  | append h1 h2 h3 h4 => exact inv_append h h1 h3 h4
  | extract h1 h2 h3 => exact inv_extract h h1 h2 h3
  | exLen h1 => exact inv_exLen h h1
  | @guard r h1 =>
    have he : (s.setRd r .free).rd r = .free := by simp [upd1, St.setRd]
    refine inv_reader h (r := r) ⟨rfl, rfl, rfl, rfl, rfl, rfl, rfl, rfl, rfl, rfl, rfl⟩
      (fun q hq => ⟨by simp [upd1, St.setRd, hq], rfl⟩) ?_ ?_ ?_ ?_
    · exact fun _ => .inr h1
    · rw [he]; exact fun h => by cases h
    · intro _ b i e hm
      have hm : (b, i, e) ∈ s.refs r := hm
      rw [(h.rdOk r).none h1] at hm
      cases hm
    · rw [he]; trivial
  | drop h1 => exact inv_setRd h (fun h => by cases h) (fun h => by cases h) trivial
  | sStart k h1 => exact inv_setRd h (fun _ => al h1 rfl) (fun h => by cases h) trivial
  | sLenZero h1 => exact inv_setRd h (fun _ => al h1 rfl) (fun h => by cases h) trivial
  | sLen h1 => exact inv_setRd h (fun _ => al h1 rfl) (fun h => by cases h) trivial
  | sRem h1 =>
    refine inv_setRd h (fun _ => al h1 rfl) (fun h => by cases h) (fun i h2 h3 => ?_)
    rw [h2] at h3; cases h3
  | @sOcc r k b rm h1 =>
    refine inv_setRd h (fun _ => al h1 rfl) (fun h => by cases h) (fun i h2 => ?_)
    simp only [Bool.and_eq_true, Bool.not_eq_true'] at h2
    obtain ⟨e, he⟩ := h.cellOk b i h2.1
    have h3 := (h.rdOk r).pc
    rw [h1] at h3
    exact ⟨e, he, .inr ⟨h2.1, h3 i h2.2⟩⟩
  | @sHash r k b bm j h1 h2 =>
    refine inv_setRd h (fun _ => al h1 rfl) (fun h => by cases h) (fun i h3 => ?_)
    have h4 := (h.rdOk r).pc
    rw [h1] at h4
    refine h4 i ?_
    split at h3
    · exact h3
    · simp only [upd1] at h3
      split at h3
      · cases h3
      · exact h3
  | @sHashEnd r k b bm j h1 h2 =>
    refine inv_setRd h (fun _ => al h1 rfl) (fun h => by cases h) (fun i h3 => ?_)
    have h4 := (h.rdOk r).pc
    rw [h1] at h4
    exact h4 i h3
  | @sMatch r k b bm i v h1 h2 h3 h4 h5 =>
    refine inv_addRef h (al h1 rfl) (fun h => by cases h) trivial ?_
    have h6 := (h.rdOk r).pc
    rw [h1] at h6
    obtain ⟨e, he⟩ := h6 i h2
    have := he.1
    rw [h5] at this
    injection this with this; subst this
    exact he
  | @sOther r k b bm i k' v h1 h2 h3 h4 h5 h6 =>
    refine inv_setRd h (fun _ => al h1 rfl) (fun h => by cases h) (fun i h3 => ?_)
    have h4 := (h.rdOk r).pc
    rw [h1] at h4
    refine h4 i ?_
    simp only [upd1] at h3
    split at h3
    · cases h3
    · exact h3
  | sNone h1 h2 => exact inv_setRd h (fun _ => al h1 rfl) (fun h => by cases h) trivial
  | sNext h1 h2 => exact inv_setRd h (fun _ => al h1 rfl) (fun h => by cases h) trivial
  | sEnd h1 h2 => exact inv_setRd h (fun _ => al h1 rfl) (fun h => by cases h) trivial
  | sRet h1 => exact inv_setRd h (fun _ => al h1 rfl) (fun h => by cases h) trivial
  | iStart h1 => exact inv_setRd h (fun _ => al h1 rfl) (fun h => by cases h) trivial
  | iGo h1 h2 => exact inv_setRd h (fun _ => al h1 rfl) (fun h => by cases h) trivial
  | iSkip h1 h2 => exact inv_setRd h (fun _ => al h1 rfl) (fun h => by cases h) trivial
  | iRem h1 =>
    refine inv_setRd h (fun _ => al h1 rfl) (fun h => by cases h) (fun i h2 h3 => ?_)
    rw [h2] at h3; cases h3
  | @iYield r b c rm i k v h1 h2 h3 h4 h5 h6 h7 =>
    refine inv_addRef h (al h1 rfl) (fun h => by cases h) trivial ?_
    have h8 := (h.rdOk r).pc
    rw [h1] at h8
    exact ⟨h7, .inr ⟨h4, h8 i h5⟩⟩
  | iNone h1 h2 => exact inv_setRd h (fun _ => al h1 rfl) (fun h => by cases h) trivial
  | iNext h1 h2 => exact inv_setRd h (fun _ => al h1 rfl) (fun h => by cases h) trivial
  | iEnd h1 h2 => exact inv_setRd h (fun _ => al h1 rfl) (fun h => by cases h) trivial

end Scc.Peek
