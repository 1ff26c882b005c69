import Verif.Peek.Props

/-!
# The bucket as the table sees it

`Verif/Table` has one step for a whole operation on a bucket (`commit`). Here the single stores of
`Verif/Peek/Model.lean` are grouped to such steps: `Com` is what the bucket holds for the table, `Out` the
outcome of the operation in progress. Readers see `Com`, or a part of `Out` early.
-/

set_option linter.unusedSimpArgs false
set_option linter.unusedSectionVars false
set_option linter.unusedVariables false

namespace Scc.Peek

variable {K V : Type} [DecidableEq K]

/-- Slot `(b, i)` is the copy an operation in progress is inserting. -/
def Pending (w : WPC K V) (b i : Nat) : Prop :=
  match w with
  | .insLen _ b' i' _ => b = b' ∧ i = i'
  | .rmLen _ _ _ n => b = n.1 ∧ i = n.2
  | .rmHash _ _ _ (some n) => b = n.1 ∧ i = n.2
  | .rmRem _ _ _ (some n) => b = n.1 ∧ i = n.2
  | _ => False

/-- The bucket holds `(k, v)`, operations in progress not counted. -/
def Com (s : St K V) (k : K) (v : V) : Prop :=
  ∃ b i, s.live b i ∧ ¬ Pending s.w b i ∧ s.cell b i = some (k, v)

/-- An operation on key `k` is in progress and its outcome is `y`. -/
def Out (s : St K V) (k : K) (y : Option V) : Prop :=
  match s.w with
  | .insHash k' v _ _ _ => k' = k ∧ y = some v
  | .insOcc k' v _ _ _ => k' = k ∧ y = some v
  | .insLen k' b i _ => k' = k ∧ ∃ v, s.cell b i = some (k, v) ∧ y = some v
  | .rmLen k' _ _ n => k' = k ∧ ∃ v, s.cell n.1 n.2 = some (k, v) ∧ y = some v
  | .rmHash k' _ _ (some n) => k' = k ∧ ∃ v, s.cell n.1 n.2 = some (k, v) ∧ y = some v
  | .rmRem k' _ _ (some n) => k' = k ∧ ∃ v, s.cell n.1 n.2 = some (k, v) ∧ y = some v
  | .rmHash k' _ _ none => k' = k ∧ y = none
  | .rmRem k' _ _ none => k' = k ∧ y = none
  | _ => False

theorem com_unique {hp : K → Nat} {s : St K V} (hr : Reachable hp s) {k : K} {v v' : V} (h : Com s k v)
    (h' : Com s k v') : v = v' := by
  obtain ⟨b, i, h1, h2, h3⟩ := h
  obtain ⟨b', i', h1', h2', h3'⟩ := h'
  rcases (reachable_inv hr).uniq k b i v b' i' v' h1 h3 h1' h3' with h5 | h5
  · injection h5 with h5 h6
    subst h5 h6
    rw [h3] at h3'
    injection h3' with h4; injection h4
  · exfalso
    revert h2 h2' h5
    cases s.w with
    | insLen k' c j u =>
      cases u with
      | none => exact fun _ _ h => h
      | some o =>
        simp only [Pending, Two]
        rintro h2 h2' ⟨_, ⟨_, h⟩ | ⟨_, h⟩⟩
        · injection h with h h'; exact h2' ⟨h, h'⟩
        · injection h with h h'; exact h2 ⟨h, h'⟩
    | rmLen k' c j n =>
      simp only [Pending, Two]
      rintro h2 h2' ⟨_, ⟨h, _⟩ | ⟨h, _⟩⟩
      · subst h; exact h2 ⟨rfl, rfl⟩
      · subst h; exact h2' ⟨rfl, rfl⟩
    | rmHash k' c j u | rmRem k' c j u =>
      cases u with
      | none => exact fun _ _ h => h
      | some n =>
        simp only [Pending, Two]
        rintro h2 h2' ⟨_, ⟨h, _⟩ | ⟨h, _⟩⟩
        · subst h; exact h2 ⟨rfl, rfl⟩
        · subst h; exact h2' ⟨rfl, rfl⟩
    | _ => exact fun _ _ h => h

/-- An entry that is stored is held by the bucket or is the outcome of the operation in progress. -/
theorem stored_com {hp : K → Nat} {s : St K V} (hr : Reachable hp s) {k : K} {v : V} (h : s.stored k v) :
    Com s k v ∨ Out s k (some v) := by
  obtain ⟨b, i, h1, h2⟩ := h
  by_cases hp : Pending s.w b i
  · right
    have hw := (reachable_inv hr).wOk
    revert hp hw
    unfold Out
    cases s.w with
    | insLen k' c j u =>
      simp only [Pending, WOk]
      rintro ⟨rfl, rfl⟩ ⟨_, ⟨v', _, _, h5, _⟩, _⟩
      rw [h2] at h5
      injection h5 with h5; injection h5 with h5 h6
      exact ⟨h5.symm, v, h5 ▸ h2, rfl⟩
    | rmLen k' c j n =>
      simp only [Pending, WOk, NewOk]
      rintro ⟨rfl, rfl⟩ ⟨_, _, _, _, _, ⟨v', _, _, h5, _⟩, _⟩
      rw [h2] at h5
      injection h5 with h5; injection h5 with h5 h6
      exact ⟨h5.symm, v, h5 ▸ h2, rfl⟩
    | rmHash k' c j u | rmRem k' c j u =>
      cases u with
      | none => exact fun h => h.elim
      | some n =>
        simp only [Pending, WOk, NewOk]
        rintro ⟨rfl, rfl⟩ ⟨_, _, _, _, _, ⟨v', _, _, h5, _⟩, _⟩
        rw [h2] at h5
        injection h5 with h5; injection h5 with h5 h6
        exact ⟨h5.symm, v, h5 ▸ h2, rfl⟩
    | _ => exact fun h => h.elim
  · exact .inl ⟨b, i, h1, hp, h2⟩

/-- A key whose removal has begun, or that is not there. -/
theorem com_must {hp : K → Nat} {s : St K V} (hr : Reachable hp s) {k : K} {v : V} (h : Com s k v) :
    k ∈ s.must ∨ Out s k none := by
  obtain ⟨b, i, h1, hp, h2⟩ := h
  rcases (reachable_inv hr).liveMust k b i v h1 h2 with h3 | h3
  · exact .inl h3
  · have hI := reachable_inv hr
    have hw := hI.wOk
    have hu := hI.uniq k b i v
    right
    revert hp hw h3 hu
    unfold Out
    cases s.w with
    | insLen k' c j u =>
      cases u with
      | none =>
        simp only [Pending, WOk, Busy]
        rintro hp rfl ⟨_, ⟨v', h4, h5, h6, _⟩, _⟩ hu
        rcases hu c j v' h1 h2 h5 h6 with h7 | h7
        · injection h7 with h7 h8; exact absurd ⟨h7, h8⟩ hp
        · exact h7.elim
      | some o => simp only [Busy]; exact fun _ h => h.elim
    | rmHash k' c j u | rmRem k' c j u =>
      cases u with
      | none => exact fun _ h _ _ => ⟨h, rfl⟩
      | some n => exact fun _ h => h.elim
    | _ => exact fun _ h => h.elim

/-- **C19, the search of a bucket.** What it finds was held by the bucket at some moment during the search,
or was being stored by the operation in progress. -/
theorem bucket_finds {hp : K → Nat} {r : Nat} {σ} {s : St K V} (h : Call hp r σ s) {k k' : K} {v : V} {b i : Nat}
    (hd : s.rd r = .sDone k (some (b, i, k', v))) :
    k' = k ∧ ∃ t, t ∈ σ ∧ (Com t k v ∨ Out t k (some v)) := by
  obtain ⟨h1, t, h2, h3⟩ := c19_some h hd
  exact ⟨h1, t, h2, stored_com (h.all t h2) h3⟩

/-- **C19, the search of a bucket.** If it finds nothing, then at some moment the bucket did not hold the
key, or the operation in progress was removing it, or was updating it. -/
theorem bucket_misses {hp : K → Nat} {r : Nat} {σ} {s : St K V} (h : Call hp r σ s) {k : K}
    (hd : s.rd r = .sDone k none) :
    ∃ t, t ∈ σ ∧ ((∀ v, ¬ Com t k v) ∨ Out t k none ∨ Updating t.w k) := by
  obtain ⟨t, h1, h2⟩ := c19_none h hd
  refine ⟨t, h1, ?_⟩
  rcases h2 with h2 | h2
  · by_cases hc : ∃ v, Com t k v
    · obtain ⟨v, hc⟩ := hc
      rcases com_must (h.all t h1) hc with h3 | h3
      · exact absurd h3 h2
      · exact .inr (.inl h3)
    · exact .inl (fun v hv => hc ⟨v, hv⟩)
  · exact .inr (.inr h2)

/-- What a step does to the bucket as the table sees it: nothing, or the operation in progress takes effect
as a whole, or an entry is moved away. -/
inductive Effect (s s' : St K V) : Prop
  | none : (∀ k v, Com s' k v ↔ Com s k v) → Effect s s'
  | commit {k y} : Out s k y → (∀ v, Com s' k v ↔ y = some v) → (∀ k' v, k' ≠ k → (Com s' k' v ↔ Com s k' v)) →
      s'.w = .idle → Effect s s'
  | moved {k v} : s.w = .idle → Com s k v → (∀ v, ¬ Com s' k v) →
      (∀ k' v, k' ≠ k → (Com s' k' v ↔ Com s k' v)) → Effect s s'

theorem Effect.same {s s' : St K V} (h1 : s'.occ = s.occ) (h2 : s'.rem = s.rem) (h3 : s'.cell = s.cell)
    (h4 : ∀ b i, s.live b i → (Pending s'.w b i ↔ Pending s.w b i)) : Effect s s' := by
  refine .none (fun k v => ?_)
  unfold Com St.live
  rw [h1, h2, h3]
  constructor
  · rintro ⟨b, i, h, h', h''⟩; exact ⟨b, i, h, fun hp => h' ((h4 b i h).2 hp), h''⟩
  · rintro ⟨b, i, h, h', h''⟩; exact ⟨b, i, h, fun hp => h' ((h4 b i h).1 hp), h''⟩

/-- A slot that is not in use is written. -/
theorem Effect.write {s s' : St K V} {b i : Nat} {e : Option (K × V)} (h0 : s.occ b i = false) (h1 : s'.occ = s.occ)
    (h2 : s'.rem = s.rem) (h3 : s'.cell = upd2 s.cell b i e) (h4 : ∀ b i, Pending s'.w b i ↔ Pending s.w b i) :
    Effect s s' := by
  refine .none (fun k v => ?_)
  unfold Com St.live
  rw [h1, h2, h3]
  constructor
  · rintro ⟨c, j, h, h', h''⟩
    refine ⟨c, j, h, fun hp => h' ((h4 c j).2 hp), ?_⟩
    unfold upd2 at h''
    split at h''
    · rename_i hh; obtain ⟨rfl, rfl⟩ := hh; rw [h0] at h; cases h.1
    · exact h''
  · rintro ⟨c, j, h, h', h''⟩
    refine ⟨c, j, h, fun hp => h' ((h4 c j).1 hp), ?_⟩
    unfold upd2
    split
    · rename_i hh; obtain ⟨rfl, rfl⟩ := hh; rw [h0] at h; cases h.1
    · exact h''

/-- A slot that was not in use becomes the pending copy. -/
theorem Effect.add {s s' : St K V} {b i : Nat} (h0 : s.occ b i = false)
    (h1 : s'.occ = upd2 s.occ b i true) (h2 : s'.rem = s.rem)
    (h3 : ∀ c j, (c, j) ≠ (b, i) → s'.cell c j = s.cell c j)
    (h4 : ∀ c j, Pending s'.w c j ↔ c = b ∧ j = i) (h5 : ∀ c j, ¬ Pending s.w c j) : Effect s s' := by
  refine .none (fun k v => ?_)
  unfold Com St.live
  rw [h1, h2]
  constructor
  · rintro ⟨c, j, h, h', h''⟩
    rw [h4] at h'
    refine ⟨c, j, ?_, h5 c j, ?_⟩
    · simpa [upd2, h'] using h
    · rw [← h3 c j (by intro hc; injection hc with a b; exact h' ⟨a, b⟩)]; exact h''
  · rintro ⟨c, j, h, h', h''⟩
    have hne : ¬ (c = b ∧ j = i) := by
      rintro ⟨rfl, rfl⟩; rw [h0] at h; cases h.1
    refine ⟨c, j, ?_, by rw [h4]; exact hne, ?_⟩
    · simpa [upd2, hne] using h
    · rw [h3 c j (by intro hc; injection hc with a b; exact hne ⟨a, b⟩)]; exact h''

/-- **The grouping is right.** Every single store changes nothing for the table, or completes the operation
in progress with exactly its outcome, or moves one entry away. -/
theorem step_effect {hp : K → Nat} {s s' : St K V} (hr : Reachable hp s) (st : Step hp s s') : Effect s s' := by
  have hI := reachable_inv hr
  have hw := hI.wOk
  have hu := hI.uniq
  cases st with
  | insert g g1 g2 g3 g4 g5 =>
    exact .write g5 rfl rfl rfl (fun b i => by rw [g]; exact Iff.rfl)
  | update g g1 g2 g3 g4 g5 g6 =>
    exact .write g6 rfl rfl rfl (fun b i => by rw [g]; exact Iff.rfl)
  | insHash g => exact .same rfl rfl rfl (fun b i _ => by rw [g]; exact Iff.rfl)
  | insOcc g =>
    rw [g] at hw
    exact .add hw.2.1 rfl rfl (fun _ _ _ => rfl) (fun _ _ => Iff.rfl) (fun _ _ => by rw [g]; exact id)
  | insLink g g1 g2 =>
    refine .add ((hI.unalloc _ (Nat.le_refl _)).1 0) rfl rfl (fun c j hc => ?_) (fun _ _ => Iff.rfl) (fun _ _ => by rw [g]; exact id)
    show upd2 s.cell s.fresh 0 _ c j = _
    unfold upd2
    split
    · rename_i hh; obtain ⟨rfl, rfl⟩ := hh; exact absurd rfl hc
    · rfl
  | updLink g g1 g2 g3 =>
    refine .add ((hI.unalloc _ (Nat.le_refl _)).1 0) rfl rfl (fun c j hc => ?_) (fun _ _ => Iff.rfl) (fun _ _ => by rw [g]; exact id)
    show upd2 s.cell s.fresh 0 _ c j = _
    unfold upd2
    split
    · rename_i hh; obtain ⟨rfl, rfl⟩ := hh; exact absurd rfl hc
    · rfl
  | @insLen k b i g =>
    rw [g] at hw hu
    obtain ⟨_, ⟨v, _, hv1, hv2, _⟩, _⟩ := hw
    refine .commit (k := k) (y := some v) (by unfold Out; rw [g]; exact ⟨rfl, v, hv2, rfl⟩) (fun v' => ?_) (fun k' v' hk => ?_) rfl
    · constructor
      · rintro ⟨c, j, h1, h2, h3⟩
        rcases hu k c j v' b i v h1 h3 hv1 hv2 with h4 | h4
        · injection h4 with h4 h5; subst h4 h5
          rw [show s.cell c j = some (k, v') from h3] at hv2
          injection hv2 with hv2; injection hv2 with _ hv2; rw [hv2]
        · exact h4.elim
      · intro h; injection h with h; subst h
        exact ⟨b, i, hv1, id, hv2⟩
    · constructor
      · rintro ⟨c, j, h1, h2, h3⟩
        refine ⟨c, j, h1, ?_, h3⟩
        rw [g]; rintro ⟨rfl, rfl⟩
        rw [show s.cell c j = some (k', v') from h3] at hv2
        injection hv2 with hv2; injection hv2 with hv2; exact hk hv2
      · rintro ⟨c, j, h1, h2, h3⟩
        exact ⟨c, j, h1, id, h3⟩
  | updLen g => exact .same rfl rfl rfl (fun b i _ => by rw [g]; exact Iff.rfl)
  | remove g => exact .same rfl rfl rfl (fun b i _ => by rw [g]; exact Iff.rfl)
  | rmLen g => exact .same rfl rfl rfl (fun b i _ => by rw [g]; exact Iff.rfl)
  | @rmHash k b i u e g => exact .same rfl rfl rfl (fun b i _ => by rw [g]; cases u <;> exact Iff.rfl)
  | @rmRem k b i u g =>
    rw [g] at hw hu
    obtain ⟨_, hl, ⟨v0, hv0⟩, hn⟩ := hw
    have other : ∀ k' v, k' ≠ k →
        (Com { s with rem := upd2 s.rem b i true, pin := upd2 s.pin b i (fun r => (s.rd r).alive), w := .idle } k' v ↔
          Com s k' v) := by
      intro k' v hk
      constructor
      · rintro ⟨c, j, h1, h2, h3⟩
        refine ⟨c, j, ⟨h1.1, ?_⟩, ?_, h3⟩
        · have : upd2 s.rem b i true c j = false := h1.2
          unfold upd2 at this
          split at this
          · cases this
          · exact this
        · rw [g]
          cases u with
          | none => exact id
          | some n =>
            rintro ⟨rfl, rfl⟩
            obtain ⟨_, _, ⟨v', _, _, h5, _⟩, _⟩ := hn
            rw [show s.cell n.1 n.2 = some (k', v) from h3] at h5
            injection h5 with h5; injection h5 with h5; exact hk h5
      · rintro ⟨c, j, h1, h2, h3⟩
        refine ⟨c, j, ⟨h1.1, ?_⟩, id, h3⟩
        show upd2 s.rem b i true c j = false
        unfold upd2
        split
        · rename_i hh; obtain ⟨rfl, rfl⟩ := hh
          rw [h3] at hv0
          injection hv0 with h5; injection h5 with h5; exact absurd h5 hk
        · exact h1.2
    have gone : ∀ c j v, St.live { s with rem := upd2 s.rem b i true, pin := upd2 s.pin b i (fun r => (s.rd r).alive), w := .idle } c j →
        s.cell c j = some (k, v) → s.live c j ∧ (c, j) ≠ (b, i) := by
      intro c j v h1 h3
      have : upd2 s.rem b i true c j = false := h1.2
      unfold upd2 at this
      split at this
      · cases this
      · rename_i hh
        exact ⟨⟨h1.1, this⟩, fun hc => by injection hc with x y; exact hh ⟨x, y⟩⟩
    cases u with
    | none =>
      refine .commit (k := k) (y := none) (by unfold Out; rw [g]; exact ⟨rfl, rfl⟩) (fun v' => ?_) other rfl
      constructor
      · rintro ⟨c, j, h1, h2, h3⟩
        obtain ⟨h4, h5⟩ := gone c j v' h1 h3
        rcases hu k c j v' b i v0 h4 h3 hl hv0 with h6 | h6
        · exact absurd h6 h5
        · exact h6.elim
      · intro h; cases h
    | some n =>
      obtain ⟨_, hne, ⟨v, _, hv1, hv2, _⟩, _⟩ := hn
      refine .commit (k := k) (y := some v) (by unfold Out; rw [g]; exact ⟨rfl, v, hv2, rfl⟩) (fun v' => ?_) other rfl
      constructor
      · rintro ⟨c, j, h1, h2, h3⟩
        obtain ⟨h4, h5⟩ := gone c j v' h1 h3
        rcases hu k c j v' b i v0 h4 h3 hl hv0 with h6 | h6
        · exact absurd h6 h5
        · obtain ⟨_, ⟨h7, _⟩ | ⟨_, h7⟩⟩ := h6
          · subst h7
            rw [show s.cell c j = some (k, v') from h3] at hv2
            injection hv2 with hv2; injection hv2 with _ hv2; rw [hv2]
          · exact absurd h7 h5
      · intro h; injection h with h; subst h
        refine ⟨n.1, n.2, ⟨hv1.1, ?_⟩, id, hv2⟩
        show upd2 s.rem b i true n.1 n.2 = false
        unfold upd2
        split
        · rename_i hh; exact absurd (Prod.ext hh.1 hh.2) hne
        · exact hv1.2
  | clear g => exact .same rfl rfl rfl (fun b i _ => by rw [g]; exact Iff.rfl)
  | @clrOcc b d g =>
    rw [g] at hw
    refine .none (fun k v => ⟨?_, ?_⟩)
    · rintro ⟨c, j, h1, h2, h3⟩
      refine ⟨c, j, ⟨?_, h1.2⟩, by rw [g]; exact id, h3⟩
      have : (s.occ c j && !(c == b && d j)) = true := h1.1
      simp only [Bool.and_eq_true] at this
      exact this.1
    · rintro ⟨c, j, h1, h2, h3⟩
      refine ⟨c, j, ⟨?_, h1.2⟩, id, h3⟩
      show (s.occ c j && !(c == b && d j)) = true
      rw [h1.1]
      cases hd : (c == b && d j) with
      | false => rfl
      | true =>
        simp only [Bool.and_eq_true, beq_iff_eq] at hd
        obtain ⟨rfl, hd⟩ := hd
        have := (hw.2 j hd).1
        rw [h1.2] at this; cases this
  | @clrRem b d g =>
    rw [g] at hw
    refine .none (fun k v => ⟨?_, ?_⟩)
    · rintro ⟨c, j, h1, h2, h3⟩
      refine ⟨c, j, ⟨h1.1, ?_⟩, by rw [g]; exact id, h3⟩
      have : (s.rem c j && !(c == b && d j)) = false := h1.2
      cases hd : (c == b && d j) with
      | false => rw [hd] at this; simpa using this
      | true =>
        simp only [Bool.and_eq_true, beq_iff_eq] at hd
        obtain ⟨rfl, hd⟩ := hd
        have h4 := (hw.2 j hd).1
        rw [show s.occ c j = true from h1.1] at h4; cases h4
    · rintro ⟨c, j, h1, h2, h3⟩
      refine ⟨c, j, ⟨h1.1, ?_⟩, id, h3⟩
      show (s.rem c j && !(c == b && d j)) = false
      rw [h1.2]; rfl
  | @clrDrop b d g =>
    rw [g] at hw
    have key : ∀ c j, s.live c j → (c == b && d j) = false := by
      intro c j h
      cases hd : (c == b && d j) with
      | false => rfl
      | true =>
        simp only [Bool.and_eq_true, beq_iff_eq] at hd
        obtain ⟨rfl, hd⟩ := hd
        have h4 := (hw.2 j hd).1
        rw [h.1] at h4; cases h4
    refine .none (fun k v => ⟨?_, ?_⟩)
    · rintro ⟨c, j, h1, h2, h3⟩
      refine ⟨c, j, h1, by rw [g]; exact id, ?_⟩
      have : (if (c == b && d j) = true then none else s.cell c j) = some (k, v) := h3
      rw [key c j h1] at this
      exact this
    · rintro ⟨c, j, h1, h2, h3⟩
      refine ⟨c, j, h1, id, ?_⟩
      show (if (c == b && d j) = true then none else s.cell c j) = some (k, v)
      rw [key c j h1]
      exact h3
  | cut g => exact .same rfl rfl rfl (fun b i _ => Iff.rfl)
  | append g => exact .same rfl rfl rfl (fun b i _ => Iff.rfl)
  | @extract k v b i g g1 g2 =>
    rw [g] at hu
    refine .moved (k := k) (v := v) g ⟨b, i, g1, by rw [g]; exact id, g2⟩ (fun v' => ?_) (fun k' v' hk => ⟨?_, ?_⟩)
    · rintro ⟨c, j, h1, h2, h3⟩
      have h4 : upd2 s.occ b i false c j = true := h1.1
      unfold upd2 at h4
      split at h4
      · cases h4
      · rename_i hh
        rcases hu k c j v' b i v ⟨h4, h1.2⟩ h3 g1 g2 with h6 | h6
        · injection h6 with x y; exact hh ⟨x, y⟩
        · exact h6
    · rintro ⟨c, j, h1, h2, h3⟩
      refine ⟨c, j, ⟨?_, h1.2⟩, by rw [g]; exact id, h3⟩
      have h4 : upd2 s.occ b i false c j = true := h1.1
      unfold upd2 at h4
      split at h4
      · cases h4
      · exact h4
    · rintro ⟨c, j, h1, h2, h3⟩
      refine ⟨c, j, ⟨?_, h1.2⟩, id, h3⟩
      show upd2 s.occ b i false c j = true
      unfold upd2
      split
      · rename_i hh; obtain ⟨rfl, rfl⟩ := hh
        rw [h3] at g2
        injection g2 with g2; injection g2 with g2; exact absurd g2 hk
      · exact h1.1
  | exLen g => exact .same rfl rfl rfl (fun b i _ => by rw [g]; exact Iff.rfl)
  | _ => exact .same rfl rfl rfl (fun b i _ => Iff.rfl)

/-- The outcome of an operation does not change while it is in progress. -/
theorem out_stays {hp : K → Nat} {s s' : St K V} (hr : Reachable hp s) (st : Step hp s s') {k : K} {y : Option V}
    (h : Out s k y) : Out s' k y ∨ s'.w = .idle := by
  cases st with
  | insert g | update g | insLink g | updLink g | remove g | clear g | append g | extract g | cut g =>
    unfold Out at h; rw [g] at h; exact h.elim
  | clrOcc g | clrRem g | clrDrop g | exLen g => unfold Out at h; rw [g] at h; exact h.elim
  | insLen g | rmRem g => exact .inr rfl
  | insHash g => unfold Out at h; rw [g] at h; exact .inl h
  | @insOcc k' v b i u g =>
    have hw := (reachable_inv hr).wOk
    rw [g] at hw
    unfold Out at h; rw [g] at h
    left
    obtain ⟨rfl, rfl⟩ := h
    exact ⟨rfl, v, hw.2.2.2.1, rfl⟩
  | updLen g => unfold Out at h; rw [g] at h; exact .inl h
  | rmLen g => unfold Out at h; rw [g] at h; exact .inl h
  | @rmHash k' b i u e g => unfold Out at h; rw [g] at h; left; cases u <;> exact h
  | _ => exact .inl h

end Scc.Peek
