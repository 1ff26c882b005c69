import Verif.Peek.Preserve

/-!
# What a reader returns was there during its call

`Call` collects the states a call of a reader passes through. The assertions `Seen` and `Ahead` relate what
the reader has loaded to those states.
-/

set_option linter.unusedSimpArgs false
set_option linter.unusedSectionVars false
set_option linter.unusedVariables false

namespace Scc.Peek

variable {K V : Type} [DecidableEq K]

/-- No call in progress. -/
def Between : RPC K V → Prop
  | .new => True
  | .free => True
  | .iHeld _ _ => True
  | .ended => True
  | _ => False

/-- Reader `r` is in a call that began with the last state of the list; the list holds all states since, the
present one first. -/
inductive Call (hp : K → Nat) (r : Nat) : List (St K V) → St K V → Prop
  | start {s s' : St K V} : Reachable hp s → Between (s.rd r) → Step hp s s' → ¬ Between (s'.rd r) →
      Call hp r [s'] s'
  | step {σ : List (St K V)} {s s' : St K V} : Call hp r σ s → Step hp s s' → ¬ Between (s'.rd r) →
      Call hp r (s' :: σ) s'

/-- Any number of steps. -/
inductive Steps (hp : K → Nat) : St K V → St K V → Prop
  | refl (s : St K V) : Steps hp s s
  | tail {s t u : St K V} : Steps hp s t → Step hp t u → Steps hp s u

theorem reachable_inv {hp : K → Nat} {s : St K V} (h : Reachable hp s) : Inv hp s := by
  induction h with
  | init => exact inv_init hp
  | step _ h2 ih => exact inv_step ih h2

theorem Call.reachable {hp : K → Nat} {r σ} {s : St K V} (h : Call hp r σ s) : Reachable hp s := by
  induction h with
  | start h1 _ h2 _ => exact .step h1 h2
  | step _ h2 _ ih => exact .step ih h2

theorem Call.mem {hp : K → Nat} {r σ} {s : St K V} (h : Call hp r σ s) : s ∈ σ := by
  cases h <;> exact List.mem_cons_self

theorem Call.busy {hp : K → Nat} {r σ} {s : St K V} (h : Call hp r σ s) : ¬ Between (s.rd r) := by
  cases h <;> assumption

theorem rd_set {s : St K V} {r q : Nat} {p : RPC K V} (P : RPC K V → Prop) (h1 : P (s.rd r)) (h2 : r = q → P p) :
    P ((s.setRd q p).rd r) := by
  by_cases h : r = q
  · subst h
    have : (s.setRd r p).rd r = p := by simp [St.setRd, upd1]
    rw [this]; exact h2 rfl
  · have : (s.setRd q p).rd r = s.rd r := by simp [St.setRd, upd1, h]
    rw [this]; exact h1

/-! ## The memory of a live slot -/

/-- A cell is written only when it is not occupied, and never after the bucket has begun to move. -/
theorem step_cell {hp : K → Nat} {s s' : St K V} (hi : Inv hp s) (h : Step hp s s') {b i : Nat} {e : K × V}
    (hc : s.cell b i = some e) (ho : s.occ b i = true ∨ s.ext = true) : s'.cell b i = some e := by
  cases h with
  | @insert k v b' i' h1 h2 h3 h4 h5 h6 =>
    rcases ho with ho | ho
    · grind [upd2]
    · rw [h2] at ho; cases ho
  | @update k v b' i' _ _ _ h1 h2 h3 h4 h5 h6 h7 =>
    rcases ho with ho | ho
    · grind [upd2]
    · rw [h2] at ho; cases ho
  | @insLink k v h1 h2 h3 =>
    rcases ho with ho | ho
    · have := (hi.unalloc s.fresh (Nat.le_refl _)).1 i
      grind [upd2]
    · rw [h2] at ho; cases ho
  | @updLink k v _ _ _ h1 h2 h3 =>
    rcases ho with ho | ho
    · have := (hi.unalloc s.fresh (Nat.le_refl _)).1 i
      grind [upd2]
    · rw [h2] at ho; cases ho
  | @clrDrop b' d h1 =>
    obtain ⟨g1, g2⟩ : WOk hp s (.clrDrop b' d) := h1 ▸ hi.wOk
    rcases ho with ho | ho
    · show (if (b == b' && d i) = true then none else s.cell b i) = some e
      split
      · rename_i hd
        simp only [Bool.and_eq_true, beq_iff_eq] at hd
        obtain ⟨rfl, hd⟩ := hd
        rw [(g2 i hd).1] at ho; cases ho
      · exact hc
    · rw [g1] at ho; cases ho
  | _ => exact hc

theorem Kept.step {hp : K → Nat} {s s' : St K V} (hi : Inv hp s) (h : Step hp s s') {r b i : Nat} {e : K × V}
    (hk : Kept s r b i e) : s'.cell b i = some e :=
  step_cell hi h hk.1 (hk.2.elim (fun h => .inr h) (fun h => .inl h.1))

/-! ## Entries that were seen -/

/-- In some state of the list slot `i` of block `b` was occupied, not marked as removed, and held `e`. -/
def Was (σ : List (St K V)) (b i : Nat) (e : K × V) : Prop := ∃ t, t ∈ σ ∧ t.live b i ∧ t.cell b i = some e

theorem Was.mono {σ : List (St K V)} {b i : Nat} {e : K × V} (h : Was σ b i e) (s : St K V) : Was (s :: σ) b i e := by
  obtain ⟨t, h1, h2⟩ := h
  exact ⟨t, List.mem_cons_of_mem _ h1, h2⟩

/-- Slots that were not marked as removed when the reader looked. -/
def SeenRm (σ : List (St K V)) (s : St K V) (b : Nat) (rm : Nat → Bool) : Prop :=
  ∀ i, rm i = false → s.rem b i = true → s.occ b i = true → ∃ e, s.cell b i = some e ∧ Was σ b i e

/-- Candidates. -/
def SeenBm (σ : List (St K V)) (s : St K V) (b : Nat) (bm : Nat → Bool) : Prop :=
  ∀ i, bm i = true → ∃ e, s.cell b i = some e ∧ Was σ b i e

def Seen (σ : List (St K V)) (s : St K V) : RPC K V → Prop
  | .sOcc _ b rm => SeenRm σ s b rm
  | .iOcc b _ rm => SeenRm σ s b rm
  | .sHash _ b bm _ => SeenBm σ s b bm
  | .sCell _ b bm => SeenBm σ s b bm
  | .sDone k (some (b, i, k', v)) => k' = k ∧ Was σ b i (k, v)
  | _ => True

theorem SeenRm.step {hp : K → Nat} {σ} {s s' : St K V} {b : Nat} {rm : Nat → Bool} (hi : Inv hp s) (hs : Step hp s s')
    (hm : s ∈ σ) (h : SeenRm σ s b rm) : SeenRm (s' :: σ) s' b rm := by
  intro i h1 h2 h3
  -- it was marked before this step, or it was live in `s`
  have key : (s.rem b i = true ∧ s.occ b i = true) ∨ s.live b i := by
    cases hr : s.rem b i with
    | true =>
      left
      refine ⟨rfl, ?_⟩
      cases hs with
      | @insOcc k v b' i' u hw =>
        obtain ⟨g1, g2, g3, _⟩ : WOk hp s (.insOcc k v b' i' u) := hw ▸ hi.wOk
        grind [upd2]
      | @insLink k v g1 g2 g3 =>
        have := (hi.unalloc s.fresh (Nat.le_refl _)).2.1 i
        grind [upd2]
      | @updLink k v _ _ _ g1 g2 g3 =>
        have := (hi.unalloc s.fresh (Nat.le_refl _)).2.1 i
        grind [upd2]
      | @clrOcc b' d hw =>
        simp only [Bool.and_eq_true] at h3
        exact h3.1
      | extract =>
        grind [upd2]
      | _ => exact h3
    | false =>
      right
      cases hs with
      | @rmRem k b' i' u hw =>
        obtain ⟨g1, g2, _⟩ : WOk hp s (.rmRem k b' i' u) := hw ▸ hi.wOk
        refine ⟨h3, hr⟩
      | @clrRem b' d hw =>
        simp only [hr, Bool.false_and] at h2
        cases h2
      | _ =>
        have h2 : s.rem b i = true := h2
        rw [hr] at h2; cases h2
  rcases key with ⟨h4, h5⟩ | h4
  · obtain ⟨e, h6, h7⟩ := h i h1 h4 h5
    exact ⟨e, step_cell hi hs h6 (.inl h5), h7.mono s'⟩
  · obtain ⟨e, h6⟩ := hi.cellOk b i h4.1
    exact ⟨e, step_cell hi hs h6 (.inl h4.1), s, List.mem_cons_of_mem _ hm, h4, h6⟩

theorem SeenBm.step {hp : K → Nat} {σ} {s s' : St K V} {b : Nat} {bm : Nat → Bool} {r : Nat} (hi : Inv hp s) (hs : Step hp s s')
    (hk : ∀ i, bm i = true → ∃ e, Kept s r b i e) (h : SeenBm σ s b bm) : SeenBm (s' :: σ) s' b bm := by
  intro i h1
  obtain ⟨e, h2, h3⟩ := h i h1
  obtain ⟨e', h4⟩ := hk i h1
  have h5 := h4.step hi hs
  have := h4.1
  injection (h2.symm.trans this) with this
  subst this
  exact ⟨e, h5, h3.mono s'⟩

theorem Seen.frame {hp : K → Nat} {σ} {s s' : St K V} {r : Nat} (hi : Inv hp s) (hs : Step hp s s')
    (hm : s ∈ σ) (h : Seen σ s (s.rd r)) : Seen (s' :: σ) s' (s.rd r) := by
  have hk := (hi.rdOk r).pc
  revert h hk
  cases s.rd r with
  | sOcc k b rm => exact fun h _ => SeenRm.step hi hs hm h
  | iOcc b c rm => exact fun h _ => SeenRm.step hi hs hm h
  | sHash k b bm j => exact fun h hk => SeenBm.step hi hs hk h
  | sCell k b bm => exact fun h hk => SeenBm.step hi hs hk h
  | sDone k x =>
    intro h _
    match x, h with
    | none, _ => trivial
    | some (b, i, k', v), h => exact ⟨h.1, h.2.mono s'⟩
  | _ => exact fun _ _ => trivial

theorem call_seen {hp : K → Nat} {r : Nat} {σ} {s : St K V} (h : Call hp r σ s) : Seen σ s (s.rd r) := by
  induction h with
  | @start s s' h1 h2 h3 h4 =>
    clear h1
    revert h2 h4
    cases h3 <;> (try exact fun h2 h4 => absurd h2 h4) <;>
      refine fun h2 => rd_set (fun p => ¬ Between p → Seen _ _ p) (fun h4 => absurd h2 h4) (fun hr _ => ?_) <;>
      subst hr <;> first
        | trivial
        | (exfalso; simp_all [Between])
  | @step σ s s' h1 h2 h3 ih =>
    have hi := reachable_inv h1.reachable
    have hm := h1.mem
    have hf := Seen.frame hi h2 hm ih
    have hok := (hi.rdOk r).pc
    cases h2 with
    | @sRem q k b g =>
      refine rd_set (Seen _ _) hf (fun hr => ?_)
      subst hr
      intro i h5 h6
      have h6 : s.rem b i = true := h6
      rw [h5] at h6; cases h6
    | @iRem q b c g =>
      refine rd_set (Seen _ _) hf (fun hr => ?_)
      subst hr
      intro i h5 h6
      have h6 : s.rem b i = true := h6
      rw [h5] at h6; cases h6
    | @sOcc q k b rm g =>
      refine rd_set (Seen _ _) hf (fun hr => ?_)
      subst hr
      rw [g] at ih
      intro i h5
      simp only [Bool.and_eq_true, Bool.not_eq_true'] at h5
      show ∃ e, s.cell b i = some e ∧ _
      cases hrem : s.rem b i with
      | true =>
        obtain ⟨e, h6, h7⟩ := ih i h5.2 hrem h5.1
        exact ⟨e, h6, h7.mono _⟩
      | false =>
        obtain ⟨e, h6⟩ := hi.cellOk b i h5.1
        exact ⟨e, h6, s, List.mem_cons_of_mem _ hm, ⟨h5.1, hrem⟩, h6⟩
    | @sHash q k b bm j g g' =>
      refine rd_set (Seen _ _) hf (fun hr => ?_)
      subst hr
      rw [g] at hf
      intro i h5
      refine hf i ?_
      split at h5
      · exact h5
      · simp only [upd1] at h5
        split at h5
        · cases h5
        · exact h5
    | @sHashEnd q k b bm j g g' =>
      refine rd_set (Seen _ _) hf (fun hr => ?_)
      subst hr
      rw [g] at hf
      exact hf
    | @sMatch q k b bm i v g g1 g2 g3 g4 =>
      refine rd_set (s := s) (q := q) (p := .sDone k (some (b, i, k, v))) (Seen _ _) hf (fun hr => ?_)
      subst hr
      rw [g] at hf
      obtain ⟨e, h6, h7⟩ := hf i g1
      have h6 : s.cell b i = some e := h6
      rw [g4] at h6
      injection h6 with h6; subst h6
      exact ⟨rfl, h7⟩
    | @sOther q k b bm i k' v g g1 g2 g3 g4 g5 =>
      refine rd_set (Seen _ _) hf (fun hr => ?_)
      subst hr
      rw [g] at hf
      intro i h5
      refine hf i ?_
      simp only [upd1] at h5
      split at h5
      · cases h5
      · exact h5
    | @iYield q b c rm i k v g g1 g2 g3 g4 g5 g6 =>
      exact rd_set (s := s) (q := q) (p := .iHeld b i) (Seen _ _) hf (fun _ => trivial)
    | _ => first
      | exact hf
      | exact rd_set (Seen _ _) hf (fun _ => trivial)

/-! ## Entries that cannot be missed -/

/-- An update of key `k` is in progress. -/
def Updating (w : WPC K V) (k : K) : Prop :=
  match w with
  | .insHash k' _ _ _ (some _) => k' = k
  | .insOcc k' _ _ _ (some _) => k' = k
  | .insLen k' _ _ (some _) => k' = k
  | .rmLen k' _ _ _ => k' = k
  | .rmHash k' _ _ (some _) => k' = k
  | .rmRem k' _ _ (some _) => k' = k
  | _ => False

/-- The slot of a key that is neither removed, moved nor updated stays as it is. -/
theorem Slot.step {hp : K → Nat} {s s' : St K V} {k : K} {b i : Nat} {v : V} (hi : Inv hp s) (hs : Step hp s s')
    (hk : k ∈ s'.must) (hu : ¬ Updating s.w k) (h : Slot hp s k b i v) : Slot hp s' k b i v := by
  obtain ⟨h1, h2, h3, h4⟩ := h
  have hc := step_cell hi hs h3 (.inl h2.1)
  refine ⟨h1, ⟨?_, ?_⟩, hc, ?_⟩
  · have := h2.1
    cases hs with
    | @insOcc => grind [upd2]
    | @insLink => grind [upd2]
    | @updLink => grind [upd2]
    | @clrOcc b' d hw =>
      obtain ⟨g1, g2⟩ : WOk hp s (.clrOcc b' d) := hw ▸ hi.wOk
      show (s.occ b i && !(b == b' && d i)) = true
      rw [this, Bool.true_and, Bool.not_eq_true']
      cases hd : d i with
      | false => exact Bool.and_false _
      | true =>
        rw [Bool.and_true]
        by_cases hb : b = b'
        · subst hb
          have := h2.2
          rw [(g2 i hd).1] at this; cases this
        · simpa using hb
    | @extract k' v' b' i' g1 g2 g3 =>
      have hne : ¬ (b = b' ∧ i = i') := by
        rintro ⟨rfl, rfl⟩
        rw [g3] at h3
        injection h3 with h3; injection h3 with h3 _; subst h3
        exact (hi.nodup.mem_erase_iff.1 hk).1 rfl
      simp [upd2, hne, this]
    | _ => exact this
  · have := h2.2
    cases hs with
    | @rmRem k' b' i' u hw =>
      obtain ⟨g1, g2, ⟨v', g3⟩, g4⟩ : WOk hp s (.rmRem k' b' i' u) := hw ▸ hi.wOk
      have hne : ¬ (b = b' ∧ i = i') := by
        rintro ⟨rfl, rfl⟩
        rw [g3] at h3
        injection h3 with h3; injection h3 with h3 _; subst h3
        cases u with
        | none => exact g4 hk
        | some n => rw [hw] at hu; exact hu rfl
      simp [upd2, hne, this]
    | @clrRem b' d hw => simp [this]
    | _ => exact this
  · cases hs with
    | @insHash k' v' b' i' u hw =>
      obtain ⟨g1, g2, _⟩ : WOk hp s (.insHash k' v' b' i' u) := hw ▸ hi.wOk
      have := h2.1
      grind [upd2]
    | @insLink =>
      have := (hi.unalloc s.fresh (Nat.le_refl _)).1 i
      have := h2.1
      grind [upd2]
    | @updLink =>
      have := (hi.unalloc s.fresh (Nat.le_refl _)).1 i
      have := h2.1
      grind [upd2]
    | @rmHash k' b' i' u e hw =>
      obtain ⟨g1, g2, ⟨v', g3⟩, g4⟩ : WOk hp s (.rmHash k' b' i' u) := hw ▸ hi.wOk
      have hne : ¬ (b = b' ∧ i = i') := by
        rintro ⟨rfl, rfl⟩
        rw [g3] at h3
        injection h3 with h3; injection h3 with h3 _; subst h3
        cases u with
        | none => exact g4 hk
        | some n => rw [hw] at hu; exact hu rfl
      simp [upd2, hne, h4]
    | _ => exact h4

/-- Block `b` comes after block `a`. -/
def After (nx : Nat → Option Nat) (a b : Nat) : Prop := ∃ c, nx a = some c ∧ Reach nx c b

theorem Reach.cases' {nx : Nat → Option Nat} {a b : Nat} (h : Reach nx a b) : a = b ∨ After nx a b := by
  cases h with
  | refl => exact .inl rfl
  | cons h1 h2 => exact .inr ⟨_, h1, h2⟩

/-- Links to a live slot are never lost. -/
theorem step_reach {hp : K → Nat} {s s' : St K V} {a b i : Nat} (hi : Inv hp s) (hs : Step hp s s')
    (hl : s.live b i) : (Reach s.next a b → Reach s'.next a b) ∧ (After s.next a b → After s'.next a b) := by
  cases hs with
  | insLink =>
    have un3 := (hi.unalloc s.fresh (Nat.le_refl _)).2.2
    have h0 := hi.freshPos
    have q : ∀ {a}, Reach s.next a b → Reach (upd1 (upd1 s.next s.fresh (s.next 0)) 0 (some s.fresh)) a b := by
      intro a h
      refine h.head (n := s.fresh) un3 (by omega) (by simp [upd1]) (by simp [upd1, show s.fresh ≠ 0 by omega]) ?_
      intro a h0 h1
      simp [upd1, h0, h1]
    refine ⟨q, fun ⟨c, h1, h2⟩ => ?_⟩
    by_cases ha : a = 0
    · subst ha
      exact ⟨s.fresh, by simp [upd1], .cons (c := c) (by simp [upd1, show s.fresh ≠ 0 by omega, h1]) (q h2)⟩
    · have : a ≠ s.fresh := by intro h; rw [h, un3] at h1; cases h1
      exact ⟨c, by simp [upd1, ha, this, h1], q h2⟩
  | updLink =>
    have un3 := (hi.unalloc s.fresh (Nat.le_refl _)).2.2
    have h0 := hi.freshPos
    have q : ∀ {a}, Reach s.next a b → Reach (upd1 (upd1 s.next s.fresh (s.next 0)) 0 (some s.fresh)) a b := by
      intro a h
      refine h.head (n := s.fresh) un3 (by omega) (by simp [upd1]) (by simp [upd1, show s.fresh ≠ 0 by omega]) ?_
      intro a h0 h1
      simp [upd1, h0, h1]
    refine ⟨q, fun ⟨c, h1, h2⟩ => ?_⟩
    by_cases ha : a = 0
    · subst ha
      exact ⟨s.fresh, by simp [upd1], .cons (c := c) (by simp [upd1, show s.fresh ≠ 0 by omega, h1]) (q h2)⟩
    · have : a ≠ s.fresh := by intro h; rw [h, un3] at h1; cases h1
      exact ⟨c, by simp [upd1, ha, this, h1], q h2⟩
  | @cut b' g1 g2 =>
    have q : ∀ {a}, Reach s.next a b → Reach (upd1 s.next b' none) a b := fun h =>
      h.cut (t := b') (fun a ha => by simp [upd1, ha]) (fun c hc hr => g2 c b i hc hr hl)
    refine ⟨q, fun ⟨c, h1, h2⟩ => ⟨c, ?_, q h2⟩⟩
    have : a ≠ b' := by
      rintro rfl
      exact g2 c b i h1 h2 hl
    simp [upd1, this, h1]
  | @append b' g1 g2 g3 g4 =>
    have q : ∀ {a}, Reach s.next a b → Reach (upd1 s.next b' (some s.fresh)) a b := fun h =>
      h.extend (t := b') g4 (fun a ha => by simp [upd1, ha])
    refine ⟨q, fun ⟨c, h1, h2⟩ => ⟨c, ?_, q h2⟩⟩
    have : a ≠ b' := by
      rintro rfl
      rw [g4] at h1; cases h1
    simp [upd1, this, h1]
  | _ => exact ⟨id, id⟩

/-- The reader that looks for `k` in block `c` has not passed its slot: there is one for which `here` holds
or whose block comes later. -/
def Fore (hp : K → Nat) (s : St K V) (k : K) (c : Nat) (here : Nat → Prop) : Prop :=
  ∃ b i v, Slot hp s k b i v ∧ (b = c ∧ here i ∨ After s.next c b)

def Ahead (hp : K → Nat) (s : St K V) (k : K) : RPC K V → Prop
  | .sRem k' c => k' = k → Fore hp s k c (fun _ => True)
  | .sOcc k' c rm => k' = k → Fore hp s k c (fun i => rm i = false)
  | .sHash k' c bm _ => k' = k → Fore hp s k c (fun i => bm i = true)
  | .sCell k' c bm => k' = k → Fore hp s k c (fun i => bm i = true)
  | .sNext k' c => k' = k → Fore hp s k c (fun _ => False)
  | .sDone k' none => k' ≠ k
  | _ => True

theorem Fore.imp {hp : K → Nat} {s : St K V} {k : K} {c : Nat} {p q : Nat → Prop} (h : Fore hp s k c p)
    (hpq : ∀ i v, Slot hp s k c i v → p i → q i) : Fore hp s k c q := by
  obtain ⟨b, i, v, h1, h2⟩ := h
  refine ⟨b, i, v, h1, ?_⟩
  rcases h2 with ⟨rfl, h2⟩ | h2
  · exact .inl ⟨rfl, hpq i v h1 h2⟩
  · exact .inr h2

theorem Fore.step {hp : K → Nat} {s s' : St K V} {k : K} {c : Nat} {p : Nat → Prop} (hi : Inv hp s) (hs : Step hp s s')
    (hk : k ∈ s'.must) (hu : ¬ Updating s.w k) (h : Fore hp s k c p) : Fore hp s' k c p := by
  obtain ⟨b, i, v, h1, h2⟩ := h
  refine ⟨b, i, v, h1.step hi hs hk hu, ?_⟩
  rcases h2 with h2 | h2
  · exact .inl h2
  · exact .inr ((step_reach hi hs h1.2.1).2 h2)

theorem Ahead.frame {hp : K → Nat} {s s' : St K V} {k : K} {p : RPC K V} (hi : Inv hp s) (hs : Step hp s s')
    (hk : k ∈ s'.must) (hu : ¬ Updating s.w k) (h : Ahead hp s k p) : Ahead hp s' k p := by
  revert h
  cases p with
  | sRem k' c => exact fun h hkk => (h hkk).step hi hs hk hu
  | sOcc k' c rm => exact fun h hkk => (h hkk).step hi hs hk hu
  | sHash k' c bm j => exact fun h hkk => (h hkk).step hi hs hk hu
  | sCell k' c bm => exact fun h hkk => (h hkk).step hi hs hk hu
  | sNext k' c => exact fun h hkk => (h hkk).step hi hs hk hu
  | sDone k' x =>
    cases x with
    | none => exact fun h => h
    | some x => exact fun _ => trivial
  | _ => exact fun _ => trivial

theorem Fore.of_reach {hp : K → Nat} {s : St K V} {k : K} {c b i : Nat} {v : V} (h : Slot hp s k b i v)
    (hr : Reach s.next c b) : Fore hp s k c (fun _ => True) := by
  refine ⟨b, i, v, h, ?_⟩
  rcases hr.cases' with h1 | h1
  · exact .inl ⟨h1.symm, trivial⟩
  · exact .inr h1

theorem call_ahead {hp : K → Nat} {r : Nat} {σ} {s : St K V} {k : K} (h : Call hp r σ s) :
    (∀ t, t ∈ σ → k ∈ t.must ∧ ¬ Updating t.w k) → Ahead hp s k (s.rd r) := by
  induction h with
  | @start s s' h1 h2 h3 h4 =>
    intro _
    clear h1
    revert h2 h4
    cases h3 <;> (try exact fun h2 h4 => absurd h2 h4) <;>
      refine fun h2 => rd_set (fun p => ¬ Between p → Ahead _ _ _ p) (fun h4 => absurd h2 h4) (fun hr _ => ?_) <;>
      subst hr <;> first
        | trivial
        | (exfalso; simp_all [Between])
  | @step σ s s' h1 h2 h3 ih =>
    intro hall
    have hi := reachable_inv h1.reachable
    have ih := ih (fun t ht => hall t (List.mem_cons_of_mem _ ht))
    have hs := hall s (List.mem_cons_of_mem _ h1.mem)
    have hs' := hall s' List.mem_cons_self
    have hf := ih.frame hi h2 hs'.1 hs.2
    clear hall
    cases h2 with
    | @sLenZero q k' g g1 =>
      refine rd_set (Ahead _ _ _) hf (fun hr => ?_)
      have h5 := hi.lenOk
      have h6 := List.length_pos_of_mem hs.1
      omega
    | @sLen q k' g g1 =>
      refine rd_set (Ahead _ _ _) hf (fun hr hk => ?_)
      obtain ⟨b, i, v, h5, h6⟩ := hi.mustSlot k hs.1
      exact Fore.of_reach (s := s.setRd q _) h5 h6
    | @sRem q k' b g =>
      refine rd_set (Ahead _ _ _) hf (fun hr hk => ?_)
      subst hr
      rw [g] at hf
      exact (hf hk).imp (fun i v h5 _ => h5.2.1.2)
    | @sOcc q k' b rm g =>
      refine rd_set (Ahead _ _ _) hf (fun hr hk => ?_)
      subst hr
      rw [g] at hf
      refine (hf hk).imp (fun i v h5 h6 => ?_)
      have : s.occ b i = true := h5.2.1.1
      simp [this, h6]
    | @sHash q k' b bm j g g' =>
      refine rd_set (Ahead _ _ _) hf (fun hr hk => ?_)
      subst hr
      rw [g] at hf
      refine (hf hk).imp (fun i v h5 h6 => ?_)
      have h7 : s.ph b i = hp k := h5.2.2.2
      split
      · exact h6
      · rename_i h8
        have : i ≠ j := by rintro rfl; rw [hk] at h8; exact h8 h7
        simp [upd1, this, h6]
    | @sHashEnd q k' b bm j g g' =>
      refine rd_set (Ahead _ _ _) hf (fun hr hk => ?_)
      subst hr
      rw [g] at hf
      exact hf hk
    | @sMatch q k' b bm i v g g1 g2 g3 g4 =>
      exact rd_set (s := s) (q := q) (p := .sDone k' (some (b, i, k', v))) (Ahead _ _ _) hf (fun hr => trivial)
    | @sOther q k' b bm i k2 v g g1 g2 g3 g4 g5 =>
      refine rd_set (Ahead _ _ _) hf (fun hr hk => ?_)
      subst hr
      rw [g] at hf
      refine (hf hk).imp (fun j v h5 h6 => ?_)
      have h7 : s.cell b j = some (k, v) := h5.2.2.1
      have : j ≠ i := by
        rintro rfl
        rw [g4] at h7
        injection h7 with h7; injection h7 with h7 _
        exact g5 (h7.trans hk.symm)
      simp [upd1, this, h6]
    | @sNone q k' b bm g g1 =>
      refine rd_set (Ahead _ _ _) hf (fun hr hk => ?_)
      subst hr
      rw [g] at hf
      refine (hf hk).imp (fun j v h5 h6 => ?_)
      rw [g1 j h5.1] at h6; cases h6
    | @sNext q k' b c g g1 =>
      refine rd_set (Ahead _ _ _) hf (fun hr hk => ?_)
      subst hr
      rw [g] at hf
      obtain ⟨b', i, v, h5, h6⟩ := hf hk
      rcases h6 with ⟨_, h6⟩ | ⟨d, h6, h7⟩
      · cases h6
      · have h6 : s.next b = some d := h6
        rw [g1] at h6
        injection h6 with h6; subst h6
        exact Fore.of_reach h5 h7
    | @sEnd q k' b g g1 =>
      refine rd_set (Ahead _ _ _) hf (fun hr => ?_)
      subst hr
      rw [g] at hf
      intro hk
      obtain ⟨b', i, v, h5, h6⟩ := hf hk
      rcases h6 with ⟨_, h6⟩ | ⟨d, h6, h7⟩
      · cases h6
      · have h6 : s.next b = some d := h6
        rw [g1] at h6; cases h6
    | @iYield q b c rm i k' v g g1 g2 g3 g4 g5 g6 =>
      exact rd_set (s := s) (q := q) (p := .iHeld b i) (Ahead _ _ _) hf (fun _ => trivial)
    | _ => first
      | exact hf
      | exact rd_set (Ahead _ _ _) hf (fun _ => trivial)

end Scc.Peek
