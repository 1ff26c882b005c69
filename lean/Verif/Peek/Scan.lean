import Verif.Peek.Link

/-!
# `Iter` goes through a bucket

`Iter::next` (/repo/src/hash_index.rs 2098-2166) calls `EntryPtr::move_to_next`
(/repo/src/hash_table/bucket.rs 957-975) until the bucket has no more entries, and returns to its caller
after each entry. `Visit` collects the states from the first of these calls to the end of the last one.
-/

set_option linter.unusedSimpArgs false
set_option linter.unusedSectionVars false
set_option linter.unusedVariables false

namespace Scc.Peek

variable {K V : Type} [DecidableEq K]

/-- The visit of the bucket is over: `move_to_next` has returned `false`, or the guard was dropped. -/
def Over : RPC K V → Prop
  | .free => True
  | .ended => True
  | _ => False

/-- Reader `r` goes through the bucket; it had the references `base` before. The list holds all states since,
the present one first. -/
inductive Visit (hp : K → Nat) (r : Nat) (base : List (Nat × Nat × K × V)) : List (St K V) → St K V → Prop
  | start {s s' : St K V} : Reachable hp s → s.rd r = .free → s.refs r = base → Step hp s s' →
      s'.rd r = .iRem 0 0 → Visit hp r base [s'] s'
  | step {σ : List (St K V)} {s s' : St K V} : Visit hp r base σ s → ¬ Over (s.rd r) → Step hp s s' →
      Visit hp r base (s' :: σ) s'

variable {hp : K → Nat} {r : Nat} {base : List (Nat × Nat × K × V)}

theorem Visit.all {σ} {s : St K V} (h : Visit hp r base σ s) : s ∈ σ ∧ ∀ t, t ∈ σ → Reachable hp t := by
  induction h with
  | start h1 _ _ h2 _ =>
    refine ⟨List.mem_cons_self, fun t ht => ?_⟩
    rw [List.mem_singleton] at ht
    subst ht
    exact .step h1 h2
  | step _ _ h2 ih =>
    refine ⟨List.mem_cons_self, fun t ht => ?_⟩
    rcases List.mem_cons.1 ht with rfl | ht
    · exact .step (ih.2 _ ih.1) h2
    · exact ih.2 t ht

theorem Visit.reachable {σ} {s : St K V} (h : Visit hp r base σ s) : Reachable hp s := h.all.2 _ h.all.1

/-- Within a visit the present call of `move_to_next`. -/
theorem Visit.call {σ} {s : St K V} (h : Visit hp r base σ s) (hb : ¬ Between (s.rd r)) :
    ∃ σ', Call hp r σ' s ∧ ∀ t, t ∈ σ' → t ∈ σ := by
  induction h with
  | start h1 h2 _ h3 h4 => exact ⟨_, .start h1 (by rw [h2]; trivial) h3 hb, fun t h => h⟩
  | @step σ s s' h1 h2 h3 ih =>
    by_cases hs : Between (s.rd r)
    · refine ⟨[s'], .start h1.reachable hs h3 hb, fun t ht => ?_⟩
      rw [List.mem_singleton] at ht
      subst ht
      exact List.mem_cons_self
    · obtain ⟨σ', h4, h5⟩ := ih hs
      refine ⟨s' :: σ', .step h4 h3 hb, fun t ht => ?_⟩
      rcases List.mem_cons.1 ht with rfl | ht
      · exact List.mem_cons_self
      · exact List.mem_cons_of_mem _ (h5 t ht)

/-- What a step adds to the references of a reader. -/
theorem refs_step {s s' : St K V} (h : Step hp s s') (r : Nat) :
    s'.refs r = s.refs r ∨
    (∃ k b bm i v, s.rd r = .sCell k b bm ∧ s'.refs r = (b, i, k, v) :: s.refs r) ∨
    ∃ b c rm i k v, s.rd r = .iOcc b c rm ∧ s'.rd r = .iHeld b i ∧ s'.refs r = (b, i, k, v) :: s.refs r := by
  cases h with
  | @sMatch q k b bm i v g =>
    by_cases hr : r = q
    · subst hr
      exact .inr (.inl ⟨k, b, bm, i, v, g, by simp [St.addRef, St.setRd, upd1]⟩)
    · left; simp [St.addRef, St.setRd, upd1, hr]
  | @iYield q b c rm i k v g =>
    by_cases hr : r = q
    · subst hr
      exact .inr (.inr ⟨b, c, rm, i, k, v, g, by simp [St.addRef, St.setRd, upd1], by simp [St.addRef, St.setRd, upd1]⟩)
    · left; simp [St.addRef, St.setRd, upd1, hr]
  | _ => exact .inl rfl

/-- Where a visit can be. -/
def Going : RPC K V → Prop
  | .iRem _ _ => True
  | .iOcc _ _ _ => True
  | .iNext _ => True
  | .iHeld _ _ => True
  | .free => True
  | .ended => True
  | _ => False

theorem Visit.going {σ} {s : St K V} (h : Visit hp r base σ s) : Going (s.rd r) := by
  induction h with
  | start _ _ _ _ h => rw [h]; trivial
  | @step σ s s' h1 h2 h3 ih =>
    cases h3 with
    | @iYield q b c rm i k v g => exact rd_set (s := s) (q := q) (p := .iHeld b i) Going ih (fun _ => trivial)
    | @sMatch q k b bm i v g =>
      exact rd_set (s := s) (q := q) (p := .sDone k (some (b, i, k, v))) Going ih
        (fun hr => by subst hr; rw [g] at ih; exact ih.elim)
    | _ => first
      | exact ih
      | (refine rd_set Going ih (fun hr => ?_)
         subst hr
         first
          | trivial
          | (simp_all [Going, Over]))

/-- The entries yielded in this visit. -/
theorem Visit.yields {σ} {s : St K V} (h : Visit hp r base σ s) : ∃ ys, s.refs r = ys ++ base ∧
    ∀ b i k v, (b, i, k, v) ∈ ys → ∃ t, t ∈ σ ∧ (Com t k v ∨ Out t k (some v)) := by
  induction h with
  | @start s s' h1 h2 h3 h4 h5 =>
    refine ⟨[], ?_, fun _ _ _ _ h => by cases h⟩
    rcases refs_step h4 r with h6 | ⟨_, _, _, _, _, h6, _⟩ | ⟨_, _, _, _, _, _, h6, _⟩
    · rw [h6, h3]; rfl
    · rw [h2] at h6; cases h6
    · rw [h2] at h6; cases h6
  | @step σ s s' h1 h2 h3 ih =>
    obtain ⟨ys, e, ih⟩ := ih
    rcases refs_step h3 r with h6 | ⟨_, _, _, _, _, h6, _⟩ | ⟨b, c, rm, i, k, v, h6, h7, h8⟩
    · refine ⟨ys, h6.trans e, fun b i k v hm => ?_⟩
      obtain ⟨t, h7, h8⟩ := ih b i k v hm
      exact ⟨t, List.mem_cons_of_mem _ h7, h8⟩
    · have := h1.going
      rw [h6] at this
      exact this.elim
    · refine ⟨(b, i, k, v) :: ys, by rw [h8, e]; rfl, fun b' i' k' v' hm => ?_⟩
      rcases List.mem_cons.1 hm with hm | hm
      · injection hm with e1 e2; injection e2 with e2 e3; injection e3 with e3 e4
        subst e1 e2 e3 e4
        obtain ⟨σ', g1, g2⟩ := h1.call (by rw [h6]; exact id)
        obtain ⟨k2, v2, g3, t, g4, g5⟩ := c19_iter g1 h3 (by rw [h6]; exact fun h => by cases h) h7
        rw [h8] at g3
        injection g3 with g3 _
        injection g3 with _ g3; injection g3 with _ g3; injection g3 with e1 e2
        subst e1 e2
        exact ⟨t, List.mem_cons_of_mem _ (g2 t g4), stored_com (g1.all t g4) g5⟩
      · obtain ⟨t, h7, h8⟩ := ih b' i' k' v' hm
        exact ⟨t, List.mem_cons_of_mem _ h7, h8⟩

/-! ## Links -/

/-- A new block at the head of the list: what leads where. -/
theorem reach_head {nx nx' : Nat → Option Nat} {n : Nat} (hl : ∀ a c, nx a = some c → c ≠ n)
    (h1 : nx' 0 = some n) (h2 : nx' n = nx 0) (h3 : ∀ a, a ≠ 0 → a ≠ n → nx' a = nx a) {a b : Nat}
    (h : Reach nx' a b) (hb : b ≠ n) : (a ≠ n → Reach nx a b) ∧ (a = n → After nx 0 b) := by
  induction h with
  | refl a => exact ⟨fun _ => .refl a, fun h => absurd h hb⟩
  | @cons a c b h4 h5 ih =>
    obtain ⟨i1, i2⟩ := ih hb
    have tail : nx 0 = some c → After nx 0 b := fun h => ⟨c, h, i1 (hl 0 c h)⟩
    refine ⟨fun ha => ?_, fun ha => ?_⟩
    · by_cases h0 : a = 0
      · subst h0
        rw [h1] at h4
        injection h4 with h4
        obtain ⟨d, h6, h7⟩ := i2 h4.symm
        exact .cons h6 h7
      · rw [h3 a h0 ha] at h4
        exact .cons h4 (i1 (hl a c h4))
    · subst ha
      rw [h2] at h4
      exact tail h4

/-- Nothing but the head leads to the new block. -/
theorem reach_new {nx nx' : Nat → Option Nat} {n : Nat} (hl : ∀ a c, nx a = some c → c ≠ n)
    (h2 : nx' n = nx 0) (h3 : ∀ a, a ≠ 0 → a ≠ n → nx' a = nx a) {a : Nat}
    (h : Reach nx' a n) (ha : a ≠ n) : Reach nx' a 0 := by
  generalize hb : n = b at h
  induction h with
  | refl a => exact absurd hb.symm ha
  | @cons a c b h4 h5 ih =>
    subst hb
    by_cases h0 : a = 0
    · subst h0; exact .refl 0
    · have := hl a c (by rw [← h3 a h0 ha]; exact h4)
      exact .cons h4 (ih this rfl)

/-- An empty block at the end of the list. -/
theorem reach_append {nx nx' : Nat → Option Nat} {n t : Nat} (hn : nx' n = none)
    (h1 : nx' t = some n) (h3 : ∀ a, a ≠ t → nx' a = nx a) {a b : Nat}
    (h : Reach nx' a b) (hb : b ≠ n) : Reach nx a b := by
  induction h with
  | refl a => exact .refl a
  | @cons a c b h4 h5 ih =>
    by_cases h0 : a = t
    · subst h0
      rw [h1] at h4
      injection h4 with h4; subst h4
      cases h5 with
      | refl => exact absurd rfl hb
      | cons h6 _ => rw [hn] at h6; cases h6
    · rw [h3 a h0] at h4
      exact .cons h4 (ih hb)

theorem reach_cut {nx : Nat → Option Nat} {t a b : Nat} (h : Reach (upd1 nx t none) a b) : Reach nx a b := by
  induction h with
  | refl a => exact .refl a
  | @cons a c b h4 h5 ih =>
    by_cases h0 : a = t
    · subst h0; simp [upd1] at h4
    · simp only [upd1, if_neg h0] at h4
      exact .cons h4 ih

theorem Inv.reach_lt {s : St K V} (hi : Inv hp s) {a b : Nat} (h : Reach s.next a b) (ha : a < s.fresh) : b < s.fresh := by
  induction h with
  | refl a => exact ha
  | cons h1 _ ih => exact ih (hi.nextLt _ _ h1)

/-- No step makes an old block come after another one. -/
theorem after_back {s s' : St K V} {a b : Nat} (hi : Inv hp s) (hs : Step hp s s') (ha : a < s.fresh) (hb : b < s.fresh)
    (h : After s'.next a b) : After s.next a b := by
  have head : ∀ {a b : Nat}, a < s.fresh → b < s.fresh →
      After (upd1 (upd1 s.next s.fresh (s.next 0)) 0 (some s.fresh)) a b → After s.next a b := by
    intro a b ha hb ⟨c, h1, h2⟩
    have h0 := hi.freshPos
    have := reach_head (nx := s.next) (n := s.fresh) (fun a c h => Nat.ne_of_lt (hi.nextLt a c h)) (by simp [upd1])
      (by simp [upd1, show s.fresh ≠ 0 by omega]) (fun a h0 h1 => by simp [upd1, h0, h1]) h2 (Nat.ne_of_lt hb)
    by_cases hz : a = 0
    · subst hz
      have e : c = s.fresh := by simpa [upd1] using h1.symm
      exact this.2 e
    · have e : s.next a = some c := by simpa [upd1, hz, Nat.ne_of_lt ha] using h1
      exact ⟨c, e, this.1 (Nat.ne_of_lt (hi.nextLt a c e))⟩
  cases hs with
  | insLink => exact head ha hb h
  | updLink => exact head ha hb h
  | @cut t g1 g2 =>
    obtain ⟨c, h1, h2⟩ := h
    have h1 : upd1 s.next t none a = some c := h1
    have hz : a ≠ t := by rintro rfl; simp [upd1] at h1
    exact ⟨c, by simpa [upd1, hz] using h1, reach_cut h2⟩
  | @append t g1 g2 g3 g4 =>
    obtain ⟨c, h1, h2⟩ := h
    have h1 : upd1 s.next t (some s.fresh) a = some c := h1
    have h2 : Reach (upd1 s.next t (some s.fresh)) c b := h2
    have ht : s.fresh ≠ t := Nat.ne_of_gt (hi.reach_lt g3 hi.freshPos)
    have un := (hi.unalloc s.fresh (Nat.le_refl _)).2.2
    have back := reach_append (nx := s.next) (n := s.fresh) (t := t) (by simp [upd1, ht, un]) (by simp [upd1])
      (fun a ha => by simp [upd1, ha]) h2 (Nat.ne_of_lt hb)
    by_cases hz : a = t
    · subst hz
      have e : c = s.fresh := by simpa [upd1] using h1.symm
      subst e
      cases back with
      | refl => exact absurd rfl (Nat.ne_of_lt hb)
      | cons h6 _ => rw [un] at h6; cases h6
    · exact ⟨c, by simpa [upd1, hz] using h1, back⟩
  | _ => exact h

theorem fresh_mono {s s' : St K V} (hs : Step hp s s') : s.fresh ≤ s'.fresh := by
  cases hs <;> first
    | exact Nat.le_refl _
    | exact Nat.le_succ _

/-- Blocks do not come after themselves. -/
theorem no_cycle {s : St K V} (h : Reachable hp s) : ∀ b, ¬ After s.next b b := by
  induction h with
  | init => exact fun b ⟨c, h, _⟩ => by cases h
  | @step s s' h1 hs ih =>
    have hi := reachable_inv h1
    have new : ¬ After (upd1 (upd1 s.next s.fresh (s.next 0)) 0 (some s.fresh)) s.fresh s.fresh := by
      intro ⟨c, h1, h2⟩
      have h0 := hi.freshPos
      have e : s.next 0 = some c := by simpa [upd1, show s.fresh ≠ 0 by omega] using h1
      have hc := Nat.ne_of_lt (hi.nextLt 0 c e)
      have hl : ∀ a c, s.next a = some c → c ≠ s.fresh := fun a c h => Nat.ne_of_lt (hi.nextLt a c h)
      have h3 := reach_new (nx := s.next) (n := s.fresh) hl
        (by simp [upd1, show s.fresh ≠ 0 by omega]) (fun a h0 h1 => by simp [upd1, h0, h1]) h2 hc
      have h4 := (reach_head (nx := s.next) (n := s.fresh) hl (by simp [upd1])
        (by simp [upd1, show s.fresh ≠ 0 by omega]) (fun a h0 h1 => by simp [upd1, h0, h1]) h3 (by omega)).1 hc
      exact ih 0 ⟨c, e, h4⟩
    intro b hb
    by_cases hlt : b < s.fresh
    · exact ih b (after_back hi hs hlt hlt hb)
    · have hge : s.fresh ≤ b := by omega
      have un := (hi.unalloc b hge).2.2
      cases hs with
      | insLink =>
        by_cases e : b = s.fresh
        · subst e; exact new hb
        · obtain ⟨c, h1, _⟩ := hb
          have : b ≠ 0 := by have := hi.freshPos; omega
          simp [upd1, this, e, un] at h1
      | updLink =>
        by_cases e : b = s.fresh
        · subst e; exact new hb
        · obtain ⟨c, h1, _⟩ := hb
          have : b ≠ 0 := by have := hi.freshPos; omega
          simp [upd1, this, e, un] at h1
      | @cut t =>
        obtain ⟨c, h1, _⟩ := hb
        have h1 : upd1 s.next t none b = some c := h1
        simp only [upd1] at h1
        split at h1
        · cases h1
        · rw [un] at h1; cases h1
      | @append t g1 g2 g3 g4 =>
        obtain ⟨c, h1, _⟩ := hb
        have h1 : upd1 s.next t (some s.fresh) b = some c := h1
        have ht := hi.reach_lt g3 hi.freshPos
        have : b ≠ t := by omega
        simp [upd1, this, un] at h1
      | _ =>
        obtain ⟨c, h1, _⟩ := hb
        have h1 : s.next b = some c := h1
        rw [un] at h1; cases h1

/-! ## A key that stays is yielded exactly once -/

/-- `(b, i)` is the one slot of `k`. -/
def Only (hp : K → Nat) (s : St K V) (k : K) (b i : Nat) (v : V) : Prop :=
  Slot hp s k b i v ∧ ∀ c j w, s.live c j → s.cell c j = some (k, w) → c = b ∧ j = i

theorem only_of {s : St K V} (hi : Inv hp s) {k : K} {b i : Nat} {v : V} (hu : ¬ Updating s.w k) (h : Slot hp s k b i v) :
    Only hp s k b i v := by
  refine ⟨h, fun c j w h1 h2 => ?_⟩
  rcases hi.uniq k c j w b i v h1 h2 h.2.1 h.2.2.1 with h3 | h3
  · injection h3 with h3 h4; exact ⟨h3, h4⟩
  · exfalso
    apply hu
    revert h3
    cases s.w with
    | insLen k' b' i' u => cases u with
      | none => exact fun h => h.elim
      | some o => exact fun h => h.1
    | rmLen k' b' i' n => exact fun h => h.1
    | rmHash k' b' i' u => cases u with
      | none => exact fun h => h.elim
      | some o => exact fun h => h.1
    | rmRem k' b' i' u => cases u with
      | none => exact fun h => h.elim
      | some o => exact fun h => h.1
    | _ => exact fun h => h.elim

theorem visit_slot {σ} {s : St K V} {k : K} (h : Visit hp r base σ s) :
    (∀ t, t ∈ σ → k ∈ t.must ∧ ¬ Updating t.w k) → ∃ b i v, ∀ t, t ∈ σ → Only hp t k b i v := by
  induction h with
  | @start s s' h1 h2 h3 h4 h5 =>
    intro hall
    have hi := reachable_inv (h1.step h4)
    have hs' := hall s' List.mem_cons_self
    obtain ⟨b, i, v, h6, h7⟩ := hi.mustSlot k hs'.1
    refine ⟨b, i, v, fun t ht => ?_⟩
    rw [List.mem_singleton] at ht
    subst ht
    exact only_of hi hs'.2 h6
  | @step σ s s' h1 h2 h3 ih =>
    intro hall
    obtain ⟨b, i, v, ih⟩ := ih (fun t ht => hall t (List.mem_cons_of_mem _ ht))
    refine ⟨b, i, v, fun t ht => ?_⟩
    rcases List.mem_cons.1 ht with rfl | ht
    · have hs' := hall t List.mem_cons_self
      have hs := hall s (List.mem_cons_of_mem _ h1.all.1)
      have := (ih s h1.all.1).1.step (reachable_inv h1.reachable) h3 hs'.1 hs.2
      exact only_of (reachable_inv (h1.reachable.step h3)) hs'.2 this
    · exact ih t ht

/-- The slot `(b, i)` is still to come. -/
def Left (s : St K V) (b i : Nat) : RPC K V → Prop
  | .iRem c n => (b = c ∧ n ≤ i) ∨ After s.next c b
  | .iOcc c n rm => (b = c ∧ n ≤ i ∧ rm i = false) ∨ After s.next c b
  | .iNext c => After s.next c b
  | .iHeld c n => (b = c ∧ n < i) ∨ After s.next c b
  | .ended => True
  | _ => False

/-- The slot `(b, i)` will not be looked at any more. -/
def Past (s : St K V) (b i : Nat) : RPC K V → Prop
  | .iRem c n => c < s.fresh ∧ ¬ After s.next c b ∧ (b = c → i < n)
  | .iOcc c n _ => c < s.fresh ∧ ¬ After s.next c b ∧ (b = c → i < n)
  | .iNext c => c < s.fresh ∧ ¬ After s.next c b
  | .iHeld c n => c < s.fresh ∧ ¬ After s.next c b ∧ (b = c → i ≤ n)
  | _ => True

theorem Left.frame {s s' : St K V} {b i : Nat} {p : RPC K V} (hi : Inv hp s) (hs : Step hp s s')
    (hl : s.live b i) (h : Left s b i p) : Left s' b i p := by
  have key : ∀ {c}, After s.next c b → After s'.next c b := fun h => (step_reach hi hs hl).2 h
  revert h
  cases p with
  | iRem c n => exact fun h => h.imp id key
  | iOcc c n rm => exact fun h => h.imp id key
  | iNext c => exact key
  | iHeld c n => exact fun h => h.imp id key
  | _ => exact id

theorem Past.frame {s s' : St K V} {b i : Nat} {p : RPC K V} (hi : Inv hp s) (hs : Step hp s s')
    (hb : b < s.fresh) (h : Past s b i p) : Past s' b i p := by
  have key : ∀ {c}, c < s.fresh → ¬ After s.next c b → ¬ After s'.next c b := fun hc h h' => h (after_back hi hs hc hb h')
  have fr : ∀ {c}, c < s.fresh → c < s'.fresh := fun h => Nat.lt_of_lt_of_le h (fresh_mono hs)
  revert h
  cases p with
  | iRem c n => exact fun h => ⟨fr h.1, key h.1 h.2.1, h.2.2⟩
  | iOcc c n rm => exact fun h => ⟨fr h.1, key h.1 h.2.1, h.2.2⟩
  | iNext c => exact fun h => ⟨fr h.1, key h.1 h.2⟩
  | iHeld c n => exact fun h => ⟨fr h.1, key h.1 h.2.1, h.2.2⟩
  | _ => exact id

/-- How often key `k` is in a list of references. -/
def times (k : K) (ys : List (Nat × Nat × K × V)) : Nat := (ys.filter (fun y => y.2.2.1 = k)).length

theorem times_cons (k : K) (y : Nat × Nat × K × V) (ys) :
    times k (y :: ys) = times k ys + if y.2.2.1 = k then 1 else 0 := by
  unfold times
  rw [List.filter_cons]
  split <;> rename_i h <;> simp at h <;> simp [h]

/-- A slot that is being yielded was live during the call. -/
theorem yield_slot {σ} {s : St K V} (h : Visit hp r base σ s) {b c i : Nat} {rm : Nat → Bool} {e : K × V}
    (g : s.rd r = .iOcc b c rm) (g1 : s.occ b i = true) (g2 : rm i = false) (g3 : s.cell b i = some e) :
    ∃ t, t ∈ σ ∧ t.live b i ∧ t.cell b i = some e := by
  obtain ⟨σ', h1, h2⟩ := h.call (by rw [g]; exact id)
  have hseen := call_seen h1
  rw [g] at hseen
  cases hrem : s.rem b i with
  | true =>
    obtain ⟨e', h6, t, h7, h8, h9⟩ := hseen i g2 hrem g1
    rw [g3] at h6
    injection h6 with h6; subst h6
    exact ⟨t, h2 t h7, h8, h9⟩
  | false => exact ⟨s, h.all.1, ⟨g1, hrem⟩, g3⟩

theorem visit_exact {σ} {s : St K V} {k : K} {b i : Nat} {v : V} (h : Visit hp r base σ s) :
    (∀ t, t ∈ σ → Only hp t k b i v) → (∀ t, t ∈ σ → k ∈ t.must) →
    ∃ ys, s.refs r = ys ++ base ∧
      (times k ys = 0 ∧ Left s b i (s.rd r) ∨ times k ys = 1 ∧ Past s b i (s.rd r)) := by
  induction h with
  | @start s s' h1 h2 h3 h4 h5 =>
    intro hall hmust
    refine ⟨[], ?_, .inl ⟨rfl, ?_⟩⟩
    · rcases refs_step h4 r with h6 | ⟨_, _, _, _, _, h6, _⟩ | ⟨_, _, _, _, _, _, h6, _⟩
      · rw [h6, h3]; rfl
      · rw [h2] at h6; cases h6
      · rw [h2] at h6; cases h6
    · rw [h5]
      obtain ⟨b', i', v', h6, h7⟩ := (reachable_inv (h1.step h4)).mustSlot k (hmust s' List.mem_cons_self)
      obtain ⟨e1, e2⟩ := (hall s' List.mem_cons_self).2 b' i' v' h6.2.1 h6.2.2.1
      subst e1 e2
      rcases h7.cases' with h8 | h8
      · exact .inl ⟨h8.symm, Nat.zero_le _⟩
      · exact .inr h8
  | @step σ s s' h1 hov h2 ih =>
    intro hall hmust
    have hi := reachable_inv h1.reachable
    have hall' := fun t ht => hall t (List.mem_cons_of_mem _ ht)
    have hs := hall' s h1.all.1
    have hbl : b < s.fresh := by
      rcases Nat.lt_or_ge b s.fresh with h | h
      · exact h
      · have := (hi.unalloc b h).1 i
        rw [hs.1.2.1.1] at this; cases this
    obtain ⟨ys, ey, ih⟩ := ih hall' (fun t ht => hmust t (List.mem_cons_of_mem _ ht))
    rcases refs_step h2 r with hrf | ⟨_, _, _, _, _, hrf, _⟩ | ⟨c, n, rm, j, k', w, _, _, hrf⟩
    · -- nothing is yielded
      refine ⟨ys, hrf.trans ey, ?_⟩
      rcases ih with ⟨h0, ih⟩ | ⟨h0, ih⟩
      · left
        refine ⟨h0, ?_⟩
        have hf := ih.frame hi h2 hs.1.2.1
        clear hall
        cases h2 with
        | @iYield q b' c rm i' k' v' g =>
          by_cases hr : r = q
          · subst hr
            exfalso
            simp [St.setRd, St.addRef, upd1] at hrf
          · exact rd_set (s := s) (q := q) (p := .iHeld b' i') (Left _ b i) hf (fun h => absurd h hr)
        | @sMatch q k' b' bm i' v' g =>
          exact rd_set (s := s) (q := q) (p := .sDone k' (some (b', i', k', v'))) (Left _ b i) hf
            (fun hr => by subst hr; rw [g] at ih; exact ih.elim)
        | @iGo q b' i' g g1 =>
          refine rd_set (Left _ b i) hf (fun hr => ?_)
          subst hr
          rw [g] at hf
          exact hf
        | @iSkip q b' i' g g1 =>
          refine rd_set (Left _ b i) hf (fun hr => ?_)
          subst hr
          rw [g] at hf
          rcases hf with ⟨e, h⟩ | h
          · have := hs.1.1
            rw [e] at this
            omega
          · exact h
        | @iRem q b' c g =>
          refine rd_set (Left _ b i) hf (fun hr => ?_)
          subst hr
          rw [g] at hf
          rcases hf with ⟨e, h⟩ | h
          · refine .inl ⟨e, h, ?_⟩
            rw [← e]; exact hs.1.2.1.2
          · exact .inr h
        | @iNone q b' c rm g g1 =>
          refine rd_set (Left _ b i) hf (fun hr => ?_)
          subst hr
          rw [g] at hf
          rcases hf with ⟨e, h, h'⟩ | h
          · have h7 : s.occ b i = true := hs.1.2.1.1
            have h8 := hs.1.1
            subst e
            have := g1 i h h8
            rw [h7, h'] at this; cases this
          · exact h
        | @iNext q b' c g g1 =>
          refine rd_set (Left _ b i) hf (fun hr => ?_)
          subst hr
          rw [g] at hf
          obtain ⟨d, h6, h7⟩ := hf
          have h6 : s.next b' = some d := h6
          rw [g1] at h6
          injection h6 with h6; subst h6
          rcases h7.cases' with h8 | h8
          · exact .inl ⟨h8.symm, Nat.zero_le _⟩
          · exact .inr h8
        | @iEnd q b' g g1 =>
          refine rd_set (Left _ b i) hf (fun hr => ?_)
          subst hr
          rw [g] at hf
          obtain ⟨d, h6, h7⟩ := hf
          have h6 : s.next b' = some d := h6
          rw [g1] at h6; cases h6
        | @drop q g => exact rd_set (Left _ b i) hf (fun _ => trivial)
        | _ => first
          | exact hf
          | (refine rd_set (Left _ b i) hf (fun hr => ?_)
             subst hr
             simp_all [Left, Over])
      · right
        refine ⟨h0, ?_⟩
        have hg := h1.going
        have hf := ih.frame hi h2 hbl
        clear hall
        cases h2 with
        | @iYield q b' c rm i' k' v' g =>
          by_cases hr : r = q
          · subst hr
            exfalso
            simp [St.setRd, St.addRef, upd1] at hrf
          · exact rd_set (s := s) (q := q) (p := .iHeld b' i') (Past _ b i) hf (fun h => absurd h hr)
        | @sMatch q k' b' bm i' v' g =>
          exact rd_set (s := s) (q := q) (p := .sDone k' (some (b', i', k', v'))) (Past _ b i) hf (fun hr => trivial)
        | @iStart q g =>
          refine rd_set (Past _ b i) hf (fun hr => ?_)
          subst hr
          rw [g] at hov
          exact absurd trivial hov
        | @iGo q b' i' g g1 =>
          refine rd_set (Past _ b i) hf (fun hr => ?_)
          subst hr
          rw [g] at hf
          exact ⟨hf.1, hf.2.1, fun e => Nat.lt_succ_of_le (hf.2.2 e)⟩
        | @iSkip q b' i' g g1 =>
          refine rd_set (Past _ b i) hf (fun hr => ?_)
          subst hr
          rw [g] at hf
          exact ⟨hf.1, hf.2.1⟩
        | @iRem q b' c g =>
          refine rd_set (Past _ b i) hf (fun hr => ?_)
          subst hr
          rw [g] at hf
          exact hf
        | @iNone q b' c rm g g1 =>
          refine rd_set (Past _ b i) hf (fun hr => ?_)
          subst hr
          rw [g] at hf
          exact ⟨hf.1, hf.2.1⟩
        | @iNext q b' c g g1 =>
          refine rd_set (Past _ b i) hf (fun hr => ?_)
          subst hr
          rw [g] at hf
          refine ⟨hi.nextLt b' c g1, fun ⟨d, h6, h7⟩ => hf.2 ⟨c, g1, .cons h6 h7⟩, fun e => ?_⟩
          subst e
          exact absurd ⟨b, g1, .refl b⟩ hf.2
        | _ => first
          | exact hf
          | exact rd_set (Past _ b i) hf (fun _ => trivial)
    · have := h1.going
      rw [hrf] at this
      exact this.elim
    · -- an entry is yielded
      have hc := h2
      cases hc with
      | @iYield q c' n' rm' j' k2 w' g g1 g2 g3 g4 g5 g6 =>
        by_cases hr : r = q
        · subst hr
          have e1 : ((s.setRd r (.iHeld c' j')).addRef r (c', j', k2, w')).rd r = .iHeld c' j' := by simp [St.setRd, St.addRef, upd1]
          have e2 : ((s.setRd r (.iHeld c' j')).addRef r (c', j', k2, w')).refs r = (c', j', k2, w') :: s.refs r := by simp [St.setRd, St.addRef, upd1]
          obtain ⟨t, ht, hl, hcl⟩ := yield_slot h1 g g3 g4 g6
          refine ⟨(c', j', k2, w') :: ys, by rw [e2, ey]; rfl, ?_⟩
          rw [times_cons, e1]
          rcases ih with ⟨h0, ih⟩ | ⟨h0, ih⟩
          · rw [g] at ih
            by_cases hk : k2 = k
            · subst hk
              obtain ⟨e3, e4⟩ := (hall' t ht).2 c' j' w' hl hcl
              subst e3 e4
              right
              refine ⟨by simp [h0], hbl, ?_, fun _ => Nat.le_refl _⟩
              exact no_cycle h1.reachable c'
            · left
              refine ⟨by simp [h0, hk], ?_⟩
              rcases ih with ⟨e, h6, h7⟩ | h6
              · left
                refine ⟨e, ?_⟩
                subst e
                rcases Nat.lt_or_ge j' i with h9 | h9
                · exact h9
                · rcases Nat.lt_or_ge i j' with h10 | h10
                  · have := g5 i h6 h10
                    rw [hs.1.2.1.1, h7] at this; cases this
                  · have : i = j' := Nat.le_antisymm h9 h10
                    subst this
                    have h8 := hs.1.2.2.1
                    rw [g6] at h8
                    injection h8 with h8; injection h8 with h8 _
                    exact absurd h8 hk
              · exact .inr h6
          · rw [g] at ih
            have hk : k2 ≠ k := by
              intro hkk
              rw [hkk] at hcl
              obtain ⟨e3, e4⟩ := (hall' t ht).2 c' j' w' hl hcl
              have := ih.2.2 e3.symm
              omega
            right
            refine ⟨by simp [h0, hk], ih.1, ih.2.1, fun e => ?_⟩
            have := ih.2.2 e
            omega
        · exfalso
          have : ((s.setRd q (.iHeld c' j')).addRef q (c', j', k2, w')).refs r = s.refs r := by simp [St.setRd, St.addRef, upd1, hr]
          rw [this] at hrf
          exact absurd hrf (by intro h; have := congrArg List.length h; simp at this)
      | @sMatch q k2 b' bm i' v' g =>
        exfalso
        by_cases hr : r = q
        · subst hr
          have := h1.going
          rw [g] at this; exact this
        · have : ((s.setRd q (.sDone k2 (some (b', i', k2, v')))).addRef q (b', i', k2, v')).refs r = s.refs r := by simp [St.setRd, St.addRef, upd1, hr]
          rw [this] at hrf
          exact absurd hrf (by intro h; have := congrArg List.length h; simp at this)
      | _ => exact absurd hrf (by intro h; have := congrArg List.length h; simp [St.setRd] at this)

/-- **C55, one bucket, soundness.** Every entry yielded in a visit was held by the bucket at some moment during
the visit, or was being stored by the operation in progress. -/
theorem bucket_yields {σ} {s : St K V} (h : Visit hp r base σ s) {ys} (e : s.refs r = ys ++ base) {b i : Nat} {k : K} {v : V}
    (hm : (b, i, k, v) ∈ ys) : ∃ t, t ∈ σ ∧ (Com t k v ∨ Out t k (some v)) := by
  obtain ⟨zs, e', h'⟩ := h.yields
  rw [e] at e'
  exact h' b i k v (List.append_cancel_right e' ▸ hm)

/-- A key is held by the bucket all the time, and nobody removes or updates it. -/
def Stays (σ : List (St K V)) (k : K) : Prop :=
  ∀ t, t ∈ σ → (∃ v, Com t k v) ∧ ¬ Out t k none ∧ ¬ Updating t.w k

/-- **C55, one bucket, exactly once.** A key that stays is yielded exactly once in a visit. -/
theorem bucket_once {σ} {s : St K V} (h : Visit hp r base σ s) (ho : s.rd r = .free) {ys} (e : s.refs r = ys ++ base) {k : K}
    (hs : Stays σ k) : times k ys = 1 := by
  have hm : ∀ t, t ∈ σ → k ∈ t.must := by
    intro t ht
    obtain ⟨⟨v, h1⟩, h2, _⟩ := hs t ht
    rcases com_must (h.all.2 t ht) h1 with h3 | h3
    · exact h3
    · exact absurd h3 h2
  obtain ⟨b, i, v, h1⟩ := visit_slot (k := k) h (fun t ht => ⟨hm t ht, (hs t ht).2.2⟩)
  obtain ⟨zs, e', h2⟩ := visit_exact h h1 hm
  rw [e] at e'
  have := List.append_cancel_right e'
  subst this
  rcases h2 with ⟨_, h2⟩ | ⟨h2, _⟩
  · rw [ho] at h2; exact h2.elim
  · exact h2

/-- A key that stays is not yielded twice, also before the visit is over. -/
theorem bucket_at_most_once {σ} {s : St K V} (h : Visit hp r base σ s) {ys} (e : s.refs r = ys ++ base) {k : K}
    (hs : Stays σ k) : times k ys ≤ 1 := by
  have hm : ∀ t, t ∈ σ → k ∈ t.must := by
    intro t ht
    obtain ⟨⟨v, h1⟩, h2, _⟩ := hs t ht
    rcases com_must (h.all.2 t ht) h1 with h3 | h3
    · exact h3
    · exact absurd h3 h2
  obtain ⟨b, i, v, h1⟩ := visit_slot (k := k) h (fun t ht => ⟨hm t ht, (hs t ht).2.2⟩)
  obtain ⟨zs, e', h2⟩ := visit_exact h h1 hm
  rw [e] at e'
  have := List.append_cancel_right e'
  subst this
  rcases h2 with ⟨h2, _⟩ | ⟨h2, _⟩ <;> omega

theorem not_stays {σ : List (St K V)} {k : K} (h : ¬ Stays σ k) :
    ∃ t, t ∈ σ ∧ ((∀ v, ¬ Com t k v) ∨ Out t k none ∨ Updating t.w k) := by
  apply Classical.byContradiction
  intro hn
  apply h
  intro t ht
  refine ⟨?_, fun hc => hn ⟨t, ht, .inr (.inl hc)⟩, fun hc => hn ⟨t, ht, .inr (.inr hc)⟩⟩
  apply Classical.byContradiction
  intro hc
  exact hn ⟨t, ht, .inl (fun v hv => hc ⟨v, hv⟩)⟩

/-- **C55, one bucket, completeness.** If a key is not yielded in a visit that is over, or is yielded twice,
then at some moment the bucket did not hold it, or the operation in progress was removing it, or was updating
it. -/
theorem bucket_skips {σ} {s : St K V} (h : Visit hp r base σ s) (ho : s.rd r = .free) {ys} (e : s.refs r = ys ++ base) {k : K}
    (hm : times k ys ≠ 1) : ∃ t, t ∈ σ ∧ ((∀ v, ¬ Com t k v) ∨ Out t k none ∨ Updating t.w k) :=
  not_stays (fun hs => hm (bucket_once h ho e hs))

/-- A visit of the bucket `one` that is over. -/
example : ∃ (σ : List (St Nat Nat)) (s : St Nat Nat), Visit (fun _ => 7) 0 [] σ s ∧ s.rd 0 = .free ∧
    s.refs 0 = [(0, 0, 1, 10)] ++ [] := by
  have self : ∀ (s : St Nat Nat) p, (s.setRd 0 p).rd 0 = p := fun s p => by simp [St.setRd, upd1]
  have v1 := Visit.start (base := []) one_reachable (r := 0) rfl rfl (.iStart (r := 0) rfl) (self _ _)
  have v2 := v1.step id (.iRem (self _ _))
  have v3 := v2.step id (.iYield (i := 0) (k := 1) (v := 10) (self _ _) (Nat.le_refl 0) (by decide) rfl rfl
    (fun j _ h => by omega) rfl)
  have v4 := v3.step id (.iGo (r := 0) (b := 0) (i := 0) rfl (by decide))
  have v5 := v4.step id (.iRem (self _ _))
  have v6 := v5.step id (.iNone (self _ _) (fun j h1 h2 => by
    have : j ≠ 0 := by omega
    simp [St.setRd, St.addRef, one, upd2, this]))
  have v7 := v6.step id (.iEnd (self _ _) rfl)
  exact ⟨_, _, v7, self _ _, rfl⟩

end Scc.Peek
