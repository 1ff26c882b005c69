import Verif.Peek.Props

/-!
# C46: when a key that was seen is seen again

`c46_inversion` shows that a key may be found by one `peek` and missed by the next while its insertion is in progress. `c46_again_partial`: this
is the only case. If the insertion is over when the second call begins, and the key is neither removed, replaced nor moved to another array
from the beginning of the first call to the end of the second, the second call finds it. What is missing to C46 is the time before `insert` returns
(false), and moves between arrays (the bucket is one array's).
-/

namespace Scc.Peek

variable {K V : Type} [DecidableEq K]

/-- Key `k` is being removed. -/
def Removing (w : WPC K V) (k : K) : Prop :=
  match w with
  | .rmHash k' _ _ none => k' = k
  | .rmRem k' _ _ none => k' = k
  | _ => False

/-- The key is neither being removed nor replaced, and no entries are moved. -/
def Calm (k : K) (s : St K V) : Prop := s.ext = false ∧ ¬ Updating s.w k ∧ ¬ Removing s.w k

/-- Steps whose states all have a property, the last one included. -/
inductive Path (P : St K V → Prop) (hp : K → Nat) : St K V → St K V → Prop
  | refl (s : St K V) : Path P hp s s
  | tail {s t u : St K V} : Path P hp s t → Step hp t u → P u → Path P hp s u

/-- The key is there, or its insertion has only the length to store. -/
def There (k : K) (s : St K V) : Prop := k ∈ s.must ∨ ∃ b i, s.w = .insLen k b i none

theorem must_step {hp : K → Nat} {s s' : St K V} (h : Step hp s s') {k : K} (hc : Calm k s') (hk : k ∈ s.must) : k ∈ s'.must := by
  cases h with
  | @insLen k' b i g => exact List.mem_cons_of_mem _ hk
  | @remove k' v b i g g1 g2 g3 =>
    have hne : k ≠ k' := fun e => hc.2.2 e.symm
    exact (List.mem_erase_of_ne hne).mpr hk
  | extract => have := hc.1; cases this
  | _ => exact hk

theorem there_step {hp : K → Nat} {s s' : St K V} (h : Step hp s s') {k : K} (hc : Calm k s') (ht : There k s) : There k s' := by
  rcases ht with hk | ⟨b, i, hw⟩
  · exact .inl (must_step h hc hk)
  · cases h with
    | @insLen k' b' i' g =>
      rw [hw] at g; cases g
      exact .inl List.mem_cons_self
    | guard | drop | sStart | sLenZero | sLen | sRem | sOcc | sHash | sHashEnd | sMatch | sOther | sNone | sNext | sEnd | sRet | iStart | iGo | iSkip | iRem | iYield | iNone | iNext | iEnd =>
      exact .inr ⟨b, i, hw⟩
    | _ => simp_all

theorem there_path {hp : K → Nat} {s s' : St K V} {k : K} (h : Path (Calm k) hp s s') (ht : There k s) : There k s' := by
  induction h with
  | refl => exact ht
  | tail _ h1 h2 ih => exact there_step h1 h2 ih

theorem there_call {hp : K → Nat} {r : Nat} {σ} {s : St K V} {k : K} (h : Call hp r σ s) (hc : ∀ t, t ∈ σ → Calm k t) (ht : ∃ t, t ∈ σ ∧ There k t) : There k s := by
  induction h with
  | @start s s' h1 h2 h3 h4 =>
    obtain ⟨t, h, g⟩ := ht
    rcases List.mem_cons.1 h with rfl | h
    · exact g
    · cases h
  | @step σ s s' h1 h2 h3 ih =>
    obtain ⟨t, h, g⟩ := ht
    rcases List.mem_cons.1 h with rfl | h
    · exact g
    · exact there_step h2 (hc _ List.mem_cons_self) (ih (fun u hu => hc u (List.mem_cons_of_mem _ hu)) ⟨t, h, g⟩)

theorem must_call {hp : K → Nat} {r : Nat} {σ} {s : St K V} {k : K} {s₀ : St K V} (h : Call hp r σ s) (hc : ∀ t, t ∈ σ → Calm k t) (hf : σ.getLast? = some s₀)
    (hk : k ∈ s₀.must) : ∀ t, t ∈ σ → k ∈ t.must := by
  induction h with
  | @start s s' h1 h2 h3 h4 =>
    intro t h
    rcases List.mem_cons.1 h with rfl | h
    · cases hf; exact hk
    · cases h
  | @step σ s s' h1 h2 h3 ih =>
    have hn : σ ≠ [] := by cases h1 <;> exact List.cons_ne_nil _ _
    have hf : σ.getLast? = some s₀ := by
      cases σ with
      | nil => exact absurd rfl hn
      | cons a l => rw [List.getLast?_cons_cons] at hf; exact hf
    have ih := ih (fun u hu => hc u (List.mem_cons_of_mem _ hu)) hf
    intro t h
    rcases List.mem_cons.1 h with rfl | h
    · exact must_step h2 (hc _ List.mem_cons_self) (ih s h1.mem)
    · exact ih t h

/-- C46 for calls that begin after `insert` has returned. -/
theorem c46_again_partial {hp : K → Nat} {r q : Nat} {σ₁ σ₂ : List (St K V)} {s₁ s₀ s₂ : St K V} {k k' : K} {v : V} {b i : Nat}
    (h₁ : Call hp r σ₁ s₁) (hd : s₁.rd r = .sDone k (some (b, i, k', v)))
    (hp₁ : Path (Calm k) hp s₁ s₀) (h₂ : Call hp q σ₂ s₂) (hf : σ₂.getLast? = some s₀)
    (c₁ : ∀ t, t ∈ σ₁ → Calm k t) (c₂ : ∀ t, t ∈ σ₂ → Calm k t)
    (hins : ∀ b i, s₀.w ≠ .insLen k b i none) : s₂.rd q ≠ .sDone k none := by
  intro hn
  obtain ⟨_, t, ht, b', i', hl, hcell⟩ := c19_some h₁ hd
  have hthere : There k t := by
    rcases (reachable_inv (h₁.all t ht)).liveMust k b' i' v hl hcell with hm | hb
    · exact .inl hm
    · have hr := (c₁ t ht).2.2
      cases hw : t.w with
      | insLen k2 b2 i2 u =>
        rw [hw] at hb
        cases u with
        | none => have hb : k2 = k := hb; exact .inr ⟨b2, i2, by rw [hw, hb]⟩
        | some => cases hb
      | rmHash k2 b2 i2 u =>
        rw [hw] at hb hr
        cases u with
        | none => exact absurd hb hr
        | some => cases hb
      | rmRem k2 b2 i2 u =>
        rw [hw] at hb hr
        cases u with
        | none => exact absurd hb hr
        | some => cases hb
      | _ => rw [hw] at hb; cases hb
  have h0 := there_path hp₁ (there_call h₁ c₁ ⟨t, ht, hthere⟩)
  have hm : k ∈ s₀.must := h0.resolve_right (fun ⟨b, i, e⟩ => hins b i e)
  obtain ⟨u, hu, hu'⟩ := c19_none h₂ hn
  rcases hu' with hu' | hu'
  · exact hu' (must_call h₂ c₂ hf hm u hu)
  · exact (c₂ u hu).2.1 hu'

/-- Beside `c46_again_partial`: two calls, one after the other, that find the key. -/
example : ∃ (σ₁ σ₂ : List (St Nat Nat)) (s₁ s₀ s₂ : St Nat Nat), Call (fun _ => 7) 0 σ₁ s₁ ∧ s₁.rd 0 = .sDone 1 (some (0, 0, 1, 10)) ∧
    Path (Calm 1) (fun _ => 7) s₁ s₀ ∧ Call (fun _ => 7) 0 σ₂ s₂ ∧ σ₂.getLast? = some s₀ ∧ (∀ t, t ∈ σ₁ → Calm 1 t) ∧ (∀ t, t ∈ σ₂ → Calm 1 t) ∧
    (∀ b i, s₀.w ≠ .insLen 1 b i none) ∧ s₂.rd 0 = .sDone 1 (some (0, 0, 1, 10)) := by
  have self : ∀ (s : St Nat Nat) p, (s.setRd 0 p).rd 0 = p := fun s p => by simp [St.setRd, upd1]
  have calm : ∀ s : St Nat Nat, s.ext = false → s.w = .idle → Calm 1 s := fun s h1 h2 => ⟨h1, by rw [h2]; exact id, by rw [h2]; exact id⟩
  have go : ∀ s : St Nat Nat, Reachable (fun _ => 7) s → s.rd 0 = .free → s.ext = false → s.w = .idle → s.len = 1 → s.occ = one.occ → s.rem = one.rem → s.ph = one.ph → s.cell = one.cell →
      ∃ σ s' : _, Call (fun _ => 7) 0 σ s' ∧ σ.getLast? = some (s.setRd 0 (.sLen 1)) ∧ (∀ t, t ∈ σ → Calm 1 t) ∧ s'.rd 0 = .sDone 1 (some (0, 0, 1, 10)) ∧
        ∃ l : List (Nat × Nat × Nat × Nat), s' = { (s.setRd 0 (.sDone 1 (some (0, 0, 1, 10)))) with refs := upd1 s.refs 0 l } := by
    intro s hr hfree he hw hl ho hrm hph hcl
    have c1 : ∃ σ, Call (fun _ => 7) 0 σ (s.setRd 0 (.sLen 1)) ∧ (∀ t, t ∈ σ → Calm 1 t ∧ True) ∧ σ.getLast? = some (s.setRd 0 (.sLen 1)) :=
      ⟨_, .start hr (by rw [hfree]; exact trivial) (.sStart (r := 0) 1 hfree) (by rw [self]; exact id), (fun t ht => by
        rcases List.mem_cons.1 ht with rfl | ht
        · exact ⟨calm _ he hw, trivial⟩
        · cases ht), rfl⟩
    obtain ⟨σ, c1, p1, f1⟩ := c1
    have step : ∀ {σ : List (St Nat Nat)} {a b : St Nat Nat}, Call (fun _ => 7) 0 σ a ∧ (∀ t, t ∈ σ → Calm 1 t) ∧ σ.getLast? = some (s.setRd 0 (.sLen 1)) → Step (fun _ => 7) a b → ¬ Between (b.rd 0) → Calm 1 b →
        Call (fun _ => 7) 0 (b :: σ) b ∧ (∀ t, t ∈ b :: σ → Calm 1 t) ∧ (b :: σ).getLast? = some (s.setRd 0 (.sLen 1)) := by
      intro σ a b ⟨h1, h2, h3⟩ h4 h5 h6
      refine ⟨.step h1 h4 h5, ?_, ?_⟩
      · intro t ht
        rcases List.mem_cons.1 ht with rfl | ht
        · exact h6
        · exact h2 t ht
      · cases σ with
        | nil => cases h3
        | cons x l => rw [List.getLast?_cons_cons]; exact h3
    have k1 : Call (fun _ => 7) 0 σ (s.setRd 0 (.sLen 1)) ∧ (∀ t, t ∈ σ → Calm 1 t) ∧ σ.getLast? = some (s.setRd 0 (.sLen 1)) := ⟨c1, fun t ht => (p1 t ht).1, f1⟩
    have k2 := step k1 (.sLen (self _ _) (by show s.len ≠ 0; rw [hl]; decide)) (by rw [self]; exact id) (calm _ he hw)
    rw [setRd_setRd] at k2
    have k3 := step k2 (.sRem (self _ _)) (by rw [self]; exact id) (calm _ he hw)
    rw [setRd_setRd] at k3
    have k4 := step k3 (.sOcc (self _ _)) (by rw [self]; exact id) (calm _ he hw)
    rw [setRd_setRd] at k4
    have loop : ∀ n j, j + n = 32 → ∀ (bm : Nat → Bool) (σ : List (St Nat Nat)), bm 0 = true → (∀ i, i ≠ 0 → bm i = false) →
        (Call (fun _ => 7) 0 σ (s.setRd 0 (.sHash 1 0 bm j)) ∧ (∀ t, t ∈ σ → Calm 1 t) ∧ σ.getLast? = some (s.setRd 0 (.sLen 1))) →
        ∃ σ', Call (fun _ => 7) 0 σ' (s.setRd 0 (.sCell 1 0 bm)) ∧ (∀ t, t ∈ σ' → Calm 1 t) ∧ σ'.getLast? = some (s.setRd 0 (.sLen 1)) := by
      intro n
      induction n with
      | zero =>
        intro j hj bm σ h0 h1 hk
        have := step hk (.sHashEnd (self _ _) (by show 32 ≤ j; omega)) (by rw [self]; exact id) (calm _ he hw)
        rw [setRd_setRd] at this
        exact ⟨_, this⟩
      | succ n ih =>
        intro j hj bm σ h0 h1 hk
        have := step hk (.sHash (self _ _) (by show j < 32; omega)) (by rw [self]; exact id) (calm _ he hw)
        rw [setRd_setRd] at this
        have e : (if (s.setRd 0 (.sHash 1 0 bm j)).ph 0 j = 7 then bm else upd1 bm j false) = bm := by
          by_cases hj0 : j = 0
          · subst hj0
            have : (s.setRd 0 (.sHash 1 0 bm 0)).ph 0 0 = 7 := by show s.ph 0 0 = 7; rw [hph]; rfl
            rw [if_pos this]
          · split
            · rfl
            · funext x
              simp only [upd1]
              split
              · rename_i hx; rw [hx, h1 j hj0]
              · rfl
        rw [e] at this
        exact ih (j + 1) (by omega) bm _ h0 h1 this
    obtain ⟨σ', k5⟩ := loop 32 0 (by decide) _ _ (by show (s.occ 0 0 && !s.rem 0 0) = true; rw [ho, hrm]; rfl)
      (fun x hx => by show (s.occ 0 x && !s.rem 0 x) = false; rw [ho]; simp [one, upd2, hx]) k4
    have k6 := step k5 (.sMatch (i := 0) (v := 10) (self _ _) (by show (s.occ 0 0 && !s.rem 0 0) = true; rw [ho, hrm]; rfl) (by decide) (fun j hj => by omega)
      (by show s.cell 0 0 = some (1, 10); rw [hcl]; rfl)) (by rw [setRd_setRd]; show ¬ Between ((s.setRd 0 _).rd 0); rw [self]; exact id) (calm _ he hw)
    rw [setRd_setRd] at k6
    exact ⟨_, _, k6.1, k6.2.2, k6.2.1, (by show (s.setRd 0 (.sDone 1 (some (0, 0, 1, 10)))).rd 0 = _; exact self _ _), _, rfl⟩
  obtain ⟨σ₁, s₁, h1, _, h3, h4, l, e⟩ := go one one_reachable rfl rfl rfl rfl rfl rfl rfl rfl
  have ret : Step (fun _ => 7) s₁ (s₁.setRd 0 .free) := .sRet h4
  obtain ⟨σ₂, s₂, g1, g2, g3, g4, _⟩ := go (s₁.setRd 0 .free) (h1.reachable.step ret) (self _ _) (by rw [e]; rfl) (by rw [e]; rfl) (by rw [e]; rfl) (by rw [e]; rfl) (by rw [e]; rfl) (by rw [e]; rfl) (by rw [e]; rfl)
  have w1 : s₁.ext = false ∧ s₁.w = .idle := by rw [e]; exact ⟨rfl, rfl⟩
  refine ⟨σ₁, σ₂, s₁, _, s₂, h1, h4, .tail (.tail (.refl _) ret (calm _ w1.1 w1.2)) (.sStart (r := 0) 1 (self _ _)) (calm _ w1.1 w1.2), g1, g2, h3, g3, ?_, g4⟩
  intro b i hc
  have hc : s₁.w = .insLen 1 b i none := hc
  rw [w1.2] at hc; cases hc

end Scc.Peek
