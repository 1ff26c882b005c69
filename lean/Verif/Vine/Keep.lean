import Verif.Vine.View

/-!
# Structural changes keep the linked list in order
-/

namespace Scc.Vine

open Scc.Grove

local notation "Key" => Nat
local notation "Id" => Nat
local notation "Thr" => Nat

variable {V : Type} {w w' : View V} {d : Lst} {lt : Id → Id → Prop}

/-! ## Replacements -/

theorem LJob.mem_x (J : LJob) : J.mem J.x := .inl rfl
theorem LJob.mem_l (J : LJob) : J.mem J.xl := .inr (.inl rfl)
theorem LJob.mem_h (J : LJob) : J.mem J.xh := .inr (.inr rfl)

theorem LJob.mem_copy {J : LJob} {z : Id} (h : z = J.xl ∨ z = J.xh) : J.mem z := .inr h

theorem VInv.same (I : VInv w d lt) {n n' : Id} {J J' : LJob} {l : Id} (h : w.job n = some J) (h' : w.job n' = some J')
    (hm : J.mem l) (hm' : J'.mem l) : J = J' := by
  have := I.sep _ _ _ _ _ h h' hm hm'
  subst this
  rw [h] at h'
  exact Option.some.inj h'

theorem VInv.org_uniq (I : VInv w d lt) {x x' z : Id} (h : w.org x z) (h' : w.org x' z) : x = x' := by
  obtain ⟨n, J, hj, rfl, hz⟩ := h
  obtain ⟨n', J', hj', rfl, hz'⟩ := h'
  rw [I.same hj hj' (LJob.mem_copy hz) (LJob.mem_copy hz')]

theorem VInv.org_ne (I : VInv w d lt) {x z : Id} (h : w.org x z) : x ≠ z := by
  obtain ⟨n, J, hj, rfl, hz⟩ := h
  have K := I.jobs n J hj
  rcases hz with rfl | rfl
  · exact K.neL.symm
  · exact K.neH.symm

/-- What replaces a leaf is not replaced itself. -/
theorem VInv.org_org (I : VInv w d lt) {x y z : Id} (h : w.org x y) (h' : w.org y z) : False := by
  obtain ⟨n, J, hj, rfl, hz⟩ := id h
  obtain ⟨n', J', hj', rfl, hz'⟩ := h'
  have := I.same hj hj' (LJob.mem_copy hz) J'.mem_x
  subst this
  exact I.org_ne h rfl

theorem VInv.org_x (I : VInv w d lt) {x y : Id} (h : w.org x y) {n : Id} {J : LJob} (hj : w.job n = some J) : J.x ≠ y := by
  obtain ⟨n', J', hj', rfl, hz⟩ := id h
  rintro rfl
  have := I.same hj' hj (LJob.mem_copy hz) J.mem_x
  subst this
  exact I.org_ne h rfl

theorem VInv.org_al (I : VInv w d lt) {x z : Id} (h : w.org x z) : z < w.nL := by
  obtain ⟨n, J, hj, rfl, hz⟩ := h
  have K := I.jobs n J hj
  rcases hz with rfl | rfl
  · exact K.alL
  · exact K.alH

theorem VInv.mem_al (I : VInv w d lt) {n : Id} {J : LJob} (hj : w.job n = some J) {z : Id} (h : J.mem z) : z < w.nL := by
  have K := I.jobs n J hj
  rcases h with rfl | rfl | rfl
  · exact I.alL _ K.lst
  · exact K.alL
  · exact K.alH

theorem VInv.org_lt (I : VInv w d lt) {x z : Id} (h : w.org x z) (hz : d.lst z = true) : lt x z := by
  obtain ⟨n, J, hj, rfl, e⟩ := h
  have K := I.jobs n J hj
  rcases e with rfl | rfl
  · exact K.ltL hz
  · exact K.ltH hz

theorem VInv.org_live (I : VInv w d lt) {x z : Id} (h : w.org x z) : w.dead z = false := by
  obtain ⟨n, J, hj, rfl, e⟩ := h
  have K := I.jobs n J hj
  rcases e with rfl | rfl
  · exact K.liveL
  · exact K.liveH

/-! ## What a step does to replacements -/

theorem Shift.back (S : Shift w w' d) {n : Id} {J : LJob} (h : w'.job n = some J) :
    (∃ st, w.job n = some { J with st := st } ∧ Trans w w' d (some { J with st := st }) (some J)) ∨
      (w.job n = none ∧ Trans w w' d none (some J)) := by
  obtain ⟨n0, hk, T⟩ := S.job
  by_cases e : n = n0
  · subst e
    rw [h] at T
    generalize ho : w.job n = o at T
    cases o with
    | none => exact .inr ⟨rfl, T⟩
    | some J0 =>
      left
      refine ⟨J0.st, ?_⟩
      have : J0 = { J with st := J0.st } := by cases T <;> rfl
      rw [← this]
      exact ⟨rfl, T⟩
  · rw [hk n e] at h
    exact .inl ⟨J.st, h, .keep _⟩

theorem Shift.fwd (S : Shift w w' d) {n : Id} {J : LJob} (h : w.job n = some J) :
    (∃ st, w'.job n = some { J with st := st } ∧ Trans w w' d (some J) (some { J with st := st })) ∨
      (w'.job n = none ∧ Trans w w' d (some J) none) := by
  obtain ⟨n0, hk, T⟩ := S.job
  by_cases e : n = n0
  · subst e
    rw [h] at T
    generalize ho : w'.job n = o at T
    cases o with
    | none => exact .inr ⟨rfl, T⟩
    | some J0 =>
      left
      refine ⟨J0.st, ?_⟩
      have : J0 = { J with st := J0.st } := by cases T <;> rfl
      rw [← this]
      exact ⟨rfl, T⟩
  · rw [← hk n e] at h
    exact .inl ⟨J.st, h, .keep _⟩

/-- A replacement that has begun. -/
theorem Trans.new {J : LJob} (T : Trans w w' d none (some J)) :
    w.lit J.x ∧ w.nL ≤ J.xl ∧ w.nL ≤ J.xh ∧ (∀ n J', w.job n = some J' → ¬ J'.mem J.x) ∧ w.dead J.x = false := by
  cases T with
  | copy x y h1 h2 h3 h4 h5 h6 h7 h8 h9 h10 => exact ⟨h1, h4, h4, h10, h2⟩
  | split x xl xh mid e1 e2 h1 h2 h3 h4 h4' h5 h6 hf he h7 h7' h8 h9 h10 => exact ⟨h1, h4, Nat.le_of_lt (Nat.lt_of_le_of_lt h4 h4'), h10, h2⟩

set_option maxHeartbeats 1000000 in
theorem JobL.next {J J' : LJob} (K : JobL w d lt J) (T : Trans w w' d (some J) (some J'))
    (nL : w.nL ≤ w'.nL) (gX : w'.get J.x = w.get J.x) (gL : w'.get J.xl = w.get J.xl) (gH : w'.get J.xh = w.get J.xh)
    (rL : w'.ret J.xl = w.ret J.xl) (rH : w'.ret J.xh = w.ret J.xh) (dX : w.dead J.x = true → w'.dead J.x = true)
    (vX : J'.st = .copy ∨ J'.st = .split ∨ J'.st = .full → w'.dead J.x = false)
    (dL : w'.dead J.xl = false) (dH : w'.dead J.xh = false) (fX : w'.frozen J.x = true)
    (fL : J'.st ≠ .thawed → w.frozen J.xl = true → w'.frozen J.xl = true)
    (fH : w.frozen J.xh = true → w'.frozen J.xh = true) : JobL w' d lt J' := by
  obtain ⟨k1, k2, k3, k4, k5, k6, k7, k8, k9, k10, k11, k12, k13, k14, k15, k16, k17, k18, k19, k20, k21, k22, k23, k24, k25,
    k26, k27, k28⟩ := K
  have a1 := Nat.lt_of_lt_of_le k1 nL
  have a2 := Nat.lt_of_lt_of_le k2 nL
  cases T with
  | keep =>
    refine ⟨a1, a2, k3, k4, k5, k6, k7, k8, k9, k10, k11, k12, k13, k14, k15, k16, k17, fX, fun h1 h2 => fL h2 (k19 h1 h2),
      fun h => fH (k20 h), fun h => dX (k21 h), vX, dL, dH, fun h => by rw [rL]; exact k25 h, by rw [rH]; exact k26, ?_, ?_⟩
    · rw [gL, gX]; exact k27
    · rw [gL, gX, gH]; exact k28
  | thaw =>
    constructor
    case body2 =>
      intro _
      obtain ⟨mid, e1, e2, h1, h2, h3, h4, _, h6⟩ := k28 (by simp)
      refine ⟨mid, e1, e2, h1, h2, ?_, ?_, fun h => absurd rfl h, ?_⟩
      · rw [gX]; exact h3
      · rw [gX]; exact h4
      · rw [gX, gH]; exact h6
    all_goals clear k28; simp_all
  | ins | full | claim | unclaim | fin =>
    constructor
    case body2 =>
      intro _
      rw [gL, gX, gH]
      obtain ⟨mid, e1, e2, h1, h2, h3, h4, h5, h6⟩ := k28 (by simp)
      exact ⟨mid, e1, e2, h1, h2, h3, h4, fun _ => h5 (by simp), h6⟩
    all_goals clear k28; simp_all

/-- A replacement that has just begun. -/
theorem JobL.start {J : LJob} (T : Trans w w' d none (some J)) (hx : d.lst J.x = true) (nx : J.x < w.nL)
    (off : ∀ l, w.nL ≤ l → d.lst l = false ∧ d.gone l = false) (gX : w'.get J.x = w.get J.x)
    (vX : w'.dead J.x = false) : JobL w' d lt J := by
  cases T with
  | copy x y h1 h2 h3 h4 h5 h6 h7 h8 h9 h10 =>
    have o := off y h4
    simp only at *
    have ne : y ≠ x := by omega
    constructor <;> simp_all
  | split x xl xh mid e1 e2 h1 h2 h3 h4 h4' h5 h6 hf he h7 h7' h8 h9 h10 =>
    have o1 := off xl h4
    have o2 := off xh (by omega)
    simp only at *
    have n1 : xl ≠ x := by omega
    have n2 : xh ≠ x := by omega
    have n3 : xl ≠ xh := by omega
    have n4 : xl < w'.nL := by omega
    constructor
    case body2 =>
      intro _
      rw [gX]
      exact ⟨mid, e1, e2, he.1, he.2.1, he.2.2.1, he.2.2.2, fun _ => h7, h7'⟩
    all_goals clear h7 h7' he; simp_all

theorem VInv.new_off (I : VInv w d lt) (l : Id) (h : w.nL ≤ l) : d.lst l = false ∧ d.gone l = false := by
  cases hl : d.lst l with
  | true => exact absurd (I.alL l hl) (by omega)
  | false => exact ⟨rfl, (I.off l hl).2⟩

section

variable (W : World w) (W' : World w') (I : VInv w d lt) (S : Shift w w' d)

include I S

theorem VInv.shift_org {x z : Id} (h : w.org x z) : w'.org x z ∨
    ∃ n J, w.job n = some J ∧ w'.job n = none ∧ Trans w w' d (some J) none ∧ J.x = x ∧ (z = J.xl ∨ z = J.xh) := by
  obtain ⟨n, J, hj, hx, hz⟩ := h
  rcases S.fwd hj with ⟨st, h1, _⟩ | ⟨h1, T⟩
  · exact .inl ⟨n, _, h1, hx, hz⟩
  · exact .inr ⟨n, J, hj, h1, T, hx, hz⟩

theorem VInv.shift_org' {x z : Id} (h : w'.org x z) : w.org x z ∨ w.nL ≤ z := by
  obtain ⟨n, J, hj, hx, hz⟩ := h
  rcases S.back hj with ⟨st, h1, _⟩ | ⟨_, T⟩
  · exact .inl ⟨n, _, h1, hx, hz⟩
  · obtain ⟨_, h1, h2, _⟩ := T.new
    rcases hz with rfl | rfl
    · exact .inr h1
    · exact .inr h2

/-- A leaf whose replacement has ended is not replaced any more. -/
theorem VInv.ended {n : Id} {J : LJob} (hj : w.job n = some J) (h : w'.job n = none) {n' : Id} {J' : LJob}
    (hj' : w'.job n' = some J') : ¬ J'.mem J.x := by
  intro hm
  rcases S.back hj' with ⟨st, h1, _⟩ | ⟨_, T⟩
  · have hm' : ({ J' with st := st } : LJob).mem J.x := hm
    have := I.sep _ _ _ _ _ hj h1 J.mem_x hm'
    subst this
    rw [h] at hj'; cases hj'
  · obtain ⟨_, a1, a2, a3, _⟩ := T.new
    have := I.mem_al hj J.mem_x
    rcases hm with e | e | e
    · exact a3 n J hj (e ▸ J.mem_x)
    · omega
    · omega

theorem VInv.ended_gone {n : Id} {J : LJob} (hj : w.job n = some J) (T : Trans w w' d (some J) none) :
    d.gone J.x = true ∨ (J.st = .full ∧ d.gone J.xl = true ∧ d.gone J.xh = true ∧ ¬ w'.lit J.xl ∧ ¬ w'.lit J.xh) := by
  have K := I.jobs n J hj
  cases T with
  | copied x y h1 h2 => exact .inl h1
  | swap x xl xh => exact .inl (K.goneT rfl)
  | roll x xl xh h1 h2 h3 => exact .inr ⟨rfl, h1, (K.goneL h1).2, h2, h3⟩
  | done x xl xh h1 => exact .inl h1

include W'

theorem VInv.ended_unlit {n : Id} {J : LJob} (hj : w.job n = some J) (h : w'.job n = none)
    (T : Trans w w' d (some J) none) : J.st = .full ∨ ¬ w'.lit J.x := by
  have K := I.jobs n J hj
  have key : w'.dead J.x = true → ¬ w'.lit J.x := by
    intro hd hl
    obtain ⟨n', J', h1, h2⟩ := W'.deadLit _ hd hl
    exact I.ended S hj h h1 (h2 ▸ J'.mem_x)
  cases T with
  | copied x y h1 h2 => exact .inr (key h2)
  | swap x xl xh => exact .inr (key (S.dead _ (K.deadX (by simp))))
  | roll x xl xh h1 h2 h3 => exact .inl rfl
  | done x xl xh h1 => exact .inr (key (S.dead _ (K.deadX (by simp))))

theorem VInv.shift_dead {x z : Id} (h : w.org x z) : w'.dead z = false := by
  cases hd : w'.dead z with
  | false => rfl
  | true =>
    rcases S.kill z hd with h1 | ⟨n, J, hj, e⟩
    · rw [I.org_live h] at h1; cases h1
    · exact absurd e (I.org_x h hj)

theorem VInv.shift_jobs (n : Id) (J : LJob) (h : w'.job n = some J) : JobL w' d lt J := by
  rcases S.back h with ⟨st, hj, T⟩ | ⟨hj, T⟩
  · have K := I.jobs n _ hj
    have hL : w.org J.x J.xl := ⟨n, _, hj, rfl, .inl rfl⟩
    have hH : w.org J.x J.xh := ⟨n, _, hj, rfl, .inr rfl⟩
    exact K.next T S.nL (S.get _ (I.alL _ K.lst)) (S.get _ K.alL) (S.get _ K.alH) (S.ret _ K.alL) (S.ret _ K.alH)
      (S.dead _) (W'.live n J h) (I.shift_dead W' S hL) (I.shift_dead W' S hH) (S.froX n _ hj (by rw [h]; simp))
      (S.froL n _ J hj h) (S.froH n _ hj (by rw [h]; simp))
  · obtain ⟨a1, _, _, _, a5⟩ := T.new
    have hx := (I.lit _ a1).1
    refine .start T hx (I.alL _ hx) I.new_off (S.get _ (I.alL _ hx)) (W'.live n J h ?_)
    cases T <;> simp

theorem VInv.shift_sep (n n' : Id) (J J' : LJob) (l : Id) (h : w'.job n = some J) (h' : w'.job n' = some J')
    (hm : J.mem l) (hm' : J'.mem l) : n = n' := by
  have mix : ∀ {n n' : Id} {J J' : LJob} {st : Stage}, w.job n = some { J with st := st } → Trans w w' d none (some J') →
      J.mem l → J'.mem l → False := by
    intro n n' J J' st hj T hm hm'
    have hm2 : ({ J with st := st } : LJob).mem l := hm
    obtain ⟨_, a1, a2, a3, _⟩ := T.new
    have := I.mem_al hj hm2
    rcases hm' with e | e | e
    · exact a3 n _ hj (e ▸ hm2)
    · omega
    · omega
  rcases S.back h with ⟨st, hj, _⟩ | ⟨hj, T⟩ <;> rcases S.back h' with ⟨st', hj', _⟩ | ⟨hj', T'⟩
  · exact I.sep _ _ _ _ _ hj hj' hm hm'
  · exact (mix (n' := n') hj T' hm hm').elim
  · exact (mix (n' := n) hj' T hm' hm).elim
  · obtain ⟨n0, hk, _⟩ := S.job
    have e : n = n0 := Classical.byContradiction fun e => by
      have := hk n e
      rw [hj, h] at this; cases this
    have e' : n' = n0 := Classical.byContradiction fun e => by
      have := hk n' e
      rw [hj', h'] at this; cases this
    rw [e, e']

theorem VInv.shift_adj (n : Id) (J : LJob) (a b z : Id) (h : w'.job n = some J) (ha : J.mem a) (hb : J.mem b)
    (la : d.lst a = true) (lb : d.lst b = true) (lz : d.lst z = true) (hz : ¬ J.mem z) :
    (lt z a ↔ lt z b) ∧ (lt a z ↔ lt b z) := by
  rcases S.back h with ⟨st, hj, _⟩ | ⟨_, T⟩
  · exact I.adj n _ a b z hj ha hb la lb lz hz
  · obtain ⟨_, a1, a2, _⟩ := T.new
    have key : ∀ c, J.mem c → d.lst c = true → c = J.x := by
      intro c hc lc
      have := I.alL c lc
      rcases hc with e | e | e
      · exact e
      · omega
      · omega
    rw [key a ha la, key b hb lb]
    exact ⟨Iff.rfl, Iff.rfl⟩

end

end Scc.Vine
