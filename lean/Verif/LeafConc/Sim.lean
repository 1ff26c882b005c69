import Verif.LeafConc.Inv

/-!
# A shared leaf behaves like an atomic one
-/

set_option linter.unusedSimpArgs false
set_option linter.unusedSectionVars false
set_option linter.unusedVariables false

namespace Scc.LeafConc

open Scc.Leaf
open Scc.Leaf.Spec (SLeaf Sorted)

variable {K V : Type} [KeyOrd K]

/-! ## The abstract state -/

theorem view_self {l : Leaf K V} (o : Ordered l.w l.entry) : View l l.toList := by
  obtain ⟨h1, h2⟩ := scanFrom_spec (w := l.w) o (numEntries + 1) numEntries (.inl rfl) (by
    unfold curRank; simp; decide)
  refine ⟨o, h1, ?_⟩
  intro e
  unfold Leaf.toList
  rw [h2]
  have hc : curRank numEntries l.w = 0 := by unfold curRank; simp
  rw [hc]
  constructor
  · rintro ⟨i, a, b, _, d⟩; exact ⟨i, a, b, d⟩
  · rintro ⟨i, a, b, d⟩; exact ⟨i, a, b, b.1, d⟩

theorem view_congr {l l' : Leaf K V} {xs : List (K × V)} (v : View l xs) (hw : l'.w = l.w)
    (he : ∀ j, j < numEntries → Ranked l.w j → l'.entry j = l.entry j) : View l' xs := by
  refine ⟨?_, v.sorted, ?_⟩
  · rw [hw]; exact ordered_congr v.ord he
  · intro e
    rw [v.mem]
    unfold Holds
    rw [hw]
    constructor
    · rintro ⟨i, a, b, d⟩; exact ⟨i, a, b, by rw [he i a b]; exact d⟩
    · rintro ⟨i, a, b, d⟩; exact ⟨i, a, b, by rw [← he i a b]; exact d⟩

/-- What the leaf stands for. -/
noncomputable def absLeaf (l : Leaf K V) (P : Nat → Bool) : SLeaf K V where
  xs := l.toList
  used := settled l.w P
  frozen := frozen l.w
  retired := retired l.w

theorem abs_view {l : Leaf K V} {P : Nat → Bool} (o : Ok l P) : View l (absLeaf l P).xs :=
  view_self o.ord

theorem toList_congr {l l' : Leaf K V} (o : Ordered l.w l.entry) (o' : Ordered l'.w l'.entry)
    (h : ∀ e, Holds l' e ↔ Holds l e) : l'.toList = l.toList := by
  have v := view_self o
  have v' := view_self o'
  exact sorted_ext v'.sorted v.sorted (fun e => by rw [v'.mem, v.mem, h])

theorem holds_congr {l l' : Leaf K V} (hr : ∀ j, j < numEntries → (Ranked l'.w j ↔ Ranked l.w j))
    (he : ∀ j, j < numEntries → Ranked l.w j → l'.entry j = l.entry j) :
    ∀ e, Holds l' e ↔ Holds l e := by
  intro e
  constructor
  · rintro ⟨i, a, b, d⟩
    have b' := (hr i a).1 b
    exact ⟨i, a, b', by rw [← he i a b']; exact d⟩
  · rintro ⟨i, a, b, d⟩
    exact ⟨i, a, (hr i a).2 b, by rw [he i a b]; exact d⟩

theorem answer_eq {l : Leaf K V} {xs : List (K × V)} (v : View l xs) (q : Query K) :
    ask l q = Spec.ask xs q := by
  cases q with
  | search k => exact congrArg Ans.entry (v.search k)
  | below k => exact congrArg Ans.entry (v.maxLess k)
  | atLeast k => exact congrArg Ans.entry (v.minGreaterEqual k)
  | max => exact congrArg Ans.entry v.maxEntry
  | iter => exact congrArg Ans.entries v.toList
  | isEmpty => exact congrArg Ans.flag v.isEmpty

/-! ## The simulation relation -/

/-- The leaf as it was when `w` was loaded. -/
def old (l : Leaf K V) (w : Word) : Leaf K V := { l with w := w }

/-- What an abstract thread must have noted. -/
def PcRel (sp : Bool) (l : Leaf K V) (p : Pc K V) (q : Spec.Pc K V) : Prop :=
  match p with
  | .idle => q = .idle
  | .start c => ∃ obs, q = .pending c obs
  | .ins k v w => ∃ obs xs, q = .pending (.insert k v) obs ∧ View (old l w) xs ∧
      (retired w = true → obs (.ins .retired)) ∧
      (retired w = false → frozen w = true → obs (.ins .frozen)) ∧
      (retired w = false → frozen w = false → freeSlot w = none →
        if (Leaf.Spec.get xs k).isSome then obs (.ins .duplicate) else obs (.ins .full))
  | .resv k v _ w | .post k v _ w => ∃ obs xs, q = .pending (.insert k v) obs ∧ View (old l w) xs ∧
      ((Leaf.Spec.get xs k).isSome → obs (.ins .duplicate))
  | .roll k v _ => ∃ obs, q = .pending (.insert k v) obs ∧
      (obs (.ins .duplicate) ∨ retired l.w = true ∨ (sp = false ∧ frozen l.w = true))
  | .rem k c w => ∃ obs xs, q = .pending (.remove k c) obs ∧ View (old l w) xs ∧
      (frozen w = true → obs (.rem .frozen)) ∧
      (frozen w = false → (∀ e, Leaf.Spec.get xs k = some e → c e.2 = false) → obs (.rem .fail)) ∧
      (∀ j e, j < numEntries → Ranked w j → l.entry j = some e → e.1 = k → rank l.w j = removed →
        obs (.rem .fail))
  | .remAt k c i w => ∃ obs, q = .pending (.remove k c) obs ∧
      (rank l.w i = removed → obs (.rem .fail)) ∧
      (∀ e, l.entry i = some e → c e.2 = false → obs (.rem .fail))
  | .ask qu w => ∃ obs xs, q = .pending (.ask qu) obs ∧ View (old l w) xs ∧
      obs (.ans (Spec.ask xs qu))
  | .done r => q = .done r ∨ ∃ c obs, q = .pending c obs ∧ obs r

structure Sim (sp : Bool) (s : St K V) (a : Spec.St K V) : Prop where
  leaf : a.leaf = absLeaf s.l (pend s.pc)
  pcs : ∀ t, PcRel sp s.l (s.pc t) (a.pc t)

/-- Noting more answers. -/
def More (q q' : Spec.Pc K V) : Prop :=
  match q with
  | .pending c obs => ∃ obs', q' = .pending c obs' ∧ ∀ r, obs r → obs' r
  | _ => q' = q

/-- What a step of another thread may change for a thread at `p`. -/
structure Env (sp : Bool) (l : Leaf K V) (P : Nat → Bool) (l' : Leaf K V) (P' : Nat → Bool)
    (leaf' : SLeaf K V) : Prop where
  keep : Keep l P l' P'
  ret : retired l.w = true → retired l'.w = true
  frz : sp = false → frozen l.w = true → frozen l'.w = true
  gone : ∀ j e, j < numEntries → Ranked l.w j → rank l'.w j = removed → l.entry j = some e →
    leaf'.frozen = false ∧ Leaf.Spec.get leaf'.xs e.1 = none

theorem Snap.view {l l' : Leaf K V} {P P' : Nat → Bool} {w : Word} {xs : List (K × V)} (s : Snap l P w)
    (k : Keep l P l' P') (v : View (old l w) xs) : View (old l' w) xs :=
  view_congr v rfl (fun j hj hr => k.entry j hj (s.used j hj hr) (s.free j hj hr))

/-- A thread that does not move, before and after a step of somebody else. -/
theorem PcRel.step {sp : Bool} {l l' : Leaf K V} {P P' : Nat → Bool} {p : Pc K V} {q q' : Spec.Pc K V}
    {leaf' : SLeaf K V} (h : PcRel sp l p q) (ok : PcOk l P p) (env : Env sp l P l' P' leaf')
    (more : More q q')
    (now : ∀ k c obs, q = .pending (.remove k c) obs → leaf'.frozen = false →
      Leaf.Spec.get leaf'.xs k = none → ∃ obs', q' = .pending (.remove k c) obs' ∧ obs' (.rem .fail)) :
    PcRel sp l' p q' := by
  cases p with
  | idle => simp only [PcRel] at h; subst h; exact more
  | start c =>
    obtain ⟨obs, rfl⟩ := h
    obtain ⟨obs', h1, _⟩ := more
    exact ⟨obs', h1⟩
  | ins k v w =>
    obtain ⟨obs, xs, rfl, h1, h2, h3, h4⟩ := h
    obtain ⟨obs', e, hm⟩ := more
    refine ⟨obs', xs, e, Snap.view ok env.keep h1, fun h => hm _ (h2 h), fun a b => hm _ (h3 a b), ?_⟩
    intro a b c
    have := h4 a b c
    split
    · rename_i hg; rw [if_pos hg] at this; exact hm _ this
    · rename_i hg; rw [if_neg hg] at this; exact hm _ this
  | resv k v i w =>
    obtain ⟨obs, xs, rfl, h1, h2⟩ := h
    obtain ⟨obs', e, hm⟩ := more
    exact ⟨obs', xs, e, Snap.view ok.1 env.keep h1, fun h => hm _ (h2 h)⟩
  | post k v i w =>
    obtain ⟨obs, xs, rfl, h1, h2⟩ := h
    obtain ⟨obs', e, hm⟩ := more
    exact ⟨obs', xs, e, Snap.view ok.1 env.keep h1, fun h => hm _ (h2 h)⟩
  | roll k v i =>
    obtain ⟨obs, rfl, h1⟩ := h
    obtain ⟨obs', e, hm⟩ := more
    refine ⟨obs', e, ?_⟩
    rcases h1 with h1 | h1 | ⟨h1, h2⟩
    · exact .inl (hm _ h1)
    · exact .inr (.inl (env.ret h1))
    · exact .inr (.inr ⟨h1, env.frz h1 h2⟩)
  | rem k c w =>
    obtain ⟨obs, xs, rfl, h1, h2, h3, h4⟩ := h
    obtain ⟨obs', e, hm⟩ := more
    refine ⟨obs', xs, e, Snap.view ok env.keep h1, fun h => hm _ (h2 h), fun a b => hm _ (h3 a b), ?_⟩
    intro j x hj hr hx hk hrm
    have u1 := ok.used j hj hr
    have u2 := ok.free j hj hr
    rw [env.keep.entry j hj u1 u2] at hx
    by_cases hg : rank l.w j = removed
    · exact hm _ (h4 j x hj hr hx hk hg)
    · have hrk : Ranked l.w j := by
        have := rank_lt l.w j
        unfold Ranked removed at *
        omega
      obtain ⟨g1, g2⟩ := env.gone j _ hj hrk hrm hx
      rw [hk] at g2
      obtain ⟨obs'', e', g3⟩ := now k c obs rfl g1 g2
      rw [e] at e'
      cases e'
      exact g3
  | remAt k c i w =>
    obtain ⟨obs, rfl, h1, h2⟩ := h
    obtain ⟨obs', e, hm⟩ := more
    obtain ⟨a1, a2, a3, a4, v, a5⟩ := ok
    have u1 := a1.used i a3 a4
    have u2 := a1.free i a3 a4
    refine ⟨obs', e, ?_, ?_⟩
    · intro hr
      by_cases hg : rank l.w i = removed
      · exact hm _ (h1 hg)
      · have hrk : Ranked l.w i := by
          have := rank_lt l.w i
          unfold Ranked removed at *
          omega
        obtain ⟨g1, g2⟩ := env.gone i _ a3 hrk hr a5
        obtain ⟨obs'', e', g3⟩ := now k c obs rfl g1 g2
        rw [e] at e'
        cases e'
        exact g3
    · intro x hx hc
      rw [env.keep.entry i a3 u1 u2] at hx
      exact hm _ (h2 x hx hc)
  | ask qu w =>
    obtain ⟨obs, xs, rfl, h1, h2⟩ := h
    obtain ⟨obs', e, hm⟩ := more
    exact ⟨obs', xs, e, Snap.view ok env.keep h1, hm _ h2⟩
  | done r =>
    rcases h with rfl | ⟨c, obs, rfl, h1⟩
    · exact .inl more
    · obtain ⟨obs', e, hm⟩ := more
      exact .inr ⟨c, obs', e, hm _ h1⟩

/-! ## Observing -/

theorem observe_leaf (sp : Bool) (a : Spec.St K V) : (a.observe sp).leaf = a.leaf := rfl

theorem observe_pending {sp : Bool} {a : Spec.St K V} {t : Nat} {c : Call K V} {obs : Res K V → Prop}
    (h : a.pc t = .pending c obs) :
    (a.observe sp).pc t = .pending c (fun r => obs r ∨ a.legal sp t c r) := by
  simp [Spec.St.observe, h]

theorem observe_more (sp : Bool) (a : Spec.St K V) (t : Nat) : More (a.pc t) ((a.observe sp).pc t) := by
  cases h : a.pc t with
  | idle => simp [Spec.St.observe, h, More]
  | done r => simp [Spec.St.observe, h, More]
  | pending c obs => exact ⟨_, observe_pending h, fun r hr => .inl hr⟩

theorem fail_legal {sp : Bool} {a : Spec.St K V} {t : Nat} {k : K} {c : V → Bool}
    (hf : a.leaf.frozen = false) (hg : ∀ e, Leaf.Spec.get a.leaf.xs k = some e → c e.2 = false) :
    a.legal sp t (.remove k c) (.rem .fail) := by
  left
  simp only [Spec.act, SLeaf.removeIf, hf, Bool.false_eq_true, if_false]
  cases h : Leaf.Spec.get a.leaf.xs k with
  | none => rfl
  | some e => simp [hg e h]

theorem env_refl (sp : Bool) {l : Leaf K V} {P : Nat → Bool} (leaf' : SLeaf K V) :
    Env sp l P l P leaf' :=
  ⟨Keep.refl _ _, fun h => h, fun _ h => h, fun j e _ h1 h2 => by have := h1.2; omega⟩

/-- The general step: the abstract state `a1` reached by the effect, then everybody looks. -/
theorem sim_of {sp : Bool} {s s' : St K V} {a a1 : Spec.St K V} {t : Nat} {p : Pc K V} (h : Inv s)
    (sim : Sim sp s a) (hpc : s'.pc = upd s.pc t p)
    (env : Env sp s.l (pend s.pc) s'.l (pend s'.pc) a1.leaf)
    (hleaf : a1.leaf = absLeaf s'.l (pend s'.pc)) (hsame : ∀ u, u ≠ t → a1.pc u = a.pc u)
    (hmine : PcRel sp s'.l p ((a1.observe sp).pc t)) : Sim sp s' (a1.observe sp) := by
  refine ⟨hleaf, ?_⟩
  intro u
  rw [hpc]
  by_cases e : u = t
  · subst e; rw [upd_self]; exact hmine
  · rw [upd_ne e]
    refine (sim.pcs u).step (h.pcs u) env ?_ ?_
    · rw [← hsame u e]; exact observe_more sp a1 u
    · intro k c obs hq hf hg
      rw [← hsame u e] at hq
      exact ⟨_, observe_pending hq, .inr (fail_legal hf (by intro e h; rw [hg] at h; cases h))⟩

/-- A step without effect. -/
theorem sim_quiet {sp : Bool} {s s' : St K V} {a : Spec.St K V} {t : Nat} {p : Pc K V} (h : Inv s)
    (sim : Sim sp s a) (hpc : s'.pc = upd s.pc t p)
    (env : Env sp s.l (pend s.pc) s'.l (pend s'.pc) a.leaf)
    (hleaf : absLeaf s'.l (pend s'.pc) = absLeaf s.l (pend s.pc))
    (hmine : PcRel sp s'.l p ((a.observe sp).pc t)) : Sim sp s' (a.observe sp) :=
  sim_of h sim hpc env (sim.leaf.trans hleaf.symm) (fun _ _ => rfl) hmine

theorem sim_local {sp : Bool} {s : St K V} {a : Spec.St K V} {t : Nat} {p : Pc K V} (h : Inv s)
    (sim : Sim sp s a) (hs : p.slot = (s.pc t).slot)
    (hmine : PcRel sp s.l p ((a.observe sp).pc t)) : Sim sp (s.setPc t p) (a.observe sp) := by
  have e : pend (upd s.pc t p) = pend s.pc := pend_same hs
  refine sim_quiet h sim rfl ?_ ?_ hmine
  · show Env sp s.l (pend s.pc) s.l (pend (upd s.pc t p)) _
    rw [e]; exact env_refl _ _
  · show absLeaf s.l (pend (upd s.pc t p)) = _
    rw [e]

/-! ## Crowds -/

theorem filter_split {α : Type} (p : α → Bool) (l : List α) :
    l.length = (l.filter (fun i => !p i)).length + (l.filter p).length := by
  induction l with
  | nil => rfl
  | cons a l ih =>
    cases h : p a <;> simp [List.filter_cons, h] <;> omega

open Classical in
theorem crowd {sp : Bool} {s : St K V} {a : Spec.St K V} {t : Nat} (h : Inv s) (sim : Sim sp s a)
    (ht : (s.pc t).slot = none) (hfree : freeSlot s.l.w = none) : a.crowded t := by
  have hnz := freeSlot_none hfree
  let own : Nat → Nat := fun i => if h : ∃ u, (s.pc u).slot = some i then Classical.choose h else 0
  have hown : ∀ i, pend s.pc i = true → (s.pc (own i)).slot = some i := by
    intro i hi
    have h' := pend_iff.1 hi
    simp only [own, dif_pos h']
    exact Classical.choose_spec h'
  refine ⟨((List.range numEntries).filter (pend s.pc)).map own, ?_, ?_, ?_, ?_⟩
  · have hinj : ∀ i j, pend s.pc i = true → pend s.pc j = true → own i = own j → i = j := by
      intro i j hi hj e
      have h1 := hown i hi
      have h2 := hown j hj
      rw [e, h2] at h1
      cases h1; rfl
    have hnd : ((List.range numEntries).filter (pend s.pc)).Nodup := List.Pairwise.filter _ List.nodup_range
    refine List.pairwise_map.2 ?_
    refine List.Pairwise.imp_of_mem ?_ hnd
    intro i j hi hj hne e
    exact hne (hinj i j (List.mem_filter.1 hi).2 (List.mem_filter.1 hj).2 e)
  · intro hm
    obtain ⟨i, hi, e⟩ := List.mem_map.1 hm
    have := hown i (List.mem_filter.1 hi).2
    rw [e, ht] at this
    cases this
  · intro u hu
    obtain ⟨i, hi, e⟩ := List.mem_map.1 hu
    have h1 := hown i (List.mem_filter.1 hi).2
    rw [e] at h1
    have h2 := sim.pcs u
    unfold Spec.St.inserting
    cases hp : s.pc u with
    | resv k v i w => rw [hp] at h2; obtain ⟨obs, xs, h3, _⟩ := h2; exact ⟨k, v, obs, h3⟩
    | post k v i w => rw [hp] at h2; obtain ⟨obs, xs, h3, _⟩ := h2; exact ⟨k, v, obs, h3⟩
    | roll k v i => rw [hp] at h2; obtain ⟨obs, h3, _⟩ := h2; exact ⟨k, v, obs, h3⟩
    | _ => rw [hp] at h1; cases h1
  · rw [sim.leaf, List.length_map]
    show 14 ≤ settled s.l.w (pend s.pc) + cnt (pend s.pc)
    have h1 : settled s.l.w (pend s.pc) = cnt (fun i => !(pend s.pc i)) :=
      cnt_congr (fun i hi => by simp [hnz i hi])
    rw [h1]
    unfold cnt
    have := filter_split (pend s.pc) (List.range numEntries)
    rw [List.length_range] at this
    unfold numEntries at *
    omega

/-! ## The steps -/

theorem settled_reserve {w : Word} {P : Nat → Bool} {i : Nat} (h0 : rank w i = 0) :
    settled (augment w i removed) (fun j => j == i || P j) = settled w P := by
  apply cnt_congr
  intro k hk
  by_cases e : k = i
  · subst e; simp [h0]
  · have e' : (k == i) = false := by simp [e]
    simp only [rank_augment_ne _ (by decide : removed < 16) e, e', Bool.false_or]

theorem settled_rollback {w : Word} {P : Nat → Bool} {i : Nat} (hi : i < numEntries) (hP : P i = true) :
    settled (clearSlot w i) (fun j => j != i && P j) = settled w P := by
  rw [clearSlot_eq]
  apply cnt_congr
  intro k hk
  by_cases e : k = i
  · subst e; simp [rank_augment_self _ (by unfold numEntries at hi; omega : k < 16) (by omega : 0 < 16), hP]
  · have : (k != i) = true := by simp [e]
    simp [rank_augment_ne _ (by omega : 0 < 16) e, this]

theorem settled_remove {w : Word} {P : Nat → Bool} {i : Nat} (hi : i < numEntries) (hr : Ranked w i) :
    settled (removeWord w i) P = settled w P := by
  apply cnt_congr
  intro m hm
  rw [removeWord_rank hi hm]
  by_cases e : m = i
  · subst e
    rw [if_pos rfl]
    have := hr.1
    have e2 : (rank w m != 0) = true := by simp; omega
    simp [e2, removed]
  · rw [if_neg e]

theorem settled_finish {l : Leaf K V} {P : Nat → Bool} {i : Nat} {k : K} {w' : Word} (o : Ok l P)
    (hP : P i = true) (h : l.postWord k i l.w = some w') :
    settled w' (fun j => j != i && P j) = settled l.w P + 1 := by
  obtain ⟨hi, h15⟩ := o.pend i hP
  obtain ⟨_, hbump, hslot, _⟩ := postWord_some o.ord (o.rank_small hP) hi h
  apply cnt_add hi
  · simp [hP]
  · have := hslot.1
    simp; omega
  · intro m hm hmi
    have hmi' : (m != i) = true := by simp [hmi]
    have hz : rank w' m = 0 ↔ rank l.w m = 0 := by
      rw [hbump m hm hmi]
      unfold bump
      split
      · split
        · rename_i hc; have := hc.1.1; omega
        · exact Iff.rfl
      · exact Iff.rfl
    have : (rank w' m != 0) = (rank l.w m != 0) := by
      rw [Bool.eq_iff_iff]; simp [hz]
    rw [this]; simp [hmi']

theorem dup_legal {sp : Bool} {a : Spec.St K V} {t : Nat} {k : K} {v : V}
    (hf : a.leaf.frozen = false) (hr : a.leaf.retired = false)
    (hg : (Leaf.Spec.get a.leaf.xs k).isSome = true) :
    a.legal sp t (.insert k v) (.ins .duplicate) := by
  left
  simp only [Spec.act, SLeaf.insert, hf, hr, Bool.false_eq_true, if_false, hg, if_true]

theorem retired_legal {sp : Bool} {a : Spec.St K V} {t : Nat} {k : K} {v : V}
    (hr : a.leaf.retired = true) : a.legal sp t (.insert k v) (.ins .retired) := by
  left
  simp only [Spec.act, SLeaf.insert, hr, if_true]

theorem frozen_legal {sp : Bool} {a : Spec.St K V} {t : Nat} {k : K} {v : V}
    (hr : a.leaf.retired = false) (hf : a.leaf.frozen = true) :
    a.legal sp t (.insert k v) (.ins .frozen) := by
  left
  simp only [Spec.act, SLeaf.insert, hr, hf, if_true, Bool.false_eq_true, if_false]

theorem rfrozen_legal {sp : Bool} {a : Spec.St K V} {t : Nat} {k : K} {c : V → Bool}
    (hf : a.leaf.frozen = true) : a.legal sp t (.remove k c) (.rem .frozen) := by
  left
  simp only [Spec.act, SLeaf.removeIf, hf, if_true]

/-- The head of the loop of `insert`, just after loading the word. -/
theorem ins_now {sp : Bool} {s : St K V} {a : Spec.St K V} {t : Nat} {k : K} {v : V} (h : Inv s)
    (sim : Sim sp s a) (hslot : (s.pc t).slot = none) {obs : Res K V → Prop}
    (hq : a.pc t = .pending (.insert k v) obs) :
    PcRel sp s.l (.ins k v s.l.w) ((a.observe sp).pc t) := by
  rw [observe_pending hq]
  refine ⟨_, s.l.toList, rfl, view_self h.ok.ord, ?_, ?_, ?_⟩
  · intro hr; exact .inr (retired_legal (by rw [sim.leaf]; exact hr))
  · intro hr hf; exact .inr (frozen_legal (by rw [sim.leaf]; exact hr) (by rw [sim.leaf]; exact hf))
  · intro hr hf hfree
    split
    · rename_i hg
      exact .inr (dup_legal (by rw [sim.leaf]; exact hf) (by rw [sim.leaf]; exact hr)
        (by rw [sim.leaf]; exact hg))
    · rename_i hg
      refine .inr (.inr (.inl ⟨k, v, rfl, rfl, by rw [sim.leaf]; exact hr, by rw [sim.leaf]; exact hf, ?_,
        crowd h sim hslot hfree⟩))
      rw [sim.leaf]
      cases hx : Leaf.Spec.get s.l.toList k with
      | none => exact hx
      | some e => rw [hx] at hg; simp at hg

/-- A step that only touches the frozen mark. -/
theorem sim_flag {sp : Bool} {s : St K V} {a a1 : Spec.St K V} {t : Nat} {l' : Leaf K V} {r : Res K V}
    (h : Inv s) (sim : Sim sp s a) (hslot : (s.pc t).slot = none)
    (hl : l'.entry = s.l.entry ∧ Ok l' (pend s.pc) ∧ (∀ j, j < numEntries → rank l'.w j = rank s.l.w j) ∧
      retired l'.w = retired s.l.w)
    (hfrz : sp = false → frozen s.l.w = true → frozen l'.w = true)
    (hleaf : a1.leaf = { absLeaf s.l (pend s.pc) with frozen := frozen l'.w })
    (hrest : ∀ u, u ≠ t → a1.pc u = a.pc u) (hdone : a1.pc t = .done r) :
    Sim sp ({ s with l := l' }.setPc t (.done r)) (a1.observe sp) := by
  obtain ⟨l1, l2, l3, l4⟩ := hl
  have hP : pend (upd s.pc t (.done r)) = pend s.pc := pend_same (by rw [hslot]; rfl)
  have hR : ∀ j, j < numEntries → (Ranked l'.w j ↔ Ranked s.l.w j) := by
    intro j hj; unfold Ranked; rw [l3 j hj]
  have htl : l'.toList = s.l.toList :=
    toList_congr h.ok.ord l2.ord (holds_congr hR (fun _ _ _ => by rw [l1]))
  refine sim_of h sim rfl ?_ ?_ ?_ ?_
  · refine ⟨?_, ?_, hfrz, ?_⟩
    · show Keep s.l (pend s.pc) l' (pend (upd s.pc t (.done r)))
      rw [hP]
      refine ⟨?_, fun _ _ _ h2 => h2, fun _ _ _ _ => by rw [l1], ?_⟩
      · intro j hj h1 _; rw [l3 j hj]; exact h1
      · intro j hj h1 _; rw [l3 j hj]; exact h1
    · intro h1; show retired l'.w = true; rw [l4]; exact h1
    · intro j e hj hrj hgone
      have : Ranked l'.w j := (hR j hj).2 hrj
      exact absurd hgone (by have := this.2; show rank l'.w j ≠ removed; omega)
  · show a1.leaf = absLeaf l' (pend (upd s.pc t (.done r)))
    rw [hP, hleaf]
    have : settled l'.w (pend s.pc) = settled s.l.w (pend s.pc) :=
      cnt_congr (fun j hj => by simp only [l3 j hj])
    simp only [absLeaf, htl, l4, this]
  · exact hrest
  · left
    simp only [Spec.St.observe, hdone]

/-- One step of the atomic object, or none. -/
def Move (sp : Bool) (a : Spec.St K V) (e : Option (Event K V)) (a1 : Spec.St K V) : Prop :=
  (e = none ∧ a1 = a) ∨ Spec.Step sp a e a1

theorem sim_step {sp : Bool} {s s' : St K V} {a : Spec.St K V} {e : Option (Event K V)} (h : Inv s)
    (sim : Sim sp s a) (st : Step s e s') (hth : sp = false → ∀ t, s.pc t ≠ .start .thaw) :
    ∃ a1, Move sp a e a1 ∧ Sim sp s' (a1.observe sp) := by
  cases st with
  | @inv t c hpc =>
    have hq := sim.pcs t
    rw [hpc] at hq
    refine ⟨_, .inr (.inv hq), ?_⟩
    have hP : pend (upd s.pc t (.start c)) = pend s.pc := pend_same (by rw [hpc]; rfl)
    refine sim_of h sim rfl ?_ ?_ ?_ ?_
    · show Env sp s.l (pend s.pc) s.l (pend (upd s.pc t (.start c))) _
      rw [hP]; exact env_refl _ _
    · show a.leaf = absLeaf s.l (pend (upd s.pc t (.start c)))
      rw [hP]; exact sim.leaf
    · intro u hu; simp [Spec.St.setPc, hu]
    · rw [observe_pending (c := c) (obs := fun _ => False) (by simp [Spec.St.setPc])]
      exact ⟨_, rfl⟩
  | @ret t r hpc =>
    have hq := sim.pcs t
    rw [hpc] at hq
    have hP : pend (upd s.pc t .idle) = pend s.pc := pend_same (by rw [hpc]; rfl)
    refine ⟨a.setPc t .idle, .inr ?_, ?_⟩
    · rcases hq with hq | ⟨c, obs, hq, ho⟩
      · exact .ret hq
      · exact .retObs hq ho
    · refine sim_of h sim rfl ?_ ?_ ?_ ?_
      · show Env sp s.l (pend s.pc) s.l (pend (upd s.pc t .idle)) _
        rw [hP]; exact env_refl _ _
      · show a.leaf = absLeaf s.l (pend (upd s.pc t .idle))
        rw [hP]; exact sim.leaf
      · intro u hu; simp [Spec.St.setPc, hu]
      · simp [Spec.St.observe, Spec.St.setPc, PcRel]
  | @insLoad t k v hpc =>
    have hq := sim.pcs t
    rw [hpc] at hq
    obtain ⟨obs, hq⟩ := hq
    exact ⟨a, .inl ⟨rfl, rfl⟩, sim_local h sim (by rw [hpc]; rfl)
      (ins_now h sim (by rw [hpc]; rfl) hq)⟩
  | @insRetired t k v w hpc hr =>
    have hq := sim.pcs t
    rw [hpc] at hq
    obtain ⟨obs, xs, hq, _, h1, _, _⟩ := hq
    refine ⟨a, .inl ⟨rfl, rfl⟩, sim_local h sim (by rw [hpc]; rfl) ?_⟩
    rw [observe_pending hq]
    exact .inr ⟨_, _, rfl, .inl (h1 hr)⟩
  | @insFrozen t k v w hpc hr hf =>
    have hq := sim.pcs t
    rw [hpc] at hq
    obtain ⟨obs, xs, hq, _, _, h1, _⟩ := hq
    refine ⟨a, .inl ⟨rfl, rfl⟩, sim_local h sim (by rw [hpc]; rfl) ?_⟩
    rw [observe_pending hq]
    exact .inr ⟨_, _, rfl, .inl (h1 hr hf)⟩
  | @insFull t k v w hpc hr hf hfree =>
    have hq := sim.pcs t
    rw [hpc] at hq
    obtain ⟨obs, xs, hq, hv, _, _, h1⟩ := hq
    refine ⟨a, .inl ⟨rfl, rfl⟩, sim_local h sim (by rw [hpc]; rfl) ?_⟩
    rw [observe_pending hq]
    refine .inr ⟨_, _, rfl, .inl ?_⟩
    have h2 := h1 hr hf hfree
    have h3 : ((s.at w).searchSlot k w).isSome = (Leaf.Spec.get xs k).isSome := hv.searchSlot k
    rw [h3]
    split
    · rename_i hg; rw [if_pos hg] at h2; exact h2
    · rename_i hg; rw [if_neg hg] at h2; exact h2
  | @insReserve t k v w i hpc hr hf hfree hw =>
    have g := good_reserve h hpc hr hf hfree hw
    have hq := sim.pcs t
    rw [hpc] at hq
    obtain ⟨obs, xs, hq, hv, _⟩ := hq
    subst hw
    obtain ⟨hi, h0⟩ := freeSlot_some hfree
    obtain ⟨o, hR⟩ := h.ok.reserve hi h0
    have hP := pend_reserve (p := Pc.resv k v i (augment s.l.w i removed))
      (by rw [hpc]; rfl : (s.pc t).slot = none) rfl
    have htl : ({ s.l with w := augment s.l.w i removed } : Leaf K V).toList = s.l.toList :=
      toList_congr h.ok.ord o.ord (holds_congr hR (fun _ _ _ => rfl))
    refine ⟨a, .inl ⟨rfl, rfl⟩, sim_quiet h sim rfl ?_ ?_ ?_⟩
    · refine ⟨g.keep, ?_, ?_, ?_⟩
      · intro h1; rw [hr] at h1; cases h1
      · intro _ h1; rw [hf] at h1; cases h1
      · intro j e hj hrj hgone
        have : Ranked (augment s.l.w i removed) j := (hR j hj).2 hrj
        exact absurd hgone (by have := this.2; show rank (augment s.l.w i removed) j ≠ removed; omega)
    · show absLeaf { s.l with w := augment s.l.w i removed }
        (pend (upd s.pc t (.resv k v i (augment s.l.w i removed)))) = _
      rw [hP]
      unfold absLeaf
      simp only [htl, settled_reserve h0, frozen_augment _ hi (by decide : removed < 16),
        retired_augment _ hi (by decide : removed < 16)]
    · rw [observe_pending hq]
      refine ⟨_, s.l.toList, rfl, ?_, ?_⟩
      · have hv' := view_self (l := { s.l with w := augment s.l.w i removed }) o.ord
        rw [htl] at hv'
        exact hv'
      · intro hg
        exact .inr (dup_legal (by rw [sim.leaf]; exact hf) (by rw [sim.leaf]; exact hr)
          (by rw [sim.leaf]; exact hg))
  | @insRetry t k v w i hpc hr hf hfree hw =>
    have hq := sim.pcs t
    rw [hpc] at hq
    obtain ⟨obs, xs, hq, hv, _⟩ := hq
    exact ⟨a, .inl ⟨rfl, rfl⟩, sim_local h sim (by rw [hpc]; rfl)
      (ins_now h sim (by rw [hpc]; rfl) hq)⟩
  | @write t k v i w hpc =>
    have g := good_write h hpc
    have hq := sim.pcs t
    rw [hpc] at hq
    obtain ⟨obs, xs, hq, hv, h1⟩ := hq
    have hP : pend (upd s.pc t (.post k v i w)) = pend s.pc := pend_same (by rw [hpc]; rfl)
    have hp := h.pcs t
    rw [hpc] at hp
    have hent : ∀ j, j < numEntries → Ranked s.l.w j → (s.l.write i k v).entry j = s.l.entry j := by
      intro j hj hr
      have h2 := Snap.now h.ok
      exact g.keep.entry j hj (h2.used j hj hr) (h2.free j hj hr)
    refine ⟨a, .inl ⟨rfl, rfl⟩, sim_quiet h sim rfl ?_ ?_ ?_⟩
    · exact ⟨g.keep, fun h => h, fun _ h => h, fun j e hj hr hg => absurd hg (by
        have := hr.2; show rank s.l.w j ≠ removed; omega)⟩
    · show absLeaf (s.l.write i k v) (pend (upd s.pc t (.post k v i w))) = _
      rw [hP]
      unfold absLeaf
      have : (s.l.write i k v).toList = s.l.toList :=
        toList_congr h.ok.ord (ordered_congr h.ok.ord hent) (holds_congr (fun _ _ => Iff.rfl) hent)
      rw [this]; rfl
    · rw [observe_pending hq]
      refine ⟨_, xs, rfl, ?_, fun hg => .inl (h1 hg)⟩
      exact Snap.view hp.1 g.keep hv
  | @postDup t k v i w hpc hpw =>
    have hq := sim.pcs t
    rw [hpc] at hq
    obtain ⟨obs, xs, hq, hv, h1⟩ := hq
    have hp := h.pcs t
    rw [hpc] at hp
    refine ⟨a, .inl ⟨rfl, rfl⟩, sim_local h sim (by rw [hpc]; rfl) ?_⟩
    rw [observe_pending hq]
    refine ⟨_, rfl, .inl (.inl (h1 ?_))⟩
    obtain ⟨j, v', a1, a2, a3⟩ := postWord_none (l := s.at w) (w := w) hp.1.ord hp.2.2.2.1 hpw
    have hin : (k, v') ∈ xs := (hv.mem _).2 ⟨j, a1, a2, a3⟩
    rw [(get_iff hv.sorted).2 ⟨hin, rfl⟩]; rfl
  | @postOk t k v i w w' hpc hpw hw =>
    have g := good_finish h hpc hpw hw
    have hq := sim.pcs t
    rw [hpc] at hq
    obtain ⟨obs, xs, hq, hv, h1⟩ := hq
    have hp := h.pcs t
    rw [hpc] at hp
    rw [at_eq hw] at hpw
    subst hw
    have hs : (s.pc t).slot = some i := by rw [hpc]; rfl
    have hpi : pend s.pc i = true := pend_iff.2 ⟨t, hs⟩
    have hP := pend_release (p := Pc.done (.ins .success)) hs rfl (fun u hu => h.excl u t i hu hs)
    obtain ⟨hsn, hf, hret, hb, he⟩ := hp
    obtain ⟨o, hR⟩ := h.ok.finish hpi he hret hpw
    obtain ⟨hi, _⟩ := h.ok.pend i hpi
    obtain ⟨hne, hbump, _, _, _, _, hf', ht'⟩ := postWord_some h.ok.ord hb hi hpw
    have v0 := view_self h.ok.ord
    have v1 := view_self (l := { s.l with w := w' }) o.ord
    have hnone : Leaf.Spec.get s.l.toList k = none := by
      cases hx : Leaf.Spec.get s.l.toList k with
      | none => rfl
      | some e =>
        obtain ⟨b1, b2⟩ := get_some hx
        obtain ⟨j, b3, b4, b5⟩ := (v0.mem e).1 b1
        exact absurd b2 (hne j e b3 b4 b5)
    have hxs : ({ s.l with w := w' } : Leaf K V).toList = Leaf.Spec.put s.l.toList k v := by
      refine sorted_ext v1.sorted (sorted_put v0.sorted k v) ?_
      intro e
      rw [v1.mem, mem_put (get_none hnone), v0.mem]
      constructor
      · rintro ⟨j, b1, b2, b3⟩
        rcases (hR j b1).1 b2 with b4 | b4
        · exact .inl ⟨j, b1, b4, b3⟩
        · subst b4
          simp only [] at b3
          rw [he] at b3; cases b3; exact .inr rfl
      · rintro (⟨j, b1, b2, b3⟩ | b)
        · exact ⟨j, b1, (hR j b1).2 (.inl b2), b3⟩
        · subst b; exact ⟨i, hi, (hR i hi).2 (.inr rfl), he⟩
    have hlt : settled s.l.w (pend s.pc) < 14 := cnt_lt hi (by simp [hpi])
    have hact : Spec.act (.insert k v) a.leaf =
        (absLeaf { s.l with w := w' } (fun j => j != i && pend s.pc j), .ins .success) := by
      rw [sim.leaf]
      simp only [Spec.act, SLeaf.insert, absLeaf, hret, hf, Bool.false_eq_true, if_false, hnone,
        Option.isSome_none, if_pos hlt]
      rw [hxs, settled_finish h.ok hpi hpw, hf', ht', hf, hret]
    refine ⟨_, .inr (.lin hq), sim_of h sim rfl ?_ ?_ ?_ ?_⟩
    · refine ⟨g.keep, ?_, ?_, ?_⟩
      · intro h1; rw [hret] at h1; cases h1
      · intro _ h1; rw [hf] at h1; cases h1
      · intro j e hj hrj hgone
        have : Ranked w' j := (hR j hj).2 (.inl hrj)
        exact absurd hgone (by have := this.2; show rank w' j ≠ removed; omega)
    · show (Spec.act (.insert k v) a.leaf).1 = absLeaf { s.l with w := w' } (pend (upd s.pc t _))
      rw [hP, hact]
    · intro u hu; simp [Spec.St.setPc, hu]
    · left
      simp only [Spec.St.observe, Spec.St.setPc, if_true]
      rw [hact]
  | @postAbort t k v i w w' hpc hpw hw hfl =>
    have hq := sim.pcs t
    rw [hpc] at hq
    obtain ⟨obs, xs, hq, hv, h1⟩ := hq
    refine ⟨a, .inl ⟨rfl, rfl⟩, sim_local h sim (by rw [hpc]; rfl) ?_⟩
    rw [observe_pending hq]
    refine ⟨_, rfl, ?_⟩
    rcases hfl with hfl | hfl
    · cases sp with
      | false => exact .inr (.inr ⟨rfl, hfl⟩)
      | true =>
        refine .inl (.inr (.inr (.inr ⟨rfl, ?_, rfl, k, v, rfl⟩)))
        rw [sim.leaf]; exact hfl
    · exact .inr (.inl hfl)
  | @postRetry t k v i w w' hpc hpw hw hf hr =>
    have hq := sim.pcs t
    rw [hpc] at hq
    obtain ⟨obs, xs, hq, hv, h1⟩ := hq
    refine ⟨a, .inl ⟨rfl, rfl⟩, sim_local h sim (by rw [hpc]; rfl) ?_⟩
    rw [observe_pending hq]
    refine ⟨_, s.l.toList, rfl, view_self h.ok.ord, ?_⟩
    intro hg
    exact .inr (dup_legal (by rw [sim.leaf]; exact hf) (by rw [sim.leaf]; exact hr)
      (by rw [sim.leaf]; exact hg))
  | @roll t k v i hpc =>
    have g := good_roll (r := .ins (rollbackRes (clearSlot s.l.w i))) h hpc
    have hq := sim.pcs t
    rw [hpc] at hq
    obtain ⟨obs, hq, h1⟩ := hq
    have hs : (s.pc t).slot = some i := by rw [hpc]; rfl
    have hpi : pend s.pc i = true := pend_iff.2 ⟨t, hs⟩
    have hP := pend_release (p := Pc.done (.ins (rollbackRes (clearSlot s.l.w i)))) hs rfl
      (fun u hu => h.excl u t i hu hs)
    obtain ⟨hi, _⟩ := h.ok.pend i hpi
    obtain ⟨o, hR⟩ := h.ok.rollback hpi
    have htl : ({ s.l with w := clearSlot s.l.w i } : Leaf K V).toList = s.l.toList :=
      toList_congr h.ok.ord o.ord (holds_congr hR (fun _ _ _ => rfl))
    have hcf : frozen (clearSlot s.l.w i) = frozen s.l.w := by
      rw [clearSlot_eq, frozen_augment _ hi (by omega)]
    have hcr : retired (clearSlot s.l.w i) = retired s.l.w := by
      rw [clearSlot_eq, retired_augment _ hi (by omega)]
    refine ⟨a, .inl ⟨rfl, rfl⟩, sim_quiet h sim rfl ?_ ?_ ?_⟩
    · refine ⟨g.keep, ?_, ?_, ?_⟩
      · intro h1; show retired (clearSlot s.l.w i) = true; rw [hcr]; exact h1
      · intro _ h1; show frozen (clearSlot s.l.w i) = true; rw [hcf]; exact h1
      · intro j e hj hrj hgone
        have : Ranked (clearSlot s.l.w i) j := (hR j hj).2 hrj
        exact absurd hgone (by have := this.2; show rank (clearSlot s.l.w i) j ≠ removed; omega)
    · show absLeaf { s.l with w := clearSlot s.l.w i } (pend (upd s.pc t _)) = _
      rw [hP]
      unfold absLeaf
      simp only [htl, settled_rollback hi hpi, hcf, hcr]
    · rw [observe_pending hq]
      refine .inr ⟨_, _, rfl, ?_⟩
      unfold rollbackRes
      rw [hcf, hcr]
      by_cases hr : retired s.l.w = true
      · rw [if_pos hr]; exact .inr (retired_legal (by rw [sim.leaf]; exact hr))
      · rw [if_neg hr]
        simp only [Bool.not_eq_true] at hr
        by_cases hf : frozen s.l.w = true
        · rw [if_pos hf]
          exact .inr (frozen_legal (by rw [sim.leaf]; exact hr) (by rw [sim.leaf]; exact hf))
        · rw [if_neg hf]
          rcases h1 with h1 | h1 | ⟨_, h1⟩
          · exact .inl h1
          · rw [hr] at h1; cases h1
          · exact absurd h1 hf
  | @remLoad t k c hpc =>
    have hq := sim.pcs t
    rw [hpc] at hq
    obtain ⟨obs, hq⟩ := hq
    refine ⟨a, .inl ⟨rfl, rfl⟩, sim_local h sim (by rw [hpc]; rfl) ?_⟩
    rw [observe_pending hq]
    refine ⟨_, s.l.toList, rfl, view_self h.ok.ord, ?_, ?_, ?_⟩
    · intro hf; exact .inr (rfrozen_legal (by rw [sim.leaf]; exact hf))
    · intro hf hg; exact .inr (fail_legal (by rw [sim.leaf]; exact hf) (by rw [sim.leaf]; exact hg))
    · intro j e hj hr _ _ hrm
      have := hr.2
      omega
  | @remFrozen t k c w hpc hf =>
    have hq := sim.pcs t
    rw [hpc] at hq
    obtain ⟨obs, xs, hq, hv, h1, _⟩ := hq
    refine ⟨a, .inl ⟨rfl, rfl⟩, sim_local h sim (by rw [hpc]; rfl) ?_⟩
    rw [observe_pending hq]
    exact .inr ⟨_, _, rfl, .inl (h1 hf)⟩
  | @remMiss t k c w hpc hf hss =>
    have hq := sim.pcs t
    rw [hpc] at hq
    obtain ⟨obs, xs, hq, hv, h1, h2, _⟩ := hq
    refine ⟨a, .inl ⟨rfl, rfl⟩, sim_local h sim (by rw [hpc]; rfl) ?_⟩
    rw [observe_pending hq]
    refine .inr ⟨_, _, rfl, .inl (h2 hf ?_)⟩
    intro e he
    have h3 : ((s.at w).searchSlot k w).isSome = (Leaf.Spec.get xs k).isSome := hv.searchSlot k
    rw [hss, he] at h3; cases h3
  | @remFound t k c w i hpc hf hss =>
    have hq := sim.pcs t
    rw [hpc] at hq
    obtain ⟨obs, xs, hq, hv, h1, h2, h3⟩ := hq
    have hp := h.pcs t
    rw [hpc] at hp
    obtain ⟨b1, b2, v, b3⟩ := searchSlot_some (l := s.at w) (w := w) hp.ord hss
    have hin : (k, v) ∈ xs := (hv.mem _).2 ⟨i, b1, b2, b3⟩
    have hget := (get_iff hv.sorted).2 ⟨hin, rfl⟩
    refine ⟨a, .inl ⟨rfl, rfl⟩, sim_local h sim (by rw [hpc]; rfl) ?_⟩
    rw [observe_pending hq]
    refine ⟨_, rfl, ?_, ?_⟩
    · intro hgone
      exact .inl (h3 i (k, v) b1 b2 b3 rfl hgone)
    · intro e he hc
      refine .inl (h2 hf ?_)
      intro e' he'
      rw [hget] at he'; cases he'
      have b3' : s.l.entry i = some (k, v) := b3
      rw [b3'] at he; cases he; exact hc
  | @remKeep t k c i w e hpc he hc =>
    have hq := sim.pcs t
    rw [hpc] at hq
    obtain ⟨obs, hq, h1, h2⟩ := hq
    refine ⟨a, .inl ⟨rfl, rfl⟩, sim_local h sim (by rw [hpc]; rfl) ?_⟩
    rw [observe_pending hq]
    exact .inr ⟨_, _, rfl, .inl (h2 e he hc)⟩
  | @remOk t k c i w e hpc he hc hw =>
    have g := good_remove (r := .rem (if emptyBut w i then .retired else .success)) h hpc hw
    have hq := sim.pcs t
    rw [hpc] at hq
    obtain ⟨obs, hq, _, _⟩ := hq
    have hp := h.pcs t
    rw [hpc] at hp
    subst hw
    obtain ⟨hsn, hf, hi, hr, v, he'⟩ := hp
    rw [he'] at he
    cases he
    have hP : pend (upd s.pc t (.done (.rem (if emptyBut s.l.w i then .retired else .success)))) =
      pend s.pc := pend_same (by rw [hpc]; rfl)
    obtain ⟨o, hR⟩ := h.ok.remove hi hr
    have v0 := view_self h.ok.ord
    have v1 := view_self (l := { s.l with w := removeWord s.l.w i }) o.ord
    have hget : Leaf.Spec.get s.l.toList k = some (k, v) :=
      (get_iff v0.sorted).2 ⟨(v0.mem _).2 ⟨i, hi, hr, he'⟩, rfl⟩
    have hxs : ({ s.l with w := removeWord s.l.w i } : Leaf K V).toList =
        Leaf.Spec.del s.l.toList k := by
      refine sorted_ext v1.sorted (sorted_filter v0.sorted _) ?_
      intro e
      rw [v1.mem, mem_del, v0.mem]
      constructor
      · rintro ⟨j, h1, h2, h3⟩
        have h4 := (hR j h1).1 h2
        refine ⟨⟨j, h1, h4.1, h3⟩, ?_⟩
        intro hk
        exact h4.2 (h.ok.ord.key_inj h1 hi h4.1 hr h3 he' hk)
      · rintro ⟨⟨j, h1, h2, h3⟩, hk⟩
        refine ⟨j, h1, (hR j h1).2 ⟨h2, ?_⟩, h3⟩
        intro e'; subst e'
        rw [he'] at h3; cases h3; exact hk rfl
    have hemp : (Leaf.Spec.del s.l.toList k).isEmpty = emptyBut s.l.w i := by
      rw [← hxs, Bool.eq_iff_iff, emptyBut_iff, List.isEmpty_iff]
      constructor
      · intro hnil j hj hji hrj
        obtain ⟨e, hej⟩ := h.ok.ord.init j hj hrj
        have := (v1.mem e).2 ⟨j, hj, (hR j hj).2 ⟨hrj, hji⟩, hej⟩
        rw [hnil] at this; cases this
      · intro hall
        cases hd : ({ s.l with w := removeWord s.l.w i } : Leaf K V).toList with
        | nil => rfl
        | cons e es =>
          have : e ∈ ({ s.l with w := removeWord s.l.w i } : Leaf K V).toList := by
            rw [hd]; exact List.mem_cons_self ..
          obtain ⟨j, h1, h2, _⟩ := (v1.mem e).1 this
          have h3 := (hR j h1).1 h2
          exact absurd h3.1 (hall j h1 h3.2)
    have hact : Spec.act (.remove k c) a.leaf =
        (absLeaf { s.l with w := removeWord s.l.w i } (pend s.pc),
          .rem (if emptyBut s.l.w i then .retired else .success)) := by
      rw [sim.leaf]
      simp only [Spec.act, SLeaf.removeIf, absLeaf, hf, Bool.false_eq_true, if_false, hget, hc,
        Bool.not_true, hemp]
      rw [hxs, settled_remove hi hr, removeWord_frozen hi, removeWord_retired hi, hf]
      by_cases he2 : emptyBut s.l.w i = true
      · rw [he2] at hemp
        rw [List.isEmpty_iff.1 hemp]
        simp only [he2, if_true, Bool.true_or]
      · have he3 : emptyBut s.l.w i = false := by simpa using he2
        simp only [he3, Bool.false_eq_true, if_false, Bool.false_or]
    refine ⟨_, .inr (.lin hq), sim_of h sim rfl ?_ ?_ ?_ ?_⟩
    · refine ⟨g.keep, ?_, ?_, ?_⟩
      · intro h1
        show retired (removeWord s.l.w i) = true
        rw [removeWord_retired hi, h1, Bool.or_true]
      · intro _ h1; rw [hf] at h1; cases h1
      · intro j e hj hrj hgone hje
        have hji : j = i := by
          refine Classical.byContradiction fun hne => ?_
          have : Ranked (removeWord s.l.w i) j := (hR j hj).2 ⟨hrj, hne⟩
          exact absurd hgone (by have := this.2; show rank (removeWord s.l.w i) j ≠ removed; omega)
        subst hji
        rw [he'] at hje
        cases hje
        show (Spec.act (.remove k c) a.leaf).1.frozen = false ∧
          Leaf.Spec.get (Spec.act (.remove k c) a.leaf).1.xs k = none
        rw [hact]
        refine ⟨by show frozen (removeWord s.l.w j) = false; rw [removeWord_frozen hi, hf], ?_⟩
        show Leaf.Spec.get ({ s.l with w := removeWord s.l.w j } : Leaf K V).toList k = none
        rw [hxs]
        cases hx : Leaf.Spec.get (Leaf.Spec.del s.l.toList k) k with
        | none => rfl
        | some x =>
          obtain ⟨x1, x2⟩ := get_some hx
          exact absurd x2 (mem_del.1 x1).2
    · show (Spec.act (.remove k c) a.leaf).1 =
        absLeaf { s.l with w := removeWord s.l.w i } (pend (upd s.pc t _))
      rw [hP, hact]
    · intro u hu; simp [Spec.St.setPc, hu]
    · left
      simp only [Spec.St.observe, Spec.St.setPc, if_true]
      rw [hact]
  | @remGone t k c i w e hpc he hc hw hg =>
    have hq := sim.pcs t
    rw [hpc] at hq
    obtain ⟨obs, hq, h1, h2⟩ := hq
    refine ⟨a, .inl ⟨rfl, rfl⟩, sim_local h sim (by rw [hpc]; rfl) ?_⟩
    rw [observe_pending hq]
    exact .inr ⟨_, _, rfl, .inl (h1 hg)⟩
  | @remFroze t k c i w e hpc he hc hw hg hf =>
    have hq := sim.pcs t
    rw [hpc] at hq
    obtain ⟨obs, hq, h1, h2⟩ := hq
    refine ⟨a, .inl ⟨rfl, rfl⟩, sim_local h sim (by rw [hpc]; rfl) ?_⟩
    rw [observe_pending hq]
    exact .inr ⟨_, _, rfl, .inr (rfrozen_legal (by rw [sim.leaf]; exact hf))⟩
  | @remRetry t k c i w e hpc he hc hw hg hf =>
    have hq := sim.pcs t
    rw [hpc] at hq
    obtain ⟨obs, hq, h1, h2⟩ := hq
    refine ⟨a, .inl ⟨rfl, rfl⟩, sim_local h sim (by rw [hpc]; rfl) ?_⟩
    rw [observe_pending hq]
    exact ⟨_, rfl, fun h => .inl (h1 h), fun e he hc => .inl (h2 e he hc)⟩
  | @askLoad t q hpc =>
    have hq := sim.pcs t
    rw [hpc] at hq
    obtain ⟨obs, hq⟩ := hq
    refine ⟨a, .inl ⟨rfl, rfl⟩, sim_local h sim (by rw [hpc]; rfl) ?_⟩
    rw [observe_pending hq]
    refine ⟨_, s.l.toList, rfl, view_self h.ok.ord, .inr (.inl ?_)⟩
    rw [sim.leaf]; rfl
  | @askDone t q w hpc =>
    have hq := sim.pcs t
    rw [hpc] at hq
    obtain ⟨obs, xs, hq, hv, h1⟩ := hq
    refine ⟨a, .inl ⟨rfl, rfl⟩, sim_local h sim (by rw [hpc]; rfl) ?_⟩
    rw [observe_pending hq]
    refine .inr ⟨_, _, rfl, .inl ?_⟩
    have : ask (s.at w) q = Spec.ask xs q := answer_eq hv q
    rw [this]; exact h1
  | @freeze t hpc =>
    have hq := sim.pcs t
    rw [hpc] at hq
    obtain ⟨obs, hq⟩ := hq
    refine ⟨_, .inr (.lin hq), sim_flag h sim (by rw [hpc]; rfl) ?_ ?_ ?_ ?_ ?_⟩
    · unfold Leaf.freezeLeaf; split
      · exact ⟨rfl, h.ok, fun _ _ => rfl, rfl⟩
      · exact ⟨rfl, h.ok.freeze, fun j hj => rank_freeze _ hj, by simp⟩
    · intro _ h1
      unfold Leaf.freezeLeaf; rw [if_pos h1]; exact h1
    · rw [sim.leaf]
      simp only [Spec.act, absLeaf, Spec.St.setPc]
      unfold Leaf.freezeLeaf; split
      · rename_i h1; rw [h1]
      · simp
    · intro u hu; simp [Spec.St.setPc, hu]
    · simp only [Spec.act, sim.leaf, absLeaf, Spec.St.setPc, if_true]
      unfold Leaf.freezeLeaf; split
      · rename_i h1; rw [h1]; rfl
      · rename_i h1
        simp only [Bool.not_eq_true] at h1
        rw [h1]; rfl
  | @thaw t hpc =>
    have hq := sim.pcs t
    rw [hpc] at hq
    obtain ⟨obs, hq⟩ := hq
    refine ⟨_, .inr (.lin hq), sim_flag h sim (by rw [hpc]; rfl) ?_ ?_ ?_ ?_ ?_⟩
    · unfold Leaf.thawLeaf; split
      · exact ⟨rfl, h.ok.thaw, fun j hj => rank_thaw _ hj, by simp⟩
      · exact ⟨rfl, h.ok, fun _ _ => rfl, rfl⟩
    · intro h1
      exact absurd hpc (hth h1 t)
    · rw [sim.leaf]
      simp only [Spec.act, absLeaf, Spec.St.setPc]
      unfold Leaf.thawLeaf; split
      · simp
      · rename_i h1
        simp only [Bool.not_eq_true] at h1
        rw [h1]
    · intro u hu; simp [Spec.St.setPc, hu]
    · simp only [Spec.act, sim.leaf, absLeaf, Spec.St.setPc, if_true]
      unfold Leaf.thawLeaf; split
      · rename_i h1; rw [h1]
      · rename_i h1
        simp only [Bool.not_eq_true] at h1
        rw [h1]

theorem ExecIn.last {Q : St K V → Prop} {i s : St K V} {es : List (Event K V)} (ex : ExecIn Q i es s) :
    Q s := by
  cases ex <;> assumption

theorem absLeaf_new : absLeaf (Leaf.new : Leaf K V) (fun _ => false) = SLeaf.new := by
  have o := (ok_new (K := K) (V := V)).ord
  have v := view_self o
  have hnr : ∀ j, j < numEntries → ¬ Ranked (Leaf.new : Leaf K V).w j := by
    intro j hj h
    have : rank (Leaf.new : Leaf K V).w j = 0 := by
      have : ∀ j, j < numEntries → rank (Leaf.new : Leaf Unit Unit).w j = 0 := by decide
      exact this j hj
    have := h.1
    omega
  have hnil : (Leaf.new : Leaf K V).toList = [] := by
    cases h : (Leaf.new : Leaf K V).toList with
    | nil => rfl
    | cons e es =>
      obtain ⟨j, h1, h2, _⟩ := (v.mem e).1 (by rw [h]; exact List.mem_cons_self ..)
      exact absurd h2 (hnr j h1)
  unfold absLeaf
  rw [hnil]
  have h1 : settled (Leaf.new : Leaf Unit Unit).w (fun _ => false) = 0 := by decide +kernel
  have h2 : frozen (Leaf.new : Leaf Unit Unit).w = false := by decide +kernel
  have h3 : retired (Leaf.new : Leaf Unit Unit).w = false := by decide +kernel
  show SLeaf.mk _ (settled (Leaf.new : Leaf Unit Unit).w (fun _ => false))
    (frozen (Leaf.new : Leaf Unit Unit).w) (retired (Leaf.new : Leaf Unit Unit).w) = _
  rw [h1, h2, h3]
  rfl

/-- Every execution is one of the atomic object. -/
theorem sim_exec {sp : Bool} {Q : St K V → Prop} {es : List (Event K V)} {s : St K V}
    (ex : ExecIn Q St.init es s) (hth : sp = false → ∀ s, Q s → ∀ t, s.pc t ≠ .start .thaw) :
    ∃ a, Spec.Exec sp Spec.St.init es a ∧ Inv s ∧ Sim sp s a := by
  generalize hi : (St.init : St K V) = i at ex
  induction ex with
  | nil =>
    subst hi
    refine ⟨_, .nil, inv_init, ?_, fun _ => rfl⟩
    have : pend (St.init : St K V).pc = fun _ => false := by
      funext i; rw [pend_false]; intro t; simp [Pc.slot, St.init]
    rw [this]
    exact absLeaf_new.symm
  | @tau es1 s2 s3 ex' st hQ ih =>
    obtain ⟨a, h1, h2, h3⟩ := ih
    obtain ⟨a1, h4, h5⟩ := sim_step h2 h3 st (fun h => hth h _ ex'.last)
    refine ⟨_, ?_, inv_step h2 st, h5⟩
    rcases h4 with ⟨_, rfl⟩ | h4
    · exact .tau h1 .observe
    · exact .tau (.tau h1 h4) .observe
  | @event es1 s2 e s3 ex' st hQ ih =>
    obtain ⟨a, h1, h2, h3⟩ := ih
    obtain ⟨a1, h4, h5⟩ := sim_step h2 h3 st (fun h => hth h _ ex'.last)
    refine ⟨_, ?_, inv_step h2 st, h5⟩
    rcases h4 with ⟨h4, _⟩ | h4
    · cases h4
    · exact .tau (.event h1 h4) .observe

end Scc.LeafConc
