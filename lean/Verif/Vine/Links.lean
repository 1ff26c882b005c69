import Verif.Vine.Order

/-!
# Steps that change the linked list only
-/

namespace Scc.Vine

open Scc.Grove

local notation "Key" => Nat
local notation "Id" => Nat
local notation "Thr" => Nat

variable {V : Type} {w w' : View V} {d d' : Lst} {lt : Id → Id → Prop}

theorem upd_true {f : Id → Bool} {a b : Id} (h : upd f a true b = true) : b = a ∨ f b = true := by
  by_cases e : b = a
  · exact .inl e
  · rw [upd, if_neg e] at h; exact .inr h

/-- Leaf `z` comes right after leaf `x`. -/
def pushLt (lt : Id → Id → Prop) (x z : Id) : Id → Id → Prop := fun a b =>
  (a ≠ z ∧ b ≠ z ∧ lt a b) ∨ (a = z ∧ b ≠ z ∧ lt x b) ∨ (b = z ∧ a ≠ z ∧ (a = x ∨ lt a x))

theorem pushLt_old {x z a b : Id} (ha : a ≠ z) (hb : b ≠ z) : pushLt lt x z a b ↔ lt a b := by
  simp [pushLt, ha, hb]

theorem pushLt_left {x z b : Id} (hb : b ≠ z) : pushLt lt x z z b ↔ lt x b := by
  simp [pushLt, hb]

theorem pushLt_right {x z a : Id} (ha : a ≠ z) : pushLt lt x z a z ↔ a = x ∨ lt a x := by
  simp [pushLt, ha]

theorem pushLt_irr {x z : Id} : ¬ pushLt lt x z z z := by simp [pushLt]

theorem JobL.off {J : LJob} (K : JobL w d lt J) {lt' : Id → Id → Prop} {z : Id} (hz : ¬ J.mem z)
    (h1 : ∀ l, l ≠ z → d'.lst l = d.lst l) (h2 : ∀ l, l ≠ z → d'.gone l = d.gone l)
    (h3 : ∀ a b, a ≠ z → b ≠ z → (lt' a b ↔ lt a b)) : JobL w d' lt' J := by
  have nx : J.x ≠ z := fun e => hz (e ▸ J.mem_x)
  have nl : J.xl ≠ z := fun e => hz (e ▸ J.mem_l)
  have nh : J.xh ≠ z := fun e => hz (e ▸ J.mem_h)
  obtain ⟨k1, k2, k3, k4, k5, k6, k7, k8, k9, k10, k11, k12, k13, k14, k15, k16, k17, k18, k19, k20, k21, k22, k23, k24, k25,
    k26, k27, k28⟩ := K
  rw [← h1 _ nx] at k3
  simp only [← h1 _ nl, ← h1 _ nh, ← h2 _ nx, ← h2 _ nl, ← h2 _ nh, ← h3 _ _ nx nl, ← h3 _ _ nx nh, ← h3 _ _ nl nh] at *
  exact ⟨k1, k2, k3, k4, k5, k6, k7, k8, k9, k10, k11, k12, k13, k14, k15, k16, k17, k18, k19, k20, k21, k22, k23, k24, k25,
    k26, k27, k28⟩

/-- A leaf is linked behind the one that it replaces. -/
theorem VInv.push (W : World w) (I : VInv w d lt) {n : Id} {J : LJob} {z : Id} (hj : w.job n = some J)
    (hz : z = J.xl ∨ z = J.xh) (hs : J.st = .copy ∨ J.st = .split) (hg : d.gone J.x = false) (hl : d.lst z = false)
    (hh : J.st = .split → z = J.xl → d.lst J.xh = true) (hh' : J.st = .split → z = J.xh → d.lst J.xl = false) :
    VInv w (d.push J.x z) (pushLt lt J.x z) := by
  have K := I.jobs n J hj
  have hx := K.lst
  have hne : J.x ≠ z := fun e => by rw [e, hl] at hx; cases hx
  have ho : w.org J.x z := ⟨n, J, hj, rfl, hz⟩
  have lst_ne : ∀ l, d.lst l = true → l ≠ z := fun l h e => by rw [e, hl] at h; cases h
  have lst' : ∀ l, (d.push J.x z).lst l = true → l = z ∨ d.lst l = true := fun l h => upd_true h
  have lstz : (d.push J.x z).lst z = true := by simp [Lst.push, upd]
  have lsto : ∀ l, l ≠ z → (d.push J.x z).lst l = d.lst l := fun l h => by simp [Lst.push, upd, h]
  have lstm : ∀ l, d.lst l = true → (d.push J.x z).lst l = true := fun l h => by rw [lsto l (lst_ne l h)]; exact h
  have gone : (d.push J.x z).gone = d.gone := rfl
  have unlit : ∀ y, y = J.xl ∨ y = J.xh → ¬ w.lit y := by
    rintro y (rfl | rfl)
    · exact W.unlitL n J hj (by rcases hs with e | e <;> simp [e])
    · exact W.unlitH n J hj (by rcases hs with e | e <;> simp [e]) (by rcases hs with e | e <;> simp [e])
  have inx : ∀ n' J', w.job n' = some J' → J'.mem J.x → J' = J := fun n' J' h hm => I.same h hj hm J.mem_x
  refine ⟨?_, ?_, ?_, ?_, ?_, ?_, ?_, ?_, I.sep, ?_, ?_, ?_, ?_, I.litOrd⟩
  · intro l h
    rcases lst' l h with rfl | h
    · exact I.org_al ho
    · exact I.alL l h
  · intro l h
    have e : l ≠ z := fun e => by rw [e, lstz] at h; cases h
    have e' : l ≠ J.x := fun e => by rw [e, lstm _ hx] at h; cases h
    rw [lsto l e] at h
    obtain ⟨a, b⟩ := I.off l h
    refine ⟨?_, b⟩
    simp only [Lst.push, upd, if_neg e, if_neg e']
    exact a
  · intro a h
    by_cases e : a = z
    · subst e; exact pushLt_irr h
    · exact I.irr a ((pushLt_old e e).1 h)
  · intro a b c h1 h2
    by_cases eb : b = z
    · subst eb
      have ea : a ≠ b := fun e => by subst e; exact pushLt_irr h1
      have ec : c ≠ b := fun e => by subst e; exact pushLt_irr h2
      rw [pushLt_right ea] at h1
      rw [pushLt_left ec] at h2
      rw [pushLt_old ea ec]
      rcases h1 with rfl | h1
      · exact h2
      · exact I.trans _ _ _ h1 h2
    · by_cases ea : a = z
      · subst ea
        rw [pushLt_left eb] at h1
        by_cases ec : c = a
        · subst ec
          rw [pushLt_right eb] at h2
          rcases h2 with rfl | h2
          · exact absurd h1 (I.irr _)
          · exact absurd (I.trans _ _ _ h1 h2) (I.irr _)
        · rw [pushLt_old eb ec] at h2
          rw [pushLt_left ec]
          exact I.trans _ _ _ h1 h2
      · rw [pushLt_old ea eb] at h1
        by_cases ec : c = z
        · subst ec
          rw [pushLt_right eb] at h2
          rw [pushLt_right ea]
          rcases h2 with rfl | h2
          · exact .inr h1
          · exact .inr (I.trans _ _ _ h1 h2)
        · rw [pushLt_old eb ec] at h2
          rw [pushLt_old ea ec]
          exact I.trans _ _ _ h1 h2
  · intro a b ha hb
    by_cases ea : a = z
    · subst ea
      by_cases eb : b = a
      · exact .inr (.inl eb.symm)
      · have hb := (lst' b hb).resolve_left eb
        rw [pushLt_left eb, pushLt_right eb]
        rcases I.tot _ _ hx hb with h | h | h
        · exact .inl h
        · exact .inr (.inr (.inl h.symm))
        · exact .inr (.inr (.inr h))
    · have ha' := (lst' a ha).resolve_left ea
      by_cases eb : b = z
      · subst eb
        rw [pushLt_left ea, pushLt_right ea]
        rcases I.tot _ _ hx ha' with h | h | h
        · exact .inr (.inr h)
        · exact .inl (.inl h.symm)
        · exact .inl (.inr h)
      · have hb := (lst' b hb).resolve_left eb
        rw [pushLt_old ea eb, pushLt_old eb ea]
        exact I.tot a b ha' hb
  · intro a b h
    rw [gone]
    by_cases ex : a = J.x
    · subst ex
      have : b = z := by simpa [Lst.push, upd] using h.symm
      subst this
      refine ⟨lstz, (pushLt_right hne).2 (.inl rfl), fun c hc h1 h2 => ?_⟩
      have ec : c ≠ b := fun e => by subst e; exact absurd h2 pushLt_irr
      rw [pushLt_old hne ec] at h1
      rw [pushLt_right ec] at h2
      rcases h2 with rfl | h2
      · exact absurd h1 (I.irr _)
      · exact absurd (I.trans _ _ _ h1 h2) (I.irr _)
    · by_cases ez : a = z
      · subst ez
        have hl' : d.link J.x = some b := by simpa [Lst.push, upd, ex] using h
        obtain ⟨a1, a2, a3⟩ := I.link _ _ hl'
        have eb := lst_ne b a1
        refine ⟨lstm b a1, (pushLt_left eb).2 a2, fun c hc h1 h2 => ?_⟩
        have ec : c ≠ a := fun e => by subst e; exact absurd h1 pushLt_irr
        rw [pushLt_left ec] at h1
        rw [pushLt_old ec eb] at h2
        exact a3 c ((lst' c hc).resolve_left ec) h1 h2
      · have hl' : d.link a = some b := by simpa [Lst.push, upd, ex, ez] using h
        obtain ⟨a1, a2, a3⟩ := I.link _ _ hl'
        have eb := lst_ne b a1
        refine ⟨lstm b a1, (pushLt_old ez eb).2 a2, fun c hc h1 h2 => ?_⟩
        by_cases ec : c = z
        · subst ec
          rw [pushLt_right ez] at h1
          rw [pushLt_left eb] at h2
          have := a3 _ hx (h1.resolve_left ex) h2
          rw [hg] at this; cases this
        · rw [pushLt_old ez ec] at h1
          rw [pushLt_old ec eb] at h2
          exact a3 c ((lst' c hc).resolve_left ec) h1 h2
  · intro a ha hn c hc h
    have ex : a ≠ J.x := fun e => by simp [Lst.push, upd, e] at hn
    by_cases ez : a = z
    · subst ez
      have hl' : d.link J.x = none := by simpa [Lst.push, upd, ex] using hn
      have ec : c ≠ a := fun e => by subst e; exact absurd h pushLt_irr
      exact I.last _ hx hl' c ((lst' c hc).resolve_left ec) ((pushLt_left ec).1 h)
    · have hl' : d.link a = none := by simpa [Lst.push, upd, ex, ez] using hn
      have ha' := (lst' a ha).resolve_left ez
      by_cases ec : c = z
      · subst ec
        rcases I.last a ha' hl' _ hx (((pushLt_right ez).1 h).resolve_left ex) with q | ⟨_, q, _⟩
        · rw [hg] at q; cases q
        · exact absurd J.mem_x (q n J hj)
      · exact I.last a ha' hl' c ((lst' c hc).resolve_left ec) ((pushLt_old ez ec).1 h)
  · intro n' J' h'
    by_cases hm : J'.mem z
    · have e := I.same h' hj hm (LJob.mem_copy hz)
      subst e
      obtain ⟨k1, k2, k3, k4, k5, k6, k7, k8, k9, k10, k11, k12, k13, k14, k15, k16, k17, k18, k19, k20, k21, k22, k23, k24, k25,
        k26, k27, k28⟩ := K
      refine ⟨k1, k2, lstm _ k3, k4, k5, k6, k7, ?_, ?_, ?_, k11, k12, k13, k14, ?_, ?_, ?_, k18, k19, k20, k21, k22, k23, k24, k25,
        k26, k27, k28⟩
      · intro _ h
        rw [gone, hg] at h; cases h
      · intro e h
        by_cases e1 : J'.xh = z
        · rw [e1]; exact lstz
        · have : z = J'.xl := hz.resolve_right fun e => e1 e.symm
          rw [lsto _ e1]
          exact hh e this
      · intro e1 e2
        rcases hs with e | e
        · exact absurd e e1
        · exact absurd e e2
      · intro h
        by_cases e : J'.xl = z
        · rw [e]; exact (pushLt_right hne).2 (.inl rfl)
        · rw [lsto _ e] at h
          exact (pushLt_old hne e).2 (k15 h)
      · intro h
        by_cases e : J'.xh = z
        · rw [e]; exact (pushLt_right hne).2 (.inl rfl)
        · rw [lsto _ e] at h
          exact (pushLt_old hne e).2 (k16 h)
      · intro hc h1 h2
        have e := hs.resolve_left hc
        by_cases e1 : J'.xl = z
        · have e2 : J'.xh ≠ z := fun e2 => k7 hc (e1.trans e2.symm)
          rw [e1]
          rw [lsto _ e2] at h2
          exact (pushLt_left e2).2 (k16 h2)
        · have e2 : z = J'.xh := hz.resolve_left fun e => e1 e.symm
          rw [lsto _ e1] at h1
          rw [hh' e e2] at h1; cases h1
    · exact (I.jobs n' J' h').off hm lsto (fun _ _ => rfl) (fun a b ha hb => pushLt_old ha hb)
  · intro n' J' a b c h' ha hb la lb lc hc
    by_cases hm : J'.mem z
    · have e := I.same h' hj hm (LJob.mem_copy hz)
      subst e
      have ec : c ≠ z := fun e => hc (e ▸ hm)
      have ec' : c ≠ J'.x := fun e => hc (e ▸ J'.mem_x)
      have lc := (lst' c lc).resolve_left ec
      have key : ∀ a, J'.mem a → (d.push J'.x z).lst a = true → (pushLt lt J'.x z c a ↔ lt c J'.x) ∧ (pushLt lt J'.x z a c ↔ lt J'.x c) := by
        intro a ha la
        by_cases e : a = z
        · subst e
          rw [pushLt_left ec, pushLt_right ec]
          exact ⟨⟨fun h => h.resolve_left ec', .inr⟩, Iff.rfl⟩
        · have la := (lst' a la).resolve_left e
          rw [pushLt_old ec e, pushLt_old e ec]
          exact I.adj _ _ _ _ _ h' ha J'.mem_x la hx lc hc
      obtain ⟨a1, a2⟩ := key a ha la
      obtain ⟨b1, b2⟩ := key b hb lb
      exact ⟨a1.trans b1.symm, a2.trans b2.symm⟩
    · have ea : a ≠ z := fun e => hm (e ▸ ha)
      have eb : b ≠ z := fun e => hm (e ▸ hb)
      have la' := (lst' a la).resolve_left ea
      have lb' := (lst' b lb).resolve_left eb
      by_cases ec : c = z
      · subst ec
        have hx' : ¬ J'.mem J.x := fun e => hm (inx n' J' h' e ▸ LJob.mem_copy hz)
        obtain ⟨p, q⟩ := I.adj _ _ a b J.x h' ha hb la' lb' hx hx'
        rw [pushLt_left ea, pushLt_left eb, pushLt_right ea, pushLt_right eb]
        have na : a ≠ J.x := fun e => hx' (e ▸ ha)
        have nb : b ≠ J.x := fun e => hx' (e ▸ hb)
        simp only [na, nb, false_or]
        exact ⟨p, q⟩
      · have lc := (lst' c lc).resolve_left ec
        rw [pushLt_old ec ea, pushLt_old ec eb, pushLt_old ea ec, pushLt_old eb ec]
        exact I.adj _ _ a b c h' ha hb la' lb' lc hc
  · intro l h
    obtain ⟨a, b⟩ := I.lit l h
    exact ⟨lstm l a, b⟩
  · intro c k v hi h
    by_cases e : c = z
    · subst e
      have hu : w.on k c → False := fun h => unlit c hz ⟨k, h⟩
      have hget := I.copy_get W hj hz (by rw [h]; simp) hu
      rw [h] at hget
      rcases I.an J.x k v ⟨hx, hg⟩ hget with q | ⟨x', q, _⟩ | ⟨y, ⟨n', J', q1, q2, q3⟩, q4, _⟩
      · exact .inr (.inl ⟨J.x, ho, q⟩)
      · exact (I.org_org q ho).elim
      · have e := I.same q1 hj J'.mem_x (q2 ▸ J.mem_x)
        subst e
        exact absurd ⟨k, q4⟩ (unlit y q3)
    · exact I.an c k v ⟨(lst' c hi.1).resolve_left e, hi.2⟩ h
  · intro k1 k2 l1 l2 hk h1 h2 hne'
    rw [pushLt_old (lst_ne _ (I.lit l1 ⟨k1, h1⟩).1) (lst_ne _ (I.lit l2 ⟨k2, h2⟩).1)]
    exact I.ord k1 k2 l1 l2 hk h1 h2 hne'

/-- A leaf is deleted from the list. -/
theorem VInv.delete (I : VInv w d lt) {x : Id} (hx : d.lst x = true)
    (hl : w.lit x → w.dead x = true ∨ w.ret x = true ∨ ∃ n J, w.job n = some J ∧ J.st = .copy ∧ J.x = x)
    (hj : ∀ n J, w.job n = some J → J.mem x → JobL w (d.delete x) lt J) : VInv w (d.delete x) lt := by
  have mono : ∀ l, d.gone l = true → (d.delete x).gone l = true := by
    intro l h
    simp only [Lst.delete, upd]
    split
    · rfl
    · exact h
  have other : ∀ l, l ≠ x → (d.delete x).gone l = d.gone l := fun l h => by simp [Lst.delete, upd, h]
  refine ⟨I.alL, ?_, I.irr, I.trans, I.tot, ?_, ?_, ?_, I.sep, I.adj, ?_, ?_, I.ord, I.litOrd⟩
  · intro l h
    have e : l ≠ x := fun e => by rw [e] at h; exact absurd (hx.symm.trans h) (by simp)
    rw [other l e]
    exact I.off l h
  · intro a b h
    obtain ⟨a1, a2, a3⟩ := I.link a b h
    exact ⟨a1, a2, fun c hc h1 h2 => mono c (a3 c hc h1 h2)⟩
  · intro a ha h c hc h'
    rcases I.last a ha h c hc h' with q | q
    · exact .inl (mono c q)
    · exact .inr q
  · intro n J h
    by_cases hm : J.mem x
    · exact hj n J h hm
    · exact (I.jobs n J h).off hm (fun _ _ => rfl) other (fun _ _ _ _ => Iff.rfl)
  · intro l h
    obtain ⟨a, b⟩ := I.lit l h
    refine ⟨a, fun hg => ?_⟩
    by_cases e : l = x
    · subst e; exact hl h
    · rw [other l e] at hg; exact b hg
  · intro z k v hi h
    refine I.an z k v ⟨hi.1, ?_⟩ h
    cases hg : d.gone z with
    | false => rfl
    | true =>
      have := hi.2
      rw [mono z hg] at this; cases this

/-- A deleted leaf is skipped. -/
theorem VInv.skip (I : VInv w d lt) {a b : Id} (h : d.link a = some b) (hg : d.gone b = true) :
    VInv w { d with link := upd d.link a (d.link b) } lt := by
  obtain ⟨b1, b2, b3⟩ := I.link a b h
  refine ⟨I.alL, ?_, I.irr, I.trans, I.tot, ?_, ?_, fun n J h => ?_, I.sep, I.adj, I.lit, I.an, I.ord, I.litOrd⟩
  · intro l hl
    have e : l ≠ a := fun e => by
      have := (I.off l hl).1
      rw [e, h] at this; cases this
    simp only [upd, if_neg e]
    exact I.off l hl
  · intro a' c h'
    by_cases e : a' = a
    · subst e
      have h' : d.link b = some c := by simpa [upd] using h'
      obtain ⟨c1, c2, c3⟩ := I.link b c h'
      refine ⟨c1, I.trans _ _ _ b2 c2, fun e he h1 h2 => ?_⟩
      rcases I.tot e b he b1 with q | q | q
      · exact b3 e he h1 q
      · rw [q]; exact hg
      · exact c3 e he q h2
    · exact I.link a' c (by simpa [upd, e] using h')
  · intro a' ha h' c hc hlt
    by_cases e : a' = a
    · subst e
      have h' : d.link b = none := by simpa [upd] using h'
      rcases I.tot c b hc b1 with q | q | q
      · exact .inl (b3 c hc hlt q)
      · exact .inl (by rw [q]; exact hg)
      · exact I.last b b1 h' c hc q
    · exact I.last a' ha (by simpa [upd, e] using h') c hc hlt
  · obtain ⟨k1, k2, k3, k4, k5, k6, k7, k8, k9, k10, k11, k12, k13, k14, k15, k16, k17, k18, k19, k20, k21, k22, k23, k24, k25,
      k26, k27, k28⟩ := I.jobs n J h
    exact ⟨k1, k2, k3, k4, k5, k6, k7, k8, k9, k10, k11, k12, k13, k14, k15, k16, k17, k18, k19, k20, k21, k22, k23, k24, k25,
      k26, k27, k28⟩

/-- Marks do not matter. -/
theorem VInv.marks (I : VInv w d lt) (h1 : d'.link = d.link) (h2 : d'.gone = d.gone) (h3 : d'.lst = d.lst) : VInv w d' lt := by
  refine ⟨by rw [h3]; exact I.alL, by rw [h1, h2, h3]; exact I.off, I.irr, I.trans, by rw [h3]; exact I.tot, by rw [h1, h2, h3]; exact I.link,
    ?_, fun n J h => ?_, I.sep, by rw [h3]; exact I.adj, by rw [h2, h3]; exact I.lit, ?_, I.ord, I.litOrd⟩
  · intro a ha h c hc hlt
    rw [h3] at ha hc
    rw [h1] at h
    rcases I.last a ha h c hc hlt with q | q
    · exact .inl (by rw [h2]; exact q)
    · exact .inr q
  · obtain ⟨k1, k2, k3, k4, k5, k6, k7, k8, k9, k10, k11, k12, k13, k14, k15, k16, k17, k18, k19, k20, k21, k22, k23, k24, k25,
      k26, k27, k28⟩ := I.jobs n J h
    simp only [← h2, ← h3] at *
    exact ⟨k1, k2, k3, k4, k5, k6, k7, k8, k9, k10, k11, k12, k13, k14, k15, k16, k17, k18, k19, k20, k21, k22, k23, k24, k25,
      k26, k27, k28⟩
  · intro z k v hi h
    refine I.an z k v ⟨?_, ?_⟩ h
    · rw [← h3]; exact hi.1
    · rw [← h2]; exact hi.2

end Scc.Vine
