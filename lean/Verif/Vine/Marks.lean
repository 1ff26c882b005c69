import Verif.Vine.Touch

/-!
# What a leaf without a mark tells an iterator

A leaf is marked when its replacements are linked. As long as a leaf is neither marked nor deleted, what comes after it
in the linked list is greater than every key that it has ever had.
-/

namespace Scc.Vine

open Scc.Grove

local notation "Key" => Nat
local notation "Id" => Nat
local notation "Thr" => Nat

variable {V : Type} {m m' : Mem V} {d d' : Lst} {A A' : Key → Option V} {src src' : Ref → Ref} {lt lt' : Id → Id → Prop} {w w' : View V}

/-- The leaf is marked or deleted. -/
def Off (d : Lst) (c : Id) : Prop := d.gone c = true ∨ d.mark c = true

/-- Leaf `c` covers key `y`, unless it is marked or deleted. -/
def Hold (w : View V) (d : Lst) (c : Id) (y : Key) : Prop :=
  Off d c ∨ w.on y c ∨ ∃ x, w.org x c ∧ w.on y x ∧ w.get c y ≠ none

/-- Leaves with replacements in the linked list are marked. -/
def Marked (w : View V) (d : Lst) : Prop := ∀ n J, w.job n = some J → d.lst J.xl = true ∨ d.lst J.xh = true → d.mark J.x = true

/-- What comes after a leaf is not deleted, and is not marked. -/
theorem Off.mono (hg : ∀ l, d.gone l = true → d'.gone l = true) (hm : ∀ l, d.mark l = true → d'.mark l = true) {c : Id} (h : Off d c) : Off d' c :=
  h.imp (hg c) (hm c)

theorem not_clear {c : Id} (h : d.clear c = true) : ¬ Off d c := by
  intro ho
  simp only [Lst.clear, Bool.and_eq_true, Bool.not_eq_true'] at h
  rcases ho with h' | h'
  · rw [h.2] at h'; cases h'
  · rw [h.1] at h'; cases h'

section

variable (W : World w) (I : VInv w d lt) (M : Marked w d)

include W I

/-- Leaves that do not have to do with the same replacement are in the order of their keys. -/
theorem VInv.apart {z1 z2 a1 a2 : Id} {k1 k2 : Key} (hs : ¬ ∃ n J, w.job n = some J ∧ J.mem z1 ∧ J.mem z2) (i1 : d.lst z1 = true)
    (i2 : d.lst z2 = true) (o1 : w.on k1 a1) (r1 : z1 = a1 ∨ ∃ n J, w.job n = some J ∧ J.mem z1 ∧ J.mem a1)
    (o2 : w.on k2 a2) (r2 : z2 = a2 ∨ ∃ n J, w.job n = some J ∧ J.mem z2 ∧ J.mem a2) (hlt : lt z1 z2) : k1 < k2 := by
  have lb1 := (I.lit _ ⟨k1, o1⟩).1
  have lb2 := (I.lit _ ⟨k2, o2⟩).1
  have step1 : lt a1 z2 := by
    rcases r1 with rfl | ⟨n, J, hj, m1, m2⟩
    · exact hlt
    · exact ((I.adj n J z1 a1 z2 hj m1 m2 i1 lb1 i2 fun m => hs ⟨n, J, hj, m1, m⟩).2).1 hlt
  have step2 : lt a1 a2 := by
    rcases r2 with rfl | ⟨n, J, hj, m1, m2⟩
    · exact step1
    · refine ((I.adj n J z2 a2 a1 hj m1 m2 i2 lb2 lb1 fun m => ?_).1).1 step1
      rcases r1 with rfl | ⟨n', J', hj', m1', m2'⟩
      · exact hs ⟨n, J, hj, m, m1⟩
      · have e := I.same hj hj' m m2'
        subst e
        exact hs ⟨n, J, hj, m1', m1⟩
  have ane : a1 ≠ a2 := fun e => I.irr a1 (by rw [← e] at step2; exact step2)
  refine Classical.byContradiction fun hk => ?_
  have kne : k1 ≠ k2 := fun e => ane (W.uniq k1 _ _ o1 (e ▸ o2))
  rcases I.ord k2 k1 a2 a1 (by omega) o2 o1 ane.symm with ⟨n, J, hj, rfl, hz⟩ | ⟨q, _⟩
  · have ma1 := J.mem_x
    have ma2 := LJob.mem_copy hz
    have m1 : J.mem z1 := by
      rcases r1 with rfl | ⟨n', J', hj', m1', m2'⟩
      · exact ma1
      · exact I.same hj hj' ma1 m2' ▸ m1'
    have m2 : J.mem z2 := by
      rcases r2 with rfl | ⟨n', J', hj', m1', m2'⟩
      · exact ma2
      · exact I.same hj hj' ma2 m2' ▸ m1'
    exact hs ⟨n, J, hj, m1, m2⟩
  · exact I.irr _ (I.trans _ _ _ q step2)

include M

/-- What comes after a leaf that is clear is greater than its keys. -/
theorem VInv.after {c b : Id} {y q : Key} (lc : d.lst c = true) (hc : ¬ Off d c) (hy : Hold w d c y) (hb : In d b) (hlt : lt c b)
    (hq : w.get b q ≠ none) : y < q := by
  have ic : In d c := ⟨lc, by
    cases hg : d.gone c with
    | false => rfl
    | true => exact absurd (.inl hg) hc⟩
  have hy := hy.resolve_left hc
  obtain ⟨a2, o2, r2⟩ := I.anchor W hb hq
  by_cases hs : ∃ n J, w.job n = some J ∧ J.mem c ∧ J.mem b
  · obtain ⟨n, J, hj, m1, m2⟩ := hs
    have K := I.jobs n J hj
    have asym : ∀ a b, lt a b → lt b a → False := fun a b h h' => I.irr a (I.trans _ _ _ h h')
    have hne : c ≠ b := fun e => I.irr c (by rw [← e] at hlt; exact hlt)
    by_cases hg : w.get c y ≠ none
    · rcases I.within W hj m1 m2 ic hb hg hq hlt with h | ⟨n', J', hj', rfl, hz⟩
      · exact h
      · refine absurd (.inr (M n' J' hj' ?_)) hc
        rcases hz with rfl | rfl
        · exact .inl hb.1
        · exact .inr hb.1
    have ho : w.on y c := hy.resolve_right fun ⟨_, _, _, h⟩ => hg h
    rcases m1 with rfl | rfl | rfl
    · refine absurd (.inr (M n J hj ?_)) hc
      rcases m2 with rfl | rfl | rfl
      · exact absurd rfl hne
      · exact .inl hb.1
      · exact .inr hb.1
    · rcases m2 with rfl | rfl | rfl
      · exact (asym _ _ hlt (K.ltL lc)).elim
      · exact absurd rfl hne
      · have hcp : J.st ≠ .copy := fun hcp => hne (K.one hcp)
        have hL : w.org J.x J.xl := ⟨n, J, hj, rfl, .inl rfl⟩
        have hH : w.org J.x J.xh := ⟨n, J, hj, rfl, .inr rfl⟩
        obtain ⟨v, hv⟩ := Option.ne_none_iff_exists'.1 hq
        refine Classical.byContradiction fun hk => ?_
        rcases I.an _ q v hb hv with o | ⟨x, q1, q2⟩ | ⟨y', q1, _⟩
        · have : y ≠ q := fun e => hne (W.uniq y _ _ ho (e ▸ o))
          rcases I.ord q y _ _ (by omega) o ho hne.symm with r | ⟨r, _⟩
          · exact I.org_org hL r
          · exact asym _ _ r hlt
        · have := I.org_uniq q1 hH
          subst this
          have : y ≠ q := fun e => K.neL (W.uniq y _ _ ho (e ▸ q2))
          rcases I.ord q y _ _ (by omega) q2 ho K.neL.symm with r | ⟨_, r⟩
          · exact I.org_org hL r
          · exact r hL
        · exact (I.org_org hH q1).elim
    · rcases m2 with rfl | rfl | rfl
      · exact (asym _ _ hlt (K.ltH lc)).elim
      · have hcp : J.st ≠ .copy := fun hcp => hne (K.one hcp).symm
        exact (asym _ _ hlt (K.ltLH hcp hb.1 lc)).elim
      · exact absurd rfl hne
  · rcases hy with h | ⟨x, ⟨n, J, hj, rfl, hz⟩, h, _⟩
    · exact I.apart W hs lc hb.1 h (.inl rfl) o2 r2 hlt
    · exact I.apart W hs lc hb.1 h (.inr ⟨n, J, hj, LJob.mem_copy hz, J.mem_x⟩) o2 r2 hlt

/-- A leaf covers the keys that it has. -/
theorem VInv.hold {c : Id} {y : Key} (lc : d.lst c = true) (hg : w.get c y ≠ none) : Hold w d c y := by
  cases hgo : d.gone c with
  | true => exact .inl (.inl hgo)
  | false =>
    obtain ⟨v, hv⟩ := Option.ne_none_iff_exists'.1 hg
    rcases I.an c y v ⟨lc, hgo⟩ hv with h | ⟨x, h1, h2⟩ | ⟨z, ⟨n, J, hj, rfl, hz⟩, h, _⟩
    · exact .inr (.inl h)
    · exact .inr (.inr ⟨x, h1, h2, hg⟩)
    · have hl := (I.lit z ⟨_, h⟩).1
      refine .inl (.inr (M n J hj ?_))
      rcases hz with rfl | rfl
      · exact .inl hl
      · exact .inr hl

end

/-! ## Structural changes -/

section

variable (W : World w) (W' : World w') (I : VInv w d lt) (I' : VInv w' d' lt') (S : Shift w w' d) (M : Marked w d)
  (hl : d'.lst = d.lst) (hg : d'.gone = d.gone) (hm : d'.mark = d.mark)

include I S M hl hm

theorem Marked.shift : Marked w' d' := by
  intro n J h hq
  rw [hl] at hq
  rw [hm]
  rcases S.back h with ⟨st, hj, _⟩ | ⟨_, T⟩
  · exact M n { J with st := st } hj hq
  · obtain ⟨_, h1, h2, _⟩ := T.new
    rcases hq with hq | hq
    · rw [(I.new_off _ h1).1] at hq; cases hq
    · rw [(I.new_off _ h2).1] at hq; cases hq

include W W' I' hg

theorem Hold.shift (hf : ∀ k x, w.on k x → w'.on k x ∨ (w'.dead x = true ∧ ∃ y, w.org x y ∧ w'.on k y ∧ w.get y k = w.get x k) ∨
    (w.ret x = true ∧ d.gone x = true)) {c : Id} {y : Key} (h : Hold w d c y) : Hold w' d' c y := by
  have off : Off d c → Off d' c := Off.mono (fun l h => by rw [hg]; exact h) (fun l h => by rw [hm]; exact h)
  rcases h with h | h | ⟨x, h1, h2, h3⟩
  · exact .inl (off h)
  · rcases hf y c h with q | ⟨_, z, ⟨n, J, hj, rfl, hz⟩, q, _⟩ | ⟨_, q⟩
    · exact .inr (.inl q)
    · have hlz := (I'.lit z ⟨_, q⟩).1
      rw [hl] at hlz
      refine .inl (off (.inr (M n J hj ?_)))
      rcases hz with rfl | rfl
      · exact .inl hlz
      · exact .inr hlz
    · exact .inl (off (.inl q))
  · have non : ¬ w.on y c := fun ho => I.org_ne h1 (W.uniq y _ _ h2 ho)
    obtain ⟨n, J, hj, rfl, hz⟩ := id h1
    have get : w.get J.x y = w.get c y := I.copy_get W hj hz h3 non
    have gx : w.get J.x y ≠ none := by rw [get]; exact h3
    have get' : w'.get c y ≠ none := by rw [S.get c (I.org_al h1)]; exact h3
    have same : ∀ z, w.org J.x z → w'.on y z → w.get z y = w.get J.x y → w'.on y c := by
      rintro z ⟨n', J', hj', e, hz'⟩ ho hgz
      have := I.same hj' hj J'.mem_x (e ▸ J.mem_x)
      subst this
      have nz : ¬ w.on y z := fun ho => I.org_ne ⟨n', J', hj', rfl, hz'⟩ (W.uniq y _ _ h2 ho)
      have : z = c := I.copy_apart W hj hz' hz h3 non (by rw [hgz]; exact gx) nz
      rw [← this]; exact ho
    rcases hf y J.x h2 with q | ⟨_, z, q1, q2, q3⟩ | ⟨q, _⟩
    · rcases I.shift_org S h1 with ho | ⟨n', J', hj', hn', T, e, _⟩
      · exact .inr (.inr ⟨_, ho, q, get'⟩)
      · have := I.same hj' hj J'.mem_x (e ▸ J.mem_x)
        subst this
        rcases I.ended_unlit W' S hj' hn' T with hs | hu
        · rcases I.ended_gone S hj' T with g | ⟨_, g1, g2, _⟩
          · have K := I.jobs _ _ hj'
            have := K.goneX g
            rw [hs] at this
            simp at this
          · refine .inl (off (.inl ?_))
            rcases hz with rfl | rfl
            · exact g1
            · exact g2
        · exact absurd ⟨_, q⟩ hu
    · exact .inr (.inl (same z q1 q2 q3))
    · exact absurd (W.empty _ _ q) gx

end

/-! ## Calls, and changes of the linked list -/

theorem Hold.same (ho : w'.on = w.on) (hj : w'.job = w.job) (hg : w'.get = w.get) (h1 : ∀ l, d.gone l = true → d'.gone l = true)
    (h2 : ∀ l, d.mark l = true → d'.mark l = true) {c : Id} {y : Key} (h : Hold w d c y) : Hold w' d' c y := by
  simp only [Hold, View.org, ho, hj, hg] at h ⊢
  exact h.imp (Off.mono h1 h2) id

theorem Hold.none (hu : ∀ l, ¬ w.lit l) (h1 : ∀ l, d.gone l = true → d'.gone l = true)
    (h2 : ∀ l, d.mark l = true → d'.mark l = true) {c : Id} {y : Key} (h : Hold w d c y) : Hold w' d' c y := by
  rcases h with h | h | ⟨x, _, h, _⟩
  · exact .inl (Off.mono h1 h2 h)
  · exact absurd ⟨_, h⟩ (hu _)
  · exact absurd ⟨_, h⟩ (hu _)

/-- An entry is added to a leaf, or taken away from it. -/
theorem Hold.set (W : World w) (I : VInv w d lt) {k : Key} {l : Id} {g : Key → Option V} (ho : w.on k l) (hf : w.frozen l = false)
    (hon : w'.on = w.on) (hj : w'.job = w.job) (hg : w'.get = upd w.get l g) {c : Id} {y : Key} (h : Hold w d c y) : Hold w' d c y := by
  rcases h with h | h | ⟨x, h1, h2, h3⟩
  · exact .inl h
  · exact .inr (.inl (by rw [hon]; exact h))
  · by_cases e : c = l
    · subst e
      exfalso
      obtain ⟨n, J, hj, rfl, hz⟩ := id h1
      have K := I.jobs n J hj
      have non : ¬ w.on y c := fun ho => I.org_ne h1 (W.uniq y _ _ h2 ho)
      rcases hz with rfl | rfl
      · by_cases ht : J.st = .thawed
        · exact non (I.low_on W hj ht h3)
        · by_cases hc : J.st = .copy
          · exact W.unlitL n J hj (.inl hc) ⟨k, ho⟩
          · have := K.froL hc ht
            rw [hf] at this; cases this
      · by_cases hc : J.st = .claimed ∨ J.st = .fin
        · have := K.froH (.inr hc)
          rw [hf] at this; cases this
        · exact W.unlitH n J hj (fun h => hc (.inl h)) (fun h => hc (.inr h)) ⟨k, ho⟩
    · refine .inr (.inr ⟨x, ?_, by rw [hon]; exact h2, by rw [hg, upd_ne e]; exact h3⟩)
      simp only [View.org, hj]
      exact h1

end Scc.Vine
