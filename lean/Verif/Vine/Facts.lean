import Verif.Vine.Links

/-!
# What the linked list tells an iterator
-/

namespace Scc.Vine

open Scc.Grove

local notation "Key" => Nat
local notation "Id" => Nat
local notation "Thr" => Nat

variable {V : Type} {w w' : View V} {d d' : Lst} {lt : Id → Id → Prop}

/-- The leaf is in the linked list, and its replacement can still be given up. -/
def Live (w : View V) (d : Lst) (z : Id) : Prop := In d z ∧ w.dead z = false

theorem get_copy {J : LJob} (K : JobL w d lt J) (ht : J.st ≠ .thawed) {z : Id} {k : Key}
    (hz : z = J.xl ∨ z = J.xh) (h : w.get z k ≠ none) : w.get J.x k = w.get z k := by
  by_cases hc : J.st = .copy
  · have : z = J.xl := by
      rcases hz with e | e
      · exact e
      · exact e.trans (K.one hc).symm
    rw [this, K.body1 hc]
  · obtain ⟨mid, e1, e2, _, _, _, _, h5, h6⟩ := K.body2 hc
    rcases hz with rfl | rfl
    · rw [h5 ht] at h ⊢
      split
      · rfl
      · next e => rw [if_neg e] at h; exact absurd rfl h
    · rw [h6] at h ⊢
      split
      · rfl
      · next e => rw [if_neg e] at h; exact absurd rfl h

section

variable (W : World w) (I : VInv w d lt)

include W I

/-- The linked list has no entries that the map does not have. -/
theorem VInv.sound {z : Id} {k : Key} {v : V} (hi : In d z) (h : w.get z k = some v) : w.map k = some v := by
  by_cases hon : w.on k z
  · rw [← W.mean k z hon]; exact h
  rcases I.an z k v hi h with h1 | ⟨x, ⟨n, J, hj, rfl, hz⟩, h1⟩ | ⟨y, _, h1, h2⟩
  · exact absurd h1 hon
  · rw [← W.mean k _ h1, I.copy_get W hj hz (by rw [h]; simp) hon]; exact h
  · rw [← W.mean k _ h1, h2]; exact h

/-- The linked list has all entries of the map. -/
theorem VInv.complete {k : Key} {v : V} (h : w.map k = some v) : ∃ z, Live w d z ∧ w.get z k = some v := by
  obtain ⟨y, hy⟩ := W.path k (by rw [h]; simp)
  have hget : w.get y k = some v := by rw [W.mean k y hy]; exact h
  obtain ⟨hl, hg⟩ := I.lit y ⟨k, hy⟩
  by_cases hd : w.dead y = true
  · obtain ⟨n, J, hj, rfl⟩ := W.deadLit y hd ⟨k, hy⟩
    have K := I.jobs n J hj
    have hst : J.st ≠ .copy ∧ J.st ≠ .split ∧ J.st ≠ .full := by
      refine ⟨fun e => ?_, fun e => ?_, fun e => ?_⟩ <;> rw [K.liveX (by simp [e])] at hd <;> cases hd
    have hlst := K.lstO hst.1 hst.2.1
    have gl : d.gone J.xl = false := by
      cases hg : d.gone J.xl with
      | false => rfl
      | true => exact absurd (K.goneL hg).1 hst.2.2
    have gh : d.gone J.xh = false := by
      cases hg : d.gone J.xh with
      | false => rfl
      | true => exact absurd (K.goneH hg) hst.2.2
    by_cases ht : J.st = .thawed
    · exact ⟨J.xh, ⟨⟨hlst.2, gh⟩, K.liveH⟩, by rw [W.same n J k hj ht hy]; exact hget⟩
    · obtain ⟨mid, e1, e2, _, _, _, _, h5, h6⟩ := K.body2 hst.1
      by_cases e : k ≤ mid
      · exact ⟨J.xl, ⟨⟨hlst.1, gl⟩, K.liveL⟩, by rw [h5 ht, if_pos e]; exact hget⟩
      · exact ⟨J.xh, ⟨⟨hlst.2, gh⟩, K.liveH⟩, by rw [h6, if_pos (by omega)]; exact hget⟩
  · cases hgo : d.gone y with
    | false => exact ⟨y, ⟨⟨hl, hgo⟩, by simpa using hd⟩, hget⟩
    | true =>
      rcases hg hgo with h1 | h1 | ⟨n, J, hj, hs, rfl⟩
      · exact absurd h1 hd
      · rw [W.empty y k h1] at hget; cases hget
      · have K := I.jobs n J hj
        refine ⟨J.xl, ⟨⟨K.lstC hs hgo, ?_⟩, K.liveL⟩, by rw [K.body1 hs]; exact hget⟩
        cases hg : d.gone J.xl with
        | false => rfl
        | true => have := (K.goneL hg).1; rw [hs] at this; cases this

/-- Where the search path of an entry in the linked list leads to. -/
theorem VInv.anchor {z : Id} {k : Key} (hi : In d z) (h : w.get z k ≠ none) :
    ∃ a, w.on k a ∧ (z = a ∨ ∃ n J, w.job n = some J ∧ J.mem z ∧ J.mem a) := by
  obtain ⟨v, hv⟩ := Option.ne_none_iff_exists'.1 h
  rcases I.an z k v hi hv with h1 | ⟨x, ⟨n, J, hj, rfl, hz⟩, h1⟩ | ⟨y, ⟨n, J, hj, rfl, hz⟩, h1, _⟩
  · exact ⟨z, h1, .inl rfl⟩
  · exact ⟨_, h1, .inr ⟨n, J, hj, LJob.mem_copy hz, J.mem_x⟩⟩
  · exact ⟨_, h1, .inr ⟨n, J, hj, J.mem_x, LJob.mem_copy hz⟩⟩

/-- Two leaves of the same replacement. -/
theorem VInv.within {n : Id} {J : LJob} (hj : w.job n = some J) {z1 z2 : Id} {k1 k2 : Key} (m1 : J.mem z1) (m2 : J.mem z2)
    (i1 : In d z1) (i2 : In d z2) (h1 : w.get z1 k1 ≠ none) (h2 : w.get z2 k2 ≠ none) (hlt : lt z1 z2) :
    k1 < k2 ∨ w.org z1 z2 := by
  have K := I.jobs n J hj
  have asym : ∀ a b, lt a b → lt b a → False := fun a b h h' => I.irr a (I.trans _ _ _ h h')
  have hne : z1 ≠ z2 := fun e => I.irr z1 (by rw [← e] at hlt; exact hlt)
  rcases m1 with rfl | rfl | rfl
  · rcases m2 with rfl | m2
    · exact absurd rfl hne
    · exact .inr ⟨n, J, hj, rfl, m2⟩
  · rcases m2 with rfl | rfl | rfl
    · exact (asym _ _ hlt (K.ltL i1.1)).elim
    · exact absurd rfl hne
    · left
      have hc : J.st ≠ .copy := fun hc => hne (K.one hc)
      obtain ⟨mid, e1, e2, _, _, _, _, h5, h6⟩ := K.body2 hc
      by_cases ht : J.st = .thawed
      · have o1 := I.low_on W hj ht h1
        obtain ⟨v, hv⟩ := Option.ne_none_iff_exists'.1 h2
        have hL : w.org J.x J.xl := ⟨n, J, hj, rfl, .inl rfl⟩
        have hH : w.org J.x J.xh := ⟨n, J, hj, rfl, .inr rfl⟩
        rcases I.an _ k2 v i2 hv with q | ⟨x, q1, q2⟩ | ⟨y, q1, _⟩
        · exact absurd ⟨k2, q⟩ (W.unlitH n J hj (by simp [ht]) (by simp [ht]))
        · have := I.org_uniq q1 hH
          subst this
          refine Classical.byContradiction fun hk => ?_
          have : k1 ≠ k2 := fun e => K.neL (W.uniq k1 _ _ o1 (e ▸ q2))
          rcases I.ord k2 k1 _ _ (by omega) q2 o1 K.neL.symm with q | ⟨_, q⟩
          · exact I.org_org hL q
          · exact q hL
        · exact (I.org_org hH q1).elim
      · rw [h5 ht] at h1
        rw [h6] at h2
        have a1 : k1 ≤ mid := Classical.byContradiction fun e => by rw [if_neg e] at h1; exact h1 rfl
        have a2 : mid < k2 := Classical.byContradiction fun e => by rw [if_neg e] at h2; exact h2 rfl
        omega
  · rcases m2 with rfl | rfl | rfl
    · exact (asym _ _ hlt (K.ltH i1.1)).elim
    · have hc : J.st ≠ .copy := fun hc => hne (K.one hc).symm
      exact (asym _ _ hlt (K.ltLH hc i2.1 i1.1)).elim
    · exact absurd rfl hne

/-- The linked list is in the order of the keys. -/
theorem VInv.asc {z1 z2 : Id} {k1 k2 : Key} (i1 : In d z1) (i2 : In d z2) (h1 : w.get z1 k1 ≠ none)
    (h2 : w.get z2 k2 ≠ none) (hlt : lt z1 z2) : k1 < k2 ∨ w.org z1 z2 := by
  by_cases hs : ∃ n J, w.job n = some J ∧ J.mem z1 ∧ J.mem z2
  · obtain ⟨n, J, hj, m1, m2⟩ := hs
    exact I.within W hj m1 m2 i1 i2 h1 h2 hlt
  · left
    have hne : z1 ≠ z2 := fun e => I.irr z1 (by rw [← e] at hlt; exact hlt)
    obtain ⟨a1, o1, r1⟩ := I.anchor W i1 h1
    obtain ⟨a2, o2, r2⟩ := I.anchor W i2 h2
    have lb1 := (I.lit _ ⟨k1, o1⟩).1
    have lb2 := (I.lit _ ⟨k2, o2⟩).1
    have step1 : lt a1 z2 := by
      rcases r1 with rfl | ⟨n, J, hj, m1, m2⟩
      · exact hlt
      · exact ((I.adj n J z1 a1 z2 hj m1 m2 i1.1 lb1 i2.1 fun m => hs ⟨n, J, hj, m1, m⟩).2).1 hlt
    have step2 : lt a1 a2 := by
      rcases r2 with rfl | ⟨n, J, hj, m1, m2⟩
      · exact step1
      · refine ((I.adj n J z2 a2 a1 hj m1 m2 i2.1 lb2 lb1 fun m => ?_).1).1 step1
        rcases r1 with rfl | ⟨n', J', hj', m1', m2'⟩
        · exact hs ⟨n, J, hj, m, m1⟩
        · have e := I.same hj hj' m m2'
          subst e
          exact hs ⟨n, J, hj, m1', m1⟩
    have ane : a1 ≠ a2 := fun e => I.irr a1 (by rw [← e] at step2; exact step2)
    refine Classical.byContradiction fun hk => ?_
    have kne : k1 ≠ k2 := fun e => ane (W.uniq k1 _ _ o1 (e ▸ o2))
    rcases I.ord k2 k1 a2 a1 (by omega) o2 o1 ane.symm with ⟨n, J, hj, rfl, hz⟩ | ⟨q, _⟩
    · have ma1 := J.mem_x
      have ma2 := LJob.mem_copy hz
      have m1 : J.mem z1 := by
        rcases r1 with rfl | ⟨n', J', hj', m1', m2'⟩
        · exact ma1
        · exact I.same hj hj' ma1 m2' ▸ m1'
      have m2 : J.mem z2 := by
        rcases r2 with rfl | ⟨n', J', hj', m1', m2'⟩
        · exact ma2
        · exact I.same hj hj' ma2 m2' ▸ m1'
      exact hs ⟨n, J, hj, m1, m2⟩
    · exact I.irr _ (I.trans _ _ _ q step2)

end

/-! ## What is still to come -/

/-- Leaves with this key come after leaf `a`. -/
def Ahead (w : View V) (d : Lst) (lt : Id → Id → Prop) (a : Id) (k : Key) : Prop :=
  ∀ z, Live w d z → w.get z k ≠ none → lt a z

/-- An entry is in leaf `l`, or it is still to come. -/
def Fit (w : View V) (d : Lst) (lt : Id → Id → Prop) (k : Key) (v : V) (l : Id) : Prop :=
  w.get l k = some v ∨ (Ahead w d lt l k ∧ ∀ q, w.get l q ≠ none → q < k)

section

variable (W : World w) (I : VInv w d lt)

include W I

/-- The next leaf. -/
theorem VInv.fit {b : Id} {k : Key} {v : V} (hi : In d b) (hk : w.map k = some v)
    (h : ∀ z, Live w d z → w.get z k ≠ none → z = b ∨ lt b z) : Fit w d lt k v b := by
  by_cases hb : w.get b k = some v
  · exact .inl hb
  · have ahead : Ahead w d lt b k := by
      intro z hz hg
      rcases h z hz hg with rfl | h
      · obtain ⟨u, hu⟩ := Option.ne_none_iff_exists'.1 hg
        have := I.sound W hi hu
        rw [hk] at this
        rw [hu, ← this] at hb
        exact absurd rfl hb
      · exact h
    refine .inr ⟨ahead, fun q hq => ?_⟩
    obtain ⟨z, hz, hg⟩ := I.complete W hk
    have hg' : w.get z k ≠ none := by rw [hg]; simp
    rcases I.asc W hi hz.1 hq hg' (ahead z hz hg') with h1 | ⟨n, J, hj, rfl, e⟩
    · exact h1
    · have K := I.jobs n J hj
      have ht : J.st ≠ .thawed := fun ht => by
        have := K.goneT ht
        rw [hi.2] at this; cases this
      exact absurd ((get_copy K ht e hg').trans hg) hb

/-- The first leaf. -/
theorem VInv.fit_first {l : Id} {k : Key} {v : V} (h0 : w.on 0 l) (hk : w.map k = some v) : Fit w d lt k v l := by
  obtain ⟨y, hy⟩ := W.path k (by rw [hk]; simp)
  by_cases e : y = l
  · subst e; exact .inl (by rw [W.mean k y hy]; exact hk)
  have hk0 : 0 < k := Nat.pos_of_ne_zero fun e' => e (W.uniq k _ _ hy (e' ▸ h0))
  have below : ∀ q, w.get l q ≠ none → q < k := by
    intro q hq
    refine Classical.byContradiction fun hn => ?_
    exact e (W.uniq k _ _ hy (W.convex 0 k q l h0 (W.first l q h0 hq) (by omega) (by omega)))
  refine .inr ⟨fun z hz hg => ?_, below⟩
  have ll := (I.lit l ⟨0, h0⟩).1
  have ly := (I.lit y ⟨k, hy⟩).1
  have zl : z ≠ l := fun e => by
    rw [e] at hg
    exact absurd (below k hg) (Nat.lt_irrefl _)
  obtain ⟨v', hv⟩ := Option.ne_none_iff_exists'.1 hg
  -- what is replaced is not obsolete
  have orig : ∀ y', w.org z y' → ¬ w.lit y' := by
    rintro y' ⟨n, J, hj, rfl, hz'⟩ hl
    have hl' : w.lit J.xl ∨ w.lit J.xh := by
      rcases hz' with rfl | rfl
      · exact .inl hl
      · exact .inr hl
    have := W.litDead n J hj hl'
    rw [hz.2] at this; cases this
  have ano : z = y ∨ w.org y z := by
    rcases I.an z k v' hz.1 hv with h1 | ⟨x, h1, h2⟩ | ⟨y', h1, h2, _⟩
    · exact .inl (W.uniq k _ _ h1 hy)
    · rw [W.uniq k _ _ h2 hy] at h1; exact .inr h1
    · exact absurd ⟨k, h2⟩ (orig y' h1)
  rcases I.ord 0 k l y hk0 h0 hy (fun e' => e e'.symm) with ho | ⟨h1, _⟩
  · rcases ano with rfl | ho'
    · exact absurd ⟨0, h0⟩ (orig l ho)
    · obtain ⟨n, J, hj, rfl, c⟩ := id ho
      obtain ⟨n', J', hj', e', c'⟩ := id ho'
      have := I.same hj' hj J'.mem_x (e' ▸ J.mem_x)
      subst this
      have K := I.jobs n _ hj
      have hc : J'.st ≠ .copy := by
        intro hc
        have := K.one hc
        rcases c with rfl | rfl <;> rcases c' with rfl | rfl <;> simp [this] at zl
      rcases c with rfl | rfl <;> rcases c' with rfl | rfl
      · exact absurd rfl zl
      · exact K.ltLH hc ll hz.1.1
      · obtain ⟨j, hj0⟩ := I.litOrd n _ hj ⟨0, h0⟩
        have hjp : 0 < j := Nat.pos_of_ne_zero fun e' => zl (W.uniq j _ _ hj0 (e' ▸ h0))
        rcases I.ord 0 j _ _ hjp h0 hj0 (fun e => zl e.symm) with q | ⟨q, _⟩
        · exact (I.org_org ho' q).elim
        · exact absurd (I.trans _ _ _ q (K.ltLH hc hz.1.1 ll)) (I.irr _)
      · exact absurd rfl zl
  · rcases ano with rfl | ho'
    · exact h1
    · exact I.trans _ _ _ h1 (I.org_lt ho' hz.1.1)

end

end Scc.Vine
