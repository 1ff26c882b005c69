import Verif.Vine.Keep

/-!
# Structural changes keep the order of the leaves
-/

namespace Scc.Vine

open Scc.Grove

local notation "Key" => Nat
local notation "Id" => Nat
local notation "Thr" => Nat

variable {V : Type} {w w' : View V} {d : Lst} {lt : Id → Id → Prop}

/-- Leaves with search paths are apart. -/
theorem World.between (W : World w) {k1 k2 k1' k2' : Key} {l1 l2 : Id} (h : k1 < k2) (a1 : w.on k1 l1) (a1' : w.on k1' l1)
    (a2 : w.on k2 l2) (a2' : w.on k2' l2) (hne : l1 ≠ l2) : k1' < k2' := by
  refine Classical.byContradiction fun hc => ?_
  by_cases e : k1 ≤ k2'
  · exact hne (W.uniq _ _ _ (W.convex _ k2' _ _ a1 a1' e (by omega)) a2')
  · exact hne (W.uniq _ _ _ a1 (W.convex _ k1 _ _ a2' a2 (by omega) (by omega)))

theorem VInv.low_on (W : World w) (I : VInv w d lt) {n : Id} {J : LJob} (hj : w.job n = some J) (ht : J.st = .thawed)
    {k : Key} (h : w.get J.xl k ≠ none) : w.on k J.xl := by
  rcases W.entry _ k (W.litL n J hj (.inr ht)) h with h | ⟨n', J', h1, h2⟩
  · exact h
  · exact absurd h2 (I.org_x ⟨n, J, hj, rfl, .inl rfl⟩ h1)

/-- What a leaf is replaced with has its entries. -/
theorem VInv.copy_get (W : World w) (I : VInv w d lt) {n : Id} {J : LJob} (hj : w.job n = some J) {z : Id} {k : Key}
    (hz : z = J.xl ∨ z = J.xh) (h : w.get z k ≠ none) (ho : w.on k z → False) : w.get J.x k = w.get z k := by
  have K := I.jobs n J hj
  by_cases hc : J.st = .copy
  · have : z = J.xl := by
      rcases hz with e | e
      · exact e
      · exact e.trans (K.one hc).symm
    rw [this, K.body1 hc]
  · obtain ⟨mid, e1, e2, _, _, _, _, h5, h6⟩ := K.body2 hc
    rcases hz with rfl | rfl
    · by_cases ht : J.st = .thawed
      · exact (ho (I.low_on W hj ht h)).elim
      · rw [h5 ht] at h ⊢
        split
        · rfl
        · next e => rw [if_neg e] at h; exact absurd rfl h
    · rw [h6] at h ⊢
      split
      · rfl
      · next e => rw [if_neg e] at h; exact absurd rfl h

/-- The halves of a leaf have no key in common. -/
theorem VInv.copy_apart (W : World w) (I : VInv w d lt) {n : Id} {J : LJob} (hj : w.job n = some J) {y z : Id} {k : Key}
    (hy : y = J.xl ∨ y = J.xh) (hz : z = J.xl ∨ z = J.xh) (h : w.get z k ≠ none) (ho : w.on k z → False) (h' : w.get y k ≠ none)
    (ho' : w.on k y → False) : y = z := by
  have K := I.jobs n J hj
  by_cases hc : J.st = .copy
  · have := K.one hc
    rcases hy with rfl | rfl <;> rcases hz with rfl | rfl <;> simp [this]
  · obtain ⟨mid, e1, e2, _, _, _, _, h5, h6⟩ := K.body2 hc
    have one : w.get J.xl k ≠ none → w.get J.xh k ≠ none → (w.on k J.xl → False) → False := by
      intro g1 g2 g3
      by_cases ht : J.st = .thawed
      · exact g3 (I.low_on W hj ht g1)
      · rw [h5 ht] at g1
        rw [h6] at g2
        by_cases e : k ≤ mid
        · rw [if_neg (by omega)] at g2; exact g2 rfl
        · rw [if_neg e] at g1; exact g1 rfl
    rcases hy with rfl | rfl <;> rcases hz with rfl | rfl
    · rfl
    · exact (one h' h ho').elim
    · exact (one h h' ho).elim
    · rfl

section

variable (W : World w) (W' : World w') (I : VInv w d lt) (S : Shift w w' d)

include W W' I S

omit W in
/-- A replacement has ended. -/
theorem VInv.over {n : Id} {J : LJob} (hj : w.job n = some J) (h : w'.job n = none) (T : Trans w w' d (some J) none) :
    (d.gone J.x = true ∧ ¬ w'.lit J.x) ∨
      (J.st = .full ∧ d.gone J.xl = true ∧ d.gone J.xh = true ∧ ¬ w'.lit J.xl ∧ ¬ w'.lit J.xh) := by
  rcases I.ended_gone S hj T with hg | h2
  · rcases I.ended_unlit W' S hj h T with h3 | h3
    · have := (I.jobs n J hj).goneX hg
      simp [h3] at this
    · exact .inl ⟨hg, h3⟩
  · exact .inr h2

omit W in
theorem VInv.stay {k : Key} {x z : Id} (ho : w.org x z) (h : w.on k z) (hl : w'.lit z ∨ w.ret z = false) : w'.on k z := by
  rcases S.to k z h with h1 | ⟨h1, _⟩ | ⟨h1, _, h3⟩
  · exact h1
  · rw [I.shift_dead W' S ho] at h1; cases h1
  · rcases hl with hl | hl
    · exact absurd hl h3
    · rw [hl] at h1; cases h1

omit W in
theorem VInv.shift_lit (l : Id) (h : w'.lit l) : d.lst l = true ∧
    (d.gone l = true → w'.dead l = true ∨ w'.ret l = true ∨ ∃ n J, w'.job n = some J ∧ J.st = .copy ∧ J.x = l) := by
  rcases S.of l h with ⟨k, h1, h2⟩ | ⟨h1, _⟩
  · obtain ⟨a1, a2⟩ := I.lit l ⟨k, h1⟩
    refine ⟨a1, fun hg => ?_⟩
    rcases a2 hg with a | a | ⟨n, J, b1, b2, b3⟩
    · exact .inl (S.dead l a)
    · exact .inr (.inl (by rw [S.ret l (I.alL l a1)]; exact a))
    · rcases S.fwd b1 with ⟨st, c1, T⟩ | ⟨c1, T⟩
      · refine .inr (.inr ⟨n, _, c1, ?_, b3⟩)
        obtain ⟨x, xl, xh, s⟩ := J
        cases b2
        cases T
        rfl
      · obtain ⟨x, xl, xh, s⟩ := J
        cases b2
        cases T with
        | copied x y g1 g2 => cases b3; exact .inl g2
  · obtain ⟨k, hk⟩ := id h
    obtain ⟨x, ⟨n, J, hj, hx, hz⟩, _⟩ := h1 k hk
    have K := I.jobs n J hj
    suffices hs : d.lst l = true ∧ d.gone l = false by
      refine ⟨hs.1, fun hg => ?_⟩
      rw [hs.2] at hg; cases hg
    rcases S.fwd hj with ⟨st, c1, T⟩ | ⟨c1, T⟩
    · have K' := I.shift_jobs W' S n _ c1
      have U1 := W'.unlitL n _ c1
      have U2 := W'.unlitH n _ c1
      have O := K'.lstO
      have G1 := K'.goneL
      have G2 := K'.goneH
      simp only at U1 U2 O G1 G2
      rcases hz with rfl | rfl
      · have : st ≠ .copy ∧ st ≠ .split ∧ st ≠ .full :=
          ⟨fun e => U1 (.inl e) h, fun e => U1 (.inr (.inl e)) h, fun e => U1 (.inr (.inr e)) h⟩
        refine ⟨(O this.1 this.2.1).1, ?_⟩
        cases hg : d.gone J.xl with
        | false => rfl
        | true => exact absurd (G1 hg).1 this.2.2
      · have : st = .claimed ∨ st = .fin := Classical.byContradiction fun hc =>
          U2 (fun e => hc (.inl e)) (fun e => hc (.inr e)) h
        refine ⟨(O (by rcases this with e | e <;> simp [e]) (by rcases this with e | e <;> simp [e])).2, ?_⟩
        cases hg : d.gone J.xh with
        | false => rfl
        | true =>
          have := G2 hg
          simp_all
    · have O := K.lstO
      have G1 := K.goneL
      have G2 := K.goneH
      cases T with
      | copied x y g1 g2 =>
        have : l = y := by simpa using hz
        subst this
        refine ⟨K.lstC rfl g1, ?_⟩
        cases hg : d.gone l with
        | false => rfl
        | true => simpa using (G1 hg).1
      | swap x xl xh =>
        simp at O G1 G2 hz
        rcases hz with rfl | rfl
        · exact ⟨O.1, G1⟩
        · exact ⟨O.2, G2⟩
      | roll x xl xh g1 g2 g3 =>
        rcases hz with rfl | rfl
        · exact absurd h g2
        · exact absurd h g3
      | done x xl xh g1 =>
        simp at O G1 G2 hz
        rcases hz with rfl | rfl
        · exact ⟨O.1, G1⟩
        · exact ⟨O.2, G2⟩

theorem VInv.shift_an (z : Id) (k : Key) (v : V) (hi : In d z) (h : w'.get z k = some v) :
    w'.on k z ∨ (∃ x, w'.org x z ∧ w'.on k x) ∨ ∃ y, w'.org z y ∧ w'.on k y ∧ w'.get y k = w'.get z k := by
  have hz := I.alL z hi.1
  rw [S.get z hz] at h ⊢
  have hne : w.get z k ≠ none := by rw [h]; simp
  by_cases hon : w.on k z
  · rcases S.to k z hon with h1 | ⟨_, y, h2, h3, h4⟩ | ⟨h1, _⟩
    · exact .inl h1
    · rcases I.shift_org S h2 with h5 | ⟨n, J, hj, h6, T, rfl, h7⟩
      · refine .inr (.inr ⟨y, h5, h3, ?_⟩)
        rw [S.get y (I.org_al h2), h4]
      · rcases I.over W' S hj h6 T with ⟨g, _⟩ | ⟨_, _, _, g1, g2⟩
        · rw [hi.2] at g; cases g
        · rcases h7 with rfl | rfl
          · exact absurd ⟨k, h3⟩ g1
          · exact absurd ⟨k, h3⟩ g2
    · exact absurd (W.empty z k h1) hne
  rcases I.an z k v hi h with h1 | ⟨x, ho, h1⟩ | ⟨y, ho, h1, h2⟩
  · exact absurd h1 hon
  · obtain ⟨n, J, hj, rfl, hz'⟩ := id ho
    have hget := I.copy_get W hj hz' hne hon
    rcases S.to k J.x h1 with h2 | ⟨_, y, h2, h3, h4⟩ | ⟨h2, _⟩
    · rcases I.shift_org S ho with h5 | ⟨n', J', hj', h6, T, h7, h8⟩
      · exact .inr (.inl ⟨J.x, h5, h2⟩)
      · have e := I.same hj' hj (LJob.mem_copy h8) (LJob.mem_copy hz')
        subst e
        rcases I.over W' S hj' h6 T with ⟨_, g⟩ | ⟨_, g1, g2, _⟩
        · exact absurd ⟨k, h2⟩ g
        · have : d.gone z = true := by rcases hz' with rfl | rfl <;> assumption
          rw [hi.2] at this; cases this
    · obtain ⟨n', J', hj', h6, h7⟩ := h2
      have e := I.same hj' hj J'.mem_x (h6 ▸ J.mem_x)
      subst e
      have : y = z := by
        refine I.copy_apart W hj' h7 hz' hne hon (by rw [h4, hget]; exact hne) fun hy => ?_
        rw [W.uniq k _ _ hy h1] at h7
        rcases h7 with e | e
        · exact (I.jobs _ _ hj').neL e.symm
        · exact (I.jobs _ _ hj').neH e.symm
      exact .inl (this ▸ h3)
    · rw [W.empty _ k h2] at hget
      exact absurd hget.symm hne
  · rcases S.to k y h1 with h3 | ⟨h3, y', h4, _⟩ | ⟨h3, _⟩
    · rcases I.shift_org S ho with h5 | ⟨n, J, hj, h6, T, rfl, h7⟩
      · exact .inr (.inr ⟨y, h5, h3, by rw [S.get y (I.org_al ho), h2]⟩)
      · rcases I.over W' S hj h6 T with ⟨g, _⟩ | ⟨_, _, _, g1, g2⟩
        · rw [hi.2] at g; cases g
        · rcases h7 with rfl | rfl
          · exact absurd ⟨k, h3⟩ g1
          · exact absurd ⟨k, h3⟩ g2
    · exact (I.org_org ho h4).elim
    · rw [← h2] at hne
      exact absurd (W.empty y k h3) hne

theorem VInv.shift_litOrd (n : Id) (J : LJob) (hj' : w'.job n = some J) (hl : w'.lit J.xh) : w'.lit J.xl := by
  have U := W'.unlitH n J hj'
  have hst : J.st = .claimed ∨ J.st = .fin := Classical.byContradiction fun hc =>
    U (fun e => hc (.inl e)) (fun e => hc (.inr e)) hl
  rcases S.back hj' with ⟨st, hj, T⟩ | ⟨_, T⟩
  · have K := I.jobs n _ hj
    have hL : w.org J.x J.xl := ⟨n, _, hj, rfl, .inl rfl⟩
    have hH : w.org J.x J.xh := ⟨n, _, hj, rfl, .inr rfl⟩
    have hs : (st = .claimed ∨ st = .fin) ∨ st = .full ∧ d.gone J.xh = false := by
      obtain ⟨x, xl, xh, s⟩ := J
      generalize ho : (some { x := x, xl := xl, xh := xh, st := st } : Option LJob) = o at T
      cases T with
      | keep => cases ho; exact .inl hst
      | claim _ _ _ h1 => cases ho; exact .inr ⟨rfl, h1⟩
      | fin => cases ho; exact .inl (.inl rfl)
      | copy => cases ho
      | split => cases ho
      | ins => simp at hst
      | thaw => simp at hst
      | full => simp at hst
      | unclaim => simp at hst
    have hc : st ≠ .copy := by rintro rfl; simp at hs
    have hs' : st ≠ .split := by rintro rfl; simp at hs
    have ht : st ≠ .thawed := by rintro rfl; simp at hs
    have fromL : w.lit J.xl → w'.lit J.xl := fun ⟨k, hk⟩ => ⟨k, I.stay W' S hL hk (.inr (K.retL ht))⟩
    rcases S.of _ hl with ⟨k, h1, _⟩ | ⟨h1, h2⟩
    · exact fromL (I.litOrd n { J with st := st } hj ⟨k, h1⟩)
    · obtain ⟨mid, e1, e2, a1, a2, a3, a4, a5, a6⟩ := K.body2 hc
      simp only at a3 a4 a5 a6
      have b2 : w'.on e2 J.xh := h2 e2 (by rw [a6, if_pos a2]; exact a4)
      obtain ⟨x2, c1, c2⟩ := h1 e2 b2
      have := I.org_uniq c1 hH
      subst this
      have g1 : w.get J.xl e1 ≠ none := by rw [a5 ht, if_pos a1]; exact a3
      have hin : In d J.xl := by
        refine ⟨(K.lstO hc hs').1, ?_⟩
        cases hg : d.gone J.xl with
        | false => rfl
        | true =>
          have := K.goneL hg
          simp only at this
          rcases hs with e | ⟨_, e⟩
          · simp [this.1] at e
          · rw [this.2] at e; cases e
      obtain ⟨v, hv⟩ := Option.ne_none_iff_exists'.1 g1
      rcases I.an J.xl e1 v hin hv with p | ⟨x', p1, p2⟩ | ⟨y, p1, _⟩
      · exact fromL ⟨e1, p⟩
      · have := I.org_uniq p1 hL
        subst this
        rcases S.to e1 _ p2 with q | ⟨_, y, q1, q2, q3⟩ | ⟨q, _⟩
        · have := S.low e1 e2 _ _ (I.org_ne hH) c2 b2 q
          omega
        · obtain ⟨n', J', r1, r2, r3⟩ := q1
          have := I.same r1 hj J'.mem_x (r2 ▸ LJob.mem_x _)
          subst this
          rcases r3 with rfl | rfl
          · exact ⟨e1, q2⟩
          · simp only at q3
            rw [a6, if_neg (by omega)] at q3
            exact absurd q3.symm a3
        · exact absurd (W.empty _ e1 q) a3
      · exact (I.org_org hL p1).elim
  · cases T <;> simp at hst

theorem VInv.shift_ord (k1 k2 : Key) (l1 l2 : Id) (hk : k1 < k2) (h1 : w'.on k1 l1) (h2 : w'.on k2 l2) (hne : l1 ≠ l2) :
    w'.org l2 l1 ∨ (lt l1 l2 ∧ ¬ w'.org l1 l2) := by
  have L1 := (I.shift_lit W' S l1 ⟨k1, h1⟩).1
  have L2 := (I.shift_lit W' S l2 ⟨k2, h2⟩).1
  have N2 := I.alL _ L2
  have norg : (¬ w.org l1 l2) → ¬ w'.org l1 l2 := by
    intro h h'
    rcases I.shift_org' S h' with h' | h'
    · exact h h'
    · omega
  -- a leaf that keeps a path
  have kept : ∀ l x, w'.lit l → w.org x l → w.lit l → ∃ k, w.on k l ∧ w'.on k l := by
    intro l x h h' ⟨k, hk⟩
    exact ⟨k, hk, I.stay W' S h' hk (.inl h)⟩
  by_cases K1 : ∃ k, w.on k l1 ∧ w'.on k l1
  · obtain ⟨j1, a1, b1⟩ := K1
    by_cases K2 : ∃ k, w.on k l2 ∧ w'.on k l2
    · obtain ⟨j2, a2, b2⟩ := K2
      rcases I.ord j1 j2 l1 l2 (W'.between hk h1 b1 h2 b2 hne) a1 a2 hne with ho | ⟨ho, hn⟩
      · left
        rcases I.shift_org S ho with h5 | ⟨n, J, hj, h6, T, rfl, h7⟩
        · exact h5
        · rcases I.over W' S hj h6 T with ⟨_, g⟩ | ⟨g, _⟩
          · exact absurd ⟨k2, h2⟩ g
          · rcases h7 with rfl | rfl
            · exact absurd ⟨j1, a1⟩ (W.unlitL n J hj (.inr (.inr g)))
            · exact absurd ⟨j1, a1⟩ (W.unlitH n J hj (by simp [g]) (by simp [g]))
      · exact .inr ⟨ho, norg hn⟩
    · obtain ⟨t1, t2⟩ := (S.of l2 ⟨k2, h2⟩).resolve_left K2
      obtain ⟨x, ho, hx⟩ := t1 k2 h2
      have hk' := W'.between hk h1 b1 h2 h2 hne
      obtain ⟨n, J, hj, rfl, hz⟩ := id ho
      have K := I.jobs n J hj
      by_cases e : l1 = J.x
      · subst e
        have := S.low j1 k2 _ _ hne hx h2 b1
        omega
      · right
        by_cases e' : w.org J.x l1
        · refine ⟨?_, norg fun h => I.org_org e' h⟩
          obtain ⟨n', J', hj', e2, hz'⟩ := id e'
          have := I.same hj' hj J'.mem_x (e2 ▸ J.mem_x)
          subst this
          have hc : J'.st ≠ .copy := by
            intro hc
            have := K.one hc
            rcases hz with rfl | rfl <;> rcases hz' with rfl | rfl <;> simp [this] at hne
          rcases hz with rfl | rfl <;> rcases hz' with rfl | rfl
          · exact absurd rfl hne
          · exact absurd (kept _ _ ⟨k2, h2⟩ ho (I.litOrd _ _ hj ⟨j1, a1⟩)) K2
          · exact K.ltLH hc L1 L2
          · exact absurd rfl hne
        · rcases I.ord j1 k2 l1 _ hk' a1 hx e with h | ⟨h, hn⟩
          · exact absurd h e'
          · have hm : ¬ J.mem l1 := by
              rintro (h | h)
              · exact e h
              · exact e' ⟨n, J, hj, rfl, h⟩
            refine ⟨((I.adj n J J.x l2 l1 hj J.mem_x (LJob.mem_copy hz) K.lst L2 L1 hm).1).1 h, norg fun h => ?_⟩
            exact e (I.org_uniq h ho)
  · obtain ⟨t1, t2⟩ := (S.of l1 ⟨k1, h1⟩).resolve_left K1
    obtain ⟨x1, ho1, hx1⟩ := t1 k1 h1
    obtain ⟨n1, J1, hj1, rfl, hz1⟩ := id ho1
    have KJ := I.jobs n1 J1 hj1
    have norg1 : ¬ w'.org l1 l2 := norg fun h => I.org_org ho1 h
    by_cases K2 : ∃ k, w.on k l2 ∧ w'.on k l2
    · obtain ⟨j2, a2, b2⟩ := K2
      have hk' := W'.between hk h1 h1 h2 b2 hne
      by_cases e : J1.x = l2
      · left
        subst e
        rcases I.shift_org S ho1 with h5 | ⟨n, J, hj, h6, T, e, h7⟩
        · exact h5
        · have := I.same hj hj1 J.mem_x (e ▸ J1.mem_x)
          subst this
          rcases I.over W' S hj h6 T with ⟨_, g⟩ | ⟨_, _, _, g1, g2⟩
          · exact absurd ⟨k2, h2⟩ g
          · rcases h7 with rfl | rfl
            · exact absurd ⟨k1, h1⟩ g1
            · exact absurd ⟨k1, h1⟩ g2
      · rcases I.ord k1 j2 _ l2 hk' hx1 a2 e with h | ⟨h, hn⟩
        · exact (I.org_org h ho1).elim
        · have hm : ¬ J1.mem l2 := by
            rintro (h | h)
            · exact e h.symm
            · exact hn ⟨n1, J1, hj1, rfl, h⟩
          exact .inr ⟨((I.adj n1 J1 J1.x l1 l2 hj1 J1.mem_x (LJob.mem_copy hz1) KJ.lst L1 L2 hm).2).1 h, norg1⟩
    · obtain ⟨s1, s2⟩ := (S.of l2 ⟨k2, h2⟩).resolve_left K2
      obtain ⟨x2, ho2, hx2⟩ := s1 k2 h2
      obtain ⟨n2, J2, hj2, rfl, hz2⟩ := id ho2
      refine .inr ⟨?_, norg1⟩
      by_cases e : J1.x = J2.x
      · have := I.same hj1 hj2 J1.mem_x (e ▸ J2.mem_x)
        subst this
        have hc : J1.st ≠ .copy := by
          intro hc
          have := KJ.one hc
          rcases hz1 with rfl | rfl <;> rcases hz2 with rfl | rfl <;> simp [this] at hne
        rcases hz1 with rfl | rfl <;> rcases hz2 with rfl | rfl
        · exact absurd rfl hne
        · exact KJ.ltLH hc L1 L2
        · obtain ⟨mid, e1, e2, a1, a2, a3, a4, a5, a6⟩ := KJ.body2 hc
          by_cases ht : J1.st = .thawed
          · exact absurd (kept _ _ ⟨k2, h2⟩ ho2 (W.litL _ _ hj1 (.inr ht))) K2
          · have b1 := s2 e1 (by rw [a5 ht, if_pos a1]; exact a3)
            have b2 := t2 e2 (by rw [a6, if_pos a2]; exact a4)
            have := W'.between hk h1 b2 h2 b1 hne
            omega
        · exact absurd rfl hne
      · rcases I.ord k1 k2 _ _ hk hx1 hx2 e with h | ⟨h, hn⟩
        · exact (I.org_org h ho1).elim
        · have hm : ¬ J1.mem J2.x := by
            rintro (h | h)
            · exact e h.symm
            · exact hn ⟨n1, J1, hj1, rfl, h⟩
          have hm' : ¬ J2.mem l1 := by
            rintro (h | h)
            · exact hn (h ▸ ho1)
            · exact e (I.org_uniq ho1 ⟨n2, J2, hj2, rfl, h⟩)
          have K2' := I.jobs n2 J2 hj2
          have := ((I.adj n1 J1 J1.x l1 _ hj1 J1.mem_x (LJob.mem_copy hz1) KJ.lst L1 K2'.lst hm).2).1 h
          exact ((I.adj n2 J2 J2.x l2 l1 hj2 J2.mem_x (LJob.mem_copy hz2) K2'.lst L2 L1 hm').1).1 this

/-- A step of a structural change keeps the invariant of the linked list. -/
theorem VInv.shift : VInv w' d lt where
  alL l h := Nat.lt_of_lt_of_le (I.alL l h) S.nL
  off := I.off
  irr := I.irr
  trans := I.trans
  tot := I.tot
  link := I.link
  last a ha hn c hc hl := by
    rcases I.last a ha hn c hc hl with h | ⟨h1, h2, h3⟩
    · exact .inl h
    · refine .inr ⟨fun hl' => ?_, fun n J hj hm => ?_, fun k => ?_⟩
      · rcases S.of c hl' with ⟨k, h, _⟩ | ⟨h, _⟩
        · exact h1 ⟨k, h⟩
        · obtain ⟨k, hk⟩ := hl'
          obtain ⟨x, ⟨n, J, hj, _, hz⟩, _⟩ := h k hk
          exact h2 n J hj (LJob.mem_copy hz)
      · rcases S.back hj with ⟨st, hj', _⟩ | ⟨_, T⟩
        · exact h2 n _ hj' hm
        · obtain ⟨a1, a2, a3, _⟩ := T.new
          have := I.alL c hc
          rcases hm with rfl | rfl | rfl
          · exact h1 a1
          · omega
          · omega
      · rw [S.get c (I.alL c hc)]; exact h3 k
  jobs := I.shift_jobs W' S
  sep := I.shift_sep W' S
  adj := I.shift_adj W' S
  lit := I.shift_lit W' S
  an := I.shift_an W W' S
  ord := I.shift_ord W W' S
  litOrd := I.shift_litOrd W W' S

end

end Scc.Vine
