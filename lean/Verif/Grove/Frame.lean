import Verif.Grove.Flow

/-!
# Changes that are not affected by a step
-/

namespace Scc.Grove

local notation "Key" => Nat
local notation "Id" => Nat
local notation "Thr" => Nat

variable {V : Type} {R R' : Option Id} {N N' : Id → Node} {L L' : Id → Leaf V} {F F' : Id → Bool}
  {D D' : Ref → Bool} {nN nL nN' nL' : Nat} {J : Job} {fil : Key → Prop} {d : Bool} {src src' : Ref → Ref}
  {A : Key → Option V} {ph ph' : Id → Phase} {u : Id} {T E : Key → Prop}

/-- The object is as it was. -/
def Kept (N N' : Id → Node) (L L' : Id → Leaf V) : Ref → Prop
  | .leaf l => L' l = L l
  | .node n => N' n = N n

theorem Kept.lvl {y : Ref} (h : Kept N N' L L' y) : lvl N' y = lvl N y := by
  cases y with
  | leaf l => rfl
  | node n => simp only [Kept] at h; simp only [lvl_node, h]

theorem Kept.retired {y : Ref} (h : Kept N N' L L' y) : Retired N' L' y ↔ Retired N L y := by
  cases y with
  | leaf l => simp only [Kept] at h; simp only [Retired, h]
  | node n => simp only [Kept] at h; simp only [Retired, h]

theorem JobOk.frame (O : JobOk R N L F D nN nL src J fil d)
    (hx : ∀ x ∈ J.ch, Kept N N' L L' x ∧ D' x = D x ∧ ∀ k, On R N k x → On R' N' k x)
    (hF : ∀ l, .leaf l ∈ J.ch → F' l = true)
    (hp : ∀ y, src y ∈ J.ch → Alloc nN nL y → ¬ Lit R N y → D y = false → ¬ Retired N L y →
      Kept N N' L L' y ∧ src' y = src y ∧ Alloc nN' nL' y ∧ ¬ Lit R' N' y ∧ D' y = false) :
    JobOk R' N' L' F' D' nN' nL' src' J fil d := by
  have priv : ∀ k x y, fil k → Pair N k J.x (J.side k) x y →
      Kept N N' L L' y ∧ src' y = src y ∧ Alloc nN' nL' y ∧ ¬ Lit R' N' y ∧ D' y = false := by
    intro k x y hk h
    have P := O.pair k x y hk h
    exact hp y (P.src ▸ P.mem) P.al P.unlit P.live P.ret
  have fwd : ∀ k x y, fil k → Pair N k J.x (J.side k) x y → Pair N' k J.x (J.side k) x y := by
    intro k x y hk h
    induction h with
    | base => exact .base
    | @step n n' w w' h hd hd' hne ih =>
      have e1 : N' n = N n := (hx _ (O.pair k _ _ hk h).mem).1
      have e2 : N' n' = N n' := (priv k _ _ hk h).1
      exact .step ih (by rw [e1, hd]) (by rw [e2, hd']) hne
  have bwd : ∀ k x y, fil k → Pair N' k J.x (J.side k) x y → Pair N k J.x (J.side k) x y := by
    intro k x y hk h
    induction h with
    | base => exact .base
    | @step n n' w w' _ hd hd' hne h =>
      have e1 : N' n = N n := (hx _ (O.pair k _ _ hk h).mem).1
      have e2 : N' n' = N n' := (priv k _ _ hk h).1
      exact .step h (by rw [← e1, hd]) (by rw [← e2, hd']) hne
  have same : ∀ k x y k2, fil k → x ∈ J.ch → Same R N J k x y k2 → Same R' N' J k x y k2 := by
    intro k x y k2 hk hxm h
    exact ⟨(hx x hxm).2.2 _ h.1, h.2.1, fwd k2 _ _ (O.fcl k k2 hk h.2.1) h.2.2⟩
  refine ⟨fun k x y hk h => ?_, fun k k' x n n' hk hk' h h' he => ?_, fun k k' x y hk hk' h h' => ?_,
    fun y hy => ?_, fun hd y hy => ?_, hF, O.fcl⟩
  · have h := bwd k x y hk h
    have P := O.pair k x y hk h
    obtain ⟨q1, q2, q3, q4, q5⟩ := priv k x y hk h
    obtain ⟨p1, p2, p3⟩ := hx x P.mem
    refine ⟨P.mem, q2.trans P.src, q3, ?_, q4, q5, fun hr => P.ret (q1.retired.1 hr), ?_⟩
    · rw [q1.lvl, p1.lvl, P.lvl]
    · have hs := P.same
      cases x with
      | leaf l =>
        cases y with
        | node n => simp [Match] at hs
        | leaf l' =>
          simp only [Kept] at p1 q1
          refine ⟨hF l P.mem, ?_, fun k2 h2 => ?_⟩
          · rw [p1, q1]; exact hs.2.1
          · rw [q1] at h2
            exact same _ _ _ _ hk P.mem (hs.2.2 k2 h2)
      | node n =>
        cases y with
        | leaf l => simp [Match] at hs
        | node n' =>
          simp only [Kept] at p1 q1
          obtain ⟨⟨w, w', g1, g2, g3⟩, s1, k2, s2, s3⟩ := hs
          refine ⟨⟨w, w', by rw [p1, g1], by rw [q1, g2], g3⟩, fun e he => ?_, k2, ?_, same _ _ _ _ hk P.mem s3⟩
          · rw [q1] at he
            exact same _ _ _ _ hk P.mem (s1 e he)
          · rw [q1]; exact s2
  · have h := bwd k _ _ hk h
    have h' := bwd k' _ _ hk' h'
    have e1 : N' n = N n := (priv k _ _ hk h).1
    have e2 : N' n' = N n' := (priv k' _ _ hk' h').1
    rw [e1, e2] at he ⊢
    exact O.inj k k' x n n' hk hk' h h' he
  · exact O.sep k k' x y hk hk' (bwd k _ _ hk h) (bwd k' _ _ hk' h')
  · rw [(hx y hy).2.1]; exact O.dead y hy
  · obtain ⟨k, ho⟩ := O.lit hd y hy
    exact ⟨k, (hx y hy).2.2 k ho⟩

theorem Site.frame {n i : Nat} (S : Site R N n i J) (hN : N' n = N n)
    (hx : ∀ x ∈ J.ch, lvl N' x = lvl N x)
    (hon : ∀ k, On R N k (.node n) → On R' N' k (.node n))
    (hp : ∀ y ∈ J.ch, ∀ q j, Use R' N' q j → (N' q).cell j = .to y → q = n ∧ j = i ∨ .node q ∈ J.ch) :
    Site R' N' n i J := by
  obtain ⟨k, h1, h2, h3⟩ := S.high
  refine ⟨by rw [hN]; exact S.slot, by rw [hN]; exact S.cell, ⟨hon _ S.low.1, by rw [hN]; exact S.low.2⟩,
    ⟨k, h1, hon k h2, by rw [hN]; exact h3⟩, hp, fun y hy => ?_, S.ne⟩
  rw [hx y hy, hN]; exact S.below y hy

theorem Half.frame {n i : Nat} (S : Half R N D n i J) (hN : N' n = N n)
    (hx : ∀ x ∈ J.ch, lvl N' x = lvl N x)
    (hon : ∀ k, On R N k (.node n) → On R' N' k (.node n))
    (hD : D' (.node n) = false) (hl : D' J.xl = false)
    (hp : ∀ y ∈ J.ch, ∀ q j, Use R' N' q j → (N' q).cell j = .to y → q = n ∧ j = i ∨ .node q ∈ J.ch) :
    Half R' N' D' n i J := by
  obtain ⟨k, h2, h3⟩ := S.high
  obtain ⟨j, ⟨k', g1, g2⟩, g3⟩ := S.low
  refine ⟨by rw [hN]; exact S.slot, by rw [hN]; exact S.cell, hD, by rw [hN]; exact S.only,
    ⟨k, hon k h2, by rw [hN]; exact h3⟩, hp, fun y hy => ?_,
    ⟨j, ⟨k', hon k' g1, by rw [hN]; exact g2⟩, by rw [hN]; exact g3⟩, hl⟩
  rw [hx y hy, hN]; exact S.below y hy

theorem Top.frame {r n nl nh : Id} {mid : Key} {ch : List Ref} (S : Top R N D nN src r n nl nh mid ch)
    (hR : R' = R) (hN : N' r = N r) (hlt : nN ≤ nN') (hun : ¬ Lit R' N' (.node r))
    (hD : D' (.node r) = false) (hs : src' (.node r) = src (.node r))
    (hp : ∀ y ∈ ch, ∀ q j, Use R' N' q j → (N' q).cell j = .to y → .node q ∈ ch) :
    Top R' N' D' nN' src' r n nl nh mid ch :=
  ⟨hR.trans S.root, Nat.lt_of_lt_of_le S.lt hlt, hun, hD, hs.trans S.src, by rw [hN]; exact S.kids,
    by rw [hN]; exact S.low, by rw [hN]; exact S.high, hp, S.ne⟩

end Scc.Grove
