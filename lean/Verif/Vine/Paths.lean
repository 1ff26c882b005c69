import Verif.Grove.Legal
import Verif.Vine.Spec

/-!
# Search paths and the leaves they lead to
-/

namespace Scc.Vine

open Scc.Grove

local notation "Key" => Nat
local notation "Id" => Nat
local notation "Thr" => Nat

variable {V : Type} {m m' : Mem V} {A : Key → Option V} {src : Ref → Ref}

/-- The keys whose search paths lead to an object have no gaps. -/
theorem Inv.convex (I : Inv m A src) {k1 k2 k3 : Key} {x : Ref} (h1 : On m.root m.node k1 x)
    (h3 : On m.root m.node k3 x) (h12 : k1 ≤ k2) (h23 : k2 ≤ k3) : On m.root m.node k2 x := by
  induction h1 with
  | root h => exact .root h
  | @step n y ho hd ih =>
    rcases h3.inv with ⟨r, hr, rfl⟩ | ⟨n', ho', hd'⟩
    · exact .root hr
    · obtain ⟨rfl, hj⟩ := I.order.parent n n' _ _ y ho.use ho'.use hd hd'
      refine .step (ih ho') ?_
      have K := I.shape.nodeOk n
      have pos : ∀ e ∈ (m.node n).kids, e.2 ≠ 0 := fun e he => (K.pos e he).1
      have between : ∀ b j, (b, j) ∈ (m.node n).kids → route (m.node n).kids k1 = j → k2 ≤ b →
          route (m.node n).kids k2 = j :=
        fun b j hb hr hk => route_between K.asc hb hr K.nodup (pos _ hb) h12 hk
      rcases hj with e | ⟨b, i, hp, hj⟩
      · rcases route_mem (l := (m.node n).kids) (k := k3) with h0 | ⟨b, hb, hm⟩
        · rw [h0] at e
          have := route_mono_zero pos e h12
          simp only [Node.dest, this]
          simpa only [Node.dest, e] using hd
        · have := between b _ hm e (Nat.le_trans h23 hb)
          simp only [Node.dest, this]
          exact hd'
      · obtain ⟨_, ⟨l, hl⟩, y0, c0, ci⟩ := I.locks.move n b i hp
        have hbi : (b, i) ∈ (m.node n).kids := by rw [hl]; simp
        have hi0 := pos _ hbi
        have hy : y0 = y := by
          rcases hj with e | e
          · simp only [Node.dest, e, ci] at hd; cases hd; rfl
          · simp only [Node.dest, e, ci] at hd'; cases hd'; rfl
        subst hy
        have last : ∀ e ∈ (m.node n).kids, e.1 ≤ b := by
          intro e he
          have ha := K.asc
          rw [hl] at he ha
          rcases List.mem_append.1 he with he | he
          · have := (List.pairwise_append.1 ha).2.2 e he (b, i) (by simp)
            exact Nat.le_of_lt this
          · rw [List.mem_singleton.1 he]; exact Nat.le_refl _
        have first : route (m.node n).kids k1 = i ∨ route (m.node n).kids k1 = 0 := by
          rcases hj with e | _
          · exact .inl e
          · obtain ⟨k, g1, g2⟩ := I.order.above n ⟨_, ho⟩
            have g3 : route (m.node n).kids k = 0 := route_above g2
            rcases (I.order.parent n n _ _ y0 ho.use ⟨k, g1, g3⟩ hd c0).2 with e | ⟨b', i', hp', e⟩
            · exact .inr e
            · rw [hp] at hp'
              cases hp'
              rcases e with e | e
              · exact .inl e
              · exact absurd e.symm hi0
        rcases first with e | e
        · by_cases hk : k2 ≤ b
          · simp only [Node.dest, between b i hbi e hk, ci]
          · have : route (m.node n).kids k2 = 0 := route_above fun e he => by
              have := last e he
              omega
            simp only [Node.dest, this, c0]
        · have := route_mono_zero pos e h12
          simp only [Node.dest, this, c0]

/-- It does not matter any more what a leaf was created for, if what it should have replaced can be changed. -/
theorem Inv.reset (I : Inv m A src) {z x : Id} (hs : src (.leaf z) = .leaf x) (hf : m.frozen x = false) :
    Inv m A (fun r => if r = .leaf z then r else src r) := by
  have node : ∀ n, (fun r => if r = .leaf z then r else src r) (.node n) = src (.node n) := fun n => by simp
  have keep : ∀ r y, src r = y → y ≠ .leaf x → (fun r => if r = .leaf z then r else src r) r = y := by
    intro r y h hy
    simp only
    split
    · next e => rw [e, hs] at h; exact absurd h.symm hy
    · exact h
  have job : ∀ {J : Job} {fil : Key → Prop} {d : Bool},
      JobOk m.root m.node m.leaf m.frozen m.dead m.nN m.nL src J fil d →
      JobOk m.root m.node m.leaf m.frozen m.dead m.nN m.nL (fun r => if r = .leaf z then r else src r) J fil d := by
    intro J fil d O
    refine ⟨fun k a b hk hp => ?_, O.inj, O.sep, O.dead, O.lit, O.frozen, O.fcl⟩
    have P := O.pair k a b hk hp
    refine ⟨P.mem, keep _ _ P.src ?_, P.al, P.lvl, P.unlit, P.live, P.ret, P.same⟩
    rintro rfl
    have := O.frozen x P.mem
    rw [hf] at this; cases this
  have dead : m.dead (.leaf x) = false := by
    cases hd : m.dead (.leaf x) with
    | false => rfl
    | true => have := I.dead.frozen x hd; rw [hf] at this; cases this
  have fin : ∀ l, m.dead (src (.leaf l)) = true → (fun r => if r = .leaf z then r else src r) (.leaf l) = src (.leaf l) := by
    intro l h
    refine keep _ _ rfl fun e => ?_
    rw [e, dead] at h; cases h
  refine ⟨I.shape, I.mean, I.order, I.dead, I.chain, ⟨?_, ?_, ?_, ?_⟩, ?_⟩
  · intro n i J h hd
    obtain ⟨O, S⟩ := I.jobs.plan n i J h hd
    exact ⟨job O, S⟩
  · intro n i J h
    obtain ⟨O, S⟩ := I.jobs.half n i J h
    exact ⟨job O, S⟩
  · intro r n nl nh mid ch h
    obtain ⟨O, S⟩ := I.jobs.root r n nl nh mid ch h
    exact ⟨job O, S.root, S.lt, S.unlit, S.live, (node r).trans S.src, S.kids, S.low, S.high, S.parent, S.ne⟩
  · intro n i a b h
    have C := I.jobs.copy n i a b h
    refine ⟨C.slot, C.cell, C.use, C.frozen, C.live, C.al, C.unlit, C.live', keep _ _ C.src ?_, C.same, C.ret⟩
    intro e
    cases e
    have := C.frozen
    rw [hf] at this; cases this
  · have K := I.locks
    refine ⟨K.locked, K.coal, K.move, ?_, ?_, ?_, ?_, ?_, K.kind⟩
    · intro n i x xl xh mid ch nl nh h
      simp only [node]
      exact K.claim n i x xl xh mid ch nl nh h
    · intro n j xl xh nl nh h
      simp only [node]
      exact K.fin n j xl xh nl nh h
    · intro n xl xh nl nh h
      obtain ⟨h1, h2, h3, h4, h5⟩ := K.finLow n xl xh nl nh h
      have e := fin xl h3
      simp only at e ⊢
      rw [e]
      refine ⟨h1, h2, h3, h4, fun q j hc => ?_⟩
      simp only [node]
      exact h5 q j hc
    · intro n j xl xh nl nh h hj
      obtain ⟨h1, h2, h3, h4, h5⟩ := K.finHigh n j xl xh nl nh h hj
      have e := fin xh h3
      simp only at e ⊢
      rw [e]
      refine ⟨h1, h2, h3, h4, fun q j hc => ?_⟩
      simp only [node]
      exact h5 q j hc
    · intro n i J l h hl
      obtain ⟨h1, h2, h3, h4⟩ := K.hold n i J l h hl
      refine ⟨h1, h2, keep _ _ h3 fun e => ?_, fun q j hc => ?_⟩
      · have hm : J.x ∈ J.ch := I.chain.head_mem (Phase.plan_job h)
        rw [e] at hm
        cases hd : m.dead (.node n) with
        | false =>
          have := (I.jobs.plan n i J h hd).1.frozen x hm
          rw [hf] at this; cases this
        | true =>
          obtain ⟨u, i', J', g1, g2⟩ := I.dead.plan n hd (by rw [h]; simp)
          obtain ⟨_, _, _, _, _, _, _, _, b1, b2⟩ := I.chain.mem_full (Phase.half_job g1) g2
          rw [b1] at h
          cases h
          have := (I.jobs.half u i' J' g1).1.frozen x (b2 hm)
          rw [hf] at this; cases this
      · rw [node]
        exact h4 q j hc

end Scc.Vine
