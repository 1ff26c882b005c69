import Verif.Grove.Inv

/-!
# Consequences of the invariant
-/

namespace Scc.Grove

local notation "Key" => Nat
local notation "Id" => Nat
local notation "Thr" => Nat

variable {V : Type} {m : Mem V} {A : Key → Option V} {src : Ref → Ref}

/-- Every place of a node on a search path is used, unless the node is being replaced. -/
theorem Inv.slot_use (I : Inv m A src) {n : Id} {j : Nat} (hl : Lit m.root m.node (.node n))
    (hc : ∀ k, ¬ Cut m.phase (.node n) k) (hj : j ∈ (m.node n).slots) : Use m.root m.node n j := by
  rcases List.mem_cons.1 hj with hj | hj
  · subst hj
    obtain ⟨k, ho, ha⟩ := I.order.above n hl
    exact ⟨k, ho, route_above ha⟩
  · obtain ⟨⟨b, i⟩, he, rfl⟩ := List.mem_map.1 hj
    rcases I.order.bound n hl _ he with ho | ho
    · exact ⟨b, ho, route_bound (I.shape.asc n) he⟩
    · exact absurd ho (hc _)

/-- Obsolete nodes of a change are full and taken over by the change. -/
theorem Chain.mem_full {ph : Id → Phase} (C : Chain ph) {n : Id} {J : Job} (h : (ph n).job = some J) {c : Id}
    (hc : .node c ∈ J.ch) : ∃ i x xl xh mid ch nl nh, ph c = .full i x xl xh mid ch (some (nl, nh)) ∧
      ch ⊆ J.ch := by
  obtain ⟨ch', h1, h2, h3⟩ := C.list n J h
  generalize hlen : J.ch.length = len
  induction len generalizing n J ch' with
  | zero => rw [h1] at hlen; cases hlen
  | succ len ih =>
    rw [h1] at hc hlen
    rcases List.mem_cons.1 hc with hc | hc
    · obtain ⟨i, x, xl, xh, mid, nl, nh, hp, _⟩ := h3 c hc.symm
      exact ⟨i, x, xl, xh, mid, ch', nl, nh, hp, by rw [h1]; exact List.subset_cons_self ..⟩
    · cases hx : J.x with
      | leaf l => rw [h2 l hx] at hc; cases hc
      | node c' =>
        obtain ⟨i, x, xl, xh, mid, nl, nh, hp, _⟩ := h3 c' hx
        have hj : (ph c').job = some ⟨x, xl, xh, mid, ch'⟩ := by rw [hp]; rfl
        obtain ⟨ch'', g1, g2, g3⟩ := C.list c' _ hj
        obtain ⟨i2, x2, xl2, xh2, mid2, ch2, nl2, nh2, hp2, hs⟩ :=
          ih hj hc ch'' g1 g2 g3 (by simpa using hlen)
        refine ⟨i2, x2, xl2, xh2, mid2, ch2, nl2, nh2, hp2, fun a ha => ?_⟩
        rw [h1]
        exact List.mem_cons_of_mem _ (hs ha)

/-- An obsolete object is what the change, or that of another obsolete node, replaces. -/
theorem Chain.mem_parent {ph : Id → Phase} (C : Chain ph) {n : Id} {J : Job} (h : (ph n).job = some J) {y : Ref}
    (hy : y ∈ J.ch) : y = J.x ∨ ∃ c J', .node c ∈ J.ch ∧ (ph c).job = some J' ∧ J'.x = y := by
  obtain ⟨ch', h1, h2, h3⟩ := C.list n J h
  generalize hlen : J.ch.length = len
  induction len generalizing n J ch' with
  | zero => rw [h1] at hlen; cases hlen
  | succ len ih =>
    rw [h1] at hy hlen
    rcases List.mem_cons.1 hy with hy | hy
    · exact .inl hy
    · right
      cases hx : J.x with
      | leaf l => rw [h2 l hx] at hy; cases hy
      | node c' =>
        obtain ⟨i, x, xl, xh, mid, nl, nh, hp, _⟩ := h3 c' hx
        have hj : (ph c').job = some ⟨x, xl, xh, mid, ch'⟩ := by rw [hp]; rfl
        have hc' : Ref.node c' ∈ J.ch := by rw [h1, hx]; exact List.mem_cons_self ..
        obtain ⟨ch'', g1, g2, g3⟩ := C.list c' _ hj
        rcases ih hj hy ch'' g1 g2 g3 (by simpa using hlen) with e | ⟨c, J', hc, hJ, e⟩
        · exact ⟨c', _, hc', hj, e.symm⟩
        · refine ⟨c, J', ?_, hJ, e⟩
          rw [h1]
          exact List.mem_cons_of_mem _ hc

/-- Who replaces an obsolete object of a change, is the change itself or another obsolete node. -/
theorem Chain.of_target {ph : Id → Phase} (C : Chain ph) {n n' : Id} {J J' : Job} (h : (ph n).job = some J)
    (h' : (ph n').job = some J') (hy : J'.x ∈ J.ch) : n' = n ∨ .node n' ∈ J.ch := by
  rcases C.mem_parent h hy with e | ⟨c, J'', hc, hJ, e⟩
  · exact .inl (C.uniq _ _ _ _ h' h e)
  · exact .inr (C.uniq _ _ _ _ h' hJ e.symm ▸ hc)

/-- Changes with a common obsolete object are nested. -/
theorem Chain.disj {ph : Id → Phase} (C : Chain ph) {n n' : Id} {J J' : Job} (h : (ph n).job = some J)
    (h' : (ph n').job = some J') {y : Ref} (hy : y ∈ J.ch) (hy' : y ∈ J'.ch) :
    n = n' ∨ .node n ∈ J'.ch ∨ .node n' ∈ J.ch := by
  obtain ⟨ch', h1, h2, h3⟩ := C.list n' J' h'
  generalize hlen : J'.ch.length = len
  induction len generalizing n' J' ch' with
  | zero => rw [h1] at hlen; cases hlen
  | succ len ih =>
    have hy2 := hy'
    rw [h1] at hy' hlen
    rcases List.mem_cons.1 hy' with e | hy'
    · rcases C.of_target h h' (e ▸ hy) with g | g
      · exact .inl g.symm
      · exact .inr (.inr g)
    · cases hx : J'.x with
      | leaf l => rw [h2 l hx] at hy'; cases hy'
      | node c =>
        obtain ⟨i, x, xl, xh, mid, nl, nh, hp, _⟩ := h3 c hx
        have hj : (ph c).job = some ⟨x, xl, xh, mid, ch'⟩ := by rw [hp]; rfl
        have hc : Ref.node c ∈ J'.ch := by rw [h1, hx]; exact List.mem_cons_self ..
        obtain ⟨ch'', g1, g2, g3⟩ := C.list c _ hj
        rcases ih hj hy' ch'' g1 g2 g3 (by simpa using hlen) with e | e | e
        · exact .inr (.inl (e ▸ hc))
        · refine .inr (.inl ?_)
          rw [h1]
          exact List.mem_cons_of_mem _ e
        · rcases C.of_target h h' (hx ▸ e) with g | g
          · exact .inl g.symm
          · exact .inr (.inr g)

theorem Chain.head_mem {ph : Id → Phase} (C : Chain ph) {n : Id} {J : Job} (h : (ph n).job = some J) :
    J.x ∈ J.ch := by
  obtain ⟨ch', h1, _⟩ := C.list n J h
  rw [h1]; exact List.mem_cons_self ..

/-- A node that has not been taken over is not obsolete. -/
theorem Chain.not_mem {ph : Id → Phase} (C : Chain ph) {n : Id} {J : Job} (h : (ph n).job = some J) {c : Id}
    (hc : ∀ i x xl xh mid ch cl, ph c ≠ .full i x xl xh mid ch (some cl)) : .node c ∉ J.ch := by
  intro hm
  obtain ⟨i, x, xl, xh, mid, ch, nl, nh, hp, _⟩ := C.mem_full h hm
  exact hc _ _ _ _ _ _ _ hp

theorem Inv.not_cut (I : Inv m A src) {n : Id} (hn : ∀ i x xl xh mid ch cl, m.phase n ≠ .full i x xl xh mid ch (some cl))
    (k : Key) : ¬ Cut m.phase (.node n) k := by
  rintro ⟨u, i, J, hh, hm, _⟩
  exact I.chain.not_mem (Phase.half_job hh) hn hm

/-- The search path of a key, from an object of which no lower half with the key is in place. -/
theorem Inv.descend (I : Inv m A src) {k : Key} {x w : Ref} (h : Path m.node k x w) (hx : Lit m.root m.node x)
    (hc : ¬ Cut m.phase x k) : Lit m.root m.node w ∧ ¬ Cut m.phase w k := by
  induction h with
  | refl => exact ⟨hx, hc⟩
  | @step n y z hd _ ih =>
    have hu : Use m.root m.node n (route (m.node n).kids k) := by
      rcases route_mem (l := (m.node n).kids) (k := k) with h0 | ⟨b, hb, hm⟩
      · rw [h0]
        obtain ⟨k', ho, ha⟩ := I.order.above n hx
        exact ⟨k', ho, route_above ha⟩
      · rcases I.order.bound n hx _ hm with ho | ⟨u, i, J, hh, hm', hle⟩
        · exact ⟨b, ho, route_bound (I.shape.asc n) hm⟩
        · exact absurd ⟨u, i, J, hh, hm', Nat.le_trans hb hle⟩ hc
    refine ih (hu.child hd) ?_
    rintro ⟨u, i, J, hh, hm, hle⟩
    have H := (I.jobs.half u i J hh).2
    rcases H.parent y hm n _ hu hd with ⟨rfl, e⟩ | hn
    · have := H.only k e
      omega
    · exact hc ⟨u, i, J, hh, hn, hle⟩

/-- What a node that takes no part in a change has pointers to, is not obsolete. -/
theorem Inv.not_in_ch (I : Inv m A src) {n j : Nat} {y : Ref}
    (hn : ∀ i x xl xh mid ch cl, m.phase n ≠ .full i x xl xh mid ch (some cl)) (hh : (m.phase n).half = none)
    (hu : Use m.root m.node n j) (hc : (m.node n).cell j = .to y) {n' : Id} {J : Job}
    (hj : (m.phase n').job = some J) (hne : n' ≠ n) : y ∉ J.ch := by
  intro hy
  have half : ∀ u i J, (m.phase u).half = some (i, J) → y ∈ J.ch → False := by
    intro u i J h hy
    rcases (I.jobs.half u i J h).2.parent y hy n j hu hc with ⟨e, _⟩ | h'
    · rw [← e, hh] at h; cases h
    · exact absurd h' (I.chain.not_mem (Phase.half_job h) hn)
  have plan : ∀ i J, (m.phase n').plan = some (i, J) → y ∈ J.ch → False := by
    intro i J h hy
    cases hd : m.dead (.node n') with
    | false =>
      rcases (I.jobs.plan n' i J h hd).2.parent y hy n j hu hc with ⟨e, _⟩ | h'
      · exact hne e.symm
      · exact I.chain.not_mem (Phase.plan_job h) hn h'
    | true =>
      obtain ⟨u, i', J', h1, h2⟩ := I.dead.plan n' hd (by simp [h])
      obtain ⟨i2, x, xl, xh, mid, ch, nl, nh, hp, hs⟩ := I.chain.mem_full (Phase.half_job h1) h2
      have e : J.ch = ch := by rw [hp] at h; cases h; rfl
      exact half u i' J' h1 (hs (e ▸ hy))
  cases hp : m.phase n' with
  | split i x xl xh mid ch => exact plan i ⟨x, xl, xh, mid, ch⟩ (by rw [hp]; rfl) (by rw [hp] at hj; cases hj; exact hy)
  | full i x xl xh mid ch cl => exact plan i ⟨x, xl, xh, mid, ch⟩ (by rw [hp]; rfl) (by rw [hp] at hj; cases hj; exact hy)
  | ins i x xl xh mid ch b => exact half n' i ⟨x, xl, xh, mid, ch⟩ (by rw [hp]; rfl) (by rw [hp] at hj; cases hj; exact hy)
  | root x nl nh mid ch =>
    have e : J = ⟨.node x, .node nl, .node nh, mid, ch⟩ := by rw [hp] at hj; cases hj; rfl
    have h' := (I.jobs.root n' x nl nh mid ch hp).2.parent y (by rw [e] at hy; exact hy) n j hu hc
    exact I.chain.not_mem hj hn (by rw [e]; exact h')
  | _ => rw [hp] at hj; cases hj

/-- The place of a change, whatever its stage. -/
structure Spot (R : Option Id) (N : Id → Node) (u i : Nat) (J : Job) : Prop where
  cell : (N u).cell i = .to J.x
  parent : ∀ y ∈ J.ch, ∀ q j, Use R N q j → (N q).cell j = .to y → q = u ∧ j = i ∨ .node q ∈ J.ch

theorem Site.spot {R : Option Id} {N : Id → Node} {n i : Nat} {J : Job} (S : Site R N n i J) : Spot R N n i J :=
  ⟨S.cell, S.parent⟩
theorem Half.spot {R : Option Id} {N : Id → Node} {D : Ref → Bool} {n i : Nat} {J : Job} (S : Half R N D n i J) :
    Spot R N n i J := ⟨S.cell, S.parent⟩

variable {R : Option Id} {N : Id → Node} {L : Id → Leaf V} {F : Id → Bool} {D : Ref → Bool} {nN nL : Nat}
  {J : Job} {fil : Key → Prop} {d : Bool}

/-- The old objects are on the search path. -/
theorem Pair.on {k : Key} {x y x' y' : Ref} (h : Pair N k x y x' y') (hx : On R N k x) : On R N k x' := by
  induction h with
  | base => exact hx
  | step _ hd _ _ ih => exact .step ih hd

theorem Pair.path {k : Key} {x y x' y' : Ref} (h : Pair N k x y x' y') : Path N k x x' ∧ Path N k y y' := by
  induction h with
  | base => exact ⟨.refl _, .refl _⟩
  | step _ hd hd' _ ih => exact ⟨ih.1.snoc hd, ih.2.snoc hd'⟩

/-- Obsolete objects on the search path of a key have a counterpart. -/
theorem JobOk.counterpart (O : JobOk R N L F D nN nL src J fil d) {u i : Nat} (S : Spot R N u i J) {k : Key}
    {y : Ref} (ho : On R N k y) (hy : y ∈ J.ch) (hk : fil k)
    (hroot : ∀ r, R = some r → .node r ∉ J.ch) :
    On R N k (.node u) ∧ route (N u).kids k = i ∧ ∃ y', Pair N k J.x (J.side k) y y' := by
  induction ho with
  | root h => exact absurd hy (hroot _ h)
  | @step n y ho hd ih =>
    rcases S.parent y hy n _ ho.use hd with ⟨rfl, e⟩ | hn
    · refine ⟨ho, e, J.side k, ?_⟩
      have hc := S.cell
      rw [← e] at hc
      have hd' : (N n).cell (route (N n).kids k) = .to y := hd
      rw [hc] at hd'
      cases hd'
      exact .base
    · obtain ⟨h1, h2, y', hp⟩ := ih hn
      refine ⟨h1, h2, ?_⟩
      have P := O.pair k _ _ hk hp
      have hs := P.same
      cases y' with
      | leaf l => simp [Match] at hs
      | node n' =>
        obtain ⟨⟨w, w', g1, g2, g3⟩, _⟩ := hs
        rw [hd] at g1
        cases g1
        by_cases he : y = w'
        · exact absurd hy (g3 he)
        · exact ⟨w', .step hp hd g2 he⟩

end Scc.Grove
