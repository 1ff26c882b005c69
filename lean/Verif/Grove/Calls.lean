import Verif.Grove.Merge

/-!
# Calls that change the shared objects
-/

namespace Scc.Grove

local notation "Key" => Nat
local notation "Id" => Nat
local notation "Thr" => Nat

variable {V : Type} {m m' : Mem V} {A : Key → Option V} {src : Ref → Ref}

/-- A search path that ends in a leaf does not end before. -/
theorem Inv.ends (I : Inv m A src) {k : Key} {l n : Id} (h : On m.root m.node k (.leaf l)) (hn : On m.root m.node k (.node n)) :
    ∃ y, (m.node n).dest k = .to y := by
  have hp := hn.linear I.shape.lev h (by simp)
  cases hp with
  | step hd _ => exact ⟨_, hd⟩

/-- Objects of a change have been created. -/
theorem JobOk.alloc (I : Inv m A src) {J : Job} {fil : Key → Prop} {d : Bool}
    (O : JobOk m.root m.node m.leaf m.frozen m.dead m.nN m.nL src J fil d) {y : Ref} (hy : y ∈ J.ch) : Alloc m.nN m.nL y := by
  cases d with
  | true => exact I.shape.dead_al y (O.dead y hy)
  | false => exact I.lit_al (O.lit rfl y hy)

theorem Inv.setLeaf (I : Inv m A src) {k : Key} {l : Id} (ho : On m.root m.node k (.leaf l)) (hf : m.frozen l = false)
    {L : Leaf V} (hg : ∀ k', k' ≠ k → L.get k' = (m.leaf l).get k') (hr : L.retired = true → L.m = []) :
    Inv (m.setLeaf l L) (upd A k (L.get k)) src := by
  generalize hm' : (m.setLeaf l L : Mem V) = m'
  have e1 : m'.root = m.root := by rw [← hm']; rfl
  have e2 : m'.node = m.node := by rw [← hm']; rfl
  have e3 : m'.phase = m.phase := by rw [← hm']; rfl
  have e4 : m'.dead = m.dead := by rw [← hm']; rfl
  have e5 : m'.leaf = upd m.leaf l L := by rw [← hm']; rfl
  have e6 : m'.frozen = m.frozen := by rw [← hm']; rfl
  have e7 : m'.nL = m.nL := by rw [← hm']; rfl
  have e8 : m'.nN = m.nN := by rw [← hm']; rfl
  clear hm'
  have get : ∀ l' k', (l' = l → k' ≠ k) → (m'.leaf l').get k' = (m.leaf l').get k' := by
    intro l' k' h
    rw [e5]
    by_cases e : l' = l
    · subst e; rw [upd_eq]; exact hg k' (h rfl)
    · rw [upd_ne e]
  have kept : ∀ y, y ≠ .leaf l → Kept m.node m'.node m.leaf m'.leaf y := by
    intro y hy
    cases y with
    | leaf l' =>
      show m'.leaf l' = m.leaf l'
      rw [e5, upd_ne fun e => hy (congrArg Ref.leaf e)]
    | node c => show m'.node c = m.node c; rw [e2]
  have jobOk : ∀ J fil d, JobOk m.root m.node m.leaf m.frozen m.dead m.nN m.nL src J fil d →
      JobOk m.root m.node m'.leaf m.frozen m.dead m.nN m.nL src J fil d := by
    intro J fil d O
    rw [e2] at kept
    refine O.frame (fun x hx => ⟨kept x ?_, rfl, fun k h => h⟩) O.frozen (fun y h1 h2 h3 h4 h5 => ⟨kept y ?_, rfl, h2, h3, h4⟩)
    · rintro rfl
      rw [O.frozen l hx] at hf; cases hf
    · rintro rfl
      exact h3 ⟨k, ho⟩
  have hL := I.locks
  have hS := I.shape
  rw [← e1, ← e2, ← e3, ← e4, ← e7, ← e8] at hS hL
  refine ⟨hS, ?_, ?_, ?_, by rw [e3]; exact I.chain, ?_, hL⟩
  · rw [e1, e2]
    refine ⟨fun k' l' h => ?_, fun k' c h hd => ?_, fun h k' => ?_⟩
    · by_cases e : k' = k
      · subst e
        have := h.unique I.shape.lev ho rfl
        cases this
        rw [upd_eq, e5, upd_eq]
      · rw [upd_ne e, get l' k' fun _ => e]
        exact I.mean.leaf k' l' h
    · by_cases e : k' = k
      · subst e
        obtain ⟨y, hy⟩ := I.ends ho h
        exact absurd hy (hd y)
      · rw [upd_ne e]; exact I.mean.null k' c h hd
    · obtain ⟨r, h', _⟩ := ho.path
      rw [h] at h'; cases h'
  · rw [e1, e2, e3]
    refine ⟨I.order.bound, I.order.above, fun l' k' hl h => ?_, I.order.parent⟩
    by_cases e : l' = l ∧ k' = k
    · obtain ⟨rfl, rfl⟩ := e
      exact .inl ho
    · rw [get l' k' fun h1 h2 => e ⟨h1, h2⟩] at h
      exact I.order.entry l' k' hl h
  · rw [e1, e2, e3, e4, e6]
    refine ⟨I.dead.over, I.dead.null, I.dead.frozen, I.dead.half, fun l' h => ?_, I.dead.plan⟩
    rw [e5] at h ⊢
    by_cases e : l' = l
    · subst e; rw [upd_eq] at h ⊢; exact hr h
    · rw [upd_ne e] at h ⊢; exact I.dead.empty l' h
  · rw [e1, e2, e3, e4, e6, e7, e8]
    refine ⟨fun n i J h1 h2 => ?_, fun n i J h1 => ?_, fun r n nl nh mid ch h1 => ?_, fun n i x y h1 => ?_⟩
    · obtain ⟨O, S⟩ := I.jobs.plan n i J h1 h2
      exact ⟨jobOk _ _ _ O, S⟩
    · obtain ⟨O, S⟩ := I.jobs.half n i J h1
      exact ⟨jobOk _ _ _ O, S⟩
    · obtain ⟨O, S⟩ := I.jobs.root r n nl nh mid ch h1
      exact ⟨jobOk _ _ _ O, S⟩
    · have C := I.jobs.copy n i x y h1
      have hx : x ≠ l := by rintro rfl; rw [C.frozen] at hf; cases hf
      have hy : y ≠ l := by rintro rfl; exact C.unlit ⟨k, ho⟩
      exact ⟨C.slot, C.cell, C.use, C.frozen, C.live, C.al, C.unlit, C.live', C.src,
        by rw [e5, upd_ne hx, upd_ne hy]; exact C.same, by rw [e5, upd_ne hy]; exact C.ret⟩

/-- Threads can go on. -/
theorem Evo.setLeaf (I : Inv m A src) {l : Id} (hf : m.frozen l = false) {L : Leaf V}
    (hr : (m.leaf l).retired = true → L.retired = true) : Evo m (m.setLeaf l L) A := by
  refine ⟨fun k x h => .inl h, fun x h => h, fun x _ h => ?_, Nat.le_refl _, Nat.le_refl _, fun n _ => rfl, fun l' h => ?_⟩
  · cases x with
    | node n => exact h
    | leaf l' =>
      simp only [Retired, Mem.setLeaf] at h ⊢
      by_cases e : l' = l
      · subst e; rw [upd_eq]; exact hr h
      · rw [upd_ne e]; exact h
  · refine upd_ne ?_
    rintro rfl
    have := I.dead.frozen l' h
    rw [hf] at this; cases this

theorem Inv.newRoot (I : Inv m A src) (h : m.root = none) :
    Next m { m.setNode m.nN Node.new with root := some m.nN, nN := m.nN + 1 } A src := by
  have unlit : ∀ y, ¬ Lit m.root m.node y := by
    rintro y ⟨k, ho⟩
    obtain ⟨r, hr, _⟩ := ho.path
    rw [h] at hr; cases hr
  have nodes : m.setNode m.nN Node.new = m := by
    have : upd m.node m.nN Node.new = m.node := by
      funext c
      by_cases e : c = m.nN
      · rw [e, upd_eq, (I.shape.fresh m.nN (Nat.le_refl _)).1]
      · rw [upd_ne e]
    simp only [Mem.setNode, this]
  rw [nodes]
  have hnew := (I.shape.fresh m.nN (Nat.le_refl _)).1
  have hcell : ∀ j, (m.node m.nN).cell j = .null := by intro j; rw [hnew]; rfl
  have hon : ∀ k y, On (some m.nN) m.node k y → y = .node m.nN := by
    intro k y ho
    induction ho with
    | root h => cases h; rfl
    | step _ hd ih =>
      cases ih
      simp only [Node.dest, hcell] at hd
      cases hd
  have hA : ∀ k, A k = none := I.mean.root h
  have huse : ∀ q j y, Use (some m.nN) m.node q j → (m.node q).cell j = .to y → False := by
    rintro q j y ⟨k, ho, _⟩ hc
    cases hon k _ ho
    rw [hcell] at hc; cases hc
  refine ⟨⟨?_, ?_, ?_, ?_, I.chain, ?_, ?_⟩, fun k x ho => absurd ⟨k, ho⟩ (unlit x), fun x h => h, fun x _ h => h, Nat.le_succ _,
    Nat.le_refl _, fun n _ => rfl, fun l _ => rfl⟩
  · refine Shape.of_nodes (fun r h => ?_) (fun n hn => I.shape.fresh n (by simp only at hn; omega)) (fun y hy => ?_) (fun c => ?_)
    · cases h; exact Nat.lt_succ_self _
    · exact (I.shape.dead_al y hy).mono (Nat.le_succ _) (Nat.le_refl _)
    · have K := I.shape.nodeOk c
      exact ⟨fun i y hy => (K.cell_al i y hy).mono (Nat.le_succ _) (Nat.le_refl _), K.lev, K.lv_pos, K.asc, K.nodup, K.pos,
        K.used_pos, K.unb, K.kid⟩
  · refine ⟨fun k l ho => ?_, fun k n _ _ => hA k, fun h => (by cases h)⟩
    cases hon k _ ho
  · refine ⟨fun n hl e he => ?_, fun n hl => ?_, fun l k hl => ?_, fun n n' j j' y hu _ hc => (huse n j y hu hc).elim⟩
    · obtain ⟨k, ho⟩ := hl
      cases hon k _ ho
      replace he : e ∈ (m.node m.nN).kids := he
      rw [hnew] at he; cases he
    · obtain ⟨k, ho⟩ := hl
      cases hon k _ ho
      refine ⟨0, .root rfl, fun e he => ?_⟩
      replace he : e ∈ (m.node m.nN).kids := he
      rw [hnew] at he; cases he
    · obtain ⟨k', ho⟩ := hl
      cases hon k' _ ho
  · refine ⟨I.dead.over, I.dead.null, I.dead.frozen, fun y hy hl => ?_, I.dead.empty, I.dead.plan⟩
    obtain ⟨k, ho⟩ := hl
    cases hon k _ ho
    have h1 : m.nN < m.nN := I.shape.dead_al _ hy
    omega
  · refine ⟨fun n i J h1 h2 => ?_, fun n i J h1 => ?_, fun r n nl nh mid ch h1 => ?_, fun n i x y h1 => ?_⟩
    · exact absurd ⟨_, (I.jobs.plan n i J h1 h2).2.low.1⟩ (unlit _)
    · obtain ⟨k, ho, _⟩ := (I.jobs.half n i J h1).2.high
      exact absurd ⟨k, ho⟩ (unlit _)
    · have := (I.jobs.root r n nl nh mid ch h1).2.root
      rw [h] at this; cases this
    · exact absurd (I.jobs.copy n i x y h1).use.lit (unlit _)
  · have L := I.locks
    refine ⟨fun n hp => .inr ((L.locked n hp).resolve_left (unlit _)), fun n i hp => absurd (L.coal n i hp).1 (unlit _),
      fun n b i hp => absurd (L.move n b i hp).1 (unlit _), fun n i x xl xh mid ch nl nh hp => ?_,
      fun n j xl xh nl nh hp => ?_, L.finLow, L.finHigh, L.hold, L.kind⟩
    · obtain ⟨h1, h2, h3, h4⟩ := L.claim n i x xl xh mid ch nl nh hp
      exact ⟨h1, Nat.lt_succ_of_lt h2, Nat.lt_succ_of_lt h3, h4⟩
    · obtain ⟨h1, h2, h3, h4⟩ := L.fin n j xl xh nl nh hp
      exact ⟨h1, Nat.lt_succ_of_lt h2, Nat.lt_succ_of_lt h3, h4⟩

theorem Inv.nullInsert (I : Inv m A src) {n : Id} (hlit : Lit m.root m.node (.node n))
    (hc : (m.node n).cell 0 = .null) (hl : (m.node n).lv = 1) :
    Next m { ((m.setNode n
              { m.node n with cell := upd (m.node n).cell 0 (.to (.leaf m.nL)) }).setLeaf
              m.nL Leaf.new).freeze m.nL false with nL := m.nL + 1 } A src := by
  have K := I.shape.nodeOk n
  have hk : (m.node n).kids = [] := by
    cases hk : (m.node n).kids with
    | nil => rfl
    | cons a b =>
      obtain ⟨y, hy⟩ := K.unb (by simp [hk])
      rw [hc] at hy; cases hy
  have hslot : ∀ j ∈ (m.node n).slots, j = 0 := by
    intro j hj
    simp only [Node.slots, hk, List.map_nil, List.mem_cons, List.not_mem_nil, or_false] at hj
    exact hj
  have hd : ∀ k, (m.node n).dest k = .null := fun k => by simp only [Node.dest, hk, route_nil, hc]
  have hA : ∀ k, On m.root m.node k (.node n) → A k = none := fun k ho => I.mean.null k n ho fun y => by rw [hd]; simp
  have live : m.dead (.node n) = false := by
    cases h : m.dead (.node n) with
    | false => rfl
    | true => exact absurd hc (I.dead.null n h)
  have noplan : (m.phase n).plan = none := by
    cases h : (m.phase n).plan with
    | none => rfl
    | some a =>
      obtain ⟨i, J⟩ := a
      have S := (I.jobs.plan n i J h live).2
      have := S.cell
      rw [hslot i S.slot, hc] at this; cases this
  have nohalf : (m.phase n).half = none := by
    cases h : (m.phase n).half with
    | none => rfl
    | some a =>
      obtain ⟨i, J⟩ := a
      have S := (I.jobs.half n i J h).2
      have := S.cell
      rw [hslot i S.slot, hc] at this; cases this
  have hnf : ∀ i x xl xh mid ch cl, m.phase n ≠ .full i x xl xh mid ch (some cl) := by
    intro i x xl xh mid ch cl e
    rw [e] at noplan; cases noplan
  have hn : n < m.nN := I.lit_al hlit
  generalize hm' : ({ ((m.setNode n
              { m.node n with cell := upd (m.node n).cell 0 (.to (.leaf m.nL)) }).setLeaf
              m.nL Leaf.new).freeze m.nL false with nL := m.nL + 1 } : Mem V) = m'
  have e1 : m'.root = m.root := by rw [← hm']; rfl
  have e2 : m'.node = upd m.node n { m.node n with cell := upd (m.node n).cell 0 (.to (.leaf m.nL)) } := by rw [← hm']; rfl
  have e3 : m'.phase = m.phase := by rw [← hm']; rfl
  have e4 : m'.dead = m.dead := by rw [← hm']; rfl
  have e5 : m'.leaf = upd m.leaf m.nL Leaf.new := by rw [← hm']; rfl
  have e6 : m'.frozen = upd m.frozen m.nL false := by rw [← hm']; rfl
  have e7 : m'.nL = m.nL + 1 := by rw [← hm']
  have e8 : m'.nN = m.nN := by rw [← hm']; rfl
  clear hm'
  have hN : m'.node n = { m.node n with cell := upd (m.node n).cell 0 (.to (.leaf m.nL)) } := by rw [e2, upd_eq]
  have hother : ∀ c, c ≠ n → m'.node c = m.node c := fun c hc => by rw [e2, upd_ne hc]
  have kids : ∀ c, (m'.node c).kids = (m.node c).kids := by
    intro c
    by_cases e : c = n
    · subst e; rw [hN]
    · rw [hother c e]
  have hlv : ∀ c, (m'.node c).lv = (m.node c).lv := by
    intro c
    by_cases e : c = n
    · subst e; rw [hN]
    · rw [hother c e]
  have hlvl := lvl_congr hlv
  have cell0 : (m'.node n).cell 0 = .to (.leaf m.nL) := by rw [hN]; exact upd_same (m.node n).cell 0 (Ptr.to (Ref.leaf m.nL))
  have cell : ∀ j, j ≠ 0 → (m'.node n).cell j = (m.node n).cell j := fun j hj => by rw [hN]; exact upd_ne hj
  have hd' : ∀ k, (m'.node n).dest k = .to (.leaf m.nL) := fun k => by simp only [Node.dest, kids, hk, route_nil, cell0]
  have to : ∀ k y, On m.root m.node k y → On m'.root m'.node k y := by
    intro k y ho
    rw [e1]
    induction ho with
    | root h => exact .root h
    | @step c y ho hdc ih =>
      refine .step ih ?_
      rw [hother c ?_, hdc]
      rintro rfl
      rw [hd] at hdc; cases hdc
  have of : ∀ k y, On m'.root m'.node k y → On m.root m.node k y ∨ y = .leaf m.nL ∧ On m.root m.node k (.node n) := by
    intro k y ho
    rw [e1] at ho
    induction ho with
    | root h => exact .inl (.root h)
    | @step c y ho hdc ih =>
      rcases ih with ih | ⟨ih, _⟩
      · by_cases e : c = n
        · subst e
          rw [hd'] at hdc
          cases hdc
          exact .inr ⟨rfl, ih⟩
        · rw [hother c e] at hdc
          exact .inl (.step ih hdc)
      · cases ih
  have ofNode : ∀ k c, On m'.root m'.node k (.node c) ↔ On m.root m.node k (.node c) := by
    intro k c
    refine ⟨fun h => ?_, to k _⟩
    rcases of k _ h with h | ⟨h, _⟩
    · exact h
    · cases h
  have use : ∀ q j, Use m'.root m'.node q j ↔ Use m.root m.node q j := by
    intro q j
    simp only [Use, ofNode, kids]
  have lit' : ∀ y, Lit m'.root m'.node y → Lit m.root m.node y ∨ y = .leaf m.nL := by
    rintro y ⟨k, ho⟩
    rcases of k y ho with h | h
    · exact .inl ⟨k, h⟩
    · exact .inr h.1
  have toLit : ∀ y, Lit m.root m.node y → Lit m'.root m'.node y := by
    rintro y ⟨k, ho⟩
    exact ⟨k, to k y ho⟩
  have nal : ∀ y, Alloc m.nN m.nL y → y ≠ .leaf m.nL := by
    rintro y h rfl
    exact Nat.lt_irrefl _ h
  have kept : ∀ y, y ≠ .node n → y ≠ .leaf m.nL → Kept m.node m'.node m.leaf m'.leaf y := by
    intro y hy hy'
    cases y with
    | leaf l => show m'.leaf l = m.leaf l; rw [e5, upd_ne fun e => hy' (congrArg Ref.leaf e)]
    | node c => exact hother c fun e => hy (e ▸ rfl)
  have frozen : ∀ l, l ≠ m.nL → m'.frozen l = m.frozen l := fun l hl => by rw [e6, upd_ne hl]
  have used : ∀ q j y, Use m'.root m'.node q j → (m'.node q).cell j = .to y →
      (q ≠ n ∧ Use m.root m.node q j ∧ (m.node q).cell j = .to y) ∨ (q = n ∧ j = 0 ∧ y = .leaf m.nL) := by
    intro q j y hu hcl
    have hu' := (use q j).1 hu
    by_cases e : q = n
    · subst e
      obtain ⟨k, _, hj⟩ := hu'
      have hj0 : j = 0 := by rw [← hj, hk, route_nil]
      subst hj0
      rw [cell0] at hcl
      cases hcl
      exact .inr ⟨rfl, rfl, rfl⟩
    · rw [hother q e] at hcl
      exact .inl ⟨e, hu', hcl⟩
  have jobOk : ∀ c J fil d, (m.phase c).job = some J → JobOk m.root m.node m.leaf m.frozen m.dead m.nN m.nL src J fil d →
      JobOk m'.root m'.node m'.leaf m'.frozen m'.dead m'.nN m'.nL src J fil d ∧
      ∀ y ∈ J.ch, ∀ q j, Use m'.root m'.node q j → (m'.node q).cell j = .to y → Use m.root m.node q j ∧ (m.node q).cell j = .to y := by
    intro c J fil d hj O
    have hal : ∀ y ∈ J.ch, y ≠ .leaf m.nL := fun y hy => nal y (O.alloc I hy)
    refine ⟨?_, fun y hy q j hu hcl => ?_⟩
    · rw [e4, e7, e8]
      refine O.frame (fun x hx => ⟨kept x (fun e => I.chain.not_mem hj hnf (e ▸ hx)) (hal x hx), rfl, fun k h => to k x h⟩)
        (fun l hl => by rw [frozen l fun e => hal _ hl (e ▸ rfl)]; exact O.frozen l hl)
        (fun y h1 h2 h3 h4 h5 => ⟨kept y (fun e => h3 (e ▸ hlit)) (nal y h2), rfl, h2.mono (Nat.le_refl _) (Nat.le_succ _), fun h => ?_, h4⟩)
      rcases lit' y h with h | h
      · exact h3 h
      · exact nal y h2 h
    · rcases used q j y hu hcl with h | h
      · exact h.2
      · exact absurd h.2.2 (hal y hy)
  have evo : Evo m m' A := by
    refine ⟨fun k x h => .inl (to k x h), fun x h => by rw [e4]; exact h, fun x ha h => ?_, Nat.le_of_eq e8.symm, by omega,
      fun c h => ?_, fun l h => ?_⟩
    · refine (kept x ?_ (nal x ha)).retired.2 h
      rintro rfl
      simp only [Retired, hc] at h; cases h
    · refine hother c ?_
      rintro rfl
      rw [e4, live] at h; cases h
    · rw [e4] at h
      exact kept (.leaf l) (by simp) (nal _ (I.shape.dead_al _ h))
  refine ⟨⟨?_, ?_, ?_, ?_, by rw [e3]; exact I.chain, ?_, ?_⟩, evo⟩
  · rw [e7, e8]
    refine Shape.of_nodes (by rw [e1]; exact I.shape.root_lt) (fun c hc => ?_) (fun y hy => ?_) (fun c => ?_)
    · have := I.shape.fresh c hc
      rw [hother c (by omega), e3]; exact this
    · rw [e4] at hy
      exact (I.shape.dead_al y hy).mono (Nat.le_refl _) (Nat.le_succ _)
    · have K := I.shape.nodeOk c
      have cells : ∀ j y, (m'.node c).cell j = .to y → (m.node c).cell j = .to y ∨ c = n ∧ y = .leaf m.nL := by
        intro j y hy
        by_cases e : c = n
        · subst e
          by_cases hj : j = 0
          · subst hj; rw [cell0] at hy; cases hy; exact .inr ⟨rfl, rfl⟩
          · rw [cell j hj] at hy; exact .inl hy
        · rw [hother c e] at hy; exact .inl hy
      refine ⟨fun j y hy => ?_, fun j y hy => ?_, by rw [hlv]; exact K.lv_pos, by rw [kids]; exact K.asc,
        by rw [kids]; exact K.nodup, ?_, ?_, fun h => ?_, fun e he => ?_⟩
      · rcases cells j y hy with h | ⟨_, rfl⟩
        · exact (K.cell_al j y h).mono (Nat.le_refl _) (Nat.le_succ _)
        · exact Nat.lt_succ_self _
      · rw [hlvl, hlv]
        rcases cells j y hy with h | ⟨rfl, rfl⟩
        · exact K.lev j y h
        · rw [hl]; rfl
      · by_cases e : c = n
        · subst e; rw [hN]; exact K.pos
        · rw [hother c e]; exact K.pos
      · by_cases e : c = n
        · subst e; rw [hN]; exact K.used_pos
        · rw [hother c e]; exact K.used_pos
      · by_cases e : c = n
        · subst e; exact ⟨_, cell0⟩
        · rw [hother c e] at h ⊢; exact K.unb h
      · by_cases e' : c = n
        · subst e'
          rw [kids, hk] at he; cases he
        · rw [hother c e'] at he ⊢; exact K.kid e he
  · refine ⟨fun k l ho => ?_, fun k c ho hdc => ?_, by rw [e1]; exact I.mean.root⟩
    · rcases of k _ ho with h | ⟨h, h'⟩
      · have : l ≠ m.nL := fun e => nal _ (I.on_al h) (e ▸ rfl)
        rw [e5, upd_ne this]
        exact I.mean.leaf k l h
      · cases h
        rw [hA k h', e5, upd_eq]
        rfl
    · have ho' := (ofNode k c).1 ho
      by_cases e : c = n
      · subst e; exact hA k ho'
      · rw [hother c e] at hdc
        exact I.mean.null k c ho' hdc
  · rw [e3]
    refine ⟨fun c hl e he => ?_, fun c hl => ?_, fun l k hl hg => ?_, fun q q' j j' y hu hu' hcl hcl' => ?_⟩
    · rw [kids] at he
      obtain ⟨k, ho⟩ := hl
      exact (I.order.bound c ⟨k, (ofNode k c).1 ho⟩ e he).imp (to _ _) id
    · obtain ⟨k, ho⟩ := hl
      obtain ⟨k', h1, h2⟩ := I.order.above c ⟨k, (ofNode k c).1 ho⟩
      exact ⟨k', to _ _ h1, by rw [kids]; exact h2⟩
    · by_cases e : l = m.nL
      · subst e
        rw [e5, upd_eq] at hg
        exact absurd rfl hg
      · rw [e5, upd_ne e] at hg
        rcases lit' _ hl with h | h
        · exact (I.order.entry l k h hg).imp (to _ _) id
        · cases h; exact absurd rfl e
    · rcases used q j y hu hcl with ⟨a1, a2, a3⟩ | ⟨a1, a2, a3⟩ <;> rcases used q' j' y hu' hcl' with ⟨b1, b2, b3⟩ | ⟨b1, b2, b3⟩
      · exact I.order.parent _ _ _ _ _ a2 b2 a3 b3
      · exact absurd b3 (nal y (I.lit_al (a2.child a3)))
      · exact absurd a3 (nal y (I.lit_al (b2.child b3)))
      · exact ⟨a1.trans b1.symm, .inl (a2.trans b2.symm)⟩
  · rw [e3, e4]
    refine ⟨I.dead.over, fun c hD => ?_, fun l hd => ?_, fun y hd hl => ?_, fun l h => ?_, I.dead.plan⟩
    · rw [hother c ?_]
      · exact I.dead.null c hD
      · rintro rfl
        rw [live] at hD; cases hD
    · rw [frozen l fun e => nal _ (I.shape.dead_al _ hd) (e ▸ rfl)]
      exact I.dead.frozen l hd
    · rcases lit' _ hl with h | h
      · exact I.dead.half y hd h
      · exact absurd h (nal y (I.shape.dead_al _ hd))
    · rw [e5] at h ⊢
      by_cases e : l = m.nL
      · subst e; rw [upd_eq]; rfl
      · rw [upd_ne e] at h ⊢; exact I.dead.empty l h
  · rw [e3]
    refine ⟨fun c i J h1 h2 => ?_, fun c i J h1 => ?_, fun r c nl nh mid ch h1 => ?_, fun c i x y h1 => ?_⟩
    · rw [e4] at h2
      obtain ⟨O, S⟩ := I.jobs.plan c i J h1 h2
      obtain ⟨O', pa⟩ := jobOk c J _ _ (Phase.plan_job h1) O
      have hcn : c ≠ n := by rintro rfl; rw [noplan] at h1; cases h1
      exact ⟨O', S.frame (hother c hcn) (fun x _ => hlvl x) (fun k => to k _)
        fun y hy q j hu hcl => S.parent y hy q j (pa y hy q j hu hcl).1 (pa y hy q j hu hcl).2⟩
    · obtain ⟨O, S⟩ := I.jobs.half c i J h1
      obtain ⟨O', pa⟩ := jobOk c J _ _ (Phase.half_job h1) O
      have hcn : c ≠ n := by rintro rfl; rw [nohalf] at h1; cases h1
      exact ⟨O', S.frame (hother c hcn) (fun x _ => hlvl x) (fun k => to k _) (by rw [e4]; exact S.live) (by rw [e4]; exact S.lowLive)
        fun y hy q j hu hcl => S.parent y hy q j (pa y hy q j hu hcl).1 (pa y hy q j hu hcl).2⟩
    · obtain ⟨O, S⟩ := I.jobs.root r c nl nh mid ch h1
      obtain ⟨O', pa⟩ := jobOk r _ _ _ (by rw [h1]; rfl) O
      have hcn : r ≠ n := by rintro rfl; exact S.unlit hlit
      exact ⟨O', S.frame e1 (hother r hcn) (Nat.le_of_eq e8.symm) (fun h => (lit' _ h).elim S.unlit (by simp)) (by rw [e4]; exact S.live) rfl
        fun y hy q j hu hcl => S.parent y hy q j (pa y hy q j hu hcl).1 (pa y hy q j hu hcl).2⟩
    · have C := I.jobs.copy c i x y h1
      have hcn : c ≠ n := by
        rintro rfl
        have := C.cell
        rw [hslot i C.slot, hc] at this; cases this
      have hx : x ≠ m.nL := fun e => nal _ (I.lit_al (C.use.child C.cell)) (e ▸ rfl)
      have hy : y ≠ m.nL := Nat.ne_of_lt C.al
      refine ⟨by rw [hother c hcn]; exact C.slot, by rw [hother c hcn]; exact C.cell, (use c i).2 C.use, by rw [frozen x hx]; exact C.frozen,
        by rw [e4]; exact C.live, by rw [e7]; exact Nat.lt_succ_of_lt C.al, fun h => ?_, by rw [e4]; exact C.live', C.src,
        by rw [e5, upd_ne hx, upd_ne hy]; exact C.same, by rw [e5, upd_ne hy]; exact C.ret⟩
      rcases lit' _ h with h | h
      · exact C.unlit h
      · cases h; exact hy rfl
  · have L := I.locks
    rw [e3, e4, e7, e8]
    have hold : ∀ c l, l < m.nL → Hold m.node m.phase src c l → Hold m'.node m.phase src c l := by
      intro c l hl H q j hcl
      by_cases e : q = n
      · subst e
        by_cases hj : j = 0
        · subst hj
          rw [cell0] at hcl
          cases hcl
          exact absurd hl (Nat.lt_irrefl _)
        · rw [cell j hj] at hcl
          exact H q j hcl
      · rw [hother q e] at hcl
        exact H q j hcl
    have ncoal : ∀ c y, (m.node c).cell 0 = .to y → c ≠ n := by
      rintro c y h rfl
      rw [hc] at h; cases h
    refine ⟨fun c hp => ?_, fun c i hp => ?_, fun c b i hp => ?_, fun c i x xl xh mid ch nl nh hp => ?_,
      L.fin, fun c xl xh nl nh hp => ?_, fun c j xl xh nl nh hp hj => ?_, fun c i J l hp hl => ?_, fun c i J hp => ?_⟩
    · rcases L.locked c hp with h | h
      · exact .inl (toLit _ h)
      · right
        rw [hother c ?_]; exact h
        rintro rfl
        rw [hc] at h; cases h
    · obtain ⟨h1, h2, h3, y, h4⟩ := L.coal c i hp
      rw [hother c (ncoal c y h4)]
      exact ⟨toLit _ h1, h2, h3, y, h4⟩
    · obtain ⟨h1, h2, y, h3, h4⟩ := L.move c b i hp
      rw [hother c (ncoal c y h3)]
      exact ⟨toLit _ h1, h2, y, h3, h4⟩
    · rw [hlv]; exact L.claim c i x xl xh mid ch nl nh hp
    · obtain ⟨h1, h2, h3, h4, h5⟩ := L.finLow c xl xh nl nh hp
      exact ⟨Nat.lt_succ_of_lt h1, h2, h3, h4, hold c xl h1 h5⟩
    · obtain ⟨h1, h2, h3, h4, h5⟩ := L.finHigh c j xl xh nl nh hp hj
      exact ⟨Nat.lt_succ_of_lt h1, h2, h3, h4, hold c xh h1 h5⟩
    · obtain ⟨h1, h2, h3, h4⟩ := L.hold c i J l hp hl
      exact ⟨Nat.lt_succ_of_lt h1, h2, h3, hold c l h1 h4⟩
    · rw [hlvl, hlvl, hlvl, hlv]
      exact L.kind c i J hp

end Scc.Grove
