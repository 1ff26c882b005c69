import Verif.Grove.Quiet

/-!
# Locking, thawing, giving up
-/

namespace Scc.Grove

local notation "Key" => Nat
local notation "Id" => Nat
local notation "Thr" => Nat

variable {V : Type} {m : Mem V} {A : Key → Option V} {src : Ref → Ref}

theorem upd_eq {α : Type} {f : Nat → α} {a : Nat} {v : α} : upd f a v a = v := if_pos rfl
theorem upd_ne {α : Type} {f : Nat → α} {a b : Nat} {v : α} (h : b ≠ a) : upd f a v b = f b := if_neg h

/-- The same for a change of one phase. -/
structure Calm1 (m : Mem V) (src : Ref → Ref) (n : Id) (p : Phase) (F : Id → Bool) : Prop where
  half : p.half = (m.phase n).half
  plan : ∀ i J, p.plan = some (i, J) → (m.phase n).plan = some (i, J)
  job : ∀ J, p.job = some J → (m.phase n).job = some J
  sub : ∀ n' J, (m.phase n').job = some J → J.x ≠ .node n
  root : ∀ n' nl nh mid ch, p = .root n' nl nh mid ch → m.phase n = .root n' nl nh mid ch
  single : ∀ i x y, p = .single i x y → m.phase n = .single i x y
  move : ∀ b i, p = .move b i ↔ m.phase n = .move b i
  coal : ∀ i, p = .coal i → m.phase n = .coal i
  over : m.dead (.node n) = true → p.over = true
  fresh : n < m.nN
  locked : p = .locked → m.phase n = .locked ∨ Lit m.root m.node (.node n) ∨ (m.node n).cell 0 = .ret
  claim : ∀ i x xl xh mid ch c, p = .full i x xl xh mid ch (some c) → m.phase n = .full i x xl xh mid ch (some c)
  fin : ∀ j xl xh nl nh, p = .fin j xl xh nl nh → ∃ j', j' ≤ j ∧ m.phase n = .fin j' xl xh nl nh
  held : m.phase n = .held → ∃ n', n' ≠ n ∧ src (.node n) = .node n' ∧
    (m.phase n' = .gone ∨ ∃ xl xh nl nh, m.phase n' = .fin 3 xl xh nl nh ∧ n = nl)
  frozen : ∀ l, m.frozen l = true → F l = true ∨ m.dead (.leaf l) = false ∧
    (∀ n' i J, n' ≠ n → (m.phase n').plan = some (i, J) → m.dead (.node n') = false → .leaf l ∉ J.ch) ∧
    (∀ r n nl nh mid ch, m.phase r = .root n nl nh mid ch → .leaf l ∉ ch) ∧
    (∀ n' i y, m.phase n' ≠ .single i l y) ∧ p.plan = none

theorem Calm1.calmer (I : Inv m A src) {n : Id} {p : Phase} {F : Id → Bool} (C : Calm1 m src n p F) :
    Calmer m src (upd m.phase n p) F := by
  have hj : ∀ n' J, (upd m.phase n p n').job = some J → (m.phase n').job = some J := by
    intro n' J
    by_cases e : n' = n
    · subst e; rw [upd_eq]; exact C.job J
    · rw [upd_ne e]; exact id
  have hr : ∀ r n' nl nh mid ch, upd m.phase n p r = .root n' nl nh mid ch → m.phase r = .root n' nl nh mid ch := by
    intro r n' nl nh mid ch
    by_cases e : r = n
    · subst e; rw [upd_eq]; exact C.root _ _ _ _ _
    · rw [upd_ne e]; exact id
  have hs : ∀ n' i x y, upd m.phase n p n' = .single i x y → m.phase n' = .single i x y := by
    intro n' i x y
    by_cases e : n' = n
    · subst e; rw [upd_eq]; exact C.single _ _ _
    · rw [upd_ne e]; exact id
  constructor
  · intro n'
    by_cases e : n' = n
    · subst e; rw [upd_eq]; exact C.half
    · rw [upd_ne e]
  · intro n' i J
    by_cases e : n' = n
    · subst e; rw [upd_eq]; exact C.plan i J
    · rw [upd_ne e]; exact id
  · exact hj
  · intro n' J c h hx
    refine upd_ne fun e => ?_
    subst e
    exact C.sub n' J (hj n' J h) hx
  · exact hr
  · exact hs
  · intro n' b i
    by_cases e : n' = n
    · subst e; rw [upd_eq]; exact C.move b i
    · rw [upd_ne e]
  · intro n' i
    by_cases e : n' = n
    · subst e; rw [upd_eq]; exact C.coal i
    · rw [upd_ne e]; exact id
  · intro n' hd
    by_cases e : n' = n
    · subst e; rw [upd_eq]; exact C.over hd
    · rw [upd_ne e]; exact I.dead.over n' hd
  · intro n' hn
    rw [upd_ne (by have := C.fresh; omega)]; exact (I.shape.fresh n' hn).2
  · intro n'
    by_cases e : n' = n
    · subst e; rw [upd_eq]; exact C.locked
    · rw [upd_ne e]; exact .inl
  · intro n' i x xl xh mid ch c
    by_cases e : n' = n
    · subst e; rw [upd_eq]; exact C.claim _ _ _ _ _ _ _
    · rw [upd_ne e]; exact id
  · intro n' j xl xh nl nh
    by_cases e : n' = n
    · subst e; rw [upd_eq]; exact C.fin _ _ _ _ _
    · rw [upd_ne e]; exact fun h => ⟨j, Nat.le_refl _, h⟩
  · intro q hq
    by_cases e : q = n
    · subst e
      obtain ⟨n', h1, h2, h3⟩ := C.held hq
      exact .inr ⟨n', h2, by rw [upd_ne h1]; exact h3⟩
    · rw [upd_ne e]; exact .inl hq
  · intro l hl
    refine (C.frozen l hl).imp id fun ⟨h1, h2, h3, h4, h5⟩ => ⟨h1, fun n' i J hp hd => ?_, ?_, ?_⟩
    · by_cases e : n' = n
      · subst e; rw [upd_eq, h5] at hp; cases hp
      · rw [upd_ne e] at hp; exact h2 n' i J e hp hd
    · exact fun r n' nl nh mid ch h => h3 r _ _ _ _ _ (hr _ _ _ _ _ _ h)
    · exact fun n' i y h => h4 n' i y (hs _ _ _ _ h)

theorem Inv.on_al (I : Inv m A src) {k : Key} {y : Ref} (h : On m.root m.node k y) : Alloc m.nN m.nL y := by
  cases h with
  | root h => exact I.shape.root_lt _ h
  | step _ hd => exact I.shape.cell_al _ _ _ hd

theorem Inv.lit_al (I : Inv m A src) {y : Ref} (h : Lit m.root m.node y) : Alloc m.nN m.nL y := by
  obtain ⟨k, h⟩ := h
  exact I.on_al h

theorem Inv.lt_of_phase (I : Inv m A src) {n : Id} (h : m.phase n ≠ .free) : n < m.nN := by
  by_cases hn : n < m.nN
  · exact hn
  · exact absurd (I.shape.fresh n (by omega)).2 h

theorem Inv.lt_of_ret (I : Inv m A src) {n : Id} (h : (m.node n).cell 0 = .ret) : n < m.nN := by
  by_cases hn : n < m.nN
  · exact hn
  · rw [(I.shape.fresh n (by omega)).1] at h; cases h

theorem Inv.not_target (I : Inv m A src) {n : Id}
    (h : ∀ i x xl xh mid ch cl, m.phase n ≠ .full i x xl xh mid ch (some cl)) :
    ∀ n' J, (m.phase n').job = some J → J.x ≠ .node n := by
  intro n' J hj e
  exact I.chain.not_mem hj h (e ▸ I.chain.head_mem hj)

/-- A leaf may be thawed if the nodes with pointers to it do not need it frozen. -/
theorem Inv.thawable (I : Inv m A src) {n l : Id} (hD : m.dead (.leaf l) = false)
    (hq : ∀ q j, Use m.root m.node q j → (m.node q).cell j = .to (.leaf l) →
      (∀ i x xl xh mid ch cl, m.phase q ≠ .full i x xl xh mid ch (some cl)) ∧
      (q = n ∨ (m.phase q).plan = none) ∧ ∀ i y, m.phase q ≠ .single i l y) :
    m.dead (.leaf l) = false ∧
    (∀ n' i J, n' ≠ n → (m.phase n').plan = some (i, J) → m.dead (.node n') = false → .leaf l ∉ J.ch) ∧
    (∀ r n nl nh mid ch, m.phase r = .root n nl nh mid ch → .leaf l ∉ ch) ∧
    (∀ n' i y, m.phase n' ≠ .single i l y) := by
  refine ⟨hD, fun n' i J hn hp hd hm => ?_, fun r n' nl nh mid ch hr hm => ?_, fun n' i y hs => ?_⟩
  · obtain ⟨O, S⟩ := I.jobs.plan n' i J hp hd
    obtain ⟨k, ho⟩ := O.lit rfl _ hm
    obtain ⟨q, h1, h2⟩ := ho.inv_leaf
    obtain ⟨g1, g2, _⟩ := hq q _ h1.use h2
    rcases S.parent _ hm q _ h1.use h2 with ⟨rfl, _⟩ | h3
    · rcases g2 with g2 | g2
      · exact hn g2
      · rw [hp] at g2; cases g2
    · exact I.chain.not_mem (Phase.plan_job hp) g1 h3
  · obtain ⟨O, S⟩ := I.jobs.root r n' nl nh mid ch hr
    obtain ⟨k, ho⟩ := O.lit rfl _ hm
    obtain ⟨q, h1, h2⟩ := ho.inv_leaf
    obtain ⟨g1, g2, _⟩ := hq q _ h1.use h2
    have hj : (m.phase r).job = some ⟨.node n', .node nl, .node nh, mid, ch⟩ := by rw [hr]; rfl
    exact I.chain.not_mem hj g1 (S.parent _ hm q _ h1.use h2)
  · have K := I.jobs.copy n' i l y hs
    exact (hq n' i K.use K.cell).2.2 _ _ hs

theorem Inv.lock (I : Inv m A src) {n : Id} (h : m.phase n = .free)
    (hv : Lit m.root m.node (.node n) ∨ (m.node n).cell 0 = .ret) : Inv (m.setPhase n .locked) A src := by
  refine I.phase (Calm1.calmer I (n := n) (p := .locked) (F := m.frozen) ?_) rfl
  constructor <;> try (simp [h, Phase.half, Phase.plan, Phase.job]; done)
  · exact I.not_target (by simp [h])
  · intro hd
    have := I.dead.over n hd
    rw [h] at this; cases this
  · rcases hv with hv | hv
    · exact I.lit_al hv
    · exact I.lt_of_ret hv
  · exact fun _ => .inr hv
  · exact fun l hl => .inl hl

theorem Inv.unlock (I : Inv m A src) {n : Id} (h : m.phase n = .locked) : Inv (m.setPhase n .free) A src := by
  refine I.phase (Calm1.calmer I (n := n) (p := .free) (F := m.frozen) ?_) rfl
  constructor <;> try (simp [h, Phase.half, Phase.plan, Phase.job]; done)
  · exact I.not_target (by simp [h])
  · intro hd
    have := I.dead.over n hd
    rw [h] at this; cases this
  · exact I.lt_of_phase (by simp [h])
  · exact fun l hl => .inl hl

theorem Inv.reserve (I : Inv m A src) {n : Id} : Inv (m.bump n) A src :=
  ⟨I.shape, I.mean, I.order, I.dead, I.chain, I.jobs, I.locks⟩

theorem Inv.thaw (I : Inv m A src) {n i : Nat} {x xl xh : Ref} {mid : Key} {ch : List Ref}
    (h : m.phase n = .ins i x xl xh mid ch false) : Inv ((m.thaw xl).setPhase n (.ins i x xl xh mid ch true)) A src := by
  have hF : ∃ F, (m.thaw xl).setPhase n (.ins i x xl xh mid ch true) =
      { m with phase := upd m.phase n (.ins i x xl xh mid ch true), frozen := F } ∧
      ∀ l, F l = m.frozen l ∨ xl = .leaf l := by
    cases xl with
    | leaf l =>
      refine ⟨upd m.frozen l false, rfl, fun l' => ?_⟩
      by_cases e : l' = l
      · exact .inr (by rw [e])
      · exact .inl (upd_ne e)
    | node c => exact ⟨m.frozen, rfl, fun _ => .inl rfl⟩
  obtain ⟨F, e, hF⟩ := hF
  rw [e]
  refine I.phase (Calm1.calmer I (n := n) (p := .ins i x xl xh mid ch true) (F := F) ?_) rfl
  obtain ⟨O, S⟩ := I.jobs.half n i ⟨x, xl, xh, mid, ch⟩ (by rw [h]; rfl)
  constructor <;> try (simp [h, Phase.half, Phase.plan, Phase.job]; done)
  · exact I.not_target (by simp [h])
  · intro hd
    rw [S.live] at hd; cases hd
  · exact I.lt_of_phase (by simp [h])
  · intro l hl
    rcases hF l with e | e
    · exact .inl (e.trans hl)
    · have hx : xl = .leaf l := e
      subst hx
      obtain ⟨g1, g2, g3, g4⟩ := I.thawable (n := n) (l := l) S.lowLive fun q j hu hc => by
        obtain ⟨j', hu', hc'⟩ := S.low
        obtain ⟨rfl, _⟩ := I.order.parent q n j j' _ hu hu' hc hc'
        simp [h]
      exact .inr ⟨g1, g2, g3, g4, rfl⟩

theorem Inv.fullStep (I : Inv m A src) {n i : Nat} {x xl xh : Ref} {mid : Key} {ch : List Ref}
    (h : m.phase n = .split i x xl xh mid ch) :
    Inv ((match xh with | .leaf l => m.freeze l true | .node _ => m).setPhase n (.full i x xl xh mid ch none))
      A src := by
  have hF : ∃ F, (match xh with | .leaf l => m.freeze l true | .node _ => m).setPhase n (.full i x xl xh mid ch none) =
      { m with phase := upd m.phase n (.full i x xl xh mid ch none), frozen := F } ∧
      ∀ l, m.frozen l = true → F l = true := by
    cases xh with
    | leaf l =>
      refine ⟨upd m.frozen l true, rfl, fun l' hl => ?_⟩
      by_cases e : l' = l
      · rw [e, upd_eq]
      · rw [upd_ne e, hl]
    | node c => exact ⟨m.frozen, rfl, fun _ => id⟩
  obtain ⟨F, e, hF⟩ := hF
  rw [e]
  refine I.phase (Calm1.calmer I (n := n) (p := .full i x xl xh mid ch none) (F := F) ?_) rfl
  constructor <;> try (simp [h, Phase.half, Phase.plan, Phase.job]; done)
  · exact I.not_target (by simp [h])
  · intro hd
    have := I.dead.over n hd
    rw [h] at this; cases this
  · exact I.lt_of_phase (by simp [h])
  · exact fun l hl => .inl (hF l hl)

theorem Inv.rollLeaf (I : Inv m A src) {n i x : Nat} {xl xh : Ref} {mid : Key} {ch : List Ref}
    (h : m.phase n = .full i (.leaf x) xl xh mid ch none) : Inv ((m.freeze x false).setPhase n .free) A src := by
  refine I.phase (Calm1.calmer I (n := n) (p := .free) (F := upd m.frozen x false) ?_) rfl
  have hd : m.dead (.node n) = false := by
    cases hd : m.dead (.node n) with
    | false => rfl
    | true => have := I.dead.over n hd; rw [h] at this; cases this
  have hp : (m.phase n).plan = some (i, ⟨.leaf x, xl, xh, mid, ch⟩) := by rw [h]; rfl
  obtain ⟨O, S⟩ := I.jobs.plan n i _ hp hd
  obtain ⟨ch', c1, c2, _⟩ := I.chain.list n _ (Phase.plan_job hp)
  rw [c2 x rfl] at c1
  simp only at c1
  constructor <;> try (simp [h, Phase.half, Phase.plan, Phase.job]; done)
  · exact I.not_target (by simp [h])
  · intro hd'
    rw [hd] at hd'; cases hd'
  · exact I.lt_of_phase (by simp [h])
  · intro l hl
    by_cases e : l = x
    · subst e
      right
      obtain ⟨g1, g2, g3, g4⟩ := I.thawable (n := n) (l := l) (O.dead _ (by simp [c1])) fun q j hu hc => by
        rcases S.parent (.leaf l) (by simp [c1]) q j hu hc with ⟨rfl, _⟩ | hn
        · simp [h]
        · simp [c1] at hn
      exact ⟨g1, g2, g3, g4, rfl⟩
    · exact .inl (by rw [upd_ne e, hl])

theorem Inv.rollNode (I : Inv m A src) {n i c : Nat} {xl xh : Ref} {mid : Key} {ch : List Ref} {i' : Nat}
    {x' xl' xh' : Ref} {mid' : Key} {ch' : List Ref} {cl : Option (Id × Id)}
    (h : m.phase n = .full i (.node c) xl xh mid ch none)
    (hc : m.phase c = .full i' x' xl' xh' mid' ch' cl) :
    Inv ((m.setPhase n .free).setPhase c (.full i' x' xl' xh' mid' ch' none)) A src := by
  have hd : m.dead (.node n) = false := by
    cases hd : m.dead (.node n) with
    | false => rfl
    | true => have := I.dead.over n hd; rw [h] at this; cases this
  have hp : (m.phase n).plan = some (i, ⟨.node c, xl, xh, mid, ch⟩) := by rw [h]; rfl
  obtain ⟨O, S⟩ := I.jobs.plan n i _ hp hd
  have hcm : Ref.node c ∈ ch := I.chain.head_mem (Phase.plan_job hp)
  have hnc : c ≠ n := by
    rintro rfl
    have := S.below _ hcm
    simp at this
  have I1 : Inv (m.setPhase n .free) A src := by
    refine I.phase (Calm1.calmer I (n := n) (p := .free) (F := m.frozen) ?_) rfl
    constructor <;> try (simp [h, Phase.half, Phase.plan, Phase.job]; done)
    · exact I.not_target (by simp [h])
    · intro hd'
      rw [hd] at hd'; cases hd'
    · exact I.lt_of_phase (by simp [h])
    · exact fun l hl => .inl hl
  refine I1.phase (Calm1.calmer I1 (n := c) (p := .full i' x' xl' xh' mid' ch' none) (F := m.frozen) ?_) rfl
  have hc' : (m.setPhase n .free).phase c = .full i' x' xl' xh' mid' ch' cl := by
    simp only [Mem.setPhase, upd_ne hnc, hc]
  constructor <;> try (simp [hc', Phase.half, Phase.plan, Phase.job]; done)
  · intro n' J hj e
    by_cases en : n' = n
    · subst en; simp only [Mem.setPhase, upd_eq] at hj; cases hj
    · simp only [Mem.setPhase, upd_ne en] at hj
      exact en (I.chain.uniq n' n _ _ hj (Phase.plan_job hp) e)
  · intro hd'
    have := O.dead _ hcm
    rw [show (m.setPhase n Phase.free).dead = m.dead from rfl, this] at hd'
    cases hd'
  · exact I1.lt_of_phase (by simp [hc'])
  · exact fun l hl => .inl hl

theorem Inv.finLow (I : Inv m A src) {n xl xh nl nh : Nat} (h : m.phase n = .fin 0 xl xh nl nh) :
    Inv ((m.freeze xl false).setPhase n (.fin 1 xl xh nl nh)) A src := by
  refine I.phase (Calm1.calmer I (n := n) (p := .fin 1 xl xh nl nh) (F := upd m.frozen xl false) ?_) rfl
  obtain ⟨f1, f2, f4, _, f3⟩ := I.locks.finLow n xl xh nl nh h
  constructor <;> try (simp [h, Phase.half, Phase.plan, Phase.job]; done)
  · exact I.not_target (by simp [h])
  · exact fun _ => rfl
  · exact I.lt_of_phase (by simp [h])
  · intro j a b c d e
    cases e
    exact ⟨0, by omega, h⟩
  · intro l hl
    by_cases e : l = xl
    · subst e
      right
      obtain ⟨g1, g2, g3, g4⟩ := I.thawable (n := n) (l := l) f2 fun q j hu hc => by
        have := (f3 q j hc).1
        simp [this, Phase.plan]
      exact ⟨g1, g2, g3, g4, rfl⟩
    · exact .inl (by rw [upd_ne e, hl])

theorem Inv.finHigh (I : Inv m A src) {n xl xh nl nh : Nat} (h : m.phase n = .fin 1 xl xh nl nh) :
    Inv ((m.freeze xh false).setPhase n (.fin 2 xl xh nl nh)) A src := by
  refine I.phase (Calm1.calmer I (n := n) (p := .fin 2 xl xh nl nh) (F := upd m.frozen xh false) ?_) rfl
  obtain ⟨f1, f2, f4, _, f3⟩ := I.locks.finHigh n 1 xl xh nl nh h (by omega)
  constructor <;> try (simp [h, Phase.half, Phase.plan, Phase.job]; done)
  · exact I.not_target (by simp [h])
  · exact fun _ => rfl
  · exact I.lt_of_phase (by simp [h])
  · intro j a b c d e
    cases e
    exact ⟨1, by omega, h⟩
  · intro l hl
    by_cases e : l = xh
    · subst e
      right
      obtain ⟨g1, g2, g3, g4⟩ := I.thawable (n := n) (l := l) f2 fun q j hu hc => by
        have := (f3 q j hc).1
        simp [this, Phase.plan]
      exact ⟨g1, g2, g3, g4, rfl⟩
    · exact .inl (by rw [upd_ne e, hl])

theorem Inv.finLowNode (I : Inv m A src) {n xl xh nl nh : Nat} (h : m.phase n = .fin 2 xl xh nl nh) :
    Inv ((m.setPhase n (.fin 3 xl xh nl nh)).setPhase nl .free) A src := by
  obtain ⟨f1, f2, f3, f4, f5, f6, f7⟩ := I.locks.fin n 2 xl xh nl nh h
  have hnl := f6 (by omega)
  have hne : nl ≠ n := by rintro rfl; rw [h] at hnl; cases hnl
  have I1 : Inv (m.setPhase n (.fin 3 xl xh nl nh)) A src := by
    refine I.phase (Calm1.calmer I (n := n) (p := .fin 3 xl xh nl nh) (F := m.frozen) ?_) rfl
    constructor <;> try (simp [h, Phase.half, Phase.plan, Phase.job]; done)
    · exact I.not_target (by simp [h])
    · exact fun _ => rfl
    · exact I.lt_of_phase (by simp [h])
    · intro j a b c d e
      cases e
      exact ⟨2, by omega, h⟩
    · exact fun l hl => .inl hl
  have h1 : (m.setPhase n (.fin 3 xl xh nl nh)).phase nl = .held := by simp only [Mem.setPhase, upd_ne hne, hnl]
  have h2 : (m.setPhase n (.fin 3 xl xh nl nh)).phase n = .fin 3 xl xh nl nh := by simp only [Mem.setPhase, upd_eq]
  refine I1.phase (Calm1.calmer I1 (n := nl) (p := .free) (F := m.frozen) ?_) rfl
  constructor <;> try (simp [h1, Phase.half, Phase.plan, Phase.job]; done)
  · exact I1.not_target (by simp [h1])
  · intro hd
    have := I1.dead.over nl hd
    rw [h1] at this; cases this
  · exact I1.lt_of_phase (by simp [h1])
  · exact fun _ => ⟨n, hne.symm, f4, .inr ⟨xl, xh, nl, nh, h2, rfl⟩⟩
  · exact fun l hl => .inl hl

theorem Inv.finHighNode (I : Inv m A src) {n xl xh nl nh : Nat} (h : m.phase n = .fin 3 xl xh nl nh) :
    Inv ((m.setPhase n .gone).setPhase nh .free) A src := by
  obtain ⟨f1, f2, f3, f4, f5, f6, f7⟩ := I.locks.fin n 3 xl xh nl nh h
  have hnl := f7 (by omega)
  have hne : nh ≠ n := by rintro rfl; rw [h] at hnl; cases hnl
  have I1 : Inv (m.setPhase n .gone) A src := by
    refine I.phase (Calm1.calmer I (n := n) (p := .gone) (F := m.frozen) ?_) rfl
    constructor <;> try (simp [h, Phase.half, Phase.plan, Phase.job]; done)
    · exact I.not_target (by simp [h])
    · exact fun _ => rfl
    · exact I.lt_of_phase (by simp [h])
    · exact fun l hl => .inl hl
  have h1 : (m.setPhase n .gone).phase nh = .held := by simp only [Mem.setPhase, upd_ne hne, hnl]
  have h2 : (m.setPhase n .gone).phase n = .gone := by simp only [Mem.setPhase, upd_eq]
  refine I1.phase (Calm1.calmer I1 (n := nh) (p := .free) (F := m.frozen) ?_) rfl
  constructor <;> try (simp [h1, Phase.half, Phase.plan, Phase.job]; done)
  · exact I1.not_target (by simp [h1])
  · intro hd
    have := I1.dead.over nh hd
    rw [h1] at this; cases this
  · exact I1.lt_of_phase (by simp [h1])
  · exact fun _ => ⟨n, hne.symm, f5, .inl h2⟩
  · exact fun l hl => .inl hl

/-- Changes of one tree do not let each other fail at the root. -/
theorem Inv.root_same (I : Inv m A src) {r n nl nh : Nat} {b : Key} {ch : List Ref}
    (h : m.phase r = .root n nl nh b ch) : m.root = some n := (I.jobs.root r n nl nh b ch h).2.root

theorem Inv.rootFail (I : Inv m A src) {r n nl nh : Nat} {b : Key} {ch : List Ref} {i : Nat}
    {x xl xh : Ref} {mid : Key} {ch' : List Ref} {cl : Option (Id × Id)}
    (h : m.phase r = .root n nl nh b ch) (hn : m.phase n = .full i x xl xh mid ch' cl) :
    Inv ((m.setPhase r .gone).setPhase n (.full i x xl xh mid ch' none)) A src := by
  obtain ⟨O, S⟩ := I.jobs.root r n nl nh b ch h
  have hj : (m.phase r).job = some ⟨.node n, .node nl, .node nh, b, ch⟩ := by rw [h]; rfl
  have hnm : Ref.node n ∈ ch := I.chain.head_mem hj
  have hne : n ≠ r := by rintro rfl; rw [h] at hn; cases hn
  have I1 : Inv (m.setPhase r .gone) A src := by
    refine I.phase (Calm1.calmer I (n := r) (p := .gone) (F := m.frozen) ?_) rfl
    constructor <;> try (simp [h, Phase.half, Phase.plan, Phase.job]; done)
    · exact I.not_target (by simp [h])
    · intro hd'
      rw [S.live] at hd'; cases hd'
    · exact I.lt_of_phase (by simp [h])
    · exact fun l hl => .inl hl
  refine I1.phase (Calm1.calmer I1 (n := n) (p := .full i x xl xh mid ch' none) (F := m.frozen) ?_) rfl
  have hn' : (m.setPhase r .gone).phase n = .full i x xl xh mid ch' cl := by
    simp only [Mem.setPhase, upd_ne hne, hn]
  constructor <;> try (simp [hn', Phase.half, Phase.plan, Phase.job]; done)
  · intro n' J hj' e
    by_cases en : n' = r
    · subst en; simp only [Mem.setPhase, upd_eq] at hj'; cases hj'
    · simp only [Mem.setPhase, upd_ne en] at hj'
      exact en (I.chain.uniq n' r _ _ hj' hj e)
  · intro hd'
    have := O.dead _ hnm
    rw [show (m.setPhase r Phase.gone).dead = m.dead from rfl, this] at hd'
    cases hd'
  · exact I1.lt_of_phase (by simp [hn'])
  · exact fun l hl => .inl hl

end Scc.Grove
