import Verif.Grove.Claim

/-!
# `split_node` and `split_root`
-/

namespace Scc.Grove

local notation "Key" => Nat
local notation "Id" => Nat
local notation "Thr" => Nat

variable {V : Type} {m m' : Mem V} {A : Key → Option V} {src src' : Ref → Ref}

/-- The shape of one node. -/
structure NodeOk (N : Id → Node) (nN nL : Nat) (c : Id) : Prop where
  cell_al : ∀ i y, (N c).cell i = .to y → Alloc nN nL y
  lev : ∀ i y, (N c).cell i = .to y → (N c).lv = lvl N y + 1
  lv_pos : 1 ≤ (N c).lv
  asc : Asc (N c).kids
  nodup : ((N c).kids.map Prod.snd).Nodup
  pos : ∀ e ∈ (N c).kids, e.2 ≠ 0 ∧ e.2 < (N c).used
  used_pos : 1 ≤ (N c).used
  unb : (N c).kids ≠ [] → ∃ y, (N c).cell 0 = .to y
  kid : ∀ e ∈ (N c).kids, ∃ y, (N c).cell e.2 = .to y

theorem Shape.nodeOk {R : Option Id} {N : Id → Node} {ph : Id → Phase} {nN nL : Nat} {D : Ref → Bool}
    (S : Shape R N ph nN nL D) (c : Id) : NodeOk N nN nL c :=
  ⟨S.cell_al c, S.lev c, S.lv_pos c, S.asc c, S.nodup c, S.pos c, S.used_pos c, S.unb c, S.kid c⟩

theorem Shape.of_nodes {R : Option Id} {N : Id → Node} {ph : Id → Phase} {nN nL : Nat} {D : Ref → Bool}
    (h1 : ∀ r, R = some r → r < nN) (h2 : ∀ n, nN ≤ n → N n = Node.new ∧ ph n = .free)
    (h3 : ∀ y, D y = true → Alloc nN nL y) (h : ∀ c, NodeOk N nN nL c) : Shape R N ph nN nL D :=
  ⟨h1, h2, fun c => (h c).cell_al, fun c => (h c).lev, h3, fun c => (h c).lv_pos, fun c => (h c).asc,
    fun c => (h c).nodup, fun c => (h c).pos, fun c => (h c).used_pos, fun c => (h c).unb, fun c => (h c).kid⟩

theorem NodeOk.new {N : Id → Node} {nN nL : Nat} {c : Id} (h : N c = Node.new) : NodeOk N nN nL c := by
  refine ⟨fun i y hy => ?_, fun i y hy => ?_, ?_, ?_, ?_, ?_, ?_, ?_, ?_⟩
  · rw [h] at hy; cases hy
  · rw [h] at hy; cases hy
  all_goals rw [h]; simp [Node.new, Asc]

theorem NodeOk.grow (I : Inv m A src) (G : Grow m m' src src') {c : Id} (hc : c < m.nN) :
    NodeOk m'.node m'.nN m'.nL c := by
  have K := I.shape.nodeOk c
  have e := G.node c hc
  refine ⟨fun i y hy => ?_, fun i y hy => ?_, by rw [e]; exact K.lv_pos, by rw [e]; exact K.asc, by rw [e]; exact K.nodup,
    by rw [e]; exact K.pos, by rw [e]; exact K.used_pos, by rw [e]; exact K.unb, by rw [e]; exact K.kid⟩
  · rw [e] at hy
    exact (K.cell_al i y hy).mono G.nN G.nL
  · rw [e] at hy
    rw [G.lvl (K.cell_al i y hy), e]
    exact K.lev i y hy

theorem NodeOk.made {N : Id → Node} {nN nL : Nat} {c lv : Nat} {l : List (Key × Ptr)} {w : Ptr}
    (h : N c = mkNode lv l w) (hlv : 1 ≤ lv) (ha : l.Pairwise fun a b => a.1 < b.1)
    (hp : ∀ p, p = w ∨ (∃ e ∈ l, p = e.2) → ∃ y, p = .to y ∧ Alloc nN nL y ∧ lv = lvl N y + 1) :
    NodeOk N nN nL c := by
  have hcell : ∀ i y, (N c).cell i = .to y → Alloc nN nL y ∧ lv = lvl N y + 1 := by
    intro i y hy
    rw [h] at hy
    rcases mkNode_cell hy with e | ⟨e, h1, h2⟩
    · obtain ⟨y', g1, g2, g3⟩ := hp _ (.inl e.symm)
      cases g1; exact ⟨g2, g3⟩
    · obtain ⟨y', g1, g2, g3⟩ := hp _ (.inr ⟨e, h1, h2.symm⟩)
      cases g1; exact ⟨g2, g3⟩
  refine ⟨fun i y hy => (hcell i y hy).1, fun i y hy => ?_, by rw [h]; exact hlv, ?_, ?_, ?_, ?_, ?_, ?_⟩
  · rw [h]; exact (hcell i y hy).2
  · rw [h, mkNode_kids]; exact numb_asc ha
  · rw [h, mkNode_kids]; exact numb_nodup
  · rw [h]
    intro e he
    obtain ⟨_, _, _, _, g1, g2⟩ := mkNode_kid he
    exact ⟨g1, g2⟩
  · rw [h]; simp [mkNode]
  · rw [h]
    intro _
    obtain ⟨y, g1, _⟩ := hp w (.inl rfl)
    exact ⟨y, g1⟩
  · rw [h]
    intro e he
    obtain ⟨e', g1, g2, _⟩ := mkNode_kid he
    obtain ⟨y, g3, _⟩ := hp e'.2 (.inr ⟨e', g1, rfl⟩)
    exact ⟨y, by rw [g2, g3]⟩

/-- A chain stays one if a node takes over a full one. -/
theorem Chain.up {ph ph' : Id → Phase} (C : Chain ph) {n p i : Nat} {x xl xh : Ref} {mid b : Key} {ch : List Ref}
    {nl nh : Id} (hn : ph n = .full i x xl xh mid ch none)
    (hn' : ph' n = .full i x xl xh mid ch (some (nl, nh)))
    (hp : (ph' p).job = some ⟨.node n, .node nl, .node nh, b, .node n :: ch⟩)
    (hold : ∀ n' J, n' ≠ p → (ph' n').job = some J → (ph n').job = some J)
    (hfull : ∀ c i x xl xh mid ch cl, ph c = .full i x xl xh mid ch (some cl) → ph' c = ph c) : Chain ph' := by
  have hnot : ∀ n' J, (ph n').job = some J → J.x ≠ .node n := by
    intro n' J hj e
    exact C.not_mem hj (c := n) (by simp [hn]) (e ▸ C.head_mem hj)
  refine ⟨fun n' J hj => ?_, fun n1 n2 J1 J2 h1 h2 e => ?_⟩
  · by_cases e : n' = p
    · subst e
      rw [hp] at hj
      cases hj
      refine ⟨ch, rfl, fun l (hl : Ref.node n = .leaf l) => (by cases hl), fun c (hc : Ref.node n = .node c) => ?_⟩
      cases hc
      exact ⟨i, x, xl, xh, mid, nl, nh, hn', rfl, rfl⟩
    · obtain ⟨ch', h1, h2, h3⟩ := C.list n' J (hold n' J e hj)
      refine ⟨ch', h1, h2, fun c hc => ?_⟩
      obtain ⟨i, x, xl, xh, mid, nl, nh, g, g'⟩ := h3 c hc
      exact ⟨i, x, xl, xh, mid, nl, nh, by rw [hfull _ _ _ _ _ _ _ _ g, g], g'⟩
  · by_cases e1 : n1 = p <;> by_cases e2 : n2 = p
    · rw [e1, e2]
    · subst e1
      rw [hp] at h1
      cases h1
      exact absurd e.symm (hnot n2 J2 (hold n2 J2 e2 h2))
    · subst e2
      rw [hp] at h2
      cases h2
      exact absurd e (hnot n1 J1 (hold n1 J1 e1 h1))
    · exact C.uniq _ _ _ _ (hold _ _ e1 h1) (hold _ _ e2 h2) e

/-- Everything a change under way refers to has been created. -/
theorem Inv.plan_al (I : Inv m A src) {n i : Nat} {J : Job} (h : (m.phase n).plan = some (i, J)) :
    Alloc m.nN 0 J.x ∨ (∃ l, J.x = .leaf l) := by
  cases hx : J.x with
  | leaf l => exact .inr ⟨l, rfl⟩
  | node c =>
    left
    obtain ⟨ch', _, _, h3⟩ := I.chain.list n J (Phase.plan_job h)
    obtain ⟨_, _, _, _, _, _, _, g, _⟩ := h3 c hx
    exact I.lt_of_phase (by simp [g])

theorem Inv.plan_lvl (I : Inv m A src) (G : Grow m m' src src') {n i : Nat} {J : Job}
    (h : (m.phase n).plan = some (i, J)) : lvl m'.node J.xl = lvl m.node J.xl ∧
      lvl m'.node J.xh = lvl m.node J.xh ∧ lvl m'.node J.x = lvl m.node J.x := by
  obtain ⟨k1, k2, k3⟩ := I.locks.kind n i J h
  obtain ⟨ch', _, _, h3⟩ := I.chain.list n J (Phase.plan_job h)
  cases hx : J.x with
  | leaf l =>
    rw [hx] at k1 k2
    have leaf : ∀ y, lvl m.node y = lvl m.node (.leaf l) → lvl m'.node y = lvl m.node y := by
      intro y hy
      cases y with
      | leaf _ => rfl
      | node c =>
        have := I.shape.lv_pos c
        simp only [lvl_node, lvl_leaf] at hy
        omega
    exact ⟨leaf _ k1, leaf _ k2, rfl⟩
  | node c =>
    obtain ⟨_, _, _, _, _, nl, nh, g, g1, g2⟩ := h3 c hx
    obtain ⟨_, c2, c3, _⟩ := I.locks.claim _ _ _ _ _ _ _ _ _ g
    rw [g1, g2]
    have hc : c < m.nN := I.lt_of_phase (by simp [g])
    exact ⟨G.lvl (y := .node nl) c2, G.lvl (y := .node nh) c3, G.lvl (y := .node c) hc⟩

/-- What the objects were created for, after `split_node` and `split_root`. -/
def srcNode (src : Ref → Ref) (a n : Id) : Ref → Ref := fun y =>
  if y = .node a ∨ y = .node (a + 1) then .node n else if y = .node (a + 2) then .node (a + 2) else src y

theorem srcNode_old {a n nL : Nat} {y : Ref} (h : Alloc a nL y) : srcNode src a n y = src y := by
  cases y with
  | leaf l => simp [srcNode]
  | node c =>
    simp only [Alloc] at h
    simp only [srcNode, Ref.node.injEq]
    rw [if_neg (by omega), if_neg (by omega)]

/-- The pointers of new nodes to leaves. -/
theorem Spread.hold {n i : Nat} {J : Job} {pre post : List (Key × Ptr)} {b : Key} {q u : Ptr}
    (I : Inv m A src) (P : Spread m src n i J pre post b q u) (hnh : m.phase n ≠ .held) {n' l : Nat}
    (h2 : (∃ i J, (m.phase n').plan = some (i, J) ∧ src (.leaf l) = J.x) ∨ m.dead (src (.leaf l)) = true)
    (h3 : Hold m.node m.phase src n' l) {w : Ptr} (hw : w = u ∨ (∃ e ∈ pre ++ (b, q) :: post, w = e.2))
    (hl : w = .to (.leaf l)) : n' = n ∧ (m.node n).lv = 1 := by
  obtain ⟨y, g1, g2, g3, g4⟩ := P.ptr w hw
  rw [hl] at g1
  cases g1
  refine ⟨?_, by simpa using g3⟩
  have own : J.xl = .leaf l ∨ J.xh = .leaf l → n' = n := by
    intro h
    obtain ⟨_, _, s, _⟩ := I.locks.hold n i J l P.job h
    rcases h2 with ⟨i', J', h4, h5⟩ | h4
    · exact I.chain.uniq _ _ _ _ (Phase.plan_job h4) (Phase.plan_job P.job) (h5.symm.trans s)
    · rw [s, P.jobOk.dead _ (P.jobOk.pair 0 _ _ trivial .base).mem] at h4
      cases h4
  rcases g4 with e | e | ⟨j, e⟩
  · exact own (.inl e.symm)
  · exact own (.inr e.symm)
  · exact absurd (h3 n j e).1 hnh

theorem Inv.claim (I : Inv m A src) {p d n : Nat} {i : Nat} {x xl xh : Ref} {mid : Key} {ch : List Ref}
    {pre post : List (Key × Ptr)} {b : Key} {q u : Ptr}
    (h : m.phase p = .locked) (hd : d ∈ (m.node p).slots) (hn : (m.node p).cell d = .to (.node n))
    (hf : m.phase n = .full i x xl xh mid ch none)
    (he : (m.node n).expand i xl xh mid = (pre ++ (b, q) :: post, u)) :
    Inv { (((((m.setNode m.nN (mkNode (m.node n).lv pre q)).setNode
          (m.nN + 1) (mkNode (m.node n).lv post u)).setPhase
          m.nN (if (m.node n).lv = 1 then .held else .free)).setPhase
          (m.nN + 1) (if (m.node n).lv = 1 then .held else .free)).setPhase n
          (.full i x xl xh mid ch (some (m.nN, m.nN + 1)))).setPhase p
          (.split d (.node n) (.node m.nN) (.node (m.nN + 1)) b (.node n :: ch)) with nN := m.nN + 2 }
      A (srcNode src m.nN n) := by
  have P := I.spread hf he
  obtain ⟨pl, pu, pd, pm, pp⟩ := I.locked_child h hd hn
  have hnp : n ≠ p := by rintro rfl; rw [h] at hf; cases hf
  have hpl : p < m.nN := I.lt_of_phase (by simp [h])
  have hnl := P.lt
  generalize hm' : ({ (((((m.setNode m.nN (mkNode (m.node n).lv pre q)).setNode
          (m.nN + 1) (mkNode (m.node n).lv post u)).setPhase
          m.nN (if (m.node n).lv = 1 then .held else .free)).setPhase
          (m.nN + 1) (if (m.node n).lv = 1 then .held else .free)).setPhase n
          (.full i x xl xh mid ch (some (m.nN, m.nN + 1)))).setPhase p
          (.split d (.node n) (.node m.nN) (.node (m.nN + 1)) b (.node n :: ch)) with nN := m.nN + 2 } : Mem V) = m'
  have e1 : m'.root = m.root := by rw [← hm']; rfl
  have e2 : m'.node = upd (upd m.node m.nN (mkNode (m.node n).lv pre q)) (m.nN + 1) (mkNode (m.node n).lv post u) := by
    rw [← hm']; rfl
  have e3 : m'.phase = upd (upd (upd (upd m.phase m.nN (if (m.node n).lv = 1 then .held else .free))
      (m.nN + 1) (if (m.node n).lv = 1 then .held else .free)) n (.full i x xl xh mid ch (some (m.nN, m.nN + 1)))) p
      (.split d (.node n) (.node m.nN) (.node (m.nN + 1)) b (.node n :: ch)) := by rw [← hm']; rfl
  have e4 : m'.dead = m.dead := by rw [← hm']; rfl
  have e5 : m'.leaf = m.leaf := by rw [← hm']; rfl
  have e6 : m'.frozen = m.frozen := by rw [← hm']; rfl
  have e7 : m'.nL = m.nL := by rw [← hm']; rfl
  have e8 : m'.nN = m.nN + 2 := by rw [← hm']
  clear hm'
  have G : Grow m m' src (srcNode src m.nN n) := by
    refine ⟨e1, by omega, by omega, fun c hc => ?_, fun l hl => by rw [e5], e4, fun l hl hf => by rw [e6]; exact hf,
      fun y hy => srcNode_old hy⟩
    rw [e2, upd_ne (by omega), upd_ne (by omega)]
  have n1 : m'.node m.nN = mkNode (m.node n).lv pre q := by rw [e2, upd_ne (by omega), upd_eq]
  have n2 : m'.node (m.nN + 1) = mkNode (m.node n).lv post u := by rw [e2, upd_eq]
  have p1 : m'.phase p = .split d (.node n) (.node m.nN) (.node (m.nN + 1)) b (.node n :: ch) := by rw [e3, upd_eq]
  have p2 : m'.phase n = .full i x xl xh mid ch (some (m.nN, m.nN + 1)) := by rw [e3, upd_ne hnp, upd_eq]
  have p3 : m'.phase (m.nN + 1) = if (m.node n).lv = 1 then .held else .free := by
    rw [e3, upd_ne (by omega), upd_ne (by omega), upd_eq]
  have p4 : m'.phase m.nN = if (m.node n).lv = 1 then .held else .free := by
    rw [e3, upd_ne (by omega), upd_ne (by omega), upd_ne (by omega), upd_eq]
  have p5 : ∀ c, c ≠ p → c ≠ n → c ≠ m.nN → c ≠ m.nN + 1 → m'.phase c = m.phase c := by
    intro c h1 h2 h3 h4
    rw [e3, upd_ne h1, upd_ne h2, upd_ne h4, upd_ne h3]
  clear e3
  have ph : ∀ c, m'.phase c = m.phase c ∨ c = p ∨ c = n ∨
      (m.nN ≤ c ∧ m.phase c = .free ∧ (m'.phase c = .held ∨ m'.phase c = .free)) := by
    intro c
    by_cases h1 : c = p
    · exact .inr (.inl h1)
    by_cases h2 : c = n
    · exact .inr (.inr (.inl h2))
    by_cases h3 : c = m.nN
    · subst h3
      refine .inr (.inr (.inr ⟨Nat.le_refl _, (I.shape.fresh _ (Nat.le_refl _)).2, ?_⟩))
      rw [p4]; split
      · exact .inl rfl
      · exact .inr rfl
    by_cases h4 : c = m.nN + 1
    · subst h4
      refine .inr (.inr (.inr ⟨by omega, (I.shape.fresh _ (by omega)).2, ?_⟩))
      rw [p3]; split
      · exact .inl rfl
      · exact .inr rfl
    exact .inl (p5 c h1 h2 h3 h4)
  have job := P.jobUp I G n1 n2 (Nat.le_refl _) (by omega) (by omega) (by omega) (by omega)
    (by simp [srcNode]) (by simp [srcNode])
  have hup : ∀ k, On m.root m.node k (.node n) → On m.root m.node k (.node p) ∧ route (m.node p).kids k = d := by
    intro k hk
    rcases hk.inv with ⟨r, h1, h2⟩ | ⟨c, h1, h2⟩
    · cases h2
      obtain ⟨k', ho⟩ := pl
      have := I.shape.lev _ _ _ hn
      rcases ho.lvl_root I.shape.lev h1 with e | e
      · cases e; exact absurd rfl hnp
      · simp only [lvl_node] at this e; omega
    · obtain ⟨rfl, e⟩ := pp c _ h1.use h2
      exact ⟨h1, e⟩
  have site : Site m'.root m'.node p d ⟨.node n, .node m.nN, .node (m.nN + 1), b, .node n :: ch⟩ := by
    have hb := hup b (P.on (b, q) (by simp))
    obtain ⟨k2, g1, g2⟩ := P.top
    have hk2 := hup k2 g1
    have ep := G.node p hpl
    refine ⟨by rw [ep]; exact hd, by rw [ep]; exact hn, ⟨(G.on I).2 hb.1, by rw [ep]; exact hb.2⟩,
      ⟨k2, g2 (b, q) (by simp), (G.on I).2 hk2.1, by rw [ep]; exact hk2.2⟩, fun y hy c j h1 h2 => ?_, fun y hy => ?_,
      by simp⟩
    · obtain ⟨h1, h2⟩ := G.cell I h1 h2
      rcases List.mem_cons.1 hy with rfl | hy
      · exact .inl (pp c j h1 h2)
      · rcases P.site.parent y hy c j h1 h2 with ⟨rfl, _⟩ | h'
        · exact .inr (List.mem_cons_self ..)
        · exact .inr (List.mem_cons_of_mem _ h')
    · have hlv := I.shape.lev _ _ _ hn
      rw [ep]
      rcases List.mem_cons.1 hy with rfl | hy
      · rw [G.lvl (y := .node n) hnl]
        simp only [lvl_node] at hlv ⊢
        omega
      · rw [G.lvl (I.lit_al (P.jobOk.lit rfl y hy))]
        have := P.site.below y hy
        simp only [lvl_node] at hlv
        omega
  have plan : ∀ c i' J, (m'.phase c).plan = some (i', J) → (m.phase c).plan = some (i', J) ∨
      c = p ∧ i' = d ∧ J = ⟨.node n, .node m.nN, .node (m.nN + 1), b, .node n :: ch⟩ := by
    intro c i' J hj
    rcases ph c with e | rfl | rfl | ⟨_, _, e | e⟩
    · rw [← e]; exact .inl hj
    · rw [p1] at hj; cases hj; exact .inr ⟨rfl, rfl, rfl⟩
    · rw [p2] at hj; rw [hf]; exact .inl hj
    · rw [e] at hj; cases hj
    · rw [e] at hj; cases hj
  refine I.grow G ?_ ?_ ?_
  · constructor
    · intro c
      rcases ph c with e | rfl | rfl | ⟨_, e', e | e⟩
      · rw [e]
      · rw [p1, h]; rfl
      · rw [p2, hf]; rfl
      · rw [e, e']; rfl
      · rw [e, e']
    · intro c b' i'
      rcases ph c with e | rfl | rfl | ⟨_, e', e | e⟩
      · rw [e]
      · rw [p1, h]; simp
      · rw [p2, hf]; simp
      · rw [e, e']; simp
      · rw [e, e']
    · intro c hdc
      have := I.dead.over c hdc
      rcases ph c with e | rfl | rfl | ⟨_, e', e | e⟩
      · rw [e]; exact this
      · rw [h] at this; cases this
      · rw [hf] at this; cases this
      · rw [e'] at this; cases this
      · rw [e'] at this; cases this
    · rw [e5]; exact I.dead.empty
    · refine I.chain.up hf p2 (p := p) (b := b) (by rw [p1]; rfl) (fun c J hc hj => ?_) fun c i' x' xl' xh' mid' ch' cl hc => ?_
      · rcases ph c with e | rfl | rfl | ⟨_, e', e | e⟩
        · rw [← e]; exact hj
        · exact absurd rfl hc
        · rw [p2] at hj; rw [hf]; exact hj
        · rw [e] at hj; cases hj
        · rw [e] at hj; cases hj
      · rcases ph c with e | rfl | rfl | ⟨_, e', e | e⟩
        · exact e
        · rw [h] at hc; cases hc
        · rw [hf] at hc; cases hc
        · rw [e'] at hc; cases hc
        · rw [e'] at hc; cases hc
    · intro c hdc hpc
      have := I.dead.over c hdc
      rcases ph c with e | rfl | rfl | ⟨_, e', e | e⟩
      · rw [← e]; exact hpc
      · rw [h] at this; cases this
      · rw [hf] at this; cases this
      · rw [e'] at this; cases this
      · rw [e'] at this; cases this
    · intro c i' J hj _
      rcases plan c i' J hj with hj | ⟨rfl, rfl, rfl⟩
      · exact .inl hj
      · exact .inr ⟨job, site⟩
    · intro r n' nl nh mid' ch' hr
      rcases ph r with e | rfl | rfl | ⟨_, e', e | e⟩
      · rw [← e]; exact .inl hr
      · rw [p1] at hr; cases hr
      · rw [p2] at hr; cases hr
      · rw [e] at hr; cases hr
      · rw [e] at hr; cases hr
    · intro c i' x' y' hc
      rcases ph c with e | rfl | rfl | ⟨_, e', e | e⟩
      · rw [← e]; exact .inl hc
      · rw [p1] at hc; cases hc
      · rw [p2] at hc; cases hc
      · rw [e] at hc; cases hc
      · rw [e] at hc; cases hc
  · have S := I.shape
    have hmk : ∀ p, p = u ∨ (∃ e ∈ pre ++ (b, q) :: post, p = e.2) →
        ∃ y, p = .to y ∧ Alloc m'.nN m'.nL y ∧ (m.node n).lv = lvl m'.node y + 1 := by
      intro p hp
      obtain ⟨y, g1, g2, g3, _⟩ := P.ptr p hp
      exact ⟨y, g1, g2.mono G.nN G.nL, by rw [G.lvl g2]; exact g3⟩
    refine Shape.of_nodes (fun r hr => ?_) (fun c hc => ?_) (fun y hy => ?_) fun c => ?_
    · rw [e1] at hr
      have := S.root_lt r hr
      omega
    · rw [e8] at hc
      refine ⟨?_, ?_⟩
      · rw [e2, upd_ne (by omega), upd_ne (by omega)]
        exact (S.fresh c (by omega)).1
      · rw [p5 c (by omega) (by omega) (by omega) (by omega)]
        exact (S.fresh c (by omega)).2
    · rw [e4] at hy
      exact (S.dead_al y hy).mono G.nN G.nL
    · have ha := List.pairwise_append.1 P.asc
      by_cases h1 : c < m.nN
      · exact NodeOk.grow I G h1
      · by_cases h2 : c = m.nN
        · subst h2
          refine NodeOk.made n1 (S.lv_pos n) ha.1 fun p hp => hmk p ?_
          rcases hp with rfl | ⟨e, g1, g2⟩
          · exact .inr ⟨(b, p), by simp, rfl⟩
          · exact .inr ⟨e, by simp [g1], g2⟩
        · by_cases h3 : c = m.nN + 1
          · subst h3
            refine NodeOk.made n2 (S.lv_pos n) (List.pairwise_cons.1 ha.2.1).2 fun p hp => hmk p ?_
            rcases hp with rfl | ⟨e, g1, g2⟩
            · exact .inl rfl
            · exact .inr ⟨e, by simp [g1], g2⟩
          · refine NodeOk.new ?_
            rw [e2, upd_ne (by omega), upd_ne (by omega)]
            exact (S.fresh c (by omega)).1
  · have same : ∀ c (p : Phase), m'.phase c = p → p ≠ .free → p ≠ .held → p.plan = none → m.phase c = p := by
      intro c p' hp' hne1 hne2 hne3
      rcases ph c with e | rfl | rfl | ⟨_, e', e | e⟩
      · rw [← e]; exact hp'
      · rw [p1] at hp'; subst hp'; cases hne3
      · rw [p2] at hp'; subst hp'; cases hne3
      · exact absurd (hp'.symm.trans e) hne2
      · exact absurd (hp'.symm.trans e) hne1
    refine Locks.grow I G (fun c h' => same _ _ h' (by simp) (by simp) rfl)
      (fun c i' h' => same _ _ h' (by simp) (by simp) rfl)
      (fun c b i' h' => same _ _ h' (by simp) (by simp) rfl) (fun c i' x' xl' xh' mid' ch' nl nh h' => ?_)
      (fun c j xl xh nl nh h' => same _ _ h' (by simp) (by simp) rfl)
      (fun c => by rcases ph c with e | rfl | rfl | ⟨_, e', e | e⟩ <;> simp [*, Phase.half]) (fun c hq => ?_) (fun c i' J l hj hl => ?_)
      (fun c i' J hj => ?_) (fun c i' J hj => I.plan_lvl G hj) ?_
    · rcases ph c with e | rfl | rfl | ⟨_, e', e | e⟩
      · rw [← e]; exact .inl h'
      · rw [p1] at h'; cases h'
      · rw [p2] at h'
        cases h'
        refine .inr ⟨by omega, by omega, by omega, by simp [srcNode], by simp [srcNode], fun hl => ?_⟩
        rw [G.node c hnl] at hl
        exact ⟨by rw [p4, if_pos hl], by rw [p3, if_pos hl]⟩
      · rw [e] at h'; cases h'
      · rw [e] at h'; cases h'
    · rcases ph c with e | rfl | rfl | ⟨_, e', e | e⟩
      · rw [e]; exact hq
      · rw [h] at hq; cases hq
      · rw [hf] at hq; cases hq
      · rw [e'] at hq; cases hq
      · rw [e'] at hq; cases hq
    · rcases plan c i' J hj with hj | ⟨rfl, rfl, rfl⟩
      · exact .inl hj
      · rcases hl with hl | hl <;> cases hl
    · rcases plan c i' J hj with hj | ⟨rfl, rfl, rfl⟩
      · exact .inl hj
      · refine .inr ⟨?_, ?_, ?_⟩
        · simp only [lvl_node, n1, G.node n hnl]; rfl
        · simp only [lvl_node, n2, G.node n hnl]; rfl
        · rw [G.node c hpl, G.lvl (y := .node n) hnl]
          exact I.shape.lev _ _ _ hn
    · intro n' l h1 h2 h3 c j hc hcell
      have fin : ∀ w, (w = u ∨ (∃ e ∈ pre ++ (b, q) :: post, w = e.2)) → w = .to (.leaf l) →
          n' = n ∧ (m.node n).lv = 1 := fun w hw hl => P.hold I (by simp [hf]) h2 h3 hw hl
      by_cases c1 : c = m.nN
      · subst c1
        rw [n1] at hcell
        have : n' = n ∧ (m.node n).lv = 1 := by
          rcases mkNode_cell hcell with e | ⟨e, g1, g2⟩
          · exact fin _ (.inr ⟨(b, q), by simp, rfl⟩) e
          · exact fin _ (.inr ⟨e, by simp [g1], rfl⟩) g2
        exact ⟨by rw [p4, if_pos this.2], by simp [srcNode, this.1]⟩
      · by_cases c2 : c = m.nN + 1
        · subst c2
          rw [n2] at hcell
          have : n' = n ∧ (m.node n).lv = 1 := by
            rcases mkNode_cell hcell with e | ⟨e, g1, g2⟩
            · exact fin _ (.inl rfl) e
            · exact fin _ (.inr ⟨e, by simp [g1], rfl⟩) g2
          exact ⟨by rw [p3, if_pos this.2], by simp [srcNode, this.1]⟩
        · rw [e2, upd_ne (by omega), upd_ne (by omega), (I.shape.fresh c hc).1] at hcell
          cases hcell

theorem Inv.rootClaim (I : Inv m A src) {n : Nat} {i : Nat} {x xl xh : Ref} {mid : Key} {ch : List Ref}
    {pre post : List (Key × Ptr)} {b : Key} {q u : Ptr}
    (hf : m.phase n = .full i x xl xh mid ch none) (hr : m.root = some n)
    (he : (m.node n).expand i xl xh mid = (pre ++ (b, q) :: post, u)) :
    Inv { ((((((m.setNode m.nN (mkNode (m.node n).lv pre q)).setNode
          (m.nN + 1) (mkNode (m.node n).lv post u)).setNode
          (m.nN + 2) (mkNode ((m.node n).lv + 1) [(b, .to (.node m.nN))] (.to (.node (m.nN + 1))))).setPhase
          m.nN (if (m.node n).lv = 1 then .held else .free)).setPhase
          (m.nN + 1) (if (m.node n).lv = 1 then .held else .free)).setPhase
          (m.nN + 2) (.root n m.nN (m.nN + 1) b (.node n :: ch))).setPhase n
          (.full i x xl xh mid ch (some (m.nN, m.nN + 1))) with nN := m.nN + 3 }
      A (srcNode src m.nN n) := by
  have P := I.spread hf he
  have hnl := P.lt
  generalize hm' : ({ ((((((m.setNode m.nN (mkNode (m.node n).lv pre q)).setNode
          (m.nN + 1) (mkNode (m.node n).lv post u)).setNode
          (m.nN + 2) (mkNode ((m.node n).lv + 1) [(b, .to (.node m.nN))] (.to (.node (m.nN + 1))))).setPhase
          m.nN (if (m.node n).lv = 1 then .held else .free)).setPhase
          (m.nN + 1) (if (m.node n).lv = 1 then .held else .free)).setPhase
          (m.nN + 2) (.root n m.nN (m.nN + 1) b (.node n :: ch))).setPhase n
          (.full i x xl xh mid ch (some (m.nN, m.nN + 1))) with nN := m.nN + 3 } : Mem V) = m'
  have e1 : m'.root = m.root := by rw [← hm']; rfl
  have e2 : m'.node = upd (upd (upd m.node m.nN (mkNode (m.node n).lv pre q)) (m.nN + 1) (mkNode (m.node n).lv post u))
      (m.nN + 2) (mkNode ((m.node n).lv + 1) [(b, .to (.node m.nN))] (.to (.node (m.nN + 1)))) := by
    rw [← hm']; rfl
  have e3 : m'.phase = upd (upd (upd (upd m.phase m.nN (if (m.node n).lv = 1 then .held else .free))
      (m.nN + 1) (if (m.node n).lv = 1 then .held else .free)) (m.nN + 2)
      (.root n m.nN (m.nN + 1) b (.node n :: ch))) n (.full i x xl xh mid ch (some (m.nN, m.nN + 1))) := by
    rw [← hm']; rfl
  have e4 : m'.dead = m.dead := by rw [← hm']; rfl
  have e5 : m'.leaf = m.leaf := by rw [← hm']; rfl
  have e6 : m'.frozen = m.frozen := by rw [← hm']; rfl
  have e7 : m'.nL = m.nL := by rw [← hm']; rfl
  have e8 : m'.nN = m.nN + 3 := by rw [← hm']
  clear hm'
  have G : Grow m m' src (srcNode src m.nN n) := by
    refine ⟨e1, by omega, by omega, fun c hc => ?_, fun l hl => by rw [e5], e4, fun l hl hf => by rw [e6]; exact hf,
      fun y hy => srcNode_old hy⟩
    rw [e2, upd_ne (by omega), upd_ne (by omega), upd_ne (by omega)]
  have n1 : m'.node m.nN = mkNode (m.node n).lv pre q := by rw [e2, upd_ne (by omega), upd_ne (by omega), upd_eq]
  have n2 : m'.node (m.nN + 1) = mkNode (m.node n).lv post u := by rw [e2, upd_ne (by omega), upd_eq]
  have n3 : m'.node (m.nN + 2) = mkNode ((m.node n).lv + 1) [(b, .to (.node m.nN))] (.to (.node (m.nN + 1))) := by
    rw [e2, upd_eq]
  have p1 : m'.phase (m.nN + 2) = .root n m.nN (m.nN + 1) b (.node n :: ch) := by
    rw [e3, upd_ne (by omega), upd_eq]
  have p2 : m'.phase n = .full i x xl xh mid ch (some (m.nN, m.nN + 1)) := by rw [e3, upd_eq]
  have p3 : m'.phase (m.nN + 1) = if (m.node n).lv = 1 then .held else .free := by
    rw [e3, upd_ne (by omega), upd_ne (by omega), upd_eq]
  have p4 : m'.phase m.nN = if (m.node n).lv = 1 then .held else .free := by
    rw [e3, upd_ne (by omega), upd_ne (by omega), upd_ne (by omega), upd_eq]
  have p5 : ∀ c, c ≠ m.nN + 2 → c ≠ n → c ≠ m.nN → c ≠ m.nN + 1 → m'.phase c = m.phase c := by
    intro c h1 h2 h3 h4
    rw [e3, upd_ne h2, upd_ne h1, upd_ne h4, upd_ne h3]
  clear e3
  have ph : ∀ c, m'.phase c = m.phase c ∨ c = m.nN + 2 ∨ c = n ∨
      (m.nN ≤ c ∧ m.phase c = .free ∧ (m'.phase c = .held ∨ m'.phase c = .free)) := by
    intro c
    by_cases h1 : c = m.nN + 2
    · exact .inr (.inl h1)
    by_cases h2 : c = n
    · exact .inr (.inr (.inl h2))
    by_cases h3 : c = m.nN
    · subst h3
      refine .inr (.inr (.inr ⟨Nat.le_refl _, (I.shape.fresh _ (Nat.le_refl _)).2, ?_⟩))
      rw [p4]; split
      · exact .inl rfl
      · exact .inr rfl
    by_cases h4 : c = m.nN + 1
    · subst h4
      refine .inr (.inr (.inr ⟨by omega, (I.shape.fresh _ (by omega)).2, ?_⟩))
      rw [p3]; split
      · exact .inl rfl
      · exact .inr rfl
    exact .inl (p5 c h1 h2 h3 h4)
  have job := P.jobUp I G n1 n2 (Nat.le_refl _) (by omega) (by omega) (by omega) (by omega)
    (by simp [srcNode]) (by simp [srcNode])
  have h : m.phase (m.nN + 2) = .free := (I.shape.fresh _ (by omega)).2
  have hlv : ∀ c, Lit m.root m.node (.node c) → (m.node c).lv ≤ (m.node n).lv := by
    rintro c ⟨k, ho⟩
    rcases ho.lvl_root I.shape.lev hr with e | e
    · cases e; exact Nat.le_refl _
    · simpa using Nat.le_of_lt e
  have top : Top m'.root m'.node m'.dead m'.nN (srcNode src m.nN n) (m.nN + 2) n m.nN (m.nN + 1) b (.node n :: ch) := by
    refine ⟨by rw [e1]; exact hr, by omega, fun hl => ?_, ?_, ?_, ?_, ?_, ?_, fun y hy c j h1 h2 => ?_, by omega⟩
    · have := I.lit_al ((G.lit I).1 hl)
      simp only [Alloc] at this
      omega
    · rw [e4]
      exact I.live_new (by simp [Alloc])
    · simp [srcNode]
    · rw [n3, mkNode_kids]; rfl
    · rw [n3]; rfl
    · rw [n3]; rfl
    · obtain ⟨h1, h2⟩ := G.cell I h1 h2
      rcases List.mem_cons.1 hy with rfl | hy
      · have g1 := hlv c h1.lit
        have g2 := I.shape.lev _ _ _ h2
        simp only [lvl_node] at g2
        omega
      · rcases P.site.parent y hy c j h1 h2 with ⟨rfl, _⟩ | h'
        · exact List.mem_cons_self ..
        · exact List.mem_cons_of_mem _ h'
  have plan : ∀ c i' J, (m'.phase c).plan = some (i', J) → (m.phase c).plan = some (i', J) := by
    intro c i' J hj
    rcases ph c with e | rfl | rfl | ⟨_, _, e | e⟩
    · rw [← e]; exact hj
    · rw [p1] at hj; cases hj
    · rw [p2] at hj; rw [hf]; exact hj
    · rw [e] at hj; cases hj
    · rw [e] at hj; cases hj
  refine I.grow G ?_ ?_ ?_
  · constructor
    · intro c
      rcases ph c with e | rfl | rfl | ⟨_, e', e | e⟩
      · rw [e]
      · rw [p1, h]; rfl
      · rw [p2, hf]; rfl
      · rw [e, e']; rfl
      · rw [e, e']
    · intro c b' i'
      rcases ph c with e | rfl | rfl | ⟨_, e', e | e⟩
      · rw [e]
      · rw [p1, h]; simp
      · rw [p2, hf]; simp
      · rw [e, e']; simp
      · rw [e, e']
    · intro c hdc
      have := I.dead.over c hdc
      rcases ph c with e | rfl | rfl | ⟨_, e', e | e⟩
      · rw [e]; exact this
      · rw [h] at this; cases this
      · rw [hf] at this; cases this
      · rw [e'] at this; cases this
      · rw [e'] at this; cases this
    · rw [e5]; exact I.dead.empty
    · refine I.chain.up hf p2 (p := m.nN + 2) (b := b) (by rw [p1]; rfl) (fun c J hc hj => ?_) fun c i' x' xl' xh' mid' ch' cl hc => ?_
      · rcases ph c with e | rfl | rfl | ⟨_, e', e | e⟩
        · rw [← e]; exact hj
        · exact absurd rfl hc
        · rw [p2] at hj; rw [hf]; exact hj
        · rw [e] at hj; cases hj
        · rw [e] at hj; cases hj
      · rcases ph c with e | rfl | rfl | ⟨_, e', e | e⟩
        · exact e
        · rw [h] at hc; cases hc
        · rw [hf] at hc; cases hc
        · rw [e'] at hc; cases hc
        · rw [e'] at hc; cases hc
    · intro c hdc hpc
      have := I.dead.over c hdc
      rcases ph c with e | rfl | rfl | ⟨_, e', e | e⟩
      · rw [← e]; exact hpc
      · rw [h] at this; cases this
      · rw [hf] at this; cases this
      · rw [e'] at this; cases this
      · rw [e'] at this; cases this
    · intro c i' J hj _
      exact .inl (plan c i' J hj)
    · intro r n' nl nh mid' ch' hr'
      rcases ph r with e | rfl | rfl | ⟨_, e', e | e⟩
      · rw [← e]; exact .inl hr'
      · rw [p1] at hr'; cases hr'; exact .inr ⟨job, top⟩
      · rw [p2] at hr'; cases hr'
      · rw [e] at hr'; cases hr'
      · rw [e] at hr'; cases hr'
    · intro c i' x' y' hc
      rcases ph c with e | rfl | rfl | ⟨_, e', e | e⟩
      · rw [← e]; exact .inl hc
      · rw [p1] at hc; cases hc
      · rw [p2] at hc; cases hc
      · rw [e] at hc; cases hc
      · rw [e] at hc; cases hc
  · have S := I.shape
    have hmk : ∀ p, p = u ∨ (∃ e ∈ pre ++ (b, q) :: post, p = e.2) →
        ∃ y, p = .to y ∧ Alloc m'.nN m'.nL y ∧ (m.node n).lv = lvl m'.node y + 1 := by
      intro p hp
      obtain ⟨y, g1, g2, g3, _⟩ := P.ptr p hp
      exact ⟨y, g1, g2.mono G.nN G.nL, by rw [G.lvl g2]; exact g3⟩
    refine Shape.of_nodes (fun r hr => ?_) (fun c hc => ?_) (fun y hy => ?_) fun c => ?_
    · rw [e1] at hr
      have := S.root_lt r hr
      omega
    · rw [e8] at hc
      refine ⟨?_, ?_⟩
      · rw [e2, upd_ne (by omega), upd_ne (by omega), upd_ne (by omega)]
        exact (S.fresh c (by omega)).1
      · rw [p5 c (by omega) (by omega) (by omega) (by omega)]
        exact (S.fresh c (by omega)).2
    · rw [e4] at hy
      exact (S.dead_al y hy).mono G.nN G.nL
    · have ha := List.pairwise_append.1 P.asc
      by_cases h1 : c < m.nN
      · exact NodeOk.grow I G h1
      · by_cases h2 : c = m.nN
        · subst h2
          refine NodeOk.made n1 (S.lv_pos n) ha.1 fun p hp => hmk p ?_
          rcases hp with rfl | ⟨e, g1, g2⟩
          · exact .inr ⟨(b, p), by simp, rfl⟩
          · exact .inr ⟨e, by simp [g1], g2⟩
        · by_cases h3 : c = m.nN + 1
          · subst h3
            refine NodeOk.made n2 (S.lv_pos n) (List.pairwise_cons.1 ha.2.1).2 fun p hp => hmk p ?_
            rcases hp with rfl | ⟨e, g1, g2⟩
            · exact .inl rfl
            · exact .inr ⟨e, by simp [g1], g2⟩
          · by_cases h4 : c = m.nN + 2
            · subst h4
              refine NodeOk.made n3 (by omega) (List.pairwise_singleton _ _) fun p hp => ?_
              rcases hp with rfl | ⟨e, g1, g2⟩
              · exact ⟨_, rfl, (by simp only [Alloc]; omega), by simp [n2, mkNode]⟩
              · simp only [List.mem_singleton] at g1
                subst g1
                subst g2
                exact ⟨_, rfl, (by simp only [Alloc]; omega), by simp [n1, mkNode]⟩
            refine NodeOk.new ?_
            rw [e2, upd_ne (by omega), upd_ne (by omega), upd_ne (by omega)]
            exact (S.fresh c (by omega)).1
  · have same : ∀ c (p : Phase), m'.phase c = p → p ≠ .free → p ≠ .held → p.job = none → m.phase c = p := by
      intro c p' hp' hne1 hne2 hne3
      rcases ph c with e | rfl | rfl | ⟨_, e', e | e⟩
      · rw [← e]; exact hp'
      · rw [p1] at hp'; subst hp'; cases hne3
      · rw [p2] at hp'; subst hp'; cases hne3
      · exact absurd (hp'.symm.trans e) hne2
      · exact absurd (hp'.symm.trans e) hne1
    refine Locks.grow I G (fun c h' => same _ _ h' (by simp) (by simp) rfl)
      (fun c i' h' => same _ _ h' (by simp) (by simp) rfl)
      (fun c b i' h' => same _ _ h' (by simp) (by simp) rfl) (fun c i' x' xl' xh' mid' ch' nl nh h' => ?_)
      (fun c j xl xh nl nh h' => same _ _ h' (by simp) (by simp) rfl)
      (fun c => by rcases ph c with e | rfl | rfl | ⟨_, e', e | e⟩ <;> simp [*, Phase.half]) (fun c hq => ?_) (fun c i' J l hj hl => ?_)
      (fun c i' J hj => ?_) (fun c i' J hj => I.plan_lvl G hj) ?_
    · rcases ph c with e | rfl | rfl | ⟨_, e', e | e⟩
      · rw [← e]; exact .inl h'
      · rw [p1] at h'; cases h'
      · rw [p2] at h'
        cases h'
        refine .inr ⟨by omega, by omega, by omega, by simp [srcNode], by simp [srcNode], fun hl => ?_⟩
        rw [G.node c hnl] at hl
        exact ⟨by rw [p4, if_pos hl], by rw [p3, if_pos hl]⟩
      · rw [e] at h'; cases h'
      · rw [e] at h'; cases h'
    · rcases ph c with e | rfl | rfl | ⟨_, e', e | e⟩
      · rw [e]; exact hq
      · rw [h] at hq; cases hq
      · rw [hf] at hq; cases hq
      · rw [e'] at hq; cases hq
      · rw [e'] at hq; cases hq
    · exact .inl (plan c i' J hj)
    · exact .inl (plan c i' J hj)
    · intro n' l h1 h2 h3 c j hc hcell
      have fin : ∀ w, (w = u ∨ (∃ e ∈ pre ++ (b, q) :: post, w = e.2)) → w = .to (.leaf l) →
          n' = n ∧ (m.node n).lv = 1 := fun w hw hl => P.hold I (by simp [hf]) h2 h3 hw hl
      by_cases c1 : c = m.nN
      · subst c1
        rw [n1] at hcell
        have : n' = n ∧ (m.node n).lv = 1 := by
          rcases mkNode_cell hcell with e | ⟨e, g1, g2⟩
          · exact fin _ (.inr ⟨(b, q), by simp, rfl⟩) e
          · exact fin _ (.inr ⟨e, by simp [g1], rfl⟩) g2
        exact ⟨by rw [p4, if_pos this.2], by simp [srcNode, this.1]⟩
      · by_cases c2 : c = m.nN + 1
        · subst c2
          rw [n2] at hcell
          have : n' = n ∧ (m.node n).lv = 1 := by
            rcases mkNode_cell hcell with e | ⟨e, g1, g2⟩
            · exact fin _ (.inl rfl) e
            · exact fin _ (.inr ⟨e, by simp [g1], rfl⟩) g2
          exact ⟨by rw [p3, if_pos this.2], by simp [srcNode, this.1]⟩
        · by_cases c3 : c = m.nN + 2
          · subst c3
            rw [n3] at hcell
            rcases mkNode_cell hcell with e | ⟨e, g1, g2⟩
            · cases e
            · simp only [List.mem_singleton] at g1
              subst g1
              cases g2
          rw [e2, upd_ne (by omega), upd_ne (by omega), upd_ne (by omega), (I.shape.fresh c hc).1] at hcell
          cases hcell

end Scc.Grove
