import Verif.Grove.Make

/-!
# A full node is to be replaced with two new ones
-/

namespace Scc.Grove

local notation "Key" => Nat
local notation "Id" => Nat
local notation "Thr" => Nat

variable {V : Type} {m m' : Mem V} {A : Key → Option V} {src src' : Ref → Ref}

/-- The facts about a full node and the list of its new children. -/
structure Spread (m : Mem V) (src : Ref → Ref) (n i : Nat) (J : Job) (pre post : List (Key × Ptr)) (b : Key)
    (q u : Ptr) : Prop where
  job : (m.phase n).plan = some (i, J)
  live : m.dead (.node n) = false
  jobOk : JobOk m.root m.node m.leaf m.frozen m.dead m.nN m.nL src J (fun _ => True) false
  site : Site m.root m.node n i J
  lt : n < m.nN
  lit : Lit m.root m.node (.node n)
  use : ∀ j ∈ (m.node n).slots, Use m.root m.node n j
  asc : (pre ++ (b, q) :: post).Pairwise fun a b => a.1 < b.1
  look : ∀ k, look (pre ++ (b, q) :: post) u k = subst (m.node n) i J.xl J.xh J.mid k
  on : ∀ e ∈ pre ++ (b, q) :: post, On m.root m.node e.1 (.node n)
  top : ∃ k, On m.root m.node k (.node n) ∧ ∀ e ∈ pre ++ (b, q) :: post, e.1 < k
  ptr : ∀ p, p = u ∨ (∃ e ∈ pre ++ (b, q) :: post, p = e.2) → ∃ y, p = .to y ∧ Alloc m.nN m.nL y ∧
    (m.node n).lv = lvl m.node y + 1 ∧ (y = J.xl ∨ y = J.xh ∨ ∃ j, (m.node n).cell j = .to y)
  same : ∀ k k', subst (m.node n) i J.xl J.xh J.mid k = subst (m.node n) i J.xl J.xh J.mid k' →
    ∀ e ∈ pre ++ (b, q) :: post, k ≤ e.1 ↔ k' ≤ e.1
  dest : ∀ k, ∃ y, (m.node n).dest k = .to y
  notin : .node n ∉ J.ch

theorem subst_i {M : Node} {i : Nat} {J : Job} {k : Key} (h : route M.kids k = i) :
    subst M i J.xl J.xh J.mid k = .to (J.side k) := by
  simp only [subst, h, if_true, Job.side]
  split <;> rfl

theorem subst_ne {M : Node} {i : Nat} {J : Job} {k : Key} (h : route M.kids k ≠ i) :
    subst M i J.xl J.xh J.mid k = M.dest k := by
  simp only [subst, h, if_false]

theorem Inv.spread (I : Inv m A src) {n i : Nat} {x xl xh : Ref} {mid : Key} {ch : List Ref}
    (hf : m.phase n = .full i x xl xh mid ch none) {pre post : List (Key × Ptr)} {b : Key} {q u : Ptr}
    (he : (m.node n).expand i xl xh mid = (pre ++ (b, q) :: post, u)) :
    Spread m src n i ⟨x, xl, xh, mid, ch⟩ pre post b q u := by
  have hd : m.dead (.node n) = false := by
    cases hd : m.dead (.node n) with
    | false => rfl
    | true => have := I.dead.over n hd; rw [hf] at this; cases this
  have hp : (m.phase n).plan = some (i, ⟨x, xl, xh, mid, ch⟩) := by rw [hf]; rfl
  obtain ⟨O, S⟩ := I.jobs.plan n i _ hp hd
  have hlit : Lit m.root m.node (.node n) := ⟨mid, S.low.1⟩
  have hcut := I.not_cut (n := n) (by simp [hf])
  have huse := fun j hj => I.slot_use (j := j) hlit hcut hj
  have hpos : ∀ e ∈ (m.node n).kids, e.2 ≠ 0 := fun e he => (I.shape.pos n e he).1
  have hlow : route (m.node n).kids mid = i := S.low.2
  have hmid : ∀ b, (b, i) ∈ (m.node n).kids → mid < b := by
    intro b hb
    obtain ⟨k, h1, _, h3⟩ := S.high
    exact Nat.lt_of_lt_of_le h1 (route_le hb h3 (I.shape.nodup n) (hpos _ hb))
  have hE : pre ++ (b, q) :: post = ((m.node n).expand i xl xh mid).1 := by rw [he]
  have hu : u = ((m.node n).expand i xl xh mid).2 := by rw [he]
  have hcell : ∀ j ∈ (m.node n).slots, ∃ y, (m.node n).cell j = .to y := by
    intro j hj
    rcases List.mem_cons.1 hj with rfl | hj
    · by_cases hk : (m.node n).kids = []
      · have hi := S.slot
        simp only [Node.slots, hk, List.map_nil, List.mem_cons, List.not_mem_nil, or_false] at hi
        exact ⟨_, hi ▸ S.cell⟩
      · exact I.shape.unb n hk
    · obtain ⟨e, h1, rfl⟩ := List.mem_map.1 hj
      exact I.shape.kid n e h1
  have hside : ∀ k, Alloc m.nN m.nL ((Job.mk x xl xh mid ch).side k) := fun k => (O.pair k _ _ trivial .base).al
  have hxl : Alloc m.nN m.nL xl := by have := hside mid; rwa [Job.side_low (Nat.le_refl _)] at this
  have hxh : Alloc m.nN m.nL xh := by have := hside (mid + 1); rwa [Job.side_high (by show mid < mid + 1; omega)] at this
  obtain ⟨k1, k2, k3⟩ := I.locks.kind n i _ hp
  simp only at k1 k2 k3
  have hnotin : Ref.node n ∉ ch := I.chain.not_mem (Phase.plan_job hp) (by simp [hf])
  have hptr : ∀ p, p = Ptr.to xl ∨ p = Ptr.to xh ∨ (∃ j ∈ (m.node n).slots, p = (m.node n).cell j) →
      ∃ y, p = .to y ∧ Alloc m.nN m.nL y ∧ (m.node n).lv = lvl m.node y + 1 ∧
        (y = xl ∨ y = xh ∨ ∃ j, (m.node n).cell j = .to y) := by
    rintro p (rfl | rfl | ⟨j, hj, rfl⟩)
    · exact ⟨xl, rfl, hxl, by omega, .inl rfl⟩
    · exact ⟨xh, rfl, hxh, by omega, .inr (.inl rfl)⟩
    · obtain ⟨y, hy⟩ := hcell j hj
      exact ⟨y, hy, I.shape.cell_al _ _ _ hy, I.shape.lev _ _ _ hy, .inr (.inr ⟨j, hy⟩)⟩
  have hunlit : ∀ k j y, Use m.root m.node n j → (m.node n).cell j = .to y →
      y ≠ (Job.mk x xl xh mid ch).side k := by
    intro k j y h1 h2 e
    exact (O.pair k _ _ trivial .base).unlit (e ▸ h1.child h2)
  have hon : ∀ e ∈ pre ++ (b, q) :: post, On m.root m.node e.1 (.node n) := by
    intro e he'
    rw [hE] at he'
    rcases (expand_keys he').1 with h | ⟨e', h1, h2⟩
    · rw [h]; exact S.low.1
    · rw [← h2]
      rcases I.order.bound n hlit e' h1 with h | h
      · exact h
      · exact absurd h (hcut _)
  refine ⟨hp, hd, O, S, I.lt_of_phase (by simp [hf]), hlit, huse, ?_, ?_, hon, ?_, ?_, ?_, ?_, hnotin⟩
  · rw [hE]
    exact expand_asc (I.shape.asc n) (I.shape.nodup n) hpos hlow hmid
  · intro k
    rw [hE, hu]
    exact look_expand hpos (fun b hb => Nat.le_of_lt (hmid b hb)) (I.shape.nodup n) S.slot k
  · by_cases hi : i = 0
    · obtain ⟨k, h1, h2, h3⟩ := S.high
      refine ⟨k, h2, fun e he' => ?_⟩
      rw [hE] at he'
      have h3 : route (m.node n).kids k = 0 := h3.trans hi
      rcases (expand_keys he').1 with h | ⟨e', g1, g2⟩
      · rw [h]; exact h1
      · rw [← g2]; exact route_zero hpos h3 e' g1
    · obtain ⟨k, h1, h2⟩ := I.order.above n hlit
      refine ⟨k, h1, fun e he' => ?_⟩
      rw [hE] at he'
      rcases (expand_keys he').1 with h | ⟨e', g1, g2⟩
      · rcases List.mem_cons.1 S.slot with h' | h'
        · exact absurd h' hi
        · obtain ⟨⟨b', i'⟩, g1, rfl⟩ := List.mem_map.1 h'
          have g2 := hmid b' g1
          have g3 := h2 _ g1
          simp only at g3
          omega
      · rw [← g2]; exact h2 e' g1
  · rintro p (rfl | ⟨e, h1, rfl⟩)
    · refine hptr p ?_
      rw [hu]
      rcases expand_top (M := m.node n) (i := i) (xl := xl) (xh := xh) (mid := mid) with ⟨h, _⟩ | ⟨_, h⟩
      · exact .inr (.inl h)
      · exact .inr (.inr ⟨0, List.mem_cons_self .., h⟩)
    · refine hptr _ ?_
      rw [hE] at h1
      rcases (expand_keys h1).2 with h | h | ⟨e', g1, _, g2⟩
      · exact .inl h
      · exact .inr (.inl h)
      · exact .inr (.inr ⟨e'.2, List.mem_cons_of_mem _ (List.mem_map.2 ⟨e', g1, rfl⟩), g2⟩)
  · intro k k' h
    -- relation to the bounds of the old node and to `mid`
    suffices hs : route (m.node n).kids k = route (m.node n).kids k' ∧ (k ≤ mid ↔ k' ≤ mid) by
      intro e he'
      rw [hE] at he'
      rcases (expand_keys he').1 with h | ⟨e', g1, g2⟩
      · rw [h]; exact hs.2
      · rw [← g2]
        exact route_eq_iff (I.shape.nodup n) hpos (I.shape.asc n) hs.1 e' g1
    by_cases h1 : route (m.node n).kids k = i <;> by_cases h2 : route (m.node n).kids k' = i
    · refine ⟨by rw [h1, h2], ?_⟩
      rw [subst_i (J := ⟨x, xl, xh, mid, ch⟩) h1, subst_i (J := ⟨x, xl, xh, mid, ch⟩) h2] at h
      have h := (Ptr.to.inj h)
      simp only [Job.side] at h
      by_cases g1 : k ≤ mid <;> by_cases g2 : k' ≤ mid
      · simp [g1, g2]
      · rw [if_pos g1, if_neg g2] at h; exact absurd h S.ne
      · rw [if_neg g1, if_pos g2] at h; exact absurd h.symm S.ne
      · simp [g1, g2]
    · rw [subst_i (J := ⟨x, xl, xh, mid, ch⟩) h1, subst_ne (J := ⟨x, xl, xh, mid, ch⟩) h2] at h
      exact (hunlit k _ _ (huse _ route_slots) h.symm rfl).elim
    · rw [subst_ne (J := ⟨x, xl, xh, mid, ch⟩) h1, subst_i (J := ⟨x, xl, xh, mid, ch⟩) h2] at h
      exact (hunlit k' _ _ (huse _ route_slots) h rfl).elim
    · rw [subst_ne (J := ⟨x, xl, xh, mid, ch⟩) h1, subst_ne (J := ⟨x, xl, xh, mid, ch⟩) h2] at h
      obtain ⟨y, hy⟩ := hcell _ (route_slots (M := m.node n) (k := k))
      have hy' : (m.node n).cell (route (m.node n).kids k') = .to y := h.symm.trans hy
      have e := (I.order.parent n n _ _ y (huse _ route_slots) (huse _ route_slots) hy hy').2
      have e : route (m.node n).kids k = route (m.node n).kids k' := by
        refine e.resolve_right ?_
        rintro ⟨b, i', e, _⟩
        rw [hf] at e; cases e
      refine ⟨e, ?_⟩
      have hiff := route_eq_iff (I.shape.nodup n) hpos (I.shape.asc n) e
      -- the keys between two others have the same place
      have aux : ∀ {k k' : Key}, (∀ e ∈ (m.node n).kids, k ≤ e.1 ↔ k' ≤ e.1) → k ≤ mid → ¬ k' ≤ mid →
          route (m.node n).kids k = i := by
        intro k k' g1 g2 g3
        rw [← hlow]
        refine route_congr fun e he => ?_
        have := g1 e he
        constructor
        · intro g4; have := this.1 g4; omega
        · intro g4; omega
      by_cases g1 : k ≤ mid <;> by_cases g2 : k' ≤ mid
      · simp [g1, g2]
      · exact absurd (aux hiff g1 g2) h1
      · exact absurd (aux (fun e he => (hiff e he).symm) g2 g1) h2
      · simp [g1, g2]
  · exact fun k => hcell _ route_slots


/-- The pairs of the change one level up. -/
theorem Spread.pair_iff {n i : Nat} {J : Job} {pre post : List (Key × Ptr)} {b : Key} {q u : Ptr}
    (I : Inv m A src) (P : Spread m src n i J pre post b q u) (G : Grow m m' src src') {nl nh : Id}
    (hl : m'.node nl = mkNode (m.node n).lv pre q) (hh : m'.node nh = mkNode (m.node n).lv post u)
    {k : Key} {a c : Ref} :
    Pair m'.node k (.node n) (Job.side ⟨.node n, .node nl, .node nh, b, .node n :: J.ch⟩ k) a c ↔
      (a = .node n ∧ c = Job.side ⟨.node n, .node nl, .node nh, b, .node n :: J.ch⟩ k) ∨
      (route (m.node n).kids k = i ∧ Pair m.node k J.x (J.side k) a c) := by
  have hdest : ∀ c, .node c = Job.side ⟨.node n, .node nl, .node nh, b, .node n :: J.ch⟩ k →
      (m'.node c).dest k = subst (m.node n) i J.xl J.xh J.mid k := by
    intro c hc
    rw [← P.look, look_cut P.asc]
    simp only [Job.side] at hc
    split at hc
    · next hk => cases hc; rw [hl, mkNode_dest, if_pos hk]
    · next hk => cases hc; rw [hh, mkNode_dest, if_neg hk]
  have hn := G.node n P.lt
  constructor
  · intro h
    induction h with
    | base => exact .inl ⟨rfl, rfl⟩
    | @step c c' w w' h hd hd' hne ih =>
      right
      rcases ih with ⟨e1, e2⟩ | ⟨h1, h2⟩
      · cases e1
        rw [hdest c' e2] at hd'
        rw [hn] at hd
        by_cases hr : route (m.node n).kids k = i
        · rw [subst_i hr] at hd'
          cases hd'
          have := P.site.cell
          simp only [Node.dest, hr, this] at hd
          cases hd
          exact ⟨hr, .base⟩
        · rw [subst_ne hr, hd] at hd'
          cases hd'
          exact absurd rfl hne
      · refine ⟨h1, ?_⟩
        have Q := P.jobOk.pair k _ _ trivial h2
        have h3 : c < m.nN := I.lit_al (P.jobOk.lit rfl _ Q.mem)
        have h4 : c' < m.nN := Q.al
        rw [G.node c h3] at hd
        rw [G.node c' h4] at hd'
        exact .step h2 hd hd' hne
  · rintro (⟨rfl, rfl⟩ | ⟨h1, h2⟩)
    · exact .base
    · have hb : Pair m'.node k (.node n) (Job.side ⟨.node n, .node nl, .node nh, b, .node n :: J.ch⟩ k) J.x
          (J.side k) := by
        have hs : ∃ c, .node c = Job.side ⟨.node n, .node nl, .node nh, b, .node n :: J.ch⟩ k := by
          simp only [Job.side]
          split
          · exact ⟨nl, rfl⟩
          · exact ⟨nh, rfl⟩
        obtain ⟨c, hc⟩ := hs
        have hdd : (m'.node n).dest k = .to J.x := by
          rw [hn]
          simp only [Node.dest, h1]
          exact P.site.cell
        have := hdest c hc
        rw [subst_i h1] at this
        rw [← hc]
        refine Pair.step .base hdd this fun e => ?_
        refine (P.jobOk.pair k _ _ trivial .base).unlit ?_
        rw [← e]
        exact P.jobOk.lit rfl _ (P.jobOk.pair k _ _ trivial .base).mem
      generalize hy : J.side k = y at h2 hb
      induction h2 with
      | base => exact hb
      | @step c c' w w' h hd hd' hne ih =>
        subst hy
        have Q := P.jobOk.pair k _ _ trivial h
        have h3 : c < m.nN := I.lit_al (P.jobOk.lit rfl _ Q.mem)
        have h4 : c' < m.nN := Q.al
        exact .step ih (by rw [G.node c h3, hd]) (by rw [G.node c' h4, hd']) hne

/-- The change of a full node, one level up. -/
theorem Spread.jobUp {n i : Nat} {J : Job} {pre post : List (Key × Ptr)} {b : Key} {q u : Ptr}
    (I : Inv m A src) (P : Spread m src n i J pre post b q u) (G : Grow m m' src src') {nl nh : Id}
    (hl : m'.node nl = mkNode (m.node n).lv pre q) (hh : m'.node nh = mkNode (m.node n).lv post u)
    (hl1 : m.nN ≤ nl) (hh1 : m.nN ≤ nh) (hl2 : nl < m'.nN) (hh2 : nh < m'.nN) (hne : nl ≠ nh)
    (hls : src' (.node nl) = .node n) (hhs : src' (.node nh) = .node n) :
    JobOk m'.root m'.node m'.leaf m'.frozen m'.dead m'.nN m'.nL src'
      ⟨.node n, .node nl, .node nh, b, .node n :: J.ch⟩ (fun _ => True) false := by
  have O := P.jobOk
  have S := P.site
  have iff := fun {k a c} => P.pair_iff I G hl hh (k := k) (a := a) (c := c)
  generalize hJ : (Job.mk (.node n) (.node nl) (.node nh) b (.node n :: J.ch)) = J' at iff
  have j1 : J'.x = .node n := by rw [← hJ]
  have j2 : J'.ch = .node n :: J.ch := by rw [← hJ]
  have j3 : ∀ k, J'.side k = .node (if k ≤ b then nl else nh) := by
    intro k; rw [← hJ]; simp only [Job.side]; split <;> rfl
  have hn := G.node n P.lt
  have hbelow : ∀ y ∈ J.ch, lvl m.node y < (m.node n).lv := S.below
  have hal : ∀ y ∈ J.ch, Alloc m.nN m.nL y := fun y hy => I.lit_al (O.lit rfl y hy)
  -- keys of the same child are on the same side
  have hcut : ∀ k k', subst (m.node n) i J.xl J.xh J.mid k = subst (m.node n) i J.xl J.xh J.mid k' →
      (k ≤ b ↔ k' ≤ b) := fun k k' h => P.same k k' h (b, q) (by simp)
  have hcut' : ∀ k k', route (m.node n).kids k = i → route (m.node n).kids k' = i → J.side k = J.side k' →
      J'.side k = J'.side k' := by
    intro k k' h1 h2 h3
    have := hcut k k' (by rw [subst_i h1, subst_i h2, h3])
    simp only [j3, this]
  have hup : ∀ k y, On m.root m.node k y → y ∈ J.ch → route (m.node n).kids k = i := by
    intro k y ho
    induction ho with
    | root h =>
      intro hy
      obtain ⟨k', h'⟩ := P.lit
      rcases h'.lvl_root I.shape.lev h with e | e
      · cases e; exact absurd hy P.notin
      · have := hbelow _ hy
        simp only [lvl_node] at this e
        omega
    | @step c y ho hd ih =>
      intro hy
      rcases S.parent y hy c _ ho.use hd with ⟨rfl, e⟩ | hc
      · exact e
      · exact ih hc
  have hsub : ∀ k x y k2, x ∈ J.ch → Same m.root m.node J k x y k2 → route (m.node n).kids k = i →
      Same m'.root m'.node J' k x y k2 := by
    intro k x y k2 hx h hk
    have hr := hup k2 x h.1 hx
    refine ⟨(G.on I).2 h.1, hcut' _ _ hr hk h.2.1, ?_⟩
    rw [j1]
    exact iff.2 (.inr ⟨hr, h.2.2⟩)
  have hmk : ∀ k c, J'.side k = .node c → ∃ l w, m'.node c = mkNode (m.node n).lv l w ∧
      (∀ e ∈ l, e ∈ pre ++ (b, q) :: post ∧ (e.1 ≤ b ↔ k ≤ b)) ∧
      (w = u ∨ ∃ e ∈ pre ++ (b, q) :: post, w = e.2) ∧
      ∃ k2, On m.root m.node k2 (.node n) ∧ (k2 ≤ b ↔ k ≤ b) ∧ ∀ e ∈ l, e.1 < k2 := by
    intro k c hc
    have ha := List.pairwise_append.1 P.asc
    have ha2 := List.pairwise_cons.1 ha.2.1
    by_cases hk : k ≤ b
    · rw [j3, if_pos hk] at hc
      cases hc
      refine ⟨pre, q, hl, fun e he => ⟨by simp [he], ?_⟩, .inr ⟨(b, q), by simp, rfl⟩, b,
        P.on (b, q) (by simp), by simp [hk], fun e he => ha.2.2 e he (b, q) (by simp)⟩
      have := ha.2.2 e he (b, q) (by simp)
      simp only at this
      constructor <;> intro <;> omega
    · rw [j3, if_neg hk] at hc
      cases hc
      obtain ⟨k2, g1, g2⟩ := P.top
      refine ⟨post, u, hh, fun e he => ⟨by simp [he], ?_⟩, .inl rfl, k2, g1, ?_, fun e he => g2 e (by simp [he])⟩
      · have := ha2.1 e he
        simp only at this
        constructor <;> intro <;> omega
      · have := g2 (b, q) (by simp)
        simp only at this
        constructor <;> intro <;> omega
  have hrefs : ∀ k c, J'.side k = .node c → m.nN ≤ c ∧ c < m'.nN ∧ src' (.node c) = .node n := by
    intro k c hc
    rw [j3] at hc
    split at hc
    · cases hc; exact ⟨hl1, hl2, hls⟩
    · cases hc; exact ⟨hh1, hh2, hhs⟩
  have hdest : ∀ k c, J'.side k = .node c → (m'.node c).dest k = subst (m.node n) i J.xl J.xh J.mid k := by
    intro k c hc
    rw [← P.look, look_cut P.asc]
    rw [j3] at hc
    split at hc
    · next hk => cases hc; rw [hl, mkNode_dest, if_pos hk]
    · next hk => cases hc; rw [hh, mkNode_dest, if_neg hk]
  have hnode : ∀ k, ∃ c, J'.side k = .node c := fun k => ⟨_, j3 k⟩
  refine ⟨fun k a c _ h => ?_, fun k k' a c c' _ _ h h' he => ?_, fun k k' a c _ _ h h' => ?_, fun y hy => ?_,
    fun _ y hy => ?_, fun l hm => ?_, fun _ _ _ _ => trivial⟩
  · rw [j1] at h
    rcases iff.1 h with ⟨rfl, rfl⟩ | ⟨hk, h⟩
    · obtain ⟨c, hc⟩ := hnode k
      obtain ⟨r1, r2, r3⟩ := hrefs k c hc
      obtain ⟨l, w, s1, s2, s3, k2, s4, s5, s6⟩ := hmk k c hc
      have hD : m.dead (.node c) = false := I.live_new (by simp only [Alloc]; omega)
      rw [hc]
      refine ⟨by rw [j2]; exact List.mem_cons_self .., r3, r2, ?_, ?_, by rw [G.dead]; exact hD, ?_, ?_⟩
      · simp only [lvl_node, s1, hn]; rfl
      · exact fun hl => I.unlit_new (y := .node c) (by simp only [Alloc]; omega) ((G.lit I).1 hl)
      · simp only [Retired, s1]
        obtain ⟨y, hy, _⟩ := P.ptr w s3
        rw [show (mkNode (m.node n).lv l w).cell 0 = w from rfl, hy]
        simp
      · have hside : ∀ k2, (k2 ≤ b ↔ k ≤ b) → J'.side k2 = J'.side k := by
          intro k2 h; simp only [j3, h]
        have hsame : ∀ k2, On m.root m.node k2 (.node n) → (k2 ≤ b ↔ k ≤ b) →
            Same m'.root m'.node J' k (.node n) (.node c) k2 := by
          intro k2 g1 g2
          refine ⟨(G.on I).2 g1, hside k2 g2, ?_⟩
          rw [j1]
          exact iff.2 (.inl ⟨rfl, by rw [hside k2 g2, hc]⟩)
        refine ⟨?_, fun e he => ?_, k2, fun e he => ?_, hsame k2 s4 s5⟩
        · obtain ⟨y, hy⟩ := P.dest k
          rw [hn]
          by_cases hr : route (m.node n).kids k = i
          · have hy' : y = J.x := by
              have := P.site.cell
              simp only [Node.dest, hr, this] at hy
              cases hy; rfl
            refine ⟨y, J.side k, hy, by rw [hdest k c hc, subst_i hr], fun e => ?_⟩
            refine absurd ?_ (O.pair k _ _ trivial .base).unlit
            rw [← e, hy']
            exact O.lit rfl _ (O.pair k _ _ trivial .base).mem
          · refine ⟨y, y, hy, by rw [hdest k c hc, subst_ne hr, hy], fun _ hm => ?_⟩
            rw [j2] at hm
            rcases List.mem_cons.1 hm with e | hm
            · have := I.shape.lev.dest hy
              rw [e] at this
              simp only [lvl_node] at this
              omega
            · rcases S.parent y hm n _ (P.use _ route_slots) hy with ⟨_, e⟩ | h'
              · exact hr e
              · exact P.notin h'
        · rw [s1] at he
          obtain ⟨e', g1, g2⟩ := numb_keys (mkNode_kids ▸ he)
          rw [← g2]
          obtain ⟨g3, g4⟩ := s2 e' g1
          exact hsame e'.1 (P.on e' g3) g4
        · rw [s1] at he
          obtain ⟨e', g1, g2⟩ := numb_keys (mkNode_kids ▸ he)
          rw [← g2]
          exact s6 e' g1
    · have Q := O.pair k a c trivial h
      have ha := hal a Q.mem
      refine ⟨by rw [j2]; exact List.mem_cons_of_mem _ Q.mem, by rw [G.src c Q.al]; exact Q.src,
        Q.al.mono G.nN G.nL, by rw [G.lvl Q.al, G.lvl ha]; exact Q.lvl, fun hl => Q.unlit ((G.lit I).1 hl),
        by rw [G.dead]; exact Q.live, fun hr => Q.ret ((G.kept Q.al).retired.1 hr), ?_⟩
      have hs := Q.same
      cases a with
      | leaf l =>
        cases c with
        | node c => simp [Match] at hs
        | leaf l' =>
          refine ⟨G.frozen l ha hs.1, ?_, fun k2 h2 => ?_⟩
          · rw [G.leaf l ha, G.leaf l' Q.al]; exact hs.2.1
          · rw [G.leaf l' Q.al] at h2
            exact hsub k _ _ k2 Q.mem (hs.2.2 k2 h2) hk
      | node a =>
        cases c with
        | leaf l => simp [Match] at hs
        | node c =>
          obtain ⟨⟨w, w', g1, g2, g3⟩, s1, k2, s2, s3⟩ := hs
          have ea := G.node a ha
          have ec := G.node c Q.al
          refine ⟨⟨w, w', by rw [ea]; exact g1, by rw [ec]; exact g2, fun e hm => ?_⟩, fun e he => ?_, k2, ?_,
            hsub k _ _ k2 Q.mem s3 hk⟩
          · rw [j2] at hm
            rcases List.mem_cons.1 hm with e' | hm
            · have h1 := hbelow _ Q.mem
              have h2 := I.shape.lev.dest g1
              rw [e'] at h2
              simp only [lvl_node] at h1 h2
              omega
            · exact g3 e hm
          · rw [ec] at he
            exact hsub k _ _ _ Q.mem (s1 e he) hk
          · rw [ec]; exact s2
  · rw [j1] at h h'
    rcases iff.1 h with ⟨ea, hc⟩ | ⟨hk, h⟩ <;> rcases iff.1 h' with ⟨ea', hc'⟩ | ⟨hk', h'⟩
    · rw [hdest k c hc.symm, hdest k' c' hc'.symm] at he
      have hs := P.same k k' he
      have hb : k ≤ b ↔ k' ≤ b := hs (b, q) (by simp)
      have e : c = c' := by
        rw [j3] at hc hc'
        simp only [hb] at hc
        exact Ref.node.inj (hc.trans hc'.symm)
      refine ⟨e, ?_⟩
      subst e
      obtain ⟨l, w, s1, s2, _⟩ := hmk k c hc.symm
      rw [s1]
      refine route_congr fun e he => ?_
      obtain ⟨e', g1, g2⟩ := numb_keys (mkNode_kids ▸ he)
      rw [← g2]
      exact hs e' (s2 e' g1).1
    · subst ea
      exact absurd (O.pair k' _ _ trivial h').mem P.notin
    · subst ea'
      exact absurd (O.pair k _ _ trivial h).mem P.notin
    · have Q := O.pair k _ _ trivial h
      have Q' := O.pair k' _ _ trivial h'
      rw [G.node c Q.al, G.node c' Q'.al] at he ⊢
      exact O.inj k k' a c c' trivial trivial h h' he
  · rw [j1] at h h'
    rcases iff.1 h with ⟨ea, hc⟩ | ⟨hk, h⟩ <;> rcases iff.1 h' with ⟨ea', hc'⟩ | ⟨hk', h'⟩
    · rw [← hc, ← hc']
    · subst ea
      exact absurd (O.pair k' _ _ trivial h').mem P.notin
    · subst ea'
      exact absurd (O.pair k _ _ trivial h).mem P.notin
    · exact hcut' _ _ hk hk' (O.sep k k' a c trivial trivial h h')
  · rw [j2] at hy
    rw [G.dead]
    rcases List.mem_cons.1 hy with rfl | hy
    · exact P.live
    · exact O.dead y hy
  · rw [j2] at hy
    rw [G.lit I]
    rcases List.mem_cons.1 hy with rfl | hy
    · exact P.lit
    · exact O.lit rfl y hy
  · rw [j2] at hm
    rcases List.mem_cons.1 hm with e | hm
    · cases e
    · exact G.frozen l (hal _ hm) (O.frozen l hm)

end Scc.Grove
