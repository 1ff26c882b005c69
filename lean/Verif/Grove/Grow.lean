import Verif.Grove.Phases

/-!
# Steps that create objects
-/

namespace Scc.Grove

local notation "Key" => Nat
local notation "Id" => Nat
local notation "Thr" => Nat

variable {V : Type} {m m' : Mem V} {A : Key → Option V} {src src' : Ref → Ref}

/-- Objects are added and leaves are frozen. -/
structure Grow (m m' : Mem V) (src src' : Ref → Ref) : Prop where
  root : m'.root = m.root
  nN : m.nN ≤ m'.nN
  nL : m.nL ≤ m'.nL
  node : ∀ n, n < m.nN → m'.node n = m.node n
  leaf : ∀ l, l < m.nL → m'.leaf l = m.leaf l
  dead : m'.dead = m.dead
  frozen : ∀ l, l < m.nL → m.frozen l = true → m'.frozen l = true
  src : ∀ y, Alloc m.nN m.nL y → src' y = src y

theorem Alloc.mono {nN nL nN' nL' : Nat} {y : Ref} (h : Alloc nN nL y) (h1 : nN ≤ nN') (h2 : nL ≤ nL') :
    Alloc nN' nL' y := by
  cases y <;> simp only [Alloc] at h ⊢ <;> omega

theorem Grow.on (I : Inv m A src) (G : Grow m m' src src') {k : Key} {y : Ref} :
    On m'.root m'.node k y ↔ On m.root m.node k y := by
  rw [G.root]
  have h : ∀ n, Lit m.root m.node (.node n) → (m'.node n).dest k = (m.node n).dest k := by
    intro n hl
    rw [G.node n (I.lit_al hl)]
  exact ⟨On.congr' h, On.congr h⟩

theorem Grow.lit (I : Inv m A src) (G : Grow m m' src src') {y : Ref} :
    Lit m'.root m'.node y ↔ Lit m.root m.node y := by
  simp only [Lit, G.on I]

theorem Grow.use (I : Inv m A src) (G : Grow m m' src src') {n : Id} {j : Nat} :
    Use m'.root m'.node n j ↔ Use m.root m.node n j := by
  simp only [Use, G.on I]
  refine exists_congr fun k => and_congr_right fun h => ?_
  rw [G.node n (I.on_al h)]

theorem Grow.kept (G : Grow m m' src src') {y : Ref} (h : Alloc m.nN m.nL y) :
    Kept m.node m'.node m.leaf m'.leaf y := by
  cases y with
  | leaf l => exact G.leaf l h
  | node n => exact G.node n h

theorem Grow.jobOk (I : Inv m A src) (G : Grow m m' src src') {J : Job} {fil : Key → Prop} {d : Bool}
    (O : JobOk m.root m.node m.leaf m.frozen m.dead m.nN m.nL src J fil d) :
    JobOk m'.root m'.node m'.leaf m'.frozen m'.dead m'.nN m'.nL src' J fil d := by
  have hal : ∀ y ∈ J.ch, Alloc m.nN m.nL y := by
    intro y hy
    cases d with
    | true => exact I.shape.dead_al y (O.dead y hy)
    | false => exact I.lit_al (O.lit rfl y hy)
  refine O.frame (fun x hx => ⟨G.kept (hal x hx), by rw [G.dead], fun k => (G.on I).2⟩)
    (fun l hl => G.frozen l (hal _ hl) (O.frozen l hl)) (fun y h1 h2 h3 h4 _ => ?_)
  exact ⟨G.kept h2, G.src y h2, h2.mono G.nN G.nL, fun h => h3 ((G.lit I).1 h), by rw [G.dead]; exact h4⟩

theorem Grow.cell (I : Inv m A src) (G : Grow m m' src src') {q j : Nat} {p : Ptr} (h : Use m'.root m'.node q j)
    (hc : (m'.node q).cell j = p) : Use m.root m.node q j ∧ (m.node q).cell j = p := by
  have hu := (G.use I).1 h
  have hq : q < m.nN := I.lit_al hu.lit
  rw [G.node q hq] at hc
  exact ⟨hu, hc⟩

theorem Grow.lvl (G : Grow m m' src src') {y : Ref} (h : Alloc m.nN m.nL y) :
    lvl m'.node y = lvl m.node y := (G.kept h).lvl

theorem Grow.site (I : Inv m A src) (G : Grow m m' src src') {n i : Nat} {J : Job}
    (S : Site m.root m.node n i J) (hn : n < m.nN) (hch : ∀ y ∈ J.ch, Alloc m.nN m.nL y) :
    Site m'.root m'.node n i J := by
  refine S.frame (G.node n hn) (fun x hx => G.lvl (hch x hx)) (fun k => (G.on I).2) fun y hy q j hu hc => ?_
  obtain ⟨h1, h2⟩ := G.cell I hu hc
  exact S.parent y hy q j h1 h2

theorem Grow.half (I : Inv m A src) (G : Grow m m' src src') {n i : Nat} {J : Job}
    (S : Half m.root m.node m.dead n i J) (hn : n < m.nN) (hch : ∀ y ∈ J.ch, Alloc m.nN m.nL y) :
    Half m'.root m'.node m'.dead n i J := by
  refine S.frame (G.node n hn) (fun x hx => G.lvl (hch x hx)) (fun k => (G.on I).2) (by rw [G.dead]; exact S.live)
    (by rw [G.dead]; exact S.lowLive) fun y hy q j hu hc => ?_
  obtain ⟨h1, h2⟩ := G.cell I hu hc
  exact S.parent y hy q j h1 h2

theorem Grow.top (I : Inv m A src) (G : Grow m m' src src') {r n nl nh : Id} {mid : Key} {ch : List Ref}
    (S : Top m.root m.node m.dead m.nN src r n nl nh mid ch) :
    Top m'.root m'.node m'.dead m'.nN src' r n nl nh mid ch := by
  refine S.frame G.root (G.node r S.lt) G.nN (fun h => S.unlit ((G.lit I).1 h)) (by rw [G.dead]; exact S.live)
    (G.src _ S.lt) fun y hy q j hu hc => ?_
  obtain ⟨h1, h2⟩ := G.cell I hu hc
  exact S.parent y hy q j h1 h2

theorem Grow.copy (I : Inv m A src) (G : Grow m m' src src') {n i x y : Nat}
    (K : Copy m.root m.node m.leaf m.frozen m.dead m.nL src n i x y) :
    Copy m'.root m'.node m'.leaf m'.frozen m'.dead m'.nL src' n i x y := by
  have hn : n < m.nN := I.lit_al K.use.lit
  have hx : x < m.nL := I.lit_al (K.use.child K.cell)
  refine ⟨by rw [G.node n hn]; exact K.slot, by rw [G.node n hn]; exact K.cell, (G.use I).2 K.use,
    G.frozen x hx K.frozen, by rw [G.dead]; exact K.live, Nat.lt_of_lt_of_le K.al G.nL,
    fun h => K.unlit ((G.lit I).1 h), by rw [G.dead]; exact K.live', ?_, ?_, ?_⟩
  · rw [G.src (.leaf _) K.al]; exact K.src
  · rw [G.leaf y K.al, G.leaf x hx]; exact K.same
  · rw [G.leaf y K.al]; exact K.ret

/-- What is assumed of the new phases. -/
structure GrowPh (m m' : Mem V) (src' : Ref → Ref) : Prop where
  half : ∀ n, (m'.phase n).half = (m.phase n).half
  move : ∀ n b i, m'.phase n = .move b i ↔ m.phase n = .move b i
  over : ∀ n, m.dead (.node n) = true → (m'.phase n).over = true
  empty : ∀ l, (m'.leaf l).retired = true → (m'.leaf l).m = []
  chain : Chain m'.phase
  old : ∀ n, m.dead (.node n) = true → (m'.phase n).plan ≠ none → (m.phase n).plan ≠ none
  plan : ∀ n i J, (m'.phase n).plan = some (i, J) → m.dead (.node n) = false → (m.phase n).plan = some (i, J) ∨
    (JobOk m'.root m'.node m'.leaf m'.frozen m'.dead m'.nN m'.nL src' J (fun _ => True) false ∧
      Site m'.root m'.node n i J)
  root : ∀ r n nl nh mid ch, m'.phase r = .root n nl nh mid ch → m.phase r = .root n nl nh mid ch ∨
    (JobOk m'.root m'.node m'.leaf m'.frozen m'.dead m'.nN m'.nL src' ⟨.node n, .node nl, .node nh, mid, ch⟩
      (fun _ => True) false ∧ Top m'.root m'.node m'.dead m'.nN src' r n nl nh mid ch)
  copy : ∀ n i x y, m'.phase n = .single i x y → m.phase n = .single i x y ∨
    Copy m'.root m'.node m'.leaf m'.frozen m'.dead m'.nL src' n i x y

theorem Inv.grow (I : Inv m A src) (G : Grow m m' src src') (P : GrowPh m m' src')
    (hs : Shape m'.root m'.node m'.phase m'.nN m'.nL m'.dead)
    (hl : Locks m'.root m'.node m'.dead m'.nN m'.nL src' m'.phase) : Inv m' A src' := by
  have cut : ∀ z k, Cut m'.phase z k ↔ Cut m.phase z k := by
    intro z k
    simp only [Cut, P.half]
  refine ⟨hs, ⟨fun k l h => ?_, fun k n h hd => ?_, fun h k => ?_⟩, ⟨fun n hl e he => ?_, fun n hl => ?_,
    fun l k hl hv => ?_, fun n n' j j' y h1 h2 h3 h4 => ?_⟩, ⟨fun n hd => ?_, fun n hd => ?_, fun l hd => ?_,
    fun y h1 h2 => ?_, P.empty, fun n h1 h2 => ?_⟩, P.chain, ⟨fun n i J h hd => ?_, fun n i J h => ?_,
    fun r n nl nh mid ch h => ?_, fun n i x y h => ?_⟩, hl⟩
  · rw [G.on I] at h
    rw [G.leaf l (I.on_al h)]
    exact I.mean.leaf k l h
  · rw [G.on I] at h
    rw [G.node n (I.on_al h)] at hd
    exact I.mean.null k n h hd
  · exact I.mean.root (G.root ▸ h) k
  · rw [G.lit I] at hl
    rw [G.node n (I.lit_al hl)] at he
    rw [G.on I, cut]
    exact I.order.bound n hl e he
  · rw [G.lit I] at hl
    rw [G.node n (I.lit_al hl)]
    simp only [G.on I]
    exact I.order.above n hl
  · rw [G.lit I] at hl
    rw [G.leaf l (I.lit_al hl)] at hv
    rw [G.on I, cut]
    exact I.order.entry l k hl hv
  · obtain ⟨g1, g3⟩ := G.cell I h1 h3
    obtain ⟨g2, g4⟩ := G.cell I h2 h4
    simp only [P.move]
    exact I.order.parent n n' j j' y g1 g2 g3 g4
  · rw [G.dead] at hd
    exact P.over n hd
  · rw [G.dead] at hd
    rw [G.node n (I.shape.dead_al _ hd)]
    exact I.dead.null n hd
  · rw [G.dead] at hd
    exact G.frozen l (I.shape.dead_al _ hd) (I.dead.frozen l hd)
  · rw [G.dead] at h1
    rw [G.lit I] at h2
    simp only [P.half]
    exact I.dead.half y h1 h2
  · rw [G.dead] at h1
    simp only [P.half]
    exact I.dead.plan n h1 (P.old n h1 h2)
  · rw [G.dead] at hd
    rcases P.plan n i J h hd with h | h
    · obtain ⟨O, S⟩ := I.jobs.plan n i J h hd
      refine ⟨G.jobOk I O, G.site I S (I.lt_of_phase fun e => ?_) fun y hy => I.lit_al (O.lit rfl y hy)⟩
      rw [e] at h; cases h
    · exact h
  · rw [P.half] at h
    obtain ⟨O, S⟩ := I.jobs.half n i J h
    refine ⟨G.jobOk I O, G.half I S (I.lt_of_phase fun e => ?_) fun y hy => I.shape.dead_al _ (O.dead y hy)⟩
    rw [e] at h; cases h
  · rcases P.root r n nl nh mid ch h with h | h
    · obtain ⟨O, S⟩ := I.jobs.root r n nl nh mid ch h
      exact ⟨G.jobOk I O, G.top I S⟩
    · exact h
  · rcases P.copy n i x y h with h | h
    · exact G.copy I (I.jobs.copy n i x y h)
    · exact h

/-- The same for the locks. -/
theorem Locks.grow (I : Inv m A src) (G : Grow m m' src src')
    (locked : ∀ n, m'.phase n = .locked → m.phase n = .locked)
    (coal : ∀ n i, m'.phase n = .coal i → m.phase n = .coal i)
    (move : ∀ n b i, m'.phase n = .move b i → m.phase n = .move b i)
    (claim : ∀ n i x xl xh mid ch nl nh, m'.phase n = .full i x xl xh mid ch (some (nl, nh)) →
      m.phase n = .full i x xl xh mid ch (some (nl, nh)) ∨ (nl ≠ nh ∧ nl < m'.nN ∧ nh < m'.nN ∧
      src' (.node nl) = .node n ∧ src' (.node nh) = .node n ∧
      ((m'.node n).lv = 1 → m'.phase nl = .held ∧ m'.phase nh = .held)))
    (fin : ∀ n j xl xh nl nh, m'.phase n = .fin j xl xh nl nh → m.phase n = .fin j xl xh nl nh)
    (half : ∀ n, (m'.phase n).half = (m.phase n).half)
    (held : ∀ q, m.phase q = .held → m'.phase q = .held)
    (hold : ∀ n i J l, (m'.phase n).plan = some (i, J) → J.xl = .leaf l ∨ J.xh = .leaf l →
      (m.phase n).plan = some (i, J) ∨ (l < m'.nL ∧ m'.dead (.leaf l) = false ∧ src' (.leaf l) = J.x ∧
        Hold m'.node m'.phase src' n l))
    (kind : ∀ n i J, (m'.phase n).plan = some (i, J) → (m.phase n).plan = some (i, J) ∨
      (lvl m'.node J.xl = lvl m'.node J.x ∧ lvl m'.node J.xh = lvl m'.node J.x ∧
        (m'.node n).lv = lvl m'.node J.x + 1))
    (hkind : ∀ n i J, (m.phase n).plan = some (i, J) → lvl m'.node J.xl = lvl m.node J.xl ∧
      lvl m'.node J.xh = lvl m.node J.xh ∧ lvl m'.node J.x = lvl m.node J.x)
    (fresh : ∀ n l, l < m.nL →
      (∃ i J, (m.phase n).plan = some (i, J) ∧ src (.leaf l) = J.x) ∨ m.dead (src (.leaf l)) = true →
      Hold m.node m.phase src n l → ∀ q j, m.nN ≤ q → (m'.node q).cell j = .to (.leaf l) →
        m'.phase q = .held ∧ src' (.node q) = .node n) :
    Locks m'.root m'.node m'.dead m'.nN m'.nL src' m'.phase := by
  have hH : ∀ n l, l < m.nL →
      (∃ i J, (m.phase n).plan = some (i, J) ∧ src (.leaf l) = J.x) ∨ m.dead (src (.leaf l)) = true →
      Hold m.node m.phase src n l → Hold m'.node m'.phase src' n l := by
    intro n l h1 h2 h3 q j hc
    by_cases hq : q < m.nN
    · rw [G.node q hq] at hc
      obtain ⟨g1, g2⟩ := h3 q j hc
      exact ⟨held q g1, by rw [G.src (.node _) hq]; exact g2⟩
    · exact fresh n l h1 h2 h3 q j (by omega) hc
  have lt : ∀ {n}, m.phase n ≠ .free → n < m.nN := fun h => I.lt_of_phase h
  constructor
  · intro n h
    have h := locked n h
    rw [G.lit I, G.node n (lt (by simp [h]))]
    exact I.locks.locked n h
  · intro n i h
    have h := coal n i h
    rw [G.lit I, G.node n (lt (by simp [h]))]
    exact I.locks.coal n i h
  · intro n b i h
    have h := move n b i h
    rw [G.lit I, G.node n (lt (by simp [h]))]
    exact I.locks.move n b i h
  · intro n i x xl xh mid ch nl nh h
    rcases claim _ _ _ _ _ _ _ _ _ h with h | h
    · obtain ⟨g1, g2, g3, g4, g5, g6⟩ := I.locks.claim _ _ _ _ _ _ _ _ _ h
      refine ⟨g1, Nat.lt_of_lt_of_le g2 G.nN, Nat.lt_of_lt_of_le g3 G.nN, by rw [G.src (.node _) g2, g4],
        by rw [G.src (.node _) g3, g5], fun hl => ?_⟩
      rw [G.node n (lt (by simp [h]))] at hl
      exact ⟨held _ (g6 hl).1, held _ (g6 hl).2⟩
    · exact h
  · intro n j xl xh nl nh h
    have h := fin _ _ _ _ _ _ h
    obtain ⟨g1, g2, g3, g4, g5, g6, g7⟩ := I.locks.fin _ _ _ _ _ _ h
    exact ⟨g1, Nat.lt_of_lt_of_le g2 G.nN, Nat.lt_of_lt_of_le g3 G.nN, by rw [G.src (.node _) g2, g4],
        by rw [G.src (.node _) g3, g5], fun hl => held _ (g6 hl), fun hl => held _ (g7 hl)⟩
  · intro n xl xh nl nh h
    have h := fin _ _ _ _ _ _ h
    obtain ⟨g1, g2, g3, g5, g4⟩ := I.locks.finLow _ _ _ _ _ h
    exact ⟨Nat.lt_of_lt_of_le g1 G.nL, by rw [G.dead]; exact g2, by rw [G.dead, G.src (.leaf _) g1]; exact g3,
      by simp only [half, G.src (.leaf _) g1]; exact g5, hH n xl g1 (.inr g3) g4⟩
  · intro n j xl xh nl nh h hj
    have h := fin _ _ _ _ _ _ h
    obtain ⟨g1, g2, g3, g5, g4⟩ := I.locks.finHigh _ _ _ _ _ _ h hj
    exact ⟨Nat.lt_of_lt_of_le g1 G.nL, by rw [G.dead]; exact g2, by rw [G.dead, G.src (.leaf _) g1]; exact g3,
      by simp only [half, G.src (.leaf _) g1]; exact g5, hH n xh g1 (.inr g3) g4⟩
  · intro n i J l h hl
    rcases hold n i J l h hl with h | h
    · obtain ⟨g1, g2, g3, g4⟩ := I.locks.hold n i J l h hl
      exact ⟨Nat.lt_of_lt_of_le g1 G.nL, by rw [G.dead]; exact g2, by rw [G.src (.leaf _) g1]; exact g3,
        hH n l g1 (.inl ⟨i, J, h, g3⟩) g4⟩
    · exact h
  · intro n i J h
    rcases kind n i J h with h | h
    · have hn : n < m.nN := lt fun e => by rw [e] at h; cases h
      obtain ⟨e1, e2, e3⟩ := hkind n i J h
      obtain ⟨g1, g2, g3⟩ := I.locks.kind n i J h
      rw [e1, e2, e3, G.node n hn]
      exact ⟨g1, g2, g3⟩
    · exact h

end Scc.Grove
