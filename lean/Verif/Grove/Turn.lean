import Verif.Grove.ClaimStep
import Verif.Grove.Evo

/-!
# A step that leads search paths to new objects
-/

namespace Scc.Grove

local notation "Key" => Nat
local notation "Id" => Nat
local notation "Thr" => Nat

variable {V : Type} {m m' : Mem V} {A : Key → Option V} {src : Ref → Ref}

/-- What is assumed of such a step: node `u` leads the search paths of the keys with `T` to the new objects of
`J`. -/
structure Turn (m m' : Mem V) (src : Ref → Ref) (u : Id) (T E : Key → Prop) (J : Job) (fil : Key → Prop)
    (d : Bool) : Prop where
  flow : Flow m.root m'.root m.node m'.node u T E J
  job : JobOk m.root m.node m.leaf m.frozen m.dead m.nN m.nL src J fil d
  fil : ∀ k, T k → E k → fil k
  leaf : m'.leaf = m.leaf
  frozen : m'.frozen = m.frozen
  nN : m'.nN = m.nN
  nL : m'.nL = m.nL
  lv : ∀ n, (m'.node n).lv = (m.node n).lv
  node : NodeOk m'.node m.nN m.nL u
  root : m'.root = m.root ∨ ∃ n, m.root = some n ∧ .node n ∈ J.ch
  root_lt : ∃ r, m'.root = some r ∧ r < m.nN
  lt : u < m.nN
  live : m.dead (.node u) = false
  own : Lit m.root m.node (.node u) ∨ src (.node u) = .node u
  dead : ∀ y, m'.dead y = true ↔ m.dead y = true ∨ y ∈ J.ch
  parent : ∀ y ∈ J.ch, ∀ q j, Use m.root m.node q j → (m.node q).cell j = .to y → q = u ∨ .node q ∈ J.ch
  same : ∀ n, n ≠ u → .node n ∉ J.ch → m'.phase n = m.phase n
  full : ∀ c, .node c ∈ J.ch → ∃ i x xl xh mid ch nl nh, m.phase c = .full i x xl xh mid ch (some (nl, nh)) ∧
    ch ⊆ J.ch
  next : (∀ c, .node c ∈ J.ch → m'.phase c = m.phase c) ∨
    ((m'.phase u).half = none ∧ ∀ c, .node c ∈ J.ch → m'.phase c = (m.phase c).released)
  before : (∃ i x y, m.phase u = .single i x y) ∨ ((m.phase u).job = some J ∧ (m.phase u).over = false)
  after : m'.phase u = .locked ∨ (∃ i b, m'.phase u = .ins i J.x J.xl J.xh J.mid J.ch b) ∧ d = false
  apart : ∀ n2 J2, (m.phase n2).job = some J2 → n2 ≠ u → .node n2 ∉ J.ch → ∀ y ∈ J2.ch, y ∉ J.ch
  away : ∀ n2 J2, (m.phase n2).job = some J2 → .node u ∉ J2.ch
  uniq : ∀ n2 J2, (m.phase n2).job = some J2 → n2 ≠ u → J2.x ≠ J.x
  ulit : Lit m'.root m'.node (.node u)
  half : ∀ i J', (m'.phase u).half = some (i, J') →
    JobOk m'.root m'.node m'.leaf m'.frozen m'.dead m'.nN m'.nL src J' (fun k => J'.mid < k) true ∧
    Half m'.root m'.node m'.dead u i J'
  lit : ∀ y ∈ J.ch, Lit m'.root m'.node y → ∃ i, (m'.phase u).half = some (i, J)
  plan : ∀ c, .node c ∈ J.ch → (m'.phase c).plan ≠ none → ∃ i, (m'.phase u).half = some (i, J)
  hold : m.dead J.x = false ∨ ∃ i, (m.phase u).half = some (i, J)
  nosingle : ∀ i x y, m.phase u = .single i x y → ∀ i' b, m'.phase u ≠ .ins i' J.x J.xl J.xh J.mid J.ch b
  cells : ∀ j l, (m'.node u).cell j = .to (.leaf l) → (m.node u).cell j = .to (.leaf l) ∨ src (.leaf l) = J.x

variable {u : Id} {T E : Key → Prop} {J : Job} {fil : Key → Prop} {d : Bool}

namespace Turn

theorem notin (Q : Turn m m' src u T E J fil d) : .node u ∉ J.ch := Q.flow.notin

/-- An obsolete object is on a search path or dead already. -/
theorem lit_or_dead (Q : Turn m m' src u T E J fil d) {y : Ref} (hy : y ∈ J.ch) :
    Lit m.root m.node y ∨ m.dead y = true := by
  cases d with
  | false => exact .inl (Q.job.lit rfl y hy)
  | true => exact .inr (Q.job.dead y hy)

theorem stay (Q : Turn m m' src u T E J fil d) {y : Ref} (hy : y ∉ J.ch) : m'.dead y = m.dead y := by
  have := Q.dead y
  cases h : m'.dead y <;> cases h' : m.dead y <;> simp_all

theorem live' (Q : Turn m m' src u T E J fil d) {y : Ref} (h1 : ¬ Lit m.root m.node y) (h2 : m.dead y = false) :
    m'.dead y = false := by
  rw [Q.stay fun hy => ?_, h2]
  rcases Q.lit_or_dead hy with h | h
  · exact h1 h
  · rw [h2] at h; cases h

/-- New objects do not appear on search paths, with the exception of those of the change. -/
theorem unlit (Q : Turn m m' src u T E J fil d) {y : Ref} (h : ¬ Lit m.root m.node y) (hs : src y ∉ J.ch)
    (hu : y ≠ .node u) : ¬ Lit m'.root m'.node y := by
  rintro ⟨k, ho⟩
  rcases Q.flow.of k y ho hu with ⟨h1, _⟩ | ⟨h1, h2, x, h3, h4⟩
  · exact h ⟨k, h1⟩
  · have P := Q.job.pair k x y (Q.fil k h1 h2) h4
    exact hs (P.src ▸ P.mem)

theorem on (Q : Turn m m' src u T E J fil d) {k : Key} {y : Ref} (h : On m.root m.node k y) (hy : y ∉ J.ch) :
    On m'.root m'.node k y := Q.flow.to k y h fun _ => hy

theorem kept (Q : Turn m m' src u T E J fil d) {y : Ref} (hy : y ≠ .node u) :
    Kept m.node m'.node m.leaf m'.leaf y := by
  cases y with
  | leaf l => simp only [Kept, Q.leaf]
  | node n => exact Q.flow.other n fun e => hy (by rw [e])

theorem lvl (Q : Turn m m' src u T E J fil d) (y : Ref) : lvl m'.node y = lvl m.node y := by
  cases y with
  | leaf l => rfl
  | node n => exact Q.lv n

/-- The other changes go on. -/
theorem jobOk (Q : Turn m m' src u T E J fil d) {J2 : Job} {fil2 : Key → Prop} {d2 : Bool}
    (O : JobOk m.root m.node m.leaf m.frozen m.dead m.nN m.nL src J2 fil2 d2)
    (ha : ∀ y ∈ J2.ch, y ∉ J.ch) (hu : .node u ∉ J2.ch) :
    JobOk m'.root m'.node m'.leaf m'.frozen m'.dead m'.nN m'.nL src J2 fil2 d2 := by
  refine O.frame (fun x hx => ⟨Q.kept fun e => hu (e ▸ hx), Q.stay (ha x hx), fun k h => Q.on h (ha x hx)⟩)
    (fun l hl => by rw [Q.frozen]; exact O.frozen l hl) (fun y h1 h2 h3 h4 h5 => ?_)
  have hy : y ≠ .node u := by
    rintro rfl
    rcases Q.own with h | h
    · exact h3 h
    · rw [h] at h1; exact hu h1
  exact ⟨Q.kept hy, rfl, by rw [Q.nN, Q.nL]; exact h2, Q.unlit h3 (ha _ h1) hy, Q.live' h3 h4⟩

theorem parents (Q : Turn m m' src u T E J fil d) {J2 : Job} {P : Id → Nat → Prop}
    (ha : ∀ y ∈ J2.ch, y ∉ J.ch) (hl : ∀ y ∈ J2.ch, Lit m.root m.node y ∨ m.dead y = true)
    (hP : ∀ q j, P q j → .node q ∉ J.ch)
    (hp : ∀ y ∈ J2.ch, ∀ q j, Use m.root m.node q j → (m.node q).cell j = .to y → P q j ∨ .node q ∈ J2.ch) :
    ∀ y ∈ J2.ch, ∀ q j, Use m'.root m'.node q j → (m'.node q).cell j = .to y → P q j ∨ .node q ∈ J2.ch := by
  intro y hy q j hu hc
  obtain ⟨k, ho, hj⟩ := hu
  have priv : ∀ x, T k → E k → Pair m.node k J.x (J.side k) x y → False := by
    intro x h1 h2 h3
    have K := Q.job.pair k x y (Q.fil k h1 h2) h3
    rcases hl y hy with h | h
    · exact K.unlit h
    · rw [K.live] at h; cases h
  rcases Q.flow.edge Q.job Q.fil (z := y) ho (by simp only [Node.dest, hj, hc]) with
    ⟨a1, a2, a3, a4⟩ | ⟨a1, a2, a3, a4⟩ | ⟨a1, a2, c, w, a3, a4, a5, a6, a7, a8⟩
  · rw [hj] at a3
    simp only [Node.dest, a3] at a2
    exact hp y hy q j ⟨k, a1, a3⟩ a2
  · exact (priv J.x a2 a3 (a4 ▸ .base)).elim
  · rcases a8 with ⟨rfl, a8⟩ | a8
    · have hm := (Q.job.pair k _ _ (Q.fil k a1 a2) a4).mem
      rcases hp w hy c _ a3.use a5 with h | h
      · exact absurd hm (hP _ _ h)
      · exact absurd hm (ha _ h)
    · exact (priv w a1 a2 a8).elim

/-- What a locked node or a change has a pointer to, is not one of the leaves waiting for the change to be
completed. -/
theorem held_leaf (Q : Turn m m' src u T E J fil d) {n l : Nat} (hh : Hold m.node m.phase src n l)
    (hD : m.dead (.leaf l) = false) : .leaf l ∉ J.ch := by
  intro hm
  rcases Q.lit_or_dead hm with ⟨k, ho⟩ | h
  · obtain ⟨q, h1, h2⟩ := ho.inv_leaf
    have h3 := (hh q _ h2).1
    rcases Q.parent _ hm q _ h1.use h2 with rfl | h4
    · rcases Q.before with ⟨i, x, y, h5⟩ | ⟨h5, _⟩
      · rw [h5] at h3; cases h3
      · rw [h3] at h5; cases h5
    · obtain ⟨i, x, xl, xh, mid, ch, nl, nh, h5, _⟩ := Q.full q h4
      rw [h5] at h3; cases h3
  · rw [hD] at h; cases h

theorem half_apart (Q : Turn m m' src u T E J fil d) {n : Id} {i : Nat} {J2 : Job}
    (h : (m.phase n).half = some (i, J2)) : .node n ∉ J.ch := by
  intro hm
  obtain ⟨i, x, xl, xh, mid, ch, nl, nh, h5, _⟩ := Q.full n hm
  rw [h5] at h; cases h

theorem released_full {i x xl xh mid ch nl nh} :
    (Phase.full i x xl xh mid ch (some (nl, nh))).released.over = true ∧
    (Phase.full i x xl xh mid ch (some (nl, nh))).released.plan = none ∧
    (Phase.full i x xl xh mid ch (some (nl, nh))).released.job = none ∧
    (Phase.full i x xl xh mid ch (some (nl, nh))).released.half = none := by
  cases xl <;> cases xh <;> simp [Phase.released, Phase.over, Phase.plan, Phase.job, Phase.half]

/-- The phase of every node after the step. -/
theorem cases (Q : Turn m m' src u T E J fil d) (n : Id) :
    (n ≠ u ∧ .node n ∉ J.ch ∧ m'.phase n = m.phase n) ∨
    (n = u ∧ (m'.phase n = .locked ∨ (∃ i b, m'.phase n = .ins i J.x J.xl J.xh J.mid J.ch b) ∧ d = false)) ∨
    (n ≠ u ∧ .node n ∈ J.ch ∧ ∃ i x xl xh mid ch nl nh, m.phase n = .full i x xl xh mid ch (some (nl, nh)) ∧
      ch ⊆ J.ch ∧ (m'.phase n = m.phase n ∨
        (m'.phase u).half = none ∧ m'.phase n = (Phase.full i x xl xh mid ch (some (nl, nh))).released)) := by
  by_cases e : n = u
  · subst e
    exact .inr (.inl ⟨rfl, Q.after⟩)
  · by_cases hm : .node n ∈ J.ch
    · refine .inr (.inr ⟨e, hm, ?_⟩)
      obtain ⟨i, x, xl, xh, mid, ch, nl, nh, h5, h6⟩ := Q.full n hm
      refine ⟨i, x, xl, xh, mid, ch, nl, nh, h5, h6, ?_⟩
      rcases Q.next with h | ⟨h, h'⟩
      · exact .inl (h n hm)
      · exact .inr ⟨h, by rw [h' n hm, h5]⟩
    · exact .inl ⟨e, hm, Q.same n e hm⟩

theorem job_of (Q : Turn m m' src u T E J fil d) {n : Id} {J2 : Job} (h : (m'.phase n).job = some J2) :
    (n ≠ u ∧ (m.phase n).job = some J2 ∧ m'.phase n = m.phase n) ∨ (n = u ∧ J2 = J ∧ d = false) := by
  rcases Q.cases n with ⟨h1, h2, h3⟩ | ⟨h1, h2 | ⟨⟨i, b, h2⟩, h3⟩⟩ | ⟨h1, h2, i, x, xl, xh, mid, ch, nl, nh, h3, h4, h5 | ⟨_, h5⟩⟩
  · exact .inl ⟨h1, by rw [← h3]; exact h, h3⟩
  · rw [h2] at h; cases h
  · rw [h2] at h; cases h; exact .inr ⟨h1, rfl, h3⟩
  · exact .inl ⟨h1, by rw [← h5]; exact h, h5⟩
  · rw [h5, released_full.2.2.1] at h; cases h

theorem plan_of (Q : Turn m m' src u T E J fil d) {n : Id} {i : Nat} {J2 : Job}
    (h : (m'.phase n).plan = some (i, J2)) : n ≠ u ∧ (m.phase n).plan = some (i, J2) ∧ m'.phase n = m.phase n := by
  rcases Q.cases n with ⟨h1, h2, h3⟩ | ⟨h1, h2 | ⟨⟨i, b, h2⟩, h3⟩⟩ | ⟨h1, h2, i, x, xl, xh, mid, ch, nl, nh, h3, h4, h5 | ⟨_, h5⟩⟩
  · exact ⟨h1, by rw [← h3]; exact h, h3⟩
  · rw [h2] at h; cases h
  · rw [h2] at h; cases h
  · exact ⟨h1, by rw [← h5]; exact h, h5⟩
  · rw [h5, released_full.2.1] at h; cases h

theorem half_of (Q : Turn m m' src u T E J fil d) {n : Id} {i : Nat} {J2 : Job}
    (h : (m'.phase n).half = some (i, J2)) :
    (n ≠ u ∧ .node n ∉ J.ch ∧ (m.phase n).half = some (i, J2)) ∨ (n = u ∧ J2 = J ∧ d = false) := by
  rcases Q.cases n with ⟨h1, h2, h3⟩ | ⟨h1, h2 | ⟨⟨i, b, h2⟩, h3⟩⟩ | ⟨h1, h2, i, x, xl, xh, mid, ch, nl, nh, h3, h4, h5 | ⟨_, h5⟩⟩
  · exact .inl ⟨h1, h2, by rw [← h3]; exact h⟩
  · rw [h2] at h; cases h
  · rw [h2] at h; cases h; exact .inr ⟨h1, rfl, h3⟩
  · rw [h5, h3] at h; cases h
  · rw [h5, released_full.2.2.2] at h; cases h

/-- Phases that are neither of a change nor of an obsolete node are the same. -/
theorem idle_of (Q : Turn m m' src u T E J fil d) {n : Id} {p : Phase} (h : m'.phase n = p) (h1 : p.job = none)
    (h2 : p.over = false) (h3 : p ≠ .locked) : n ≠ u ∧ .node n ∉ J.ch ∧ m.phase n = p := by
  rcases Q.cases n with ⟨g1, g2, g3⟩ | ⟨g1, g2 | ⟨⟨i, b, g2⟩, g3⟩⟩ | ⟨g1, g2, i, x, xl, xh, mid, ch, nl, nh, g3, g4, g5 | ⟨_, g5⟩⟩
  · exact ⟨g1, g2, by rw [← g3]; exact h⟩
  · exact absurd (h.symm.trans g2) h3
  · rw [h] at g2; rw [g2] at h1; cases h1
  · rw [h, g3] at g5; rw [g5] at h1; cases h1
  · rw [h] at g5; rw [g5, released_full.1] at h2; cases h2

theorem hold_of (Q : Turn m m' src u T E J fil d) {n l : Nat} (h : Hold m.node m.phase src n l)
    (hs : src (.leaf l) ≠ J.x) : Hold m'.node m'.phase src n l := by
  intro q j hc
  have hc' : (m.node q).cell j = .to (.leaf l) := by
    by_cases e : q = u
    · subst e
      exact (Q.cells j l hc).resolve_right hs
    · rw [Q.flow.other q e] at hc; exact hc
  obtain ⟨g1, g2⟩ := h q j hc'
  refine ⟨?_, g2⟩
  rcases Q.cases q with ⟨_, _, h3⟩ | ⟨rfl, _⟩ | ⟨_, _, i, x, xl, xh, mid, ch, nl, nh, h3, _⟩
  · rw [h3, g1]
  · rcases Q.before with ⟨i, x, y, h5⟩ | ⟨h5, _⟩
    · rw [h5] at g1; cases g1
    · rw [g1] at h5; cases h5
  · rw [h3] at g1; cases g1

theorem held_of (Q : Turn m m' src u T E J fil d) {q : Id} (h : m.phase q = .held) : m'.phase q = .held := by
  rcases Q.cases q with ⟨_, _, h3⟩ | ⟨rfl, _⟩ | ⟨_, _, i, x, xl, xh, mid, ch, nl, nh, h3, _⟩
  · rw [h3, h]
  · rcases Q.before with ⟨i, x, y, h5⟩ | ⟨h5, _⟩
    · rw [h5] at h; cases h
    · rw [h] at h5; cases h5
  · rw [h3] at h; cases h

theorem shape (Q : Turn m m' src u T E J fil d) (I : Inv m A src) :
    Shape m'.root m'.node m'.phase m'.nN m'.nL m'.dead := by
  have S := I.shape
  refine Shape.of_nodes (fun r hr => ?_) (fun c hc => ?_) (fun y hy => ?_) fun c => ?_
  · obtain ⟨r', h1, h2⟩ := Q.root_lt
    rw [h1] at hr; cases hr
    rw [Q.nN]; exact h2
  · rw [Q.nN] at hc
    have hu := Q.lt
    refine ⟨?_, ?_⟩
    · rw [Q.flow.other c (by omega)]; exact (S.fresh c hc).1
    · rw [Q.same c (by omega) fun hm => ?_]
      · exact (S.fresh c hc).2
      · obtain ⟨i, x, xl, xh, mid, ch, nl, nh, h5, _⟩ := Q.full c hm
        rw [(S.fresh c hc).2] at h5; cases h5
  · rw [Q.nN, Q.nL]
    rcases (Q.dead y).1 hy with h | h
    · exact S.dead_al y h
    · rcases Q.lit_or_dead h with h | h
      · exact I.lit_al h
      · exact S.dead_al y h
  · rw [Q.nN, Q.nL]
    by_cases e : c = u
    · subst e; exact Q.node
    · have K := S.nodeOk c
      have ec := Q.flow.other c e
      refine ⟨by rw [ec]; exact K.cell_al, fun i y hy => ?_, by rw [ec]; exact K.lv_pos, by rw [ec]; exact K.asc,
        by rw [ec]; exact K.nodup, by rw [ec]; exact K.pos, by rw [ec]; exact K.used_pos, by rw [ec]; exact K.unb,
        by rw [ec]; exact K.kid⟩
      rw [ec] at hy
      rw [Q.lvl, Q.lv]
      exact K.lev i y hy

theorem deads (Q : Turn m m' src u T E J fil d) (I : Inv m A src) :
    Dead m'.root m'.node m'.leaf m'.frozen m'.phase m'.dead := by
  have keep : ∀ y n i J2, (m.phase n).half = some (i, J2) → n ≠ u → y ∈ J2.ch →
      ∃ n i J2, (m'.phase n).half = some (i, J2) ∧ y ∈ J2.ch := by
    intro y n i J2 h hn hy
    exact ⟨n, i, J2, by rw [Q.same n hn (Q.half_apart h)]; exact h, hy⟩
  have uh : ∀ i J2, (m.phase u).half = some (i, J2) → J2 = J := by
    intro i J2 h
    rcases Q.before with ⟨i, x, y, h5⟩ | ⟨h5, _⟩
    · rw [h5] at h; cases h
    · rw [Phase.half_job h] at h5; cases h5; rfl
  refine ⟨fun n hd => ?_, fun n hd => ?_, fun l hd => ?_, fun y hd hl => ?_, ?_, fun n hd hp => ?_⟩
  · rcases Q.cases n with ⟨h1, h2, h3⟩ | ⟨rfl, _⟩ | ⟨h1, h2, i, x, xl, xh, mid, ch, nl, nh, h3, h4, h5 | ⟨_, h5⟩⟩
    · rw [h3]
      rw [Q.stay h2] at hd
      exact I.dead.over n hd
    · rw [Q.stay Q.notin, Q.live] at hd; cases hd
    · rw [h5, h3]; rfl
    · rw [h5]; exact released_full.1
  · have hn : n ≠ u := by
      rintro rfl
      rw [Q.stay Q.notin, Q.live] at hd; cases hd
    rw [Q.flow.other n hn]
    cases hd0 : m.dead (.node n) with
    | true => exact I.dead.null n hd0
    | false =>
      have hm : .node n ∈ J.ch := by
        rcases (Q.dead _).1 hd with h | h
        · rw [hd0] at h; cases h
        · exact h
      obtain ⟨i, x, xl, xh, mid, ch, nl, nh, h5, _⟩ := Q.full n hm
      obtain ⟨_, S⟩ := I.jobs.plan n i ⟨x, xl, xh, mid, ch⟩ (by rw [h5]; rfl) hd0
      have hs := S.slot
      have hc := S.cell
      cases hk : (m.node n).kids with
      | nil =>
        simp only [Node.slots, hk, List.map_nil, List.mem_cons, List.not_mem_nil, or_false] at hs
        rw [hs] at hc; rw [hc]; simp
      | cons a b =>
        obtain ⟨y, hy⟩ := I.shape.unb n (by simp [hk])
        rw [hy]; simp
  · rw [Q.frozen]
    rcases (Q.dead _).1 hd with h | h
    · exact I.dead.frozen l h
    · exact Q.job.frozen l h
  · by_cases hm : y ∈ J.ch
    · obtain ⟨i, h⟩ := Q.lit y hm hl
      exact ⟨u, i, J, h, hm⟩
    · rw [Q.stay hm] at hd
      obtain ⟨k, ho⟩ := hl
      have hy : y ≠ .node u := by
        rintro rfl
        rw [Q.live] at hd; cases hd
      rcases Q.flow.of k y ho hy with ⟨h1, _⟩ | ⟨h1, h2, x, h3, h4⟩
      · obtain ⟨n, i, J2, g1, g2⟩ := I.dead.half y hd ⟨k, h1⟩
        refine keep y n i J2 g1 ?_ g2
        rintro rfl
        exact hm (uh i J2 g1 ▸ g2)
      · have P := Q.job.pair k x y (Q.fil k h1 h2) h4
        rw [P.live] at hd; cases hd
  · rw [Q.leaf]; exact I.dead.empty
  · by_cases hm : .node n ∈ J.ch
    · obtain ⟨i, h⟩ := Q.plan n hm hp
      exact ⟨u, i, J, h, hm⟩
    · rw [Q.stay hm] at hd
      have hn : n ≠ u := by
        rintro rfl
        rw [Q.live] at hd; cases hd
      rw [Q.same n hn hm] at hp
      obtain ⟨u', i, J2, g1, g2⟩ := I.dead.plan n hd hp
      refine keep _ u' i J2 g1 ?_ g2
      rintro rfl
      exact hm (uh i J2 g1 ▸ g2)

theorem chain (Q : Turn m m' src u T E J fil d) (I : Inv m A src) : Chain m'.phase := by
  have key : ∀ n J2, (m'.phase n).job = some J2 → (m.phase n).job = some J2 := by
    intro n J2 h
    rcases Q.job_of h with ⟨_, h, _⟩ | ⟨rfl, rfl, hd⟩
    · exact h
    · rcases Q.before with ⟨i, x, y, h5⟩ | ⟨h5, _⟩
      · rcases Q.hold with h' | ⟨i, h'⟩
        · exfalso
          rcases Q.after with h6 | ⟨⟨i', b, h6⟩, _⟩
          · rw [h6] at h; cases h
          · exact Q.nosingle i x y h5 i' b h6
        · rw [h5] at h'; cases h'
      · exact h5
  refine ⟨fun n J2 h => ?_, fun n1 n2 J1 J2 h1 h2 e => I.chain.uniq _ _ _ _ (key _ _ h1) (key _ _ h2) e⟩
  obtain ⟨ch', h1, h2, h3⟩ := I.chain.list n J2 (key n J2 h)
  refine ⟨ch', h1, h2, fun c hc => ?_⟩
  obtain ⟨i, x, xl, xh, mid, nl, nh, g1, g2⟩ := h3 c hc
  refine ⟨i, x, xl, xh, mid, nl, nh, ?_, g2⟩
  have hcm : .node c ∈ J2.ch := hc ▸ I.chain.head_mem (key n J2 h)
  rcases Q.cases c with ⟨_, _, g3⟩ | ⟨rfl, _⟩ | ⟨_, g3, _, _, _, _, _, _, _, _, _, _, g5 | ⟨g5, g6⟩⟩
  · rw [g3, g1]
  · exact absurd hcm (Q.away _ _ (key n J2 h))
  · rw [g5, g1]
  · exfalso
    rcases Q.job_of h with ⟨a1, a2, a3⟩ | ⟨rfl, rfl, hd⟩
    · by_cases hm : .node n ∈ J.ch
      · obtain ⟨_, _, _, _, _, _, _, _, b1, _⟩ := Q.full n hm
        rcases Q.next with b2 | ⟨_, b2⟩
        · rcases Q.cases c with ⟨_, b3, _⟩ | ⟨b3, _⟩ | _
          · exact b3 g3
          · subst b3; exact Q.notin g3
          · rw [b2 c g3, g1] at g6
            have h' := congrArg Phase.plan g6
            rw [released_full.2.1] at h'
            cases h'
        · rw [b2 n hm, b1, released_full.2.2.1] at h; cases h
      · exact Q.apart n J2 a2 a1 hm _ hcm g3
    · rcases Q.after with b | ⟨⟨_, _, b⟩, _⟩
      · rw [b] at h; cases h
      · rw [b] at g5; cases g5

theorem jobs (Q : Turn m m' src u T E J fil d) (I : Inv m A src) :
    Jobs m'.root m'.node m'.leaf m'.frozen m'.dead m'.nN m'.nL src m'.phase := by
  refine ⟨fun n i J2 h hd => ?_, fun n i J2 h => ?_, fun r n nl nh mid ch h => ?_, fun n i x y h => ?_⟩
  · obtain ⟨hn, hp, _⟩ := Q.plan_of h
    have hm : .node n ∉ J.ch := fun hm => by
      rw [(Q.dead _).2 (.inr hm)] at hd; cases hd
    rw [Q.stay hm] at hd
    obtain ⟨O, S⟩ := I.jobs.plan n i J2 hp hd
    have ha := Q.apart n J2 (Phase.plan_job hp) hn hm
    have hu := Q.away n J2 (Phase.plan_job hp)
    refine ⟨Q.jobOk O ha hu, S.frame (Q.flow.other n hn) (fun x _ => Q.lvl x) (fun k ho => Q.on ho hm) ?_⟩
    exact Q.parents (P := fun q j => q = n ∧ j = i) ha (fun y hy => .inl (O.lit rfl y hy))
      (fun q j h => h.1 ▸ hm) S.parent
  · rcases Q.half_of h with ⟨hn, hm, hp⟩ | ⟨rfl, _⟩
    · obtain ⟨O, S⟩ := I.jobs.half n i J2 hp
      have ha := Q.apart n J2 (Phase.half_job hp) hn hm
      have hu := Q.away n J2 (Phase.half_job hp)
      refine ⟨Q.jobOk O ha hu, S.frame (Q.flow.other n hn) (fun x _ => Q.lvl x) (fun k ho => Q.on ho hm)
        (by rw [Q.stay hm]; exact S.live) ?_ ?_⟩
      · rw [Q.stay fun hx => ?_]
        · exact S.lowLive
        · obtain ⟨j, g1, g2⟩ := S.low
          rcases Q.parent _ hx n j g1 g2 with g | g
          · exact hn g
          · exact hm g
      · exact Q.parents (P := fun q j => q = n ∧ j = i) ha (fun y hy => .inr (O.dead y hy))
          (fun q j h => h.1 ▸ hm) S.parent
    · exact Q.half i J2 h
  · rcases Q.job_of (n := r) (J2 := ⟨.node n, .node nl, .node nh, mid, ch⟩) (by rw [h]; rfl) with ⟨hr, hj, hp⟩ | ⟨rfl, _⟩
    · rw [hp] at h
      obtain ⟨O, S⟩ := I.jobs.root r n nl nh mid ch h
      have hm : .node r ∉ J.ch := fun hm => by
        obtain ⟨_, _, _, _, _, _, _, _, b1, _⟩ := Q.full r hm
        rw [h] at b1; cases b1
      have ha := Q.apart r _ hj hr hm
      have hu := Q.away r _ hj
      refine ⟨Q.jobOk O ha hu, S.frame ?_ (Q.flow.other r hr) (by rw [Q.nN]; exact Nat.le_refl _)
        (Q.unlit S.unlit (by rw [S.src]; exact hm) (by simpa using hr)) (by rw [Q.stay hm]; exact S.live) rfl ?_⟩
      · rcases Q.root with e | ⟨n', e1, e2⟩
        · exact e
        · rw [S.root] at e1
          cases e1
          exact absurd e2 (ha _ (I.chain.head_mem hj))
      · intro y hy q j h1 h2
        have := Q.parents (J2 := ⟨.node n, .node nl, .node nh, mid, ch⟩) (P := fun q j => False) ha
          (fun y hy => .inl (O.lit rfl y hy)) (fun q j h => h.elim) (fun y hy q j h1 h2 => .inr (S.parent y hy q j h1 h2))
          y hy q j h1 h2
        exact this.resolve_left id
    · rcases Q.after with b | ⟨⟨_, _, b⟩, _⟩
      · rw [b] at h; cases h
      · rw [b] at h; cases h
  · obtain ⟨hn, hm, h⟩ := Q.idle_of h rfl rfl (by simp)
    have K := I.jobs.copy n i x y h
    have hx : .leaf x ∉ J.ch := fun hx => by
      rcases Q.parent _ hx n i K.use K.cell with g | g
      · exact hn g
      · exact hm g
    have en := Q.flow.other n hn
    obtain ⟨k, g1, g2⟩ := K.use
    refine ⟨by rw [en]; exact K.slot, by rw [en]; exact K.cell, ⟨k, Q.on g1 hm, by rw [en]; exact g2⟩,
      by rw [Q.frozen]; exact K.frozen, by rw [Q.stay hx]; exact K.live, by rw [Q.nL]; exact K.al,
      Q.unlit K.unlit (by rw [K.src]; exact hx) (by simp), Q.live' K.unlit K.live', K.src,
      by rw [Q.leaf]; exact K.same, by rw [Q.leaf]; exact K.ret⟩

theorem locks (Q : Turn m m' src u T E J fil d) (I : Inv m A src) :
    Locks m'.root m'.node m'.dead m'.nN m'.nL src m'.phase := by
  have litNode : ∀ {n}, .node n ∉ J.ch → Lit m.root m.node (.node n) → Lit m'.root m'.node (.node n) :=
    fun hm ⟨k, h⟩ => ⟨k, Q.on h hm⟩
  -- obsolete nodes that are released
  have rel : ∀ {n j xl xh nl nh}, m'.phase n = .fin j xl xh nl nh →
      m.phase n = .fin j xl xh nl nh ∨ (j = 0 ∧ .node n ∈ J.ch ∧ (m'.phase u).half = none ∧ ∃ i x mid ch, ch ⊆ J.ch ∧
        m.phase n = .full i x (.leaf xl) (.leaf xh) mid ch (some (nl, nh))) := by
    intro n j xl xh nl nh h
    rcases Q.cases n with ⟨h1, h2, h3⟩ | ⟨rfl, h2 | ⟨⟨_, _, h2⟩, _⟩⟩ | ⟨h1, h2, i, x, xl', xh', mid, ch, nl', nh', h3, h4, h5 | ⟨h6, h5⟩⟩
    · rw [← h3]; exact .inl h
    · rw [h2] at h; cases h
    · rw [h2] at h; cases h
    · rw [← h5]; exact .inl h
    · rw [h] at h5
      cases xl' with
      | node a => simp [Phase.released] at h5
      | leaf a =>
        cases xh' with
        | node b => simp [Phase.released] at h5
        | leaf b =>
          simp only [Phase.released, Phase.fin.injEq] at h5
          obtain ⟨rfl, rfl, rfl, rfl, rfl⟩ := h5
          exact .inr ⟨rfl, h2, h6, i, x, mid, ch, h4, h3⟩
  -- leaves of a change that waits for this one
  have wait : ∀ {n i x xl xh mid ch nl nh l}, .node n ∈ J.ch → (m'.phase u).half = none → ch ⊆ J.ch →
      m.phase n = .full i x (.leaf xl) (.leaf xh) mid ch (some (nl, nh)) → l = xl ∨ l = xh →
      l < m'.nL ∧ m'.dead (.leaf l) = false ∧ m'.dead (src (.leaf l)) = true ∧
      (∀ n' i J, (m'.phase n').half = some (i, J) → src (.leaf l) ∉ J.ch) ∧ Hold m'.node m'.phase src n l := by
    intro n i x xl xh mid ch nl nh l hm hh hsub hp hl
    have hpl : (m.phase n).plan = some (i, ⟨x, .leaf xl, .leaf xh, mid, ch⟩) := by rw [hp]; rfl
    obtain ⟨g1, g2, g3, g4⟩ := I.locks.hold n i _ l hpl (by rcases hl with rfl | rfl <;> simp)
    have hxm : x ∈ J.ch := hsub (I.chain.head_mem (Phase.plan_job hpl))
    replace g3 : src (.leaf l) = x := g3
    have hn : n ≠ u := fun e => Q.notin (e ▸ hm)
    refine ⟨by rw [Q.nL]; exact g1, ?_, ?_, ?_, Q.hold_of g4 ?_⟩
    · rw [Q.stay (Q.held_leaf g4 g2)]; exact g2
    · rw [g3]; exact (Q.dead _).2 (.inr hxm)
    · intro n' i' J' h'
      rw [g3]
      rcases Q.half_of h' with ⟨a1, a2, a3⟩ | ⟨rfl, _⟩
      · exact fun hx => Q.apart n' J' (Phase.half_job a3) a1 a2 x hx hxm
      · rw [hh] at h'; cases h'
    · rw [g3]; exact Q.uniq n _ (Phase.plan_job hpl) hn
  have old : ∀ {n l}, l < m.nL → m.dead (.leaf l) = false → m.dead (src (.leaf l)) = true →
      (∀ n' i J, (m.phase n').half = some (i, J) → src (.leaf l) ∉ J.ch) → Hold m.node m.phase src n l →
      l < m'.nL ∧ m'.dead (.leaf l) = false ∧ m'.dead (src (.leaf l)) = true ∧
      (∀ n' i J, (m'.phase n').half = some (i, J) → src (.leaf l) ∉ J.ch) ∧ Hold m'.node m'.phase src n l := by
    intro n l g1 g2 g3 g4 g5
    refine ⟨by rw [Q.nL]; exact g1, ?_, (Q.dead _).2 (.inl g3), ?_, Q.hold_of g5 ?_⟩
    · rw [Q.stay (Q.held_leaf g5 g2)]; exact g2
    · intro n' i' J' h'
      rcases Q.half_of h' with ⟨a1, a2, a3⟩ | ⟨rfl, rfl, hd⟩
      · exact g4 n' i' J' a3
      · intro hx
        have := Q.job.dead _ hx
        rw [hd, g3] at this; cases this
    · intro e
      rcases Q.hold with h | ⟨i, h⟩
      · rw [← e, g3] at h; cases h
      · exact g4 u i J h (e ▸ I.chain.head_mem (Phase.half_job h))
  constructor
  · intro n h
    by_cases hn : n = u
    · subst hn; exact .inl Q.ulit
    · have hm : .node n ∉ J.ch := by
        intro hm
        obtain ⟨_, _, _, _, _, _, _, _, b1, _⟩ := Q.full n hm
        rcases Q.next with b2 | ⟨_, b2⟩
        · rw [b2 n hm, b1] at h; cases h
        · rw [b2 n hm, b1] at h
          have h' := congrArg Phase.over h
          rw [released_full.1] at h'; cases h'
      rw [Q.same n hn hm] at h
      rw [Q.flow.other n hn]
      exact (I.locks.locked n h).imp (litNode hm) id
  · intro n i h
    obtain ⟨hn, hm, h⟩ := Q.idle_of h rfl rfl (by simp)
    obtain ⟨g1, g2⟩ := I.locks.coal n i h
    rw [Q.flow.other n hn]
    exact ⟨litNode hm g1, g2⟩
  · intro n b i h
    obtain ⟨hn, hm, h⟩ := Q.idle_of h rfl rfl (by simp)
    obtain ⟨g1, g2⟩ := I.locks.move n b i h
    rw [Q.flow.other n hn]
    exact ⟨litNode hm g1, g2⟩
  · intro n i x xl xh mid ch nl nh h
    obtain ⟨_, _, hp⟩ := Q.plan_of (n := n) (i := i) (J2 := ⟨x, xl, xh, mid, ch⟩) (by rw [h]; rfl)
    rw [hp] at h
    obtain ⟨g1, g2, g3, g4, g5, g6⟩ := I.locks.claim n i x xl xh mid ch nl nh h
    refine ⟨g1, by rw [Q.nN]; exact g2, by rw [Q.nN]; exact g3, g4, g5, fun hl => ?_⟩
    rw [Q.lv] at hl
    exact ⟨Q.held_of (g6 hl).1, Q.held_of (g6 hl).2⟩
  · intro n j xl xh nl nh h
    rcases rel h with h | ⟨rfl, hm, hh, i, x, mid, ch, hs, h⟩
    · obtain ⟨g1, g2, g3, g4, g5, g6, g7⟩ := I.locks.fin n j xl xh nl nh h
      exact ⟨g1, by rw [Q.nN]; exact g2, by rw [Q.nN]; exact g3, g4, g5, fun hj => Q.held_of (g6 hj),
        fun hj => Q.held_of (g7 hj)⟩
    · obtain ⟨g1, g2, g3, g4, g5, g6⟩ := I.locks.claim _ _ _ _ _ _ _ _ _ h
      obtain ⟨k1, k2, k3⟩ := I.locks.kind n i ⟨x, .leaf xl, .leaf xh, mid, ch⟩ (by rw [h]; rfl)
      have hl : (m.node n).lv = 1 := by
        simp only [lvl_leaf] at k1 k3
        omega
      exact ⟨g1, by rw [Q.nN]; exact g2, by rw [Q.nN]; exact g3, g4, g5, fun _ => Q.held_of (g6 hl).1,
        fun _ => Q.held_of (g6 hl).2⟩
  · intro n xl xh nl nh h
    rcases rel h with h | ⟨_, hm, hh, i, x, mid, ch, hs, h⟩
    · obtain ⟨g1, g2, g3, g4, g5⟩ := I.locks.finLow n xl xh nl nh h
      exact old g1 g2 g3 g4 g5
    · exact wait hm hh hs h (.inl rfl)
  · intro n j xl xh nl nh h hj
    rcases rel h with h | ⟨_, hm, hh, i, x, mid, ch, hs, h⟩
    · obtain ⟨g1, g2, g3, g4, g5⟩ := I.locks.finHigh n j xl xh nl nh h hj
      exact old g1 g2 g3 g4 g5
    · exact wait hm hh hs h (.inr rfl)
  · intro n i J2 l h hl
    obtain ⟨hn, hp, _⟩ := Q.plan_of h
    obtain ⟨g1, g2, g3, g4⟩ := I.locks.hold n i J2 l hp hl
    refine ⟨by rw [Q.nL]; exact g1, ?_, g3, Q.hold_of g4 ?_⟩
    · rw [Q.stay (Q.held_leaf g4 g2)]; exact g2
    · rw [g3]; exact Q.uniq n J2 (Phase.plan_job hp) hn
  · intro n i J2 h
    obtain ⟨hn, hp, _⟩ := Q.plan_of h
    rw [Q.lvl, Q.lvl, Q.lvl, Q.lv]
    exact I.locks.kind n i J2 hp

theorem inv (Q : Turn m m' src u T E J fil d) (I : Inv m A src) (H : FlowPh m.root m.node m.phase m'.phase T E J)
    (hub : ∀ e ∈ (m'.node u).kids, On m'.root m'.node e.1 (.node u) ∨ Cut m'.phase (.node u) e.1)
    (hua : ∃ k, On m'.root m'.node k (.node u) ∧ ∀ e ∈ (m'.node u).kids, e.1 < k) : Inv m' A src := by
  refine ⟨Q.shape I, ?_, ?_, Q.deads I, Q.chain I, Q.jobs I, Q.locks I⟩
  · exact Q.flow.mean Q.job Q.fil I.mean (by obtain ⟨r, h, _⟩ := Q.root_lt; simp [h]) fun l => by rw [Q.leaf]
  · exact Q.flow.order Q.job Q.fil I.order H I.shape.lev (fun l => by rw [Q.leaf]) (fun _ => hub) fun _ => hua

/-- Nothing obsolete is left on a search path. -/
theorem gone (Q : Turn m m' src u T E J fil d) (hT : ∀ k z, On m.root m.node k z → z ∈ J.ch → T k) :
    FlowPh m.root m.node m.phase m'.phase T E J := by
  refine ⟨fun z hz k e h1 h2 => absurd (hT k z h1 hz) h2, fun z k e h1 h2 h3 => ?_,
    fun z hz k k2 h1 h2 => absurd (hT k z h1 hz) h2, fun k k1 c n z h1 h2 h3 h4 h5 => ?_, fun n b i h => ?_⟩
  · obtain ⟨n, i, J2, g1, g2, g3⟩ := h3
    by_cases hn : n = u
    · subst hn
      have e : J2 = J := by
        rcases Q.before with ⟨i, x, y, h5⟩ | ⟨h5, _⟩
        · rw [h5] at g1; cases g1
        · rw [Phase.half_job g1] at h5; cases h5; rfl
      subst e
      exact absurd g2 (h2 (hT k z h1 g2))
    · exact ⟨n, i, J2, by rw [Q.same n hn (Q.half_apart g1)]; exact g1, g2, g3⟩
  · exact absurd (hT k1 _ h4 (Q.job.pair k _ _ (Q.fil k h1 h2) h5).mem) h3
  · have hn : n ≠ u := by
      rintro rfl
      rcases Q.before with ⟨i, x, y, h5⟩ | ⟨h5, _⟩
      · rw [h] at h5; cases h5
      · rw [h] at h5; cases h5
    rw [Q.same n hn fun hm => ?_]
    · exact h
    · obtain ⟨_, _, _, _, _, _, _, _, b1, _⟩ := Q.full n hm
      rw [h] at b1; cases b1

theorem evo (Q : Turn m m' src u T E J fil d) (I : Inv m A src) : Evo m m' A := by
  have hu : (m.node u).cell 0 ≠ .ret := by
    have slot : ∀ i y, i ∈ (m.node u).slots → (m.node u).cell i = .to y → (m.node u).cell 0 ≠ .ret := by
      intro i y hi hc h0
      cases hk : (m.node u).kids with
      | nil =>
        simp only [Node.slots, hk, List.map_nil, List.mem_cons, List.not_mem_nil, or_false] at hi
        rw [hi, h0] at hc; cases hc
      | cons a b =>
        obtain ⟨z, hz⟩ := I.shape.unb u (by simp [hk])
        rw [h0] at hz; cases hz
    rcases Q.before with ⟨i, x, y, h⟩ | ⟨h, h'⟩
    · have C := I.jobs.copy u i x y h
      exact slot i _ C.slot C.cell
    · cases hp : m.phase u with
      | split i x xl xh mid ch =>
        have S := (I.jobs.plan u i ⟨x, xl, xh, mid, ch⟩ (by rw [hp]; rfl) Q.live).2
        exact slot i _ S.slot S.cell
      | full i x xl xh mid ch cl =>
        have S := (I.jobs.plan u i ⟨x, xl, xh, mid, ch⟩ (by rw [hp]; rfl) Q.live).2
        exact slot i _ S.slot S.cell
      | ins i x xl xh mid ch b =>
        have S := (I.jobs.half u i ⟨x, xl, xh, mid, ch⟩ (by rw [hp]; rfl)).2
        exact slot i _ S.slot S.cell
      | root n nl nh mid ch =>
        have S := (I.jobs.root u n nl nh mid ch hp).2
        rw [S.high]; simp
      | _ => rw [hp] at h; cases h
  refine ⟨fun k x h => ?_, fun x h => (Q.dead x).2 (.inl h), fun x _ h => ?_, Nat.le_of_eq Q.nN.symm, Nat.le_of_eq Q.nL.symm,
    fun n h => ?_, fun l _ => by rw [Q.leaf]⟩
  · by_cases hx : x ∈ J.ch
    · exact .inr (.inl ((Q.dead x).2 (.inr hx)))
    · exact .inl (Q.on h hx)
  · refine (Q.kept ?_).retired.2 h
    rintro rfl
    exact hu h
  · refine Q.flow.other n ?_
    rintro rfl
    rcases (Q.dead _).1 h with h | h
    · rw [Q.live] at h; cases h
    · exact Q.notin h

end Turn

end Scc.Grove
