import Verif.Vine.Paths
import Verif.Vine.Facts

/-!
# What the invariant of the tree index says of the leaves
-/

namespace Scc.Vine

open Scc.Grove

local notation "Key" => Nat
local notation "Id" => Nat
local notation "Thr" => Nat

variable {V : Type} {m m' : Mem V} {d : Lst} {A : Key → Option V} {src : Ref → Ref}

/-- The phases of nodes that replace leaves. -/
inductive Form (o : Id) : Phase → LJob → Prop
  | copy (i x y : Id) : Form o (.single i x y) ⟨x, y, y, .copy⟩
  | split (i x xl xh : Id) (mid : Key) (ch : List Ref) :
    Form o (.split i (.leaf x) (.leaf xl) (.leaf xh) mid ch) ⟨x, xl, xh, .split⟩
  | ins (i x xl xh : Id) (mid : Key) (ch : List Ref) :
    Form o (.ins i (.leaf x) (.leaf xl) (.leaf xh) mid ch false) ⟨x, xl, xh, .ins⟩
  | thawed (i x xl xh : Id) (mid : Key) (ch : List Ref) :
    Form o (.ins i (.leaf x) (.leaf xl) (.leaf xh) mid ch true) ⟨x, xl, xh, .thawed⟩
  | full (i x xl xh : Id) (mid : Key) (ch : List Ref) :
    Form o (.full i (.leaf x) (.leaf xl) (.leaf xh) mid ch none) ⟨x, xl, xh, .full⟩
  | claimed (i x xl xh : Id) (mid : Key) (ch : List Ref) (c : Id × Id) :
    Form o (.full i (.leaf x) (.leaf xl) (.leaf xh) mid ch (some c)) ⟨x, xl, xh, .claimed⟩
  | fin (xl xh nl nh : Id) : Form o (.fin 0 xl xh nl nh) ⟨o, xl, xh, .fin⟩

theorem ljob_form {p : Phase} {o : Id} {L : LJob} (h : ljob p o = some L) : Form o p L := by
  unfold ljob at h
  split at h <;> first | (cases h; constructor) | cases h

theorem Form.ljob {p : Phase} {o : Id} {L : LJob} (h : Form o p L) : ljob p o = some L := by
  cases h <;> rfl

theorem Inv.ref_leaf (I : Inv m A src) {y : Ref} (h : lvl m.node y = 0) : ∃ l, y = .leaf l := by
  cases y with
  | leaf l => exact ⟨l, rfl⟩
  | node n =>
    have := I.shape.lv_pos n
    simp only [lvl_node] at h
    omega

/-- A leaf is replaced with leaves. -/
theorem Inv.leaves (I : Inv m A src) {n : Id} {J : Job} {x : Id} (h : (m.phase n).job = some J) (hx : J.x = .leaf x) :
    ∃ xl xh, J.xl = .leaf xl ∧ J.xh = .leaf xh := by
  have plan : ∀ i, (m.phase n).plan = some (i, J) → ∃ xl xh, J.xl = .leaf xl ∧ J.xh = .leaf xh := by
    intro i hp
    obtain ⟨h1, h2, _⟩ := I.locks.kind n i J hp
    rw [hx] at h1 h2
    obtain ⟨xl, e1⟩ := Inv.ref_leaf I h1
    obtain ⟨xh, e2⟩ := Inv.ref_leaf I h2
    exact ⟨xl, xh, e1, e2⟩
  have half : ∀ i, (m.phase n).half = some (i, J) → ∃ xl xh, J.xl = .leaf xl ∧ J.xh = .leaf xh := by
    intro i hp
    obtain ⟨O, S⟩ := I.jobs.half n i J hp
    have P := O.pair (J.mid + 1) _ _ (Nat.lt_succ_self _) .base
    have h2 := P.lvl
    rw [J.side_high (Nat.lt_succ_self _), hx] at h2
    obtain ⟨j, _, hj⟩ := S.low
    have h3 := I.shape.lev _ _ _ hj
    have h4 := I.shape.lev _ _ _ S.cell
    rw [hx] at h4
    simp only [lvl_leaf] at h2 h4
    obtain ⟨xl, e1⟩ := Inv.ref_leaf I (y := J.xl) (by omega)
    obtain ⟨xh, e2⟩ := Inv.ref_leaf I h2
    exact ⟨xl, xh, e1, e2⟩
  cases hp : m.phase n <;> rw [hp] at h plan half <;> simp only [Phase.job] at h <;> cases h
  · exact plan _ rfl
  · exact half _ rfl
  · exact plan _ rfl
  · cases hx

/-- The replacement of a leaf in terms of the leaf. -/
theorem Inv.job_form (I : Inv m A src) {n : Id} {J : Job} {x o : Id} (h : (m.phase n).job = some J) (hx : J.x = .leaf x) :
    ∃ L, Form o (m.phase n) L ∧ L.x = x := by
  obtain ⟨xl, xh, e1, e2⟩ := Inv.leaves I h hx
  cases hp : m.phase n <;> rw [hp] at h <;> simp only [Phase.job] at h <;> cases h
  · cases hx; cases e1; cases e2
    exact ⟨_, .split .., rfl⟩
  · next t =>
    cases hx; cases e1; cases e2
    cases t
    · exact ⟨_, .ins .., rfl⟩
    · exact ⟨_, .thawed .., rfl⟩
  · next c =>
    cases hx; cases e1; cases e2
    cases c
    · exact ⟨_, .full .., rfl⟩
    · exact ⟨_, .claimed .., rfl⟩
  · cases hx

/-- A leaf that becomes obsolete is being replaced. -/
theorem Inv.mem_job (I : Inv m A src) {n : Id} {J : Job} {x : Id} (d : Lst) (h : (m.phase n).job = some J) (hx : .leaf x ∈ J.ch) :
    ∃ c L, (view m d A).job c = some L ∧ L.x = x := by
  rcases I.chain.mem_parent h hx with e | ⟨c, J', _, h', e⟩
  · obtain ⟨L, h1, h2⟩ := Inv.job_form I (o := d.old n) h e.symm
    exact ⟨n, L, h1.ljob, h2⟩
  · obtain ⟨L, h1, h2⟩ := Inv.job_form I (o := d.old c) h' e
    exact ⟨c, L, h1.ljob, h2⟩

/-- What is in its list becomes obsolete with a leaf that is replaced alone. -/
theorem Inv.ch_leaf (I : Inv m A src) {n : Id} {J : Job} {x : Id} (h : (m.phase n).job = some J) (hx : J.x = .leaf x) :
    J.ch = [.leaf x] := by
  obtain ⟨ch', h1, h2, _⟩ := I.chain.list n J h
  rw [h1, h2 x hx, hx]

theorem Inv.half_root (I : Inv m A src) {n i : Nat} {J : Job} (h : (m.phase n).half = some (i, J)) :
    ∀ r, m.root = some r → .node r ∉ J.ch := by
  intro r hr hm
  obtain ⟨_, S⟩ := I.jobs.half n i J h
  obtain ⟨k, hk, _⟩ := S.high
  have h1 := S.below _ hm
  rcases hk.lvl_root I.shape.lev hr with e | e
  · cases e
    simp only [lvl_node] at h1
    omega
  · simp only [lvl_node] at h1 e
    omega

theorem Inv.path (I : Inv m A src) {k : Key} (h : A k ≠ none) : ∃ l, On m.root m.node k (.leaf l) := by
  have down : ∀ (j n : Nat), (m.node n).lv = j → On m.root m.node k (.node n) → ∃ l, On m.root m.node k (.leaf l) := by
    intro j
    induction j using Nat.strongRecOn with
    | _ j ih =>
      intro n hj ho
      by_cases hd : ∃ y, (m.node n).dest k = .to y
      · obtain ⟨y, hd⟩ := hd
        cases y with
        | leaf l => exact ⟨l, .step ho hd⟩
        | node c =>
          have := I.shape.lev.dest hd
          simp only [lvl_node] at this
          exact ih _ (by omega) c rfl (.step ho hd)
      · exact absurd (I.mean.null k n ho fun y hy => hd ⟨y, hy⟩) h
  cases hr : m.root with
  | none => exact absurd (I.mean.root hr k) h
  | some r =>
    obtain ⟨l, hl⟩ := down _ r rfl (.root hr)
    exact ⟨l, by rw [← hr]; exact hl⟩

/-- The nodes of changes that are not claimed are not obsolete. -/
theorem Inv.plan_live (I : Inv m A src) {n i : Nat} {J : Job} (h : (m.phase n).plan = some (i, J)) (ho : (m.phase n).over = false) :
    JobOk m.root m.node m.leaf m.frozen m.dead m.nN m.nL src J (fun _ => True) false ∧ Site m.root m.node n i J := by
  refine I.jobs.plan n i J h ?_
  cases hd : m.dead (.node n) with
  | false => rfl
  | true => rw [I.dead.over n hd] at ho; cases ho

theorem JobOk.unlit {R : Option Id} {N : Id → Node} {L : Id → Leaf V} {F : Id → Bool} {D : Ref → Bool} {nN nL : Nat}
    {J : Job} {fil : Key → Prop} {b : Bool} (O : JobOk R N L F D nN nL src J fil b) {k : Key} (h : fil k) :
    ¬ Lit R N (J.side k) := (O.pair k _ _ h .base).unlit

theorem Inv.plan_unlit (I : Inv m A src) {n i x xl xh : Nat} {mid : Key} {ch : List Ref}
    (h : (m.phase n).plan = some (i, ⟨.leaf x, .leaf xl, .leaf xh, mid, ch⟩)) (hd : m.dead (.node n) = false) :
    ¬ Lit m.root m.node (.leaf xl) ∧ ¬ Lit m.root m.node (.leaf xh) ∧ m.dead (.leaf x) = false := by
  obtain ⟨O, S⟩ := I.jobs.plan n i _ h hd
  have h1 := JobOk.unlit O (k := mid) trivial
  have h2 := JobOk.unlit O (k := mid + 1) trivial
  simp only [Job.side, Nat.le_refl, if_true] at h1
  rw [Job.side_high (Nat.lt_succ_self _)] at h2
  exact ⟨h1, h2, O.dead _ (I.chain.head_mem (Phase.plan_job h))⟩

theorem Inv.over_live (I : Inv m A src) {n : Nat} (ho : (m.phase n).over = false) : m.dead (.node n) = false := by
  cases hd : m.dead (.node n) with
  | false => rfl
  | true => rw [I.dead.over n hd] at ho; cases ho

/-- A leaf that is replaced is obsolete if what it is replaced with is in place. -/
theorem Inv.plan_dead (I : Inv m A src) {n i : Nat} {J : Job} {x : Id} (h : (m.phase n).plan = some (i, J)) (hx : J.x = .leaf x)
    (hd : m.dead (.node n) = true) : m.dead (.leaf x) = true ∧ ∃ u i' J', (m.phase u).half = some (i', J') ∧ .leaf x ∈ J'.ch := by
  obtain ⟨u, i', J', g1, g2⟩ := I.dead.plan n hd (by rw [h]; simp)
  obtain ⟨_, _, _, _, _, _, _, _, b1, b2⟩ := I.chain.mem_full (Phase.half_job g1) g2
  rw [b1] at h
  cases h
  have hm := b2 (I.chain.head_mem (n := n) (by rw [b1]; rfl))
  cases hx
  exact ⟨(I.jobs.half u i' J' g1).1.dead _ hm, u, i', J', g1, hm⟩

/-- All of this. -/
theorem Inv.world (I : Inv m A src)
    (fd : ∀ n L, (view m d A).job n = some L → L.st = .fin → m.dead (.leaf L.x) = true) : World (view m d A) where
  uniq k l l' h h' := by cases On.unique I.shape.lev h h' rfl; rfl
  convex k1 k2 k3 l h1 h3 := Inv.convex I h1 h3
  al k l h := I.on_al h
  mean k l h := I.mean.leaf k l h
  path k h := Inv.path I h
  deadLit l hd hl := by
    obtain ⟨n, i, J, h1, h2⟩ := I.dead.half _ hd hl
    exact Inv.mem_job I d (Phase.half_job h1) h2
  empty l k h := by
    simp only [view, Leaf.get, I.dead.empty l h]
    rfl
  unlitL n J h hs := by
    have F := ljob_form h
    generalize hp : m.phase n = p at F
    cases F with
    | copy => exact (I.jobs.copy n _ _ _ hp).unlit
    | split => exact (Inv.plan_unlit I (n := n) (by rw [hp]; rfl) (Inv.over_live I (by rw [hp]; rfl))).1
    | full => exact (Inv.plan_unlit I (n := n) (by rw [hp]; rfl) (Inv.over_live I (by rw [hp]; rfl))).1
    | _ => simp at hs
  unlitH n J h h1 h2 := by
    have F := ljob_form h
    generalize hp : m.phase n = p at F
    have half : ∀ i x xl xh mid ch, (m.phase n).half = some (i, ⟨.leaf x, .leaf xl, .leaf xh, mid, ch⟩) →
        ¬ Lit m.root m.node (.leaf xh) := by
      intro i x xl xh mid ch hh
      have := JobOk.unlit (I.jobs.half n i _ hh).1 (k := mid + 1) (Nat.lt_succ_self _)
      rw [Job.side_high (Nat.lt_succ_self _)] at this
      exact this
    cases F with
    | copy => exact (I.jobs.copy n _ _ _ hp).unlit
    | split => exact (Inv.plan_unlit I (n := n) (by rw [hp]; rfl) (Inv.over_live I (by rw [hp]; rfl))).2.1
    | full => exact (Inv.plan_unlit I (n := n) (by rw [hp]; rfl) (Inv.over_live I (by rw [hp]; rfl))).2.1
    | ins => exact half _ _ _ _ _ _ (by rw [hp]; rfl)
    | thawed => exact half _ _ _ _ _ _ (by rw [hp]; rfl)
    | _ => simp at h1 h2
  litL n J h hs := by
    have F := ljob_form h
    generalize hp : m.phase n = p at F
    have half : ∀ i x xl xh mid ch, (m.phase n).half = some (i, ⟨.leaf x, .leaf xl, .leaf xh, mid, ch⟩) →
        Lit m.root m.node (.leaf xl) := by
      intro i x xl xh mid ch hh
      obtain ⟨j, h1, h2⟩ := (I.jobs.half n i _ hh).2.low
      exact h1.child h2
    cases F with
    | ins => exact half _ _ _ _ _ _ (by rw [hp]; rfl)
    | thawed => exact half _ _ _ _ _ _ (by rw [hp]; rfl)
    | _ => simp at hs
  live n J h hs := by
    have F := ljob_form h
    generalize hp : m.phase n = p at F
    cases F with
    | copy => exact (I.jobs.copy n _ _ _ hp).live
    | split => exact (Inv.plan_unlit I (n := n) (by rw [hp]; rfl) (Inv.over_live I (by rw [hp]; rfl))).2.2
    | full => exact (Inv.plan_unlit I (n := n) (by rw [hp]; rfl) (Inv.over_live I (by rw [hp]; rfl))).2.2
    | _ => simp at hs
  litDead n J h hl := by
    have F := ljob_form h
    have half : ∀ i x xl xh mid ch, (m.phase n).half = some (i, ⟨.leaf x, .leaf xl, .leaf xh, mid, ch⟩) →
        m.dead (.leaf x) = true := by
      intro i x xl xh mid ch hh
      exact (I.jobs.half n i _ hh).1.dead _ (I.chain.head_mem (Phase.half_job hh))
    have plan : ∀ i x xl xh mid ch, (m.phase n).plan = some (i, ⟨.leaf x, .leaf xl, .leaf xh, mid, ch⟩) →
        Lit m.root m.node (.leaf xl) ∨ Lit m.root m.node (.leaf xh) → m.dead (.leaf x) = true := by
      intro i x xl xh mid ch hh hl
      cases hd : m.dead (.node n) with
      | true => exact (Inv.plan_dead I hh rfl hd).1
      | false =>
        obtain ⟨h1, h2, _⟩ := Inv.plan_unlit I hh hd
        rcases hl with hl | hl
        · exact absurd hl h1
        · exact absurd hl h2
    have fd' := fd n J h
    generalize hp : m.phase n = p at F half plan
    cases F with
    | copy => rcases hl with hl | hl <;> exact absurd hl (I.jobs.copy n _ _ _ hp).unlit
    | split => exact plan _ _ _ _ _ _ rfl hl
    | full => exact plan _ _ _ _ _ _ rfl hl
    | claimed => exact plan _ _ _ _ _ _ rfl hl
    | ins => exact half _ _ _ _ _ _ rfl
    | thawed => exact half _ _ _ _ _ _ rfl
    | fin => exact fd' rfl
  litX n J h hs := by
    have F := ljob_form h
    generalize hp : m.phase n = p at F
    cases F with
    | copy =>
      have C := I.jobs.copy n _ _ _ hp
      exact C.use.child C.cell
    | _ => simp at hs
  same n J k h hs ho := by
    have F := ljob_form h
    generalize hp : m.phase n = p at F
    cases F with
    | thawed i x xl xh mid ch =>
      have hh : (m.phase n).half = some (i, ⟨.leaf x, .leaf xl, .leaf xh, mid, ch⟩) := by rw [hp]; rfl
      obtain ⟨O, S⟩ := I.jobs.half n i _ hh
      obtain ⟨_, h2⟩ := S.spot.up (Inv.half_root I hh) ho (I.chain.head_mem (Phase.half_job hh))
      have hk := S.only k h2
      have P := (O.pair k _ _ hk .base).same
      rw [Job.side_high hk] at P
      exact P.2.1
    | _ => simp at hs
  entry l k hl hk := by
    rcases I.order.entry l k hl hk with h | ⟨n, i, J, h1, h2, _⟩
    · exact .inl h
    · exact .inr (Inv.mem_job I d (Phase.half_job h1) h2)
  first l k h0 hk := by
    rcases I.order.entry l k ⟨0, h0⟩ hk with h | ⟨n, i, J, h1, h2, _⟩
    · exact h
    · obtain ⟨_, S⟩ := I.jobs.half n i J h1
      obtain ⟨_, h3⟩ := S.spot.up (Inv.half_root I h1) h0 h2
      exact absurd (S.only 0 h3) (Nat.not_lt_zero _)

end Scc.Vine
