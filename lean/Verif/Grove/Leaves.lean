import Verif.Grove.Grow

/-!
# Copies of a leaf are made
-/

namespace Scc.Grove

local notation "Key" => Nat
local notation "Id" => Nat
local notation "Thr" => Nat

variable {V : Type} {m m' : Mem V} {A : Key → Option V} {src src' : Ref → Ref}

/-- The children of a locked node. -/
theorem Inv.locked_child (I : Inv m A src) {n i : Nat} {y : Ref} (h : m.phase n = .locked)
    (hi : i ∈ (m.node n).slots) (hc : (m.node n).cell i = .to y) :
    Lit m.root m.node (.node n) ∧ Use m.root m.node n i ∧ m.dead y = false ∧
      (∀ n' J, (m.phase n').job = some J → y ∉ J.ch) ∧
      (∀ q j, Use m.root m.node q j → (m.node q).cell j = .to y → q = n ∧ j = i) := by
  have hl : Lit m.root m.node (.node n) := by
    rcases I.locks.locked n h with hl | hl
    · exact hl
    · cases hk : (m.node n).kids with
      | nil =>
        simp only [Node.slots, hk, List.map_nil, List.mem_cons, List.not_mem_nil, or_false] at hi
        rw [hi, hl] at hc; cases hc
      | cons e l =>
        obtain ⟨y, hy⟩ := I.shape.unb n (by simp [hk])
        rw [hl] at hy; cases hy
  have hu : Use m.root m.node n i := I.slot_use hl (I.not_cut (by simp [h])) hi
  have hm : ∀ n' J, (m.phase n').job = some J → y ∉ J.ch := fun n' J hj =>
    I.not_in_ch (by simp [h]) (by simp [h, Phase.half]) hu hc hj (by rintro rfl; rw [h] at hj; cases hj)
  refine ⟨hl, hu, ?_, hm, fun q j h1 h2 => ?_⟩
  · cases hd : m.dead y with
    | false => rfl
    | true =>
      obtain ⟨u, i', J, g1, g2⟩ := I.dead.half y hd (hu.child hc)
      exact absurd g2 (hm u J (Phase.half_job g1))
  · obtain ⟨e1, e2⟩ := I.order.parent q n j i y h1 hu h2 hc
    subst e1
    refine ⟨rfl, e2.resolve_right ?_⟩
    rintro ⟨b, i', e, _⟩
    rw [h] at e; cases e

/-- A chain stays one if a locked node starts something. -/
theorem Chain.start {ph : Id → Phase} (C : Chain ph) {n : Id} {p : Phase} (h : ph n = .locked)
    (hp : ∀ J, p.job = some J → ∃ l, J.x = .leaf l ∧ J.ch = [.leaf l])
    (hx : ∀ J n' J', p.job = some J → (ph n').job = some J' → J'.x ≠ J.x) : Chain (upd ph n p) := by
  have key : ∀ n' J, (upd ph n p n').job = some J → n' = n ∧ p.job = some J ∨ n' ≠ n ∧ (ph n').job = some J := by
    intro n' J hj
    by_cases e : n' = n
    · subst e; rw [upd_eq] at hj; exact .inl ⟨rfl, hj⟩
    · rw [upd_ne e] at hj; exact .inr ⟨e, hj⟩
  refine ⟨fun n' J hj => ?_, fun n1 n2 J1 J2 h1 h2 e => ?_⟩
  · rcases key n' J hj with ⟨rfl, hj'⟩ | ⟨e, hj⟩
    · obtain ⟨l, e1, e2⟩ := hp J hj'
      refine ⟨[], by rw [e1, e2], fun _ _ => rfl, fun c hc => ?_⟩
      rw [e1] at hc; cases hc
    · obtain ⟨ch', h1, h2, h3⟩ := C.list n' J hj
      refine ⟨ch', h1, h2, fun c hc => ?_⟩
      obtain ⟨i, x, xl, xh, mid, nl, nh, g, g'⟩ := h3 c hc
      refine ⟨i, x, xl, xh, mid, nl, nh, ?_, g'⟩
      rw [upd_ne, g]
      rintro rfl
      rw [h] at g; cases g
  · rcases key n1 J1 h1 with ⟨rfl, g1⟩ | ⟨e1, g1⟩ <;> rcases key n2 J2 h2 with ⟨rfl, g2⟩ | ⟨e2, g2⟩
    · rfl
    · exact absurd e.symm (hx J1 n2 J2 g1 g2)
    · exact absurd e (hx J2 n1 J1 g2 g1)
    · exact C.uniq _ _ _ _ g1 g2 e

theorem Inv.unlit_new (I : Inv m A src) {y : Ref} (h : ¬ Alloc m.nN m.nL y) : ¬ Lit m.root m.node y :=
  fun hl => h (I.lit_al hl)

theorem Inv.live_new (I : Inv m A src) {y : Ref} (h : ¬ Alloc m.nN m.nL y) : m.dead y = false := by
  cases hd : m.dead y with
  | false => rfl
  | true => exact absurd (I.shape.dead_al y hd) h

/-- Remembers what leaves were created for. -/
def srcLeaf (src : Ref → Ref) (a b x : Id) : Ref → Ref := fun y => if a ≤ b ∧ (y = .leaf a ∨ y = .leaf b) then .leaf x else src y

theorem Inv.copy (I : Inv m A src) {n i x : Nat} (h : m.phase n = .locked) (hi : i ∈ (m.node n).slots)
    (hx : (m.node n).cell i = .to (.leaf x)) :
    Inv { (((m.freeze x true).setLeaf m.nL { m := (m.leaf x).m, retired := false }).freeze m.nL false).setPhase n
          (.single i x m.nL) with nL := m.nL + 1 } A (srcLeaf src m.nL m.nL x) := by
  obtain ⟨hl, hu, hd, hm, hp⟩ := I.locked_child h hi hx
  have hxl : x < m.nL := I.shape.cell_al _ _ _ hx
  have hs : ∀ y, Alloc m.nN m.nL y → srcLeaf src m.nL m.nL x y = src y := by
    intro y hy
    refine if_neg ?_
    rintro ⟨_, rfl | rfl⟩ <;> simp [Alloc] at hy
  generalize hm' : ({ (((m.freeze x true).setLeaf m.nL { m := (m.leaf x).m, retired := false }).freeze m.nL
    false).setPhase n (.single i x m.nL) with nL := m.nL + 1 } : Mem V) = m'
  have e1 : m'.root = m.root := by rw [← hm']; rfl
  have e2 : m'.node = m.node := by rw [← hm']; rfl
  have e3 : m'.phase = upd m.phase n (.single i x m.nL) := by rw [← hm']; rfl
  have e4 : m'.dead = m.dead := by rw [← hm']; rfl
  have e5 : m'.leaf = upd m.leaf m.nL { m := (m.leaf x).m, retired := false } := by rw [← hm']; rfl
  have e6 : m'.frozen = upd (upd m.frozen x true) m.nL false := by rw [← hm']; rfl
  have e7 : m'.nL = m.nL + 1 := by rw [← hm']
  have e8 : m'.nN = m.nN := by rw [← hm']; rfl
  have G : Grow m m' src (srcLeaf src m.nL m.nL x) := by
    refine ⟨e1, by omega, by omega, fun _ _ => by rw [e2], fun l hl => ?_, e4, fun l hl hf => ?_, hs⟩
    · rw [e5, upd_ne (by omega)]
    · rw [e6, upd_ne (by omega)]
      by_cases e : l = x
      · rw [e, upd_eq]
      · rw [upd_ne e, hf]
  have ph : ∀ n', m'.phase n' = m.phase n' ∨ n' = n ∧ m'.phase n' = .single i x m.nL := by
    intro n'
    rw [e3]
    by_cases e : n' = n
    · subst e; rw [upd_eq]; exact .inr ⟨rfl, rfl⟩
    · exact .inl (upd_ne e)
  refine I.grow G ?_ ?_ ?_
  · constructor
    · intro n'
      rcases ph n' with e | ⟨rfl, e⟩
      · rw [e]
      · rw [e, h]; rfl
    · intro n' b i'
      rcases ph n' with e | ⟨rfl, e⟩
      · rw [e]
      · rw [e, h]; simp
    · intro n' hd'
      rcases ph n' with e | ⟨rfl, e⟩
      · rw [e]; exact I.dead.over n' hd'
      · have := I.dead.over n' hd'
        rw [h] at this; cases this
    · intro l
      rw [e5]
      by_cases e : l = m.nL
      · subst e; rw [upd_eq]; exact fun h => by cases h
      · rw [upd_ne e]; exact I.dead.empty l
    · rw [e3]
      exact I.chain.start h (by simp [Phase.job]) (by simp [Phase.job])
    · intro n' _ hp'
      rcases ph n' with e | ⟨rfl, e⟩
      · rw [← e]; exact hp'
      · rw [e] at hp'; simp [Phase.plan] at hp'
    · intro n' i' J hj _
      rcases ph n' with e | ⟨rfl, e⟩
      · rw [← e]; exact .inl hj
      · rw [e] at hj; simp [Phase.plan] at hj
    · intro r n' nl nh mid ch hr
      rcases ph r with e | ⟨rfl, e⟩
      · rw [← e]; exact .inl hr
      · rw [e] at hr; cases hr
    · intro n' i' x' y' hc
      rcases ph n' with e | ⟨rfl, e⟩
      · rw [← e]; exact .inl hc
      · rw [e] at hc
        cases hc
        right
        refine ⟨by rw [e2]; exact hi, by rw [e2]; exact hx, (G.use I).2 hu, ?_, by rw [e4]; exact hd, by omega, ?_, ?_,
          ?_, ?_, ?_⟩
        · rw [e6, upd_ne (by omega), upd_eq]
        · exact fun hl => I.unlit_new (y := .leaf m.nL) (by simp [Alloc]) ((G.lit I).1 hl)
        · rw [e4]; exact I.live_new (by simp [Alloc])
        · simp [srcLeaf]
        · rw [e5, upd_eq, upd_ne (by omega)]
        · rw [e5, upd_eq]
  · have S := I.shape
    rw [e1, e2, e4, e7, e8]
    refine { S with fresh := fun n' hn' => ?_, cell_al := fun n' j y hy => ?_, dead_al := fun y hy => ?_ }
    · refine ⟨(S.fresh n' hn').1, ?_⟩
      rcases ph n' with e | ⟨rfl, e⟩
      · rw [e]; exact (S.fresh n' hn').2
      · rw [(S.fresh n' hn').2] at h; cases h
    · exact (S.cell_al n' j y hy).mono (Nat.le_refl _) (by omega)
    · exact (S.dead_al y hy).mono (Nat.le_refl _) (by omega)
  · have same : ∀ n' (p : Phase), m'.phase n' = p → (∀ i x y, p ≠ .single i x y) → m.phase n' = p := by
      intro n' p hp' hne
      rcases ph n' with e | ⟨rfl, e⟩
      · rw [← e]; exact hp'
      · rw [e] at hp'; exact absurd hp'.symm (hne _ _ _)
    have plan : ∀ n' i' J, (m'.phase n').plan = some (i', J) → (m.phase n').plan = some (i', J) := by
      intro n' i' J hj
      rcases ph n' with e | ⟨rfl, e⟩
      · rw [← e]; exact hj
      · rw [e] at hj; simp [Phase.plan] at hj
    refine Locks.grow I G (fun n' h' => same _ _ h' (by simp)) (fun n' i' h' => same _ _ h' (by simp))
      (fun n' b i' h' => same _ _ h' (by simp)) (fun n' i' x' xl xh mid ch nl nh h' => .inl (same _ _ h' (by simp)))
      (fun n' j xl xh nl nh h' => same _ _ h' (by simp))
      (fun n' => by rcases ph n' with e | ⟨rfl, e⟩ <;> simp [e, h, Phase.half]) (fun q hq => ?_) (fun n' i' J l hj _ => .inl (plan _ _ _ hj))
      (fun n' i' J hj => .inl (plan _ _ _ hj)) (fun n' i' J hj => by rw [e2]; exact ⟨rfl, rfl, rfl⟩) ?_
    · rcases ph q with e | ⟨rfl, e⟩
      · rw [e]; exact hq
      · rw [h] at hq; cases hq
    · intro n' l _ _ _ q j hq hc
      rw [e2, (I.shape.fresh q hq).1] at hc
      cases hc

/-! ## Two halves -/

theorem Pair.of_leaf {N : Id → Node} {k : Key} {l : Id} {y a b : Ref} (h : Pair N k (.leaf l) y a b) :
    a = .leaf l ∧ b = y := by
  generalize hx : Ref.leaf l = x at h
  induction h with
  | base => exact ⟨rfl, rfl⟩
  | step h hd hd' hne ih => cases ih.1.trans hx.symm

theorem find_filter {l : List (Key × V)} {p : Key → Bool} {k : Key} :
    (l.filter fun e => p e.1).find? (fun e => e.1 == k) =
      if p k = true then l.find? (fun e => e.1 == k) else none := by
  induction l with
  | nil => simp
  | cons e l ih =>
    by_cases he : p e.1 = true
    · rw [List.filter_cons_of_pos (by simpa using he)]
      by_cases hk : e.1 = k
      · subst hk; simp [he]
      · rw [List.find?_cons_of_neg (by simpa using hk), ih, List.find?_cons_of_neg (by simpa using hk)]
    · rw [List.filter_cons_of_neg (by simpa using he), ih]
      by_cases hk : e.1 = k
      · subst hk; simp [he]
      · rw [List.find?_cons_of_neg (by simpa using hk)]

theorem Leaf.get_low {l : Leaf V} {mid k : Key} : (l.low mid).get k = if k ≤ mid then l.get k else none := by
  simp only [Leaf.get, Leaf.low, find_filter (p := fun e => decide (e ≤ mid)), decide_eq_true_eq]
  split <;> rfl

theorem Leaf.get_high {l : Leaf V} {mid k : Key} : (l.high mid).get k = if mid < k then l.get k else none := by
  simp only [Leaf.get, Leaf.high, find_filter (p := fun e => decide (mid < e)), decide_eq_true_eq]
  split <;> rfl

theorem Inv.halve (I : Inv m A src) {n i x : Nat} {mid k : Key} {v w : V} (h : m.phase n = .locked)
    (hi : i ∈ (m.node n).slots) (hx : (m.node n).cell i = .to (.leaf x))
    (hv : (m.leaf x).get mid = some v) (hw : (m.leaf x).get k = some w) (hlt : mid < k) :
    Inv { (((((m.freeze x true).setLeaf m.nL ((m.leaf x).low mid)).freeze m.nL true).setLeaf (m.nL + 1)
          ((m.leaf x).high mid)).freeze (m.nL + 1) false).setPhase n
          (.split i (.leaf x) (.leaf m.nL) (.leaf (m.nL + 1)) mid [.leaf x]) with nL := m.nL + 2 } A
        (srcLeaf src m.nL (m.nL + 1) x) := by
  obtain ⟨hl, hu, hd, hm, hp⟩ := I.locked_child h hi hx
  have hxl : x < m.nL := I.shape.cell_al _ _ _ hx
  have hs : ∀ y, Alloc m.nN m.nL y → srcLeaf src m.nL (m.nL + 1) x y = src y := by
    intro y hy
    refine if_neg ?_
    rintro ⟨_, rfl | rfl⟩ <;> simp [Alloc] at hy <;> omega
  have hon : ∀ k0, (m.leaf x).get k0 ≠ none → On m.root m.node k0 (.leaf x) := by
    intro k0 h0
    rcases I.order.entry x k0 (hu.child hx) h0 with h1 | ⟨u, i', J, h1, h2, _⟩
    · exact h1
    · exact absurd h2 (hm u J (Phase.half_job h1))
  have hup : ∀ k0, On m.root m.node k0 (.leaf x) → On m.root m.node k0 (.node n) ∧ route (m.node n).kids k0 = i := by
    intro k0 h0
    obtain ⟨q, h1, h2⟩ := h0.inv_leaf
    obtain ⟨rfl, e⟩ := hp q _ h1.use h2
    exact ⟨h1, e⟩
  generalize hm' : ({ (((((m.freeze x true).setLeaf m.nL ((m.leaf x).low mid)).freeze m.nL true).setLeaf (m.nL + 1)
          ((m.leaf x).high mid)).freeze (m.nL + 1) false).setPhase n
          (.split i (.leaf x) (.leaf m.nL) (.leaf (m.nL + 1)) mid [.leaf x]) with nL := m.nL + 2 } : Mem V) = m'
  have e1 : m'.root = m.root := by rw [← hm']; rfl
  have e2 : m'.node = m.node := by rw [← hm']; rfl
  have e3 : m'.phase = upd m.phase n (.split i (.leaf x) (.leaf m.nL) (.leaf (m.nL + 1)) mid [.leaf x]) := by
    rw [← hm']; rfl
  have e4 : m'.dead = m.dead := by rw [← hm']; rfl
  have e5 : m'.leaf = upd (upd m.leaf m.nL ((m.leaf x).low mid)) (m.nL + 1) ((m.leaf x).high mid) := by
    rw [← hm']; rfl
  have e6 : m'.frozen = upd (upd (upd m.frozen x true) m.nL true) (m.nL + 1) false := by rw [← hm']; rfl
  have e7 : m'.nL = m.nL + 2 := by rw [← hm']
  have e8 : m'.nN = m.nN := by rw [← hm']; rfl
  have l1 : m'.leaf m.nL = (m.leaf x).low mid := by rw [e5, upd_ne (by omega), upd_eq]
  have l2 : m'.leaf (m.nL + 1) = (m.leaf x).high mid := by rw [e5, upd_eq]
  have G : Grow m m' src (srcLeaf src m.nL (m.nL + 1) x) := by
    refine ⟨e1, by omega, by omega, fun _ _ => by rw [e2], fun l hl => ?_, e4, fun l hl hf => ?_, hs⟩
    · rw [e5, upd_ne (by omega), upd_ne (by omega)]
    · rw [e6, upd_ne (by omega), upd_ne (by omega)]
      by_cases e : l = x
      · rw [e, upd_eq]
      · rw [upd_ne e, hf]
  have ph : ∀ n', m'.phase n' = m.phase n' ∨
      n' = n ∧ m'.phase n' = .split i (.leaf x) (.leaf m.nL) (.leaf (m.nL + 1)) mid [.leaf x] := by
    intro n'
    rw [e3]
    by_cases e : n' = n
    · subst e; rw [upd_eq]; exact .inr ⟨rfl, rfl⟩
    · exact .inl (upd_ne e)
  have Fx : m'.frozen x = true := by rw [e6, upd_ne (by omega), upd_ne (by omega), upd_eq]
  have site : Site m'.root m'.node n i ⟨.leaf x, .leaf m.nL, .leaf (m.nL + 1), mid, [.leaf x]⟩ := by
    have hlow := hon mid (by simp [hv])
    have hhigh := hon k (by simp [hw])
    rw [e1, e2]
    refine ⟨hi, hx, hup mid hlow, ⟨k, hlt, hup k hhigh⟩, fun y hy q j h1 h2 => ?_, fun y hy => ?_, by simp⟩
    · simp only [List.mem_singleton] at hy
      subst hy
      exact .inl (hp q j h1 h2)
    · simp only [List.mem_singleton] at hy
      subst hy
      exact I.shape.lv_pos n
  have job : JobOk m'.root m'.node m'.leaf m'.frozen m'.dead m'.nN m'.nL (srcLeaf src m.nL (m.nL + 1) x)
      ⟨.leaf x, .leaf m.nL, .leaf (m.nL + 1), mid, [.leaf x]⟩ (fun _ => True) false := by
    have hside : ∀ k0, (Job.mk (.leaf x) (.leaf m.nL) (.leaf (m.nL + 1)) mid [.leaf x]).side k0 =
        .leaf (if k0 ≤ mid then m.nL else m.nL + 1) := by
      intro k0; simp only [Job.side]; split <;> rfl
    have hsame : ∀ k0 k2, (m.leaf x).get k2 ≠ none → (k2 ≤ mid ↔ k0 ≤ mid) →
        Same m'.root m'.node ⟨.leaf x, .leaf m.nL, .leaf (m.nL + 1), mid, [.leaf x]⟩ k0 (.leaf x)
          (.leaf (if k0 ≤ mid then m.nL else m.nL + 1)) k2 := by
      intro k0 k2 h2 h3
      have : (if k2 ≤ mid then m.nL else m.nL + 1) = (if k0 ≤ mid then m.nL else m.nL + 1) := by
        simp only [h3]
      refine ⟨(G.on I).2 (hon k2 h2), by rw [hside, hside, this], ?_⟩
      rw [hside, this]
      exact .base
    refine ⟨fun k0 a b _ hab => ?_, fun k0 k1 a n1 n2 _ _ h1 _ => ?_, fun k0 k1 a b _ _ h1 h2 => ?_, ?_, ?_, ?_,
      fun _ _ _ _ => trivial⟩
    · obtain ⟨rfl, rfl⟩ := hab.of_leaf
      rw [hside]
      refine ⟨by simp, ?_, ?_, rfl, ?_, ?_, ?_, ?_⟩
      · simp only [srcLeaf]; split <;> simp
      · simp only [Alloc]; split <;> omega
      · refine fun hl => I.unlit_new ?_ ((G.lit I).1 hl)
        simp only [Alloc]; split <;> omega
      · rw [e4]
        refine I.live_new ?_
        simp only [Alloc]; split <;> omega
      · simp only [Retired]
        split
        · rw [l1]; simp [Leaf.low]
        · rw [l2]; simp [Leaf.high]
      · refine ⟨Fx, ?_, fun k2 h2 => ?_⟩
        · rw [G.leaf x hxl]
          by_cases hk : k0 ≤ mid
          · rw [if_pos hk, l1, Leaf.get_low, if_pos hk]
          · rw [if_neg hk, l2, Leaf.get_high, if_pos (by omega)]
        · by_cases hk : k0 ≤ mid
          · rw [if_pos hk, l1, Leaf.get_low] at h2
            by_cases h3 : k2 ≤ mid
            · rw [if_pos h3] at h2
              exact hsame k0 k2 h2 (by simp [h3, hk])
            · rw [if_neg h3] at h2; exact absurd rfl h2
          · rw [if_neg hk, l2, Leaf.get_high] at h2
            by_cases h3 : mid < k2
            · rw [if_pos h3] at h2
              exact hsame k0 k2 h2 (by simp [hk]; omega)
            · rw [if_neg h3] at h2; exact absurd rfl h2
    · have := h1.of_leaf.2
      rw [hside] at this; cases this
    · exact h1.of_leaf.2.symm.trans h2.of_leaf.2
    · intro y hy
      simp only [List.mem_singleton] at hy
      rw [hy, e4]; exact hd
    · intro _ y hy
      simp only [List.mem_singleton] at hy
      rw [hy, G.lit I]; exact hu.child hx
    · intro l hl
      simp only [List.mem_singleton] at hl
      cases hl
      exact Fx
  refine I.grow G ?_ ?_ ?_
  · constructor
    · intro n'
      rcases ph n' with e | ⟨rfl, e⟩
      · rw [e]
      · rw [e, h]; rfl
    · intro n' b i'
      rcases ph n' with e | ⟨rfl, e⟩
      · rw [e]
      · rw [e, h]; simp
    · intro n' hd'
      rcases ph n' with e | ⟨rfl, e⟩
      · rw [e]; exact I.dead.over n' hd'
      · have := I.dead.over n' hd'
        rw [h] at this; cases this
    · intro l
      rw [e5]
      by_cases e : l = m.nL + 1
      · subst e; rw [upd_eq]; exact fun h => by cases h
      · rw [upd_ne e]
        by_cases e : l = m.nL
        · subst e; rw [upd_eq]; exact fun h => by cases h
        · rw [upd_ne e]; exact I.dead.empty l
    · rw [e3]
      refine I.chain.start h (fun J hJ => ?_) fun J n' J' hJ hJ' e => ?_
      · cases hJ; exact ⟨x, rfl, rfl⟩
      · cases hJ
        have e : J'.x = .leaf x := e
        exact hm n' J' hJ' (e ▸ I.chain.head_mem hJ')
    · intro n' hd' hp'
      rcases ph n' with e | ⟨rfl, e⟩
      · rw [← e]; exact hp'
      · have := I.dead.over n' hd'
        rw [h] at this; cases this
    · intro n' i' J hj _
      rcases ph n' with e | ⟨rfl, e⟩
      · rw [← e]; exact .inl hj
      · rw [e] at hj
        cases hj
        exact .inr ⟨job, site⟩
    · intro r n' nl nh mid ch hr
      rcases ph r with e | ⟨rfl, e⟩
      · rw [← e]; exact .inl hr
      · rw [e] at hr; cases hr
    · intro n' i' x' y' hc
      rcases ph n' with e | ⟨rfl, e⟩
      · rw [← e]; exact .inl hc
      · rw [e] at hc; cases hc
  · have S := I.shape
    rw [e1, e2, e4, e7, e8]
    refine { S with fresh := fun n' hn' => ?_, cell_al := fun n' j y hy => ?_, dead_al := fun y hy => ?_ }
    · refine ⟨(S.fresh n' hn').1, ?_⟩
      rcases ph n' with e | ⟨rfl, e⟩
      · rw [e]; exact (S.fresh n' hn').2
      · rw [(S.fresh n' hn').2] at h; cases h
    · exact (S.cell_al n' j y hy).mono (Nat.le_refl _) (by omega)
    · exact (S.dead_al y hy).mono (Nat.le_refl _) (by omega)
  · have same : ∀ n' (p : Phase), m'.phase n' = p → (∀ i x xl xh mid ch, p ≠ .split i x xl xh mid ch) →
        m.phase n' = p := by
      intro n' p hp' hne
      rcases ph n' with e | ⟨rfl, e⟩
      · rw [← e]; exact hp'
      · rw [e] at hp'; exact absurd hp'.symm (hne _ _ _ _ _ _)
    refine Locks.grow I G (fun n' h' => same _ _ h' (by simp)) (fun n' i' h' => same _ _ h' (by simp))
      (fun n' b i' h' => same _ _ h' (by simp)) (fun n' i' x' xl xh mid ch nl nh h' => .inl (same _ _ h' (by simp)))
      (fun n' j xl xh nl nh h' => same _ _ h' (by simp))
      (fun n' => by rcases ph n' with e | ⟨rfl, e⟩ <;> simp [e, h, Phase.half]) (fun q hq => ?_) (fun n' i' J l hj hl => ?_)
      (fun n' i' J hj => ?_) (fun n' i' J hj => by rw [e2]; exact ⟨rfl, rfl, rfl⟩) ?_
    · rcases ph q with e | ⟨rfl, e⟩
      · rw [e]; exact hq
      · rw [h] at hq; cases hq
    · rcases ph n' with e | ⟨rfl, e⟩
      · rw [← e]; exact .inl hj
      · rw [e] at hj
        cases hj
        have hl' : m.nL ≤ l ∧ l < m.nL + 2 := by
          rcases hl with hl | hl <;> cases hl <;> omega
        refine .inr ⟨by omega, ?_, ?_, fun q j hc => ?_⟩
        · rw [e4]; exact I.live_new (by simp [Alloc]; omega)
        · simp only [srcLeaf]
          rw [if_pos]
          simp only [Ref.leaf.injEq]
          omega
        · rw [e2] at hc
          have := I.shape.cell_al q j _ hc
          simp only [Alloc] at this
          omega
    · rcases ph n' with e | ⟨rfl, e⟩
      · rw [← e]; exact .inl hj
      · rw [e] at hj
        cases hj
        refine .inr ⟨rfl, rfl, ?_⟩
        rw [e2]
        exact I.shape.lev _ _ _ hx
    · intro n' l _ _ _ q j hq hc
      rw [e2, (I.shape.fresh q hq).1] at hc
      cases hc

end Scc.Grove
