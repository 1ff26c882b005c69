import Verif.Grove.Prune

/-!
# `coalesce` and `cleanup_root`
-/

namespace Scc.Grove

local notation "Key" => Nat
local notation "Id" => Nat
local notation "Thr" => Nat

variable {V : Type} {m m' : Mem V} {A : Key → Option V} {src : Ref → Ref}

/-- There is nothing below a retired object. -/
theorem Inv.retired_end (I : Inv m A src) {c : Id} (h : Retired m.node m.leaf (.node c)) :
    (m.node c).kids = [] ∧ ∀ k, (m.node c).dest k = .ret := by
  have hk : (m.node c).kids = [] := by
    cases hk : (m.node c).kids with
    | nil => rfl
    | cons a b =>
      obtain ⟨y, hy⟩ := I.shape.unb c (by simp [hk])
      replace h : (m.node c).cell 0 = .ret := h
      rw [h] at hy; cases hy
  refine ⟨hk, fun k => ?_⟩
  simp only [Node.dest, hk, route_nil]
  exact h

/-- A search path that ends at a retired object. -/
theorem Inv.retired_none (I : Inv m A src) {k : Key} {r : Ref} (ho : On m.root m.node k r)
    (h : Retired m.node m.leaf r) : A k = none := by
  cases r with
  | leaf l =>
    rw [← I.mean.leaf k l ho]
    simp [Leaf.get, I.dead.empty l h]
  | node c =>
    refine I.mean.null k c ho fun y => ?_
    rw [(I.retired_end h).2]
    simp

/-- What is assumed of a change of one node. -/
structure Trim (m m' : Mem V) (n : Id) (T : Key → Prop) (gone : Ref → Prop) : Prop where
  root : m'.root = m.root
  other : ∀ c, c ≠ n → m'.node c = m.node c
  lit : Lit m.root m.node (.node n)
  plain : (m.phase n).plain = true
  keep : ∀ k, ¬ T k → (m'.node n).dest k = (m.node n).dest k
  new : ∀ k, T k → ∃ r, (m.node n).dest k = .to r ∧ gone r ∧
    ((∃ z j, (m'.node n).dest k = .to z ∧ ¬ gone z ∧ j ∈ (m.node n).slots ∧ (m.node n).cell j = .to z) ∨
      ∀ z, (m'.node n).dest k ≠ .to z)
  goneOk : ∀ r, gone r → Retired m.node m.leaf r ∧ (∃ j ∈ (m.node n).slots, (m.node n).cell j = .to r) ∧
    ∀ k, (m.node n).dest k = .to r → T k

variable {n : Id} {T : Key → Prop} {gone : Ref → Prop}

theorem Trim.full (Q : Trim m m' n T gone) : ∀ i x xl xh mid ch cl, m.phase n ≠ .full i x xl xh mid ch (some cl) := by
  intro i x xl xh mid ch cl e
  have := Q.plain; rw [e] at this; cases this

theorem Trim.slot (Q : Trim m m' n T gone) (I : Inv m A src) {j : Nat} (hj : j ∈ (m.node n).slots) :
    Use m.root m.node n j := I.slot_use Q.lit (I.not_cut Q.full) hj

theorem Trim.away (Q : Trim m m' n T gone) (I : Inv m A src) {j : Nat} {z : Ref} (hj : j ∈ (m.node n).slots)
    (hz : (m.node n).cell j = .to z) {c : Id} {J : Job} (h : (m.phase c).job = some J) : z ∉ J.ch := by
  refine I.not_in_ch Q.full (Phase.plain_half Q.plain) (Q.slot I hj) hz h ?_
  rintro rfl
  rw [Phase.plain_job Q.plain] at h; cases h

theorem Trim.uncut (Q : Trim m m' n T gone) (I : Inv m A src) {j : Nat} {z : Ref} (hj : j ∈ (m.node n).slots)
    (hz : (m.node n).cell j = .to z) (k : Key) : ¬ Cut m.phase z k := by
  rintro ⟨c, i, J, h1, h2, _⟩
  exact Q.away I hj hz (Phase.half_job h1) h2

theorem Trim.from (Q : Trim m m' n T gone) (I : Inv m A src) {c : Id} {j : Nat} {r : Ref} (hr : gone r)
    (hu : Use m.root m.node c j) (hc : (m.node c).cell j = .to r) : c = n := by
  obtain ⟨_, ⟨i, h1, h2⟩, _⟩ := Q.goneOk r hr
  exact (I.order.parent _ _ _ _ _ hu (Q.slot I h1) hc h2).1

theorem Trim.to (Q : Trim m m' n T gone) (I : Inv m A src) {k : Key} {y : Ref} (h : On m.root m.node k y)
    (hy : ¬ gone y) : On m'.root m'.node k y := by
  induction h with
  | root h => exact .root (by rw [Q.root]; exact h)
  | @step c y h hd ih =>
    have hc : ¬ gone (.node c) := by
      intro hg
      rw [(I.retired_end (Q.goneOk _ hg).1).2] at hd
      cases hd
    refine .step (ih hc) ?_
    by_cases e : c = n
    · subst e
      by_cases hk : T k
      · obtain ⟨r, h1, h2, _⟩ := Q.new k hk
        rw [hd] at h1
        cases h1
        exact absurd h2 hy
      · rw [Q.keep k hk, hd]
    · rw [Q.other c e, hd]

theorem Trim.of (Q : Trim m m' n T gone) (I : Inv m A src) {k : Key} {y : Ref} (h : On m'.root m'.node k y) :
    ¬ gone y ∧ Lit m.root m.node y ∧ (On m.root m.node k y ∨ A k = none ∧ ¬ Cut m.phase y k) := by
  induction h with
  | @root r h =>
    rw [Q.root] at h
    refine ⟨fun hg => ?_, ⟨k, .root h⟩, .inl (.root h)⟩
    obtain ⟨_, ⟨i, h1, h2⟩, _⟩ := Q.goneOk _ hg
    have h3 := I.shape.lev _ _ _ h2
    have h4 := I.root_above Q.lit h
    simp only [lvl_node] at h3
    omega
  | @step c y ho hd ih =>
    obtain ⟨h1, h2, h3⟩ := ih
    by_cases e : c = n
    · subst e
      by_cases hk : T k
      · obtain ⟨r, g1, g2, g3 | g3⟩ := Q.new k hk
        · obtain ⟨z, j, a1, a2, a3, a4⟩ := g3
          rw [hd] at a1
          cases a1
          refine ⟨a2, (Q.slot I a3).child a4, .inr ⟨?_, Q.uncut I a3 a4 k⟩⟩
          rcases h3 with h3 | h3
          · exact I.retired_none (.step h3 g1) (Q.goneOk r g2).1
          · exact h3.1
        · exact absurd hd (g3 y)
      · rw [Q.keep k hk] at hd
        refine ⟨fun hg => hk ((Q.goneOk y hg).2.2 k hd), (Q.slot I route_slots).child hd, ?_⟩
        exact h3.imp (fun h => .step h hd) (fun h => ⟨h.1, Q.uncut I route_slots hd k⟩)
    · rw [Q.other c e] at hd
      rcases h3 with h3 | ⟨h3, h4⟩
      · exact ⟨fun hg => e (Q.from I hg h3.use hd), ⟨k, .step h3 hd⟩, .inl (.step h3 hd)⟩
      · obtain ⟨g1, g2⟩ := I.descend (.step hd (.refl _)) h2 h4
        exact ⟨fun hg => e (Q.from I hg (I.use_of h2 h4) hd), g1, .inr ⟨h3, g2⟩⟩

theorem Trim.null (Q : Trim m m' n T gone) (I : Inv m A src) {k : Key} (h : On m.root m.node k (.node n))
    (hd : ∀ y, (m'.node n).dest k ≠ .to y) : A k = none := by
  by_cases hk : T k
  · obtain ⟨r, h1, h2, _⟩ := Q.new k hk
    exact I.retired_none (.step h h1) (Q.goneOk r h2).1
  · rw [Q.keep k hk] at hd
    exact I.mean.null k n h hd

/-- The other assumptions. -/
structure Trim2 (m m' : Mem V) (n : Id) : Prop where
  leaf : m'.leaf = m.leaf
  frozen : m'.frozen = m.frozen
  nN : m'.nN = m.nN
  nL : m'.nL = m.nL
  dead : m'.dead = m.dead
  same : ∀ c, c ≠ n → m'.phase c = m.phase c
  lv : (m'.node n).lv = (m.node n).lv
  node : NodeOk m'.node m.nN m.nL n
  plain' : (m'.phase n).plain = true
  over : (m.phase n).over = false
  cells : ∀ j y, (m'.node n).cell j = .to y → ∃ j0, (m.node n).cell j0 = .to y
  slots : ∀ j ∈ (m'.node n).slots, ∀ y, (m'.node n).cell j = .to y → ∃ j0 ∈ (m.node n).slots, (m.node n).cell j0 = .to y
  par : ∀ j j' y, j ∈ (m'.node n).slots → j' ∈ (m'.node n).slots → (m'.node n).cell j = .to y →
    (m'.node n).cell j' = .to y → j = j' ∨ ∃ b i, m'.phase n = .move b i ∧ (j = i ∨ j' = i)
  sub : ∀ e ∈ (m'.node n).kids, e ∈ (m.node n).kids
  coal : ∀ i, m'.phase n = .coal i → i ≠ 0 ∧ (∀ e ∈ (m'.node n).kids, e.2 ≠ i) ∧ ∃ y, (m'.node n).cell 0 = .to y
  move : ∀ b i, m'.phase n = .move b i → (∃ l, (m'.node n).kids = l ++ [(b, i)]) ∧
    ∃ y, (m'.node n).cell 0 = .to y ∧ (m'.node n).cell i = .to y

theorem Prune.drift {n : Id} {gone : Ref → Prop} (P : Prune m m' A n gone) (I : Inv m A src)
    (hf : ∀ x, gone (.leaf x) → Fell m m' x) : Drift m m' A src := by
  refine ⟨fun k x ho => ?_, fun l ⟨k, ho⟩ => ?_, fun k1 k2 x y hne h1 h2 h3 => ?_⟩
  · by_cases hg : gone (.leaf x)
    · rcases P.goneOk _ hg with h | h
      · exact .inr (.inr ⟨h, I.retired_none ho h, fun ⟨k', ho'⟩ => (P.of k' _ ho').1 hg, hf x hg⟩)
      · cases h
    · exact .inl (P.to k _ ho hg)
  · obtain ⟨h1, ⟨k', h2⟩, _⟩ := P.of k _ ho
    exact .inl ⟨k', h2, P.to k' _ h2 h1⟩
  · have hl := (P.inv I).shape.lev
    cases (P.to k2 _ h1 (P.of k1 _ h3).1).unique hl h2 rfl
    exact absurd rfl hne

/-- Threads can go on. -/
theorem Prune.next {n : Id} {gone : Ref → Prop} (P : Prune m m' A n gone) (I : Inv m A src)
    (h1 : (m.node n).cell 0 = .ret → (m'.node n).cell 0 = .ret)
    (h2 : gone (.node n) → m'.dead (.node n) = true ∨ (m'.node n).cell 0 = .ret ∧ (m.node n).cell 0 = .ret)
    (h3 : m'.dead (.node n) = true → m'.node n = m.node n) (h4 : ∀ x, gone (.leaf x) → Fell m m' x) : Both m m' A src := by
  have ret : ∀ x, Retired m.node m.leaf x → Retired m'.node m'.leaf x := by
    intro x h
    cases x with
    | leaf l => simp only [Retired, P.leaf]; exact h
    | node c =>
      by_cases e : c = n
      · subst e; exact h1 h
      · simp only [Retired, P.other c e]; exact h
  refine ⟨⟨P.inv I, fun k x h => ?_, fun x h => ?_, fun x _ h => ret x h, Nat.le_of_eq P.nN.symm, Nat.le_of_eq P.nL.symm,
    fun c h => ?_, fun l _ => by rw [P.leaf]⟩, P.drift I h4⟩
  · by_cases hg : gone x
    · rcases P.goneOk x hg with h' | rfl
      · exact .inr (.inr ⟨ret x h', I.retired_none h h'⟩)
      · rcases h2 hg with h' | ⟨h', h''⟩
        · exact .inr (.inl h')
        · exact .inr (.inr ⟨h', I.retired_none h h''⟩)
    · exact .inl (P.to k x h hg)
  · rcases P.dead x with h' | ⟨_, _, h', _⟩
    · rw [h']; exact h
    · exact h'
  · by_cases e : c = n
    · subst e; exact h3 h
    · exact P.other c e

theorem Trim.inv (Q : Trim m m' n T gone) (P : Trim2 m m' n) (I : Inv m A src) (h0 : (m.node n).cell 0 ≠ .ret)
    (h4 : ∀ x, gone (.leaf x) → Fell m m' x) : Both m m' A src := by
  have ng : ¬ gone (.node n) := by
    intro hg
    obtain ⟨_, ⟨i, _, h2⟩, _⟩ := Q.goneOk _ hg
    have h3 := I.shape.lev _ _ _ h2
    simp only [lvl_node] at h3
    omega
  have lit' : Lit m'.root m'.node (.node n) := by
    obtain ⟨k, ho⟩ := Q.lit
    exact ⟨k, Q.to I ho ng⟩
  have used : ∀ j, Use m'.root m'.node n j → j ∈ (m'.node n).slots := by
    rintro j ⟨k, _, rfl⟩
    exact route_slots
  refine Prune.next (n := n) (gone := gone) ?_ I (fun h => absurd h h0) (fun h => absurd h ng) (fun h => ?_) h4
  rotate_left
  · rw [P.dead] at h
    have := I.dead.over n h
    rw [P.over] at this; cases this
  refine {
    leaf := P.leaf, frozen := P.frozen, nN := P.nN, nL := P.nL, other := Q.other, same := P.same, lv := P.lv,
    node := P.node, lit := Q.lit, plain := Q.plain, plain' := P.plain', over := P.over, root := .inl Q.root,
    root_lt := fun r h => I.shape.root_lt r (by rw [← Q.root]; exact h),
    empty := fun h => ?_, dead := fun y => .inl (by rw [P.dead]),
    to := fun k y h h' => Q.to I h h', of := fun k y h => Q.of I h, null := fun k h h' => Q.null I h h',
    goneOk := fun y h => .inl (Q.goneOk y h).1,
    away := fun c J y hj hg => ?_,
    cells := P.cells, use := fun j y hu hc => ?_,
    par := fun j j' y hu hu' => P.par j j' y (used j hu) (used j' hu'),
    sub := P.sub, locked := fun _ => .inl lit', coal := fun i h => ⟨lit', P.coal i h⟩,
    move := fun b i h => ⟨lit', P.move b i h⟩ }
  · obtain ⟨k, ho⟩ := lit'
    obtain ⟨r, hr, _⟩ := ho.path
    rw [h] at hr; cases hr
  · obtain ⟨_, ⟨i, h1, h2⟩, _⟩ := Q.goneOk _ hg
    exact Q.away I h1 h2 hj
  · obtain ⟨j0, h1, h2⟩ := P.slots j (used j hu) y hc
    exact ⟨j0, Q.slot I h1, h2⟩

/-- No two places of a locked node have the same child. -/
theorem Inv.slot_inj (I : Inv m A src) {n j j' : Nat} {y : Ref} (h : m.phase n = .locked)
    (hl : Lit m.root m.node (.node n)) (hj : j ∈ (m.node n).slots) (hj' : j' ∈ (m.node n).slots)
    (hy : (m.node n).cell j = .to y) (hy' : (m.node n).cell j' = .to y) : j = j' := by
  have hc := I.not_cut (n := n) (by simp [h])
  rcases (I.order.parent _ _ _ _ _ (I.slot_use hl hc hj) (I.slot_use hl hc hj') hy hy').2 with e | ⟨b, i, e, _⟩
  · exact e
  · rw [h] at e; cases e

theorem retired_iff {r : Ref} : m.retired r = true ↔ Retired m.node m.leaf r := by
  cases r <;> simp [Mem.retired, Retired]

theorem NodeOk.kidsSub {N N' : Id → Node} {nN nL c : Nat} {l : List (Key × Nat)} (K : NodeOk N nN nL c)
    (hN : N' c = { N c with kids := l }) (hl : ∀ y, lvl N' y = lvl N y) (hs : l.Sublist (N c).kids) : NodeOk N' nN nL c := by
  have hk : (N' c).kids = l := by rw [hN]
  have hv : (N' c).lv = (N c).lv := by rw [hN]
  have hu : (N' c).used = (N c).used := by rw [hN]
  have hc : (N' c).cell = (N c).cell := by rw [hN]
  refine ⟨by rw [hc]; exact K.cell_al, fun j y hy => ?_, by rw [hv]; exact K.lv_pos, by rw [hk]; exact K.asc.sublist hs,
    by rw [hk]; exact (hs.map _).nodup K.nodup, fun e he => ?_, by rw [hu]; exact K.used_pos, fun h => ?_, fun e he => ?_⟩
  · rw [hc] at hy; rw [hl, hv]; exact K.lev j y hy
  · rw [hk] at he; rw [hu]; exact K.pos e (hs.mem he)
  · rw [hc]
    rw [hk] at h
    refine K.unb fun h' => h ?_
    rw [h'] at hs
    exact List.sublist_nil.1 hs
  · rw [hk] at he; rw [hc]; exact K.kid e (hs.mem he)

theorem route_remove {l l' : List (Key × Nat)} {b i : Nat} {k : Key} (hn : ((l ++ (b, i) :: l').map Prod.snd).Nodup)
    (hp : ∀ e ∈ l ++ (b, i) :: l', e.2 ≠ 0) :
    (route (l ++ (b, i) :: l') k ≠ i → route (l ++ l') k = route (l ++ (b, i) :: l') k) ∧ route (l ++ l') k ≠ i := by
  induction l with
  | nil =>
    simp only [List.nil_append] at hn hp ⊢
    simp only [List.map_cons, List.nodup_cons] at hn
    rw [route_cons]
    refine ⟨fun h => ?_, ?_⟩
    · by_cases hk : k ≤ b
      · rw [if_pos hk] at h; exact absurd rfl h
      · rw [if_neg hk]
    · intro e
      rcases route_mem (l := l') (k := k) with h | ⟨b', _, h⟩
      · exact hp (b, i) (List.mem_cons_self ..) (by simp only; omega)
      · exact hn.1 (List.mem_map.2 ⟨_, h, e⟩)
  | cons e l ih =>
    simp only [List.cons_append, List.map_cons, List.nodup_cons] at hn ⊢
    obtain ⟨h1, h2⟩ := ih hn.2 fun e' he' => hp e' (List.mem_cons_of_mem _ he')
    rw [route_cons, route_cons]
    by_cases hk : k ≤ e.1
    · rw [if_pos hk, if_pos hk]
      refine ⟨fun _ => rfl, fun he => hn.1 ?_⟩
      rw [he]
      simp
    · rw [if_neg hk, if_neg hk]
      exact ⟨h1, h2⟩

theorem Inv.unlink (I : Inv m A src) {n i : Nat} {b : Key} {r : Ref} {l l' : List (Key × Nat)}
    (h : m.phase n = .locked) (hk : (m.node n).kids = l ++ (b, i) :: l')
    (hc : (m.node n).cell i = .to r) (hr : m.retired r = true) :
    Both m (((m.setNode n { m.node n with kids := l ++ l' }).bump n).setPhase n (.coal i)) A src := by
  have K := I.shape.nodeOk n
  have hbi : (b, i) ∈ (m.node n).kids := by rw [hk]; simp
  obtain ⟨y0, hy0⟩ := K.unb (by rw [hk]; simp)
  have hlit : Lit m.root m.node (.node n) := by
    rcases I.locks.locked n h with h' | h'
    · exact h'
    · rw [hy0] at h'; cases h'
  have hsub : (l ++ l').Sublist (m.node n).kids := by
    rw [hk]
    exact (List.Sublist.refl l).append (List.sublist_cons_self ..)
  have his : i ∈ (m.node n).slots := List.mem_cons_of_mem _ (List.mem_map.2 ⟨_, hbi, rfl⟩)
  have ro : ∀ k, (route (m.node n).kids k ≠ i → route (l ++ l') k = route (m.node n).kids k) ∧ route (l ++ l') k ≠ i := by
    intro k
    have h1 := K.nodup
    have h2 := fun e he => (K.pos e he).1
    rw [hk] at h1 h2 ⊢
    exact route_remove h1 h2
  generalize hm' : (((m.setNode n { m.node n with kids := l ++ l' }).bump n).setPhase n (.coal i) : Mem V) = m'
  have e1 : m'.root = m.root := by rw [← hm']; rfl
  have e2 : m'.node = upd m.node n { m.node n with kids := l ++ l' } := by rw [← hm']; rfl
  have e3 : m'.phase = upd m.phase n (.coal i) := by rw [← hm']; rfl
  have e4 : m'.dead = m.dead := by rw [← hm']; rfl
  have e5 : m'.leaf = m.leaf := by rw [← hm']; rfl
  have e6 : m'.frozen = m.frozen := by rw [← hm']; rfl
  have e7 : m'.nL = m.nL := by rw [← hm']; rfl
  have e8 : m'.nN = m.nN := by rw [← hm']; rfl
  clear hm'
  have hN : m'.node n = { m.node n with kids := l ++ l' } := by rw [e2, upd_eq]
  have kids : (m'.node n).kids = l ++ l' := by rw [hN]
  have cell : (m'.node n).cell = (m.node n).cell := by rw [hN]
  have p1 : m'.phase n = .coal i := by rw [e3, upd_eq]
  have hlv : ∀ c, (m'.node c).lv = (m.node c).lv := by
    intro c
    by_cases e : c = n
    · subst e; rw [hN]
    · rw [e2, upd_ne e]
  have slots' : ∀ j ∈ (m'.node n).slots, j ∈ (m.node n).slots := by
    intro j hj
    simp only [Node.slots, kids] at hj
    rcases List.mem_cons.1 hj with e | e
    · rw [e]; exact List.mem_cons_self ..
    · exact List.mem_cons_of_mem _ ((hsub.map Prod.snd).mem e)
  refine Trim.inv (n := n) (T := fun k => route (m.node n).kids k = i) (gone := fun y => y = r) ?_ ?_ I (by rw [hy0]; simp) fun x hx => ⟨n, i, h, by rw [hc, hx], .inl p1⟩
  · refine ⟨e1, fun c hc => by rw [e2, upd_ne hc], hlit, by rw [h]; rfl, fun k hk' => ?_, fun k hk' => ?_, ?_⟩
    · simp only [Node.dest, kids, cell, (ro k).1 hk']
    · refine ⟨r, by simp only [Node.dest, hk', hc], rfl, .inl ?_⟩
      have hs : route (m'.node n).kids k ∈ (m'.node n).slots := route_slots
      have hs' := slots' _ hs
      have : ∃ z, (m.node n).cell (route (m'.node n).kids k) = .to z := by
        rcases List.mem_cons.1 hs' with e | e
        · rw [e]; exact ⟨_, hy0⟩
        · obtain ⟨e, he, e'⟩ := List.mem_map.1 e
          rw [← e']; exact K.kid e he
      obtain ⟨z, hz⟩ := this
      refine ⟨z, _, by simp only [Node.dest, cell, hz], ?_, hs', hz⟩
      rintro rfl
      have := I.slot_inj h hlit hs' his hz hc
      rw [kids] at this
      exact (ro k).2 this
    · rintro _ rfl
      exact ⟨retired_iff.1 hr, ⟨i, his, hc⟩, fun k hk' => I.slot_inj h hlit route_slots his hk' hc⟩
  · refine ⟨e5, e6, e8, e7, e4, fun c hc => by rw [e3, upd_ne hc], hlv n, K.kidsSub hN (lvl_congr hlv) hsub,
      by rw [p1]; rfl, by rw [h]; rfl, fun j y hy => ⟨j, by rw [← cell]; exact hy⟩,
      fun j hj y hy => ⟨j, slots' j hj, by rw [← cell]; exact hy⟩, fun j j' y hj hj' hy hy' => ?_, fun e he => ?_,
      fun i' hi' => ?_, fun b i hp => by rw [p1] at hp; cases hp⟩
    · rw [cell] at hy hy'
      exact .inl (I.slot_inj h hlit (slots' j hj) (slots' j' hj') hy hy')
    · rw [kids] at he; exact hsub.mem he
    · rw [p1] at hi'
      cases hi'
      refine ⟨(K.pos _ hbi).1, fun e he => ?_, y0, by rw [cell]; exact hy0⟩
      intro hi
      have h1 := K.nodup
      rw [hk] at h1
      rw [kids] at he
      simp only [List.map_append, List.map_cons, List.nodup_append, List.nodup_cons] at h1
      rcases List.mem_append.1 he with he | he
      · exact h1.2.2 i (hi ▸ List.mem_map_of_mem he) i (List.mem_cons_self ..) rfl
      · exact h1.2.1.1 (hi ▸ List.mem_map_of_mem he)

theorem Inv.clear (I : Inv m A src) {n i : Nat} (h : m.phase n = .coal i) :
    Both m ((m.setNode n { m.node n with cell := upd (m.node n).cell i .null }).setPhase n .locked) A src := by
  have K := I.shape.nodeOk n
  obtain ⟨hlit, hi, hne, y0, hy0⟩ := I.locks.coal n i h
  generalize hm' : ((m.setNode n { m.node n with cell := upd (m.node n).cell i .null }).setPhase n .locked : Mem V) = m'
  have e1 : m'.root = m.root := by rw [← hm']; rfl
  have e2 : m'.node = upd m.node n { m.node n with cell := upd (m.node n).cell i .null } := by rw [← hm']; rfl
  have e3 : m'.phase = upd m.phase n .locked := by rw [← hm']; rfl
  have e4 : m'.dead = m.dead := by rw [← hm']; rfl
  have e5 : m'.leaf = m.leaf := by rw [← hm']; rfl
  have e6 : m'.frozen = m.frozen := by rw [← hm']; rfl
  have e7 : m'.nL = m.nL := by rw [← hm']; rfl
  have e8 : m'.nN = m.nN := by rw [← hm']; rfl
  clear hm'
  have hN : m'.node n = { m.node n with cell := upd (m.node n).cell i .null } := by rw [e2, upd_eq]
  have kids : (m'.node n).kids = (m.node n).kids := by rw [hN]
  have cell : ∀ j, (m'.node n).cell j = if j = i then .null else (m.node n).cell j := fun j => by rw [hN]; rfl
  have cell' : ∀ j y, (m'.node n).cell j = .to y → j ≠ i ∧ (m.node n).cell j = .to y := by
    intro j y hy
    rw [cell] at hy
    split at hy
    · cases hy
    · next e => exact ⟨e, hy⟩
  have p1 : m'.phase n = .locked := by rw [e3, upd_eq]
  have hlv : ∀ c, (m'.node c).lv = (m.node c).lv := by
    intro c
    by_cases e : c = n
    · subst e; rw [hN]
    · rw [e2, upd_ne e]
  have hslots : (m'.node n).slots = (m.node n).slots := by simp only [Node.slots, kids]
  have slot_ne : ∀ j ∈ (m.node n).slots, j ≠ i := by
    intro j hj
    rcases List.mem_cons.1 hj with e | e
    · rw [e]; exact hi.symm
    · obtain ⟨a, ha, rfl⟩ := List.mem_map.1 e
      exact hne a ha
  have Q : Trim m m' n (fun _ => False) (fun _ => False) := by
    refine ⟨e1, fun c hc => by rw [e2, upd_ne hc], hlit, by rw [h]; rfl, fun k _ => ?_, fun k hk' => hk'.elim, fun r hr => hr.elim⟩
    simp only [Node.dest, kids, cell]
    rw [if_neg (slot_ne _ route_slots)]
  refine Q.inv ?_ I (by rw [hy0]; simp) fun _ h => h.elim
  · refine ⟨e5, e6, e8, e7, e4, fun c hc => by rw [e3, upd_ne hc], hlv n, ?_,
      by rw [p1]; rfl, by rw [h]; rfl, fun j y hy => ⟨j, (cell' j y hy).2⟩,
      fun j hj y hy => ⟨j, hslots ▸ hj, (cell' j y hy).2⟩, fun j j' y hj hj' hy hy' => ?_, fun e he => kids ▸ he,
      fun i' hi' => (by rw [p1] at hi'; cases hi'), fun b i hp => by rw [p1] at hp; cases hp⟩
    · refine ⟨fun j y hy => K.cell_al j y (cell' j y hy).2, fun j y hy => ?_, by rw [hlv]; exact K.lv_pos,
        by rw [kids]; exact K.asc, by rw [kids]; exact K.nodup, by rw [kids, hN]; exact K.pos, by rw [hN]; exact K.used_pos, ?_, ?_⟩
      · rw [lvl_congr hlv, hlv]; exact K.lev j y (cell' j y hy).2
      · intro _
        rw [cell, if_neg hi.symm]; exact ⟨y0, hy0⟩
      · intro e he
        rw [kids] at he
        rw [cell, if_neg (hne e he)]; exact K.kid e he
    · have h1 := Q.slot I (hslots ▸ hj)
      have h2 := Q.slot I (hslots ▸ hj')
      rcases (I.order.parent _ _ _ _ _ h1 h2 (cell' j y hy).2 (cell' j' y hy').2).2 with e | ⟨b, i, e, _⟩
      · exact .inl e
      · rw [h] at e; cases e

theorem Inv.retire (I : Inv m A src) {n : Nat} {r : Ref} (h : m.phase n = .locked) (hk : (m.node n).kids = [])
    (hc : (m.node n).cell 0 = .to r) (hr : m.retired r = true) :
    Both m (m.setNode n { m.node n with cell := upd (m.node n).cell 0 .ret }) A src := by
  have K := I.shape.nodeOk n
  have hlit : Lit m.root m.node (.node n) := by
    rcases I.locks.locked n h with h' | h'
    · exact h'
    · rw [hc] at h'; cases h'
  generalize hm' : (m.setNode n { m.node n with cell := upd (m.node n).cell 0 .ret } : Mem V) = m'
  have e1 : m'.root = m.root := by rw [← hm']; rfl
  have e2 : m'.node = upd m.node n { m.node n with cell := upd (m.node n).cell 0 .ret } := by rw [← hm']; rfl
  have e3 : m'.phase = m.phase := by rw [← hm']; rfl
  have e4 : m'.dead = m.dead := by rw [← hm']; rfl
  have e5 : m'.leaf = m.leaf := by rw [← hm']; rfl
  have e6 : m'.frozen = m.frozen := by rw [← hm']; rfl
  have e7 : m'.nL = m.nL := by rw [← hm']; rfl
  have e8 : m'.nN = m.nN := by rw [← hm']; rfl
  clear hm'
  have hN : m'.node n = { m.node n with cell := upd (m.node n).cell 0 .ret } := by rw [e2, upd_eq]
  have kids : (m'.node n).kids = [] := by rw [hN]; exact hk
  have cell : ∀ j, (m'.node n).cell j = if j = 0 then .ret else (m.node n).cell j := fun j => by rw [hN]; rfl
  have cell' : ∀ j y, (m'.node n).cell j = .to y → j ≠ 0 ∧ (m.node n).cell j = .to y := by
    intro j y hy
    rw [cell] at hy
    split at hy
    · cases hy
    · next e => exact ⟨e, hy⟩
  have p1 : m'.phase n = .locked := by rw [e3, h]
  have hlv : ∀ c, (m'.node c).lv = (m.node c).lv := by
    intro c
    by_cases e : c = n
    · subst e; rw [hN]
    · rw [e2, upd_ne e]
  have hslots : ∀ j ∈ (m'.node n).slots, j = 0 := by
    intro j hj
    simp only [Node.slots, kids, List.map_nil, List.mem_cons, List.not_mem_nil, or_false] at hj
    exact hj
  have Q : Trim m m' n (fun _ => True) (fun y => y = r) := by
    refine ⟨e1, fun c hc => by rw [e2, upd_ne hc], hlit, by rw [h]; rfl, fun k hk => absurd trivial hk, fun k _ => ?_, ?_⟩
    · refine ⟨r, by simp only [Node.dest, hk, route_nil, hc], rfl, .inr fun z => ?_⟩
      simp only [Node.dest, kids, route_nil, cell, if_pos]
      simp
    · rintro _ rfl
      exact ⟨retired_iff.1 hr, ⟨0, List.mem_cons_self .., hc⟩, fun _ _ => trivial⟩
  refine Q.inv ?_ I (by rw [hc]; simp) fun x hx => ⟨n, 0, h, by rw [hc, hx], .inr ⟨p1, rfl, by rw [cell, if_pos rfl]⟩⟩
  · refine ⟨e5, e6, e8, e7, e4, fun c hc => by rw [e3], hlv n, ?_,
      by rw [p1]; rfl, by rw [h]; rfl, fun j y hy => ⟨j, (cell' j y hy).2⟩,
      fun j hj y hy => absurd (hslots j hj) (cell' j y hy).1, fun j j' y hj hj' hy hy' => absurd (hslots j hj) (cell' j y hy).1,
      fun e he => (by rw [kids] at he; cases he),
      fun i' hi' => (by rw [p1] at hi'; cases hi'), fun b i hp => by rw [p1] at hp; cases hp⟩
    · refine ⟨fun j y hy => K.cell_al j y (cell' j y hy).2, fun j y hy => ?_, by rw [hlv]; exact K.lv_pos,
        by rw [kids, ← hk]; exact K.asc, by rw [kids, ← hk]; exact K.nodup, by rw [kids]; simp, by rw [hN]; exact K.used_pos,
        by rw [kids]; simp, by rw [kids]; simp⟩
      rw [lvl_congr hlv, hlv]; exact K.lev j y (cell' j y hy).2

theorem Inv.moveStep (I : Inv m A src) {n i : Nat} {b : Key} {r : Id} {z : Ref} {l : List (Key × Nat)}
    (h : m.phase n = .locked) (hk : (m.node n).kids = l ++ [(b, i)])
    (hc : (m.node n).cell 0 = .to (.node r)) (hr : m.retired (.node r) = true)
    (hz : (m.node n).cell i = .to z) :
    Both m ((m.setNode n { m.node n with cell := upd (m.node n).cell 0 (.to z) }).setPhase n (.move b i)) A src := by
  have K := I.shape.nodeOk n
  have hbi : (b, i) ∈ (m.node n).kids := by rw [hk]; simp
  have hlit : Lit m.root m.node (.node n) := by
    rcases I.locks.locked n h with h' | h'
    · exact h'
    · rw [hc] at h'; cases h'
  have his : i ∈ (m.node n).slots := List.mem_cons_of_mem _ (List.mem_map.2 ⟨_, hbi, rfl⟩)
  have h0s : 0 ∈ (m.node n).slots := List.mem_cons_self ..
  have hi := (K.pos _ hbi).1
  generalize hm' : ((m.setNode n { m.node n with cell := upd (m.node n).cell 0 (.to z) }).setPhase n (.move b i) : Mem V) = m'
  have e1 : m'.root = m.root := by rw [← hm']; rfl
  have e2 : m'.node = upd m.node n { m.node n with cell := upd (m.node n).cell 0 (.to z) } := by rw [← hm']; rfl
  have e3 : m'.phase = upd m.phase n (.move b i) := by rw [← hm']; rfl
  have e4 : m'.dead = m.dead := by rw [← hm']; rfl
  have e5 : m'.leaf = m.leaf := by rw [← hm']; rfl
  have e6 : m'.frozen = m.frozen := by rw [← hm']; rfl
  have e7 : m'.nL = m.nL := by rw [← hm']; rfl
  have e8 : m'.nN = m.nN := by rw [← hm']; rfl
  clear hm'
  have hN : m'.node n = { m.node n with cell := upd (m.node n).cell 0 (.to z) } := by rw [e2, upd_eq]
  have kids : (m'.node n).kids = (m.node n).kids := by rw [hN]
  have cell : ∀ j, (m'.node n).cell j = if j = 0 then .to z else (m.node n).cell j := fun j => by rw [hN]; rfl
  have p1 : m'.phase n = .move b i := by rw [e3, upd_eq]
  have hlv : ∀ c, (m'.node c).lv = (m.node c).lv := by
    intro c
    by_cases e : c = n
    · subst e; rw [hN]
    · rw [e2, upd_ne e]
  have hslots : (m'.node n).slots = (m.node n).slots := by simp only [Node.slots, kids]
  have Q : Trim m m' n (fun k => route (m.node n).kids k = 0) (fun y => y = .node r) := by
    refine ⟨e1, fun c hc => by rw [e2, upd_ne hc], hlit, by rw [h]; rfl, fun k hk' => ?_, fun k hk' => ?_, ?_⟩
    · simp only [Node.dest, kids, cell]
      rw [if_neg hk']
    · refine ⟨.node r, by simp only [Node.dest, hk', hc], rfl, .inl ⟨z, i, by simp only [Node.dest, kids, cell, hk', if_pos], ?_, his, hz⟩⟩
      rintro rfl
      exact hi (I.slot_inj h hlit his h0s hz hc)
    · rintro _ rfl
      exact ⟨retired_iff.1 hr, ⟨0, h0s, hc⟩, fun k hk' => I.slot_inj h hlit route_slots h0s hk' hc⟩
  refine Q.inv ?_ I (by rw [hc]; simp) (fun _ h => by cases h)
  · refine ⟨e5, e6, e8, e7, e4, fun c hc => by rw [e3, upd_ne hc], hlv n,
      K.setCell hN (lvl_congr hlv) (K.cell_al i z hz) (K.lev i z hz),
      by rw [p1]; rfl, by rw [h]; rfl, fun j y hy => ?_,
      fun j hj y hy => ?_, fun j j' y hj hj' hy hy' => ?_, fun e he => kids ▸ he,
      fun i' hi' => (by rw [p1] at hi'; cases hi'), fun b' i' hp => ?_⟩
    · rw [cell] at hy
      split at hy
      · cases hy; exact ⟨i, hz⟩
      · exact ⟨j, hy⟩
    · rw [cell] at hy
      split at hy
      · cases hy; exact ⟨i, his, hz⟩
      · exact ⟨j, hslots ▸ hj, hy⟩
    · rw [cell] at hy hy'
      by_cases e : j = 0 <;> by_cases e' : j' = 0
      · exact .inl (by rw [e, e'])
      · rw [if_pos e] at hy
        rw [if_neg e'] at hy'
        cases hy
        exact .inr ⟨b, i, p1, .inr (I.slot_inj h hlit (hslots ▸ hj') his hy' hz)⟩
      · rw [if_neg e] at hy
        rw [if_pos e'] at hy'
        cases hy'
        exact .inr ⟨b, i, p1, .inl (I.slot_inj h hlit (hslots ▸ hj) his hy hz)⟩
      · rw [if_neg e] at hy
        rw [if_neg e'] at hy'
        exact .inl (I.slot_inj h hlit (hslots ▸ hj) (hslots ▸ hj') hy hy')
    · rw [p1] at hp
      cases hp
      exact ⟨⟨l, by rw [kids, hk]⟩, z, by rw [cell, if_pos rfl], by rw [cell, if_neg hi]; exact hz⟩

theorem Inv.movedStep (I : Inv m A src) {n i : Nat} {b : Key} {l : List (Key × Nat)} (h : m.phase n = .move b i)
    (hk : (m.node n).kids = l ++ [(b, i)]) :
    Both m (((m.setNode n { m.node n with kids := l }).bump n).setPhase n (.coal i)) A src := by
  have K := I.shape.nodeOk n
  have hbi : (b, i) ∈ (m.node n).kids := by rw [hk]; simp
  obtain ⟨hlit, _, y0, hy0, hyi⟩ := I.locks.move n b i h
  have hsub : l.Sublist (m.node n).kids := by
    rw [hk]
    exact List.sublist_append_left ..
  have his : i ∈ (m.node n).slots := List.mem_cons_of_mem _ (List.mem_map.2 ⟨_, hbi, rfl⟩)
  have ro : ∀ k, (route (m.node n).kids k ≠ i → route l k = route (m.node n).kids k) ∧ route l k ≠ i := by
    intro k
    have h1 := K.nodup
    have h2 := fun e he => (K.pos e he).1
    rw [hk] at h1 h2 ⊢
    have := route_remove (k := k) h1 h2
    simpa using this
  have ri : ∀ k, route (m.node n).kids k = i → route l k = 0 := by
    intro k hk'
    refine route_above fun e he => ?_
    apply Decidable.byContradiction
    intro hlt
    have h1 : route (m.node n).kids k = route l k := by
      rw [hk]
      simp only [route, List.find?_append]
      cases hf : l.find? fun e => decide (k ≤ e.1) with
      | some a => simp
      | none =>
        have := List.find?_eq_none.1 hf e he
        simp at this
        omega
    exact (ro k).2 (h1 ▸ hk')
  generalize hm' : (((m.setNode n { m.node n with kids := l }).bump n).setPhase n (.coal i) : Mem V) = m'
  have e1 : m'.root = m.root := by rw [← hm']; rfl
  have e2 : m'.node = upd m.node n { m.node n with kids := l } := by rw [← hm']; rfl
  have e3 : m'.phase = upd m.phase n (.coal i) := by rw [← hm']; rfl
  have e4 : m'.dead = m.dead := by rw [← hm']; rfl
  have e5 : m'.leaf = m.leaf := by rw [← hm']; rfl
  have e6 : m'.frozen = m.frozen := by rw [← hm']; rfl
  have e7 : m'.nL = m.nL := by rw [← hm']; rfl
  have e8 : m'.nN = m.nN := by rw [← hm']; rfl
  clear hm'
  have hN : m'.node n = { m.node n with kids := l } := by rw [e2, upd_eq]
  have kids : (m'.node n).kids = l := by rw [hN]
  have cell : (m'.node n).cell = (m.node n).cell := by rw [hN]
  have p1 : m'.phase n = .coal i := by rw [e3, upd_eq]
  have hlv : ∀ c, (m'.node c).lv = (m.node c).lv := by
    intro c
    by_cases e : c = n
    · subst e; rw [hN]
    · rw [e2, upd_ne e]
  have slots' : ∀ j ∈ (m'.node n).slots, j ∈ (m.node n).slots := by
    intro j hj
    simp only [Node.slots, kids] at hj
    rcases List.mem_cons.1 hj with e | e
    · rw [e]; exact List.mem_cons_self ..
    · exact List.mem_cons_of_mem _ ((hsub.map Prod.snd).mem e)
  have Q : Trim m m' n (fun _ => False) (fun _ => False) := by
    refine ⟨e1, fun c hc => by rw [e2, upd_ne hc], hlit, by rw [h]; rfl, fun k _ => ?_, fun k hk' => hk'.elim, fun r hr => hr.elim⟩
    simp only [Node.dest, kids, cell]
    by_cases hk' : route (m.node n).kids k = i
    · rw [ri k hk', hk', hy0, hyi]
    · rw [(ro k).1 hk']
  have noti : ∀ e ∈ l, e.2 ≠ i := by
    intro e he hi
    have h1 := K.nodup
    rw [hk] at h1
    simp only [List.map_append, List.map_cons, List.nodup_append, List.nodup_cons] at h1
    exact h1.2.2 i (hi ▸ List.mem_map_of_mem he) i (List.mem_cons_self ..) rfl
  have slot_ne : ∀ j ∈ (m'.node n).slots, j ≠ i := by
    intro j hj
    simp only [Node.slots, kids] at hj
    rcases List.mem_cons.1 hj with e | e
    · rw [e]; exact (K.pos _ hbi).1.symm
    · obtain ⟨a, ha, rfl⟩ := List.mem_map.1 e
      exact noti a ha
  refine Q.inv ?_ I (by rw [hy0]; simp) fun _ h => h.elim
  · refine ⟨e5, e6, e8, e7, e4, fun c hc => by rw [e3, upd_ne hc], hlv n, K.kidsSub hN (lvl_congr hlv) hsub,
      by rw [p1]; rfl, by rw [h]; rfl, fun j y hy => ⟨j, by rw [← cell]; exact hy⟩,
      fun j hj y hy => ⟨j, slots' j hj, by rw [← cell]; exact hy⟩, fun j j' y hj hj' hy hy' => ?_, fun e he => ?_,
      fun i' hi' => ?_, fun b i hp => by rw [p1] at hp; cases hp⟩
    · rw [cell] at hy hy'
      rcases (I.order.parent _ _ _ _ _ (Q.slot I (slots' j hj)) (Q.slot I (slots' j' hj')) hy hy').2 with e | ⟨b1, i1, e, e'⟩
      · exact .inl e
      · rw [h] at e
        cases e
        rcases e' with e' | e'
        · exact absurd e' (slot_ne j hj)
        · exact absurd e' (slot_ne j' hj')
    · rw [kids] at he; exact hsub.mem he
    · rw [p1] at hi'
      cases hi'
      exact ⟨(K.pos _ hbi).1, by rw [kids]; exact noti, y0, by rw [cell]; exact hy0⟩

theorem Inv.rootEmpty (I : Inv m A src) {n : Nat} (h : m.phase n = .locked) (hr : m.root = some n)
    (hn : m.retired (.node n) = true) : Both m { m with root := none } A src := by
  obtain ⟨hk, hd⟩ := I.retired_end (retired_iff.1 hn)
  have none' : ∀ k y, ¬ On none m.node k y := by
    intro k y ho
    obtain ⟨r, hr, _⟩ := ho.path
    cases hr
  refine Prune.next (n := n) (gone := fun y => y = .node n) ?_ I (fun h => h) (fun _ => .inr ⟨retired_iff.1 hn, retired_iff.1 hn⟩) (fun _ => rfl) (fun _ h => by cases h)
  refine {
    leaf := rfl, frozen := rfl, nN := rfl, nL := rfl, other := fun _ _ => rfl, same := fun _ _ => rfl, lv := rfl,
    node := I.shape.nodeOk n, lit := ⟨0, .root hr⟩, plain := by rw [h]; rfl, plain' := (by rw [show ({ m with root := none } : Mem V).phase n = .locked from h]; rfl),
    over := by rw [h]; rfl, root := .inr hr, root_lt := fun r h => (by cases h),
    empty := fun _ k => I.retired_none (.root hr) (retired_iff.1 hn),
    dead := fun y => .inl rfl, to := fun k y ho hy => ?_, of := fun k y ho => absurd ho (none' k y),
    null := fun k ho _ => I.retired_none ho (retired_iff.1 hn),
    goneOk := fun y h => .inr h, away := fun c J y hj hg => ?_, cells := fun j y h => ⟨j, h⟩,
    use := fun j y hu => ?_, par := fun j j' y hu => ?_, sub := fun e he => he,
    locked := fun _ => .inr (retired_iff.1 hn), coal := fun i hp => ?_, move := fun b i hp => ?_ }
  · cases ho with
    | root h' => rw [hr] at h'; cases h'; exact absurd rfl hy
    | @step c y ho hd' =>
      exfalso
      rcases ho.lvl_root I.shape.lev hr with e | e
      · cases e
        rw [hd] at hd'; cases hd'
      · obtain ⟨r', hr', hp⟩ := ho.path
        rw [hr] at hr'
        cases hr'
        cases hp with
        | refl => exact Nat.lt_irrefl _ e
        | step hd2 _ => rw [hd] at hd2; cases hd2
  · rw [hg]
    exact I.chain.not_mem hj (by simp [h])
  · obtain ⟨k, ho, _⟩ := hu
    exact absurd ho (none' k _)
  · obtain ⟨k, ho, _⟩ := hu
    exact absurd ho (none' k _)
  · replace hp : m.phase n = _ := hp
    rw [h] at hp; cases hp
  · replace hp : m.phase n = _ := hp
    rw [h] at hp; cases hp

theorem Inv.rootOnly (I : Inv m A src) {n c : Nat} (h : m.phase n = .locked) (hr : m.root = some n)
    (hk : (m.node n).kids = []) (hc : (m.node n).cell 0 = .to (.node c)) :
    Both m ({ m.setPhase n .gone with root := some c }.kill [.node n]) A src := by
  have hd : ∀ k, (m.node n).dest k = .to (.node c) := fun k => by simp only [Node.dest, hk, route_nil, hc]
  have hlev := I.shape.lev _ _ _ hc
  simp only [lvl_node] at hlev
  generalize hm' : ({ m.setPhase n .gone with root := some c }.kill [.node n] : Mem V) = m'
  have e1 : m'.root = some c := by rw [← hm']; rfl
  have e2 : m'.node = m.node := by rw [← hm']; rfl
  have e3 : m'.phase = upd m.phase n .gone := by rw [← hm']; rfl
  have e4 : ∀ y, m'.dead y = (m.dead y || [Ref.node n].contains y) := by rw [← hm']; exact fun _ => rfl
  have e5 : m'.leaf = m.leaf := by rw [← hm']; rfl
  have e6 : m'.frozen = m.frozen := by rw [← hm']; rfl
  have e7 : m'.nL = m.nL := by rw [← hm']; rfl
  have e8 : m'.nN = m.nN := by rw [← hm']; rfl
  clear hm'
  have p1 : m'.phase n = .gone := by rw [e3, upd_eq]
  have to : ∀ k y, On m.root m.node k y → y ≠ .node n → On m'.root m'.node k y := by
    intro k y ho
    rw [e1, e2]
    induction ho with
    | root h' => intro hy; rw [hr] at h'; cases h'; exact absurd rfl hy
    | @step q y ho hdq ih =>
      intro hy
      by_cases e : q = n
      · subst e
        rw [hd] at hdq
        cases hdq
        exact .root rfl
      · exact .step (ih (by simpa using e)) hdq
  have of : ∀ k y, On m'.root m'.node k y → On m.root m.node k y ∧ lvl m.node y < (m.node n).lv := by
    intro k y ho
    rw [e1, e2] at ho
    induction ho with
    | root h' => cases h'; exact ⟨.step (.root hr) (hd k), by simp only [lvl_node]; omega⟩
    | @step q y ho hdq ih =>
      refine ⟨.step ih.1 hdq, ?_⟩
      have h1 := I.shape.lev.dest hdq
      have h2 := ih.2
      simp only [lvl_node] at h2
      omega
  have unlit : ∀ k, ¬ On m'.root m'.node k (.node n) := fun k ho => Nat.lt_irrefl _ (of k _ ho).2
  refine Prune.next (n := n) (gone := fun y => y = .node n) ?_ I (by rw [e2]; exact fun h => h) (fun _ => .inl (by rw [e4]; simp)) (fun _ => by rw [e2]) (fun _ h => by cases h)
  refine {
    leaf := e5, frozen := e6, nN := e8, nL := e7, other := fun _ _ => by rw [e2], same := fun c hc => by rw [e3, upd_ne hc],
    lv := by rw [e2],
    node := by rw [e2]; exact I.shape.nodeOk n, lit := ⟨0, .root hr⟩, plain := by rw [h]; rfl, plain' := (by rw [p1]; rfl),
    over := by rw [h]; rfl, root := .inr hr, root_lt := fun r h => ?_,
    empty := fun h => (by rw [e1] at h; cases h),
    dead := fun y => ?_, to := to, of := fun k y ho => ⟨?_, ⟨k, (of k y ho).1⟩, .inl (of k y ho).1⟩,
    null := fun k ho h' => absurd (hd k) (by rw [e2] at h'; exact h' _),
    goneOk := fun y h => .inr h, away := fun c J y hj hg => ?_, cells := fun j y h => ⟨j, by rw [← e2]; exact h⟩,
    use := fun j y hu => ?_, par := fun j j' y hu => ?_, sub := fun e he => (by rw [e2] at he; exact he),
    locked := fun h' => (by rw [p1] at h'; cases h'), coal := fun i hp => (by rw [p1] at hp; cases hp),
    move := fun b i hp => (by rw [p1] at hp; cases hp) }
  · rw [e1] at h
    cases h
    exact I.shape.cell_al _ _ _ hc
  · by_cases e : y = .node n
    · subst e
      exact .inr ⟨rfl, hr, by rw [e4]; simp, by rw [p1]; rfl, by rw [e2, hc]; simp, rfl⟩
    · exact .inl (by rw [e4]; simp [e])
  · rintro rfl
    exact unlit k ho
  · rw [hg]
    exact I.chain.not_mem hj (by simp [h])
  · obtain ⟨k, ho, _⟩ := hu
    exact absurd ho (unlit k)
  · obtain ⟨k, ho, _⟩ := hu
    exact absurd ho (unlit k)

end Scc.Grove
