import Verif.Grove.Insert

/-!
# Steps that take retired objects away
-/

namespace Scc.Grove

local notation "Key" => Nat
local notation "Id" => Nat
local notation "Thr" => Nat

variable {V : Type} {m m' : Mem V} {A : Key → Option V} {src : Ref → Ref}

/-- A place of a node on a search path is used, unless the lower half with the key is in place. -/
theorem Inv.use_of (I : Inv m A src) {n : Id} {k : Key} (hx : Lit m.root m.node (.node n))
    (hc : ¬ Cut m.phase (.node n) k) : Use m.root m.node n (route (m.node n).kids k) := by
  rcases route_mem (l := (m.node n).kids) (k := k) with h0 | ⟨b, hb, hm⟩
  · rw [h0]
    obtain ⟨k', ho, ha⟩ := I.order.above n hx
    exact ⟨k', ho, route_above ha⟩
  · rcases I.order.bound n hx _ hm with ho | ⟨u, i, J, hh, hm', hle⟩
    · exact ⟨b, ho, route_bound (I.shape.asc n) hm⟩
    · exact absurd ⟨u, i, J, hh, hm', Nat.le_trans hb hle⟩ hc

/-- Phases of nodes that take no part in a change. -/
def Phase.plain : Phase → Bool
  | .free => true
  | .locked => true
  | .coal _ => true
  | .move _ _ => true
  | .gone => true
  | _ => false

theorem Phase.plain_job {p : Phase} (h : p.plain = true) : p.job = none := by cases p <;> simp_all [Phase.plain, Phase.job]
theorem Phase.plain_plan {p : Phase} (h : p.plain = true) : p.plan = none := by cases p <;> simp_all [Phase.plain, Phase.plan]
theorem Phase.plain_half {p : Phase} (h : p.plain = true) : p.half = none := by cases p <;> simp_all [Phase.plain, Phase.half]

/-- What is assumed of such a step: node `n` changes, and the objects with `gone` are no longer found. -/
structure Prune (m m' : Mem V) (A : Key → Option V) (n : Id) (gone : Ref → Prop) : Prop where
  leaf : m'.leaf = m.leaf
  frozen : m'.frozen = m.frozen
  nN : m'.nN = m.nN
  nL : m'.nL = m.nL
  other : ∀ c, c ≠ n → m'.node c = m.node c
  same : ∀ c, c ≠ n → m'.phase c = m.phase c
  lv : (m'.node n).lv = (m.node n).lv
  node : NodeOk m'.node m.nN m.nL n
  lit : Lit m.root m.node (.node n)
  plain : (m.phase n).plain = true
  plain' : (m'.phase n).plain = true
  over : (m.phase n).over = false
  root : m'.root = m.root ∨ m.root = some n
  root_lt : ∀ r, m'.root = some r → r < m.nN
  empty : m'.root = none → ∀ k, A k = none
  dead : ∀ y, m'.dead y = m.dead y ∨ y = .node n ∧ m.root = some n ∧ m'.dead y = true ∧ (m'.phase n).over = true ∧
    (m'.node n).cell 0 ≠ .null ∧ gone y
  to : ∀ k y, On m.root m.node k y → ¬ gone y → On m'.root m'.node k y
  of : ∀ k y, On m'.root m'.node k y → ¬ gone y ∧ Lit m.root m.node y ∧
    (On m.root m.node k y ∨ A k = .none ∧ ¬ Cut m.phase y k)
  null : ∀ k, On m.root m.node k (.node n) → (∀ y, (m'.node n).dest k ≠ .to y) → A k = .none
  goneOk : ∀ y, gone y → Retired m.node m.leaf y ∨ y = .node n
  away : ∀ c J y, (m.phase c).job = some J → gone y → y ∉ J.ch
  cells : ∀ j y, (m'.node n).cell j = .to y → ∃ j0, (m.node n).cell j0 = .to y
  use : ∀ j y, Use m'.root m'.node n j → (m'.node n).cell j = .to y →
    ∃ j0, Use m.root m.node n j0 ∧ (m.node n).cell j0 = .to y
  par : ∀ j j' y, Use m'.root m'.node n j → Use m'.root m'.node n j' → (m'.node n).cell j = .to y →
    (m'.node n).cell j' = .to y → j = j' ∨ ∃ b i, m'.phase n = .move b i ∧ (j = i ∨ j' = i)
  sub : ∀ e ∈ (m'.node n).kids, e ∈ (m.node n).kids
  locked : m'.phase n = .locked → Lit m'.root m'.node (.node n) ∨ (m'.node n).cell 0 = .ret
  coal : ∀ i, m'.phase n = .coal i → Lit m'.root m'.node (.node n) ∧ i ≠ 0 ∧ (∀ e ∈ (m'.node n).kids, e.2 ≠ i) ∧
    ∃ y, (m'.node n).cell 0 = .to y
  move : ∀ b i, m'.phase n = .move b i → Lit m'.root m'.node (.node n) ∧ (∃ l, (m'.node n).kids = l ++ [(b, i)]) ∧
    ∃ y, (m'.node n).cell 0 = .to y ∧ (m'.node n).cell i = .to y

theorem Prune.inv {n : Id} {gone : Ref → Prop} (P : Prune m m' A n gone) (I : Inv m A src) : Inv m' A src := by
  have hnf : ∀ i x xl xh mid ch cl, m.phase n ≠ .full i x xl xh mid ch (some cl) := by
    intro i x xl xh mid ch cl e
    have := P.plain; rw [e] at this; cases this
  have hlv : ∀ c, (m'.node c).lv = (m.node c).lv := by
    intro c
    by_cases e : c = n
    · rw [e]; exact P.lv
    · rw [P.other c e]
  have hlvl := lvl_congr hlv
  have hret : ∀ c j y, gone (.node c) → j ∈ (m.node c).slots → (m.node c).cell j = .to y → c = n := by
    intro c j y h1 h2 h3
    rcases P.goneOk _ h1 with h | h
    · replace h : (m.node c).cell 0 = .ret := h
      cases hk : (m.node c).kids with
      | nil =>
        simp only [Node.slots, hk, List.map_nil, List.mem_cons, List.not_mem_nil, or_false] at h2
        rw [h2, h] at h3; cases h3
      | cons a b =>
        obtain ⟨y, hy⟩ := I.shape.unb c (by simp [hk])
        rw [h] at hy; cases hy
    · cases h; rfl
  have kept : ∀ y, y ≠ .node n → Kept m.node m'.node m.leaf m'.leaf y := by
    intro y hy
    cases y with
    | leaf l => show m'.leaf l = m.leaf l; rw [P.leaf]
    | node c => exact P.other c fun e => hy (e ▸ rfl)
  have lit' : ∀ y, Lit m'.root m'.node y → Lit m.root m.node y ∧ ¬ gone y := by
    rintro y ⟨k, ho⟩
    exact ⟨(P.of k y ho).2.1, (P.of k y ho).1⟩
  have toLit : ∀ y, Lit m.root m.node y → ¬ gone y → Lit m'.root m'.node y := by
    rintro y ⟨k, ho⟩ h
    exact ⟨k, P.to k y ho h⟩
  have use' : ∀ q j, q ≠ n → Use m'.root m'.node q j → Use m.root m.node q j := by
    rintro q j hq ⟨k, ho, hj⟩
    rw [P.other q hq] at hj
    obtain ⟨h1, h2, h3 | h3⟩ := P.of k _ ho
    · exact ⟨k, h3, hj⟩
    · rw [← hj]; exact I.use_of h2 h3.2
  have dead' : ∀ y, y ≠ .node n → m'.dead y = m.dead y := fun y hy => (P.dead y).resolve_right fun h => hy h.1
  have deadMono : ∀ y, m.dead y = true → m'.dead y = true := by
    intro y hy
    rcases P.dead y with h | h
    · rw [h, hy]
    · exact h.2.2.1
  have live : m.dead (.node n) = false := by
    cases hd : m.dead (.node n) with
    | false => rfl
    | true => have := I.dead.over n hd; rw [P.over] at this; cases this
  have jobNe : ∀ c J, (m'.phase c).job = some J → c ≠ n ∧ (m.phase c).job = some J := by
    intro c J h
    have hc : c ≠ n := by
      rintro rfl
      rw [Phase.plain_job P.plain'] at h; cases h
    exact ⟨hc, by rw [← P.same c hc]; exact h⟩
  have notch : ∀ c J, (m.phase c).job = some J → .node n ∉ J.ch := fun c J hj => I.chain.not_mem hj hnf
  have ne_of_job : ∀ c J, (m.phase c).job = some J → c ≠ n := by
    rintro c J h rfl
    rw [Phase.plain_job P.plain] at h; cases h
  have hhalf : ∀ c i J, (m'.phase c).half = some (i, J) ↔ (m.phase c).half = some (i, J) := by
    intro c i J
    by_cases e : c = n
    · rw [e, Phase.plain_half P.plain, Phase.plain_half P.plain']
    · rw [P.same c e]
  have cut : ∀ y k, Cut m'.phase y k ↔ Cut m.phase y k := by
    intro y k
    simp only [Cut, hhalf]
  have parent : ∀ c J y q j, (m.phase c).job = some J → y ∈ J.ch → Use m'.root m'.node q j → (m'.node q).cell j = .to y →
      q ≠ n ∧ Use m.root m.node q j ∧ (m.node q).cell j = .to y := by
    intro c J y q j hj hy hu hc
    have hq : q ≠ n := by
      rintro rfl
      obtain ⟨j0, h1, h2⟩ := P.use j y hu hc
      exact I.not_in_ch hnf (Phase.plain_half P.plain) h1 h2 hj (ne_of_job c J hj) hy
    exact ⟨hq, use' q j hq hu, by rw [← P.other q hq]; exact hc⟩
  have jobOk : ∀ c J fil d, (m.phase c).job = some J → JobOk m.root m.node m.leaf m.frozen m.dead m.nN m.nL src J fil d →
      JobOk m'.root m'.node m'.leaf m'.frozen m'.dead m'.nN m'.nL src J fil d := by
    intro c J fil d hj O
    rw [P.frozen, P.nN, P.nL]
    refine O.frame (fun x hx => ?_) O.frozen (fun y h1 h2 h3 h4 h5 => ?_)
    · have hx' : x ≠ .node n := fun e => notch c J hj (e ▸ hx)
      exact ⟨kept x hx', dead' x hx', fun k ho => P.to k x ho fun hg => P.away c J x hj hg hx⟩
    · have hy : y ≠ .node n := fun e => h3 (e ▸ P.lit)
      exact ⟨kept y hy, rfl, h2, fun h => h3 (lit' y h).1, by rw [dead' y hy]; exact h4⟩
  refine ⟨?_, ?_, ?_, ?_, ?_, ?_, ?_⟩
  · refine Shape.of_nodes (by rw [P.nN]; exact P.root_lt) (fun c hc => ?_) (fun y hy => ?_) (fun c => ?_)
    · rw [P.nN] at hc
      have hn : c ≠ n := by
        rintro rfl
        have : c < m.nN := I.lit_al P.lit
        omega
      rw [P.other c hn, P.same c hn]
      exact I.shape.fresh c hc
    · rw [P.nN, P.nL]
      rcases P.dead y with h | ⟨rfl, _⟩
      · exact I.shape.dead_al y (h ▸ hy)
      · exact I.lit_al P.lit
    · rw [P.nN, P.nL]
      by_cases e : c = n
      · rw [e]; exact P.node
      · have K := I.shape.nodeOk c
        have e := P.other c e
        refine ⟨by rw [e]; exact K.cell_al, fun j y hy => ?_, by rw [e]; exact K.lv_pos, by rw [e]; exact K.asc,
          by rw [e]; exact K.nodup, by rw [e]; exact K.pos, by rw [e]; exact K.used_pos, by rw [e]; exact K.unb,
          by rw [e]; exact K.kid⟩
        rw [e] at hy
        rw [hlvl, hlv]; exact K.lev j y hy
  · refine ⟨fun k l ho => ?_, fun k c ho hd => ?_, P.empty⟩
    · rw [P.leaf]
      obtain ⟨h1, h2, h3 | ⟨h3, h4⟩⟩ := P.of k _ ho
      · exact I.mean.leaf k l h3
      · rw [h3]
        apply Decidable.byContradiction
        intro hg
        rcases I.order.entry l k h2 hg with h | h
        · exact hg (by rw [I.mean.leaf k l h, h3])
        · exact h4 h
    · obtain ⟨h1, h2, h3 | ⟨h3, h4⟩⟩ := P.of k _ ho
      · by_cases e : c = n
        · subst e
          exact P.null k h3 hd
        · rw [P.other c e] at hd
          exact I.mean.null k c h3 hd
      · exact h3
  · refine ⟨fun c hl e he => ?_, fun c hl => ?_, fun l k hl hg => ?_, fun q q' j j' y hu hu' hc hc' => ?_⟩
    · obtain ⟨h1, h2⟩ := lit' _ hl
      have he' : e ∈ (m.node c).kids := by
        by_cases hn : c = n
        · subst hn; exact P.sub e he
        · rw [P.other c hn] at he; exact he
      rw [cut]
      exact (I.order.bound c h1 e he').imp (fun h => P.to _ _ h h2) id
    · obtain ⟨h1, h2⟩ := lit' _ hl
      obtain ⟨k, g1, g2⟩ := I.order.above c h1
      refine ⟨k, P.to _ _ g1 h2, fun e he => g2 e ?_⟩
      by_cases hn : c = n
      · subst hn; exact P.sub e he
      · rw [P.other c hn] at he; exact he
    · obtain ⟨h1, h2⟩ := lit' _ hl
      rw [P.leaf] at hg
      rw [cut]
      exact (I.order.entry l k h1 hg).imp (fun h => P.to _ _ h h2) id
    · by_cases e : q = n <;> by_cases e' : q' = n
      · subst e; subst e'
        exact ⟨rfl, P.par j j' y hu hu' hc hc'⟩
      · subst e
        obtain ⟨j0, h1, h2⟩ := P.use j y hu hc
        rw [P.other q' e'] at hc'
        exact absurd (I.order.parent _ _ _ _ _ h1 (use' q' j' e' hu') h2 hc').1.symm e'
      · subst e'
        obtain ⟨j0, h1, h2⟩ := P.use j' y hu' hc'
        rw [P.other q e] at hc
        exact absurd (I.order.parent _ _ _ _ _ h1 (use' q j e hu) h2 hc).1.symm e
      · have hu1 := use' q j e hu
        rw [P.other q e] at hc
        rw [P.other q' e'] at hc'
        rw [P.same q e]
        exact I.order.parent _ _ _ _ _ hu1 (use' q' j' e' hu') hc hc'
  · refine ⟨fun c hd => ?_, fun c hd => ?_, fun l hd => ?_, fun y hd hl => ?_, fun l hr => ?_, fun c hd hp => ?_⟩
    · rcases P.dead (.node c) with h | ⟨h, h1, h2, h3, h4, _⟩
      · have hn : c ≠ n := by
          rintro rfl
          rw [hd, live] at h; cases h
        rw [P.same c hn]
        exact I.dead.over c (h ▸ hd)
      · cases h; exact h3
    · rcases P.dead (.node c) with h | ⟨h, h1, h2, h3, h4, _⟩
      · have hn : c ≠ n := by
          rintro rfl
          rw [hd, live] at h; cases h
        rw [P.other c hn]
        exact I.dead.null c (h ▸ hd)
      · cases h; exact h4
    · rw [P.frozen]
      exact I.dead.frozen l (by rw [← dead' _ (by simp)]; exact hd)
    · obtain ⟨h1, h2⟩ := lit' _ hl
      rcases P.dead y with h | h
      · obtain ⟨c, i, J, g1, g2⟩ := I.dead.half y (h ▸ hd) h1
        exact ⟨c, i, J, (hhalf c i J).2 g1, g2⟩
      · exact absurd h.2.2.2.2.2 h2
    · rw [P.leaf] at hr ⊢
      exact I.dead.empty l hr
    · have hn : c ≠ n := by
        rintro rfl
        exact hp (Phase.plain_plan P.plain')
      rw [P.same c hn] at hp
      obtain ⟨u, i, J, g1, g2⟩ := I.dead.plan c (by rw [← dead' _ (by simpa using hn)]; exact hd) hp
      exact ⟨u, i, J, (hhalf u i J).2 g1, g2⟩
  · refine ⟨fun c J hj => ?_, fun c c' J J' hj hj' e => ?_⟩
    · obtain ⟨ch', h1, h2, h3⟩ := I.chain.list c J (jobNe c J hj).2
      refine ⟨ch', h1, h2, fun d hd => ?_⟩
      obtain ⟨i, x, xl, xh, mid, nl, nh, g1, g2⟩ := h3 d hd
      refine ⟨i, x, xl, xh, mid, nl, nh, ?_, g2⟩
      rw [P.same d ?_, g1]
      rintro rfl
      exact hnf _ _ _ _ _ _ _ g1
    · exact I.chain.uniq _ _ _ _ (jobNe c J hj).2 (jobNe c' J' hj').2 e
  · refine ⟨fun c i J hp hd => ?_, fun c i J hp => ?_, fun r c nl nh mid ch hp => ?_, fun c i x y hp => ?_⟩
    · obtain ⟨hc, hj⟩ := jobNe c J (Phase.plan_job hp)
      rw [P.same c hc] at hp
      rw [dead' _ (by simpa using hc)] at hd
      obtain ⟨O, S⟩ := I.jobs.plan c i J hp hd
      refine ⟨jobOk c J _ _ hj O, S.frame (P.other c hc) (fun x _ => hlvl x)
        (fun k ho => P.to k _ ho fun hg => hc (hret c i _ hg S.slot S.cell)) fun y hy q j hu hcl => ?_⟩
      obtain ⟨h1, h2, h3⟩ := parent c J y q j hj hy hu hcl
      exact S.parent y hy q j h2 h3
    · obtain ⟨hc, hj⟩ := jobNe c J (Phase.half_job hp)
      rw [P.same c hc] at hp
      obtain ⟨O, S⟩ := I.jobs.half c i J hp
      refine ⟨jobOk c J _ _ hj O, S.frame (P.other c hc) (fun x _ => hlvl x)
        (fun k ho => P.to k _ ho fun hg => hc (hret c i _ hg S.slot S.cell)) (by rw [dead' _ (by simpa using hc)]; exact S.live)
        ?_ fun y hy q j hu hcl => ?_⟩
      · rcases P.dead J.xl with h | ⟨h, h1, _⟩
        · rw [h]; exact S.lowLive
        · obtain ⟨j, h2, h3⟩ := S.low
          have h4 := I.shape.lev _ _ _ h3
          have h5 := I.root_above h2.lit h1
          rw [h] at h4
          simp only [lvl_node] at h4
          omega
      · obtain ⟨h1, h2, h3⟩ := parent c J y q j hj hy hu hcl
        exact S.parent y hy q j h2 h3
    · have hj : (m'.phase r).job = some ⟨.node c, .node nl, .node nh, mid, ch⟩ := by rw [hp]; rfl
      obtain ⟨hc, hj⟩ := jobNe r _ hj
      rw [P.same r hc] at hp
      obtain ⟨O, S⟩ := I.jobs.root r c nl nh mid ch hp
      refine ⟨jobOk r _ _ _ hj O, S.frame ?_ (P.other r hc) (Nat.le_of_eq P.nN.symm) (fun h => S.unlit (lit' _ h).1)
        (by rw [dead' _ (by simpa using hc)]; exact S.live) rfl fun y hy q j hu hcl => ?_⟩
      · refine P.root.resolve_right fun h => ?_
        have := S.root
        rw [h] at this
        cases this
        exact notch r _ hj (I.chain.head_mem hj)
      · obtain ⟨h1, h2, h3⟩ := parent r _ y q j hj hy hu hcl
        exact S.parent y hy q j h2 h3
    · have hc : c ≠ n := by
        rintro rfl
        have := P.plain'; rw [hp] at this; cases this
      rw [P.same c hc] at hp
      have S := I.jobs.copy c i x y hp
      rw [← P.nL] at S
      have hN := P.other c hc
      refine ⟨by rw [hN]; exact S.slot, by rw [hN]; exact S.cell, ?_, by rw [P.frozen]; exact S.frozen,
        by rw [dead' _ (by simp)]; exact S.live, S.al, fun h => S.unlit (lit' _ h).1,
        by rw [dead' _ (by simp)]; exact S.live', S.src, by rw [P.leaf]; exact S.same, by rw [P.leaf]; exact S.ret⟩
      obtain ⟨k, h1, h2⟩ := S.use
      exact ⟨k, P.to k _ h1 fun hg => hc (hret c i _ hg S.slot S.cell), by rw [hN]; exact h2⟩
  · have hold : ∀ c l, Hold m.node m.phase src c l → Hold m'.node m'.phase src c l := by
      intro c l H q j hc
      have hq : q ≠ n := by
        rintro rfl
        obtain ⟨j0, hj⟩ := P.cells j _ hc
        have := (H q j0 hj).1
        have h := P.plain
        rw [this] at h; cases h
      rw [P.other q hq] at hc
      rw [P.same q hq]
      exact H q j hc
    have held : ∀ c, m.phase c = .held → m'.phase c = .held := by
      intro c h
      rw [P.same c ?_, h]
      rintro rfl
      have := P.plain; rw [h] at this; cases this
    have L := I.locks
    refine ⟨fun c hp => ?_, fun c i hp => ?_, fun c b i hp => ?_, fun c i x xl xh mid ch nl nh hp => ?_,
      fun c j xl xh nl nh hp => ?_, fun c xl xh nl nh hp => ?_, fun c j xl xh nl nh hp hj => ?_,
      fun c i J l hp hl => ?_, fun c i J hp => ?_⟩
    · by_cases e : c = n
      · subst e; exact P.locked hp
      · rw [P.same c e] at hp
        rw [P.other c e]
        rcases L.locked c hp with h | h
        · by_cases hg : gone (.node c)
          · rcases P.goneOk _ hg with h' | h'
            · exact .inr h'
            · cases h'; exact absurd rfl e
          · exact .inl (toLit _ h hg)
        · exact .inr h
    · by_cases e : c = n
      · subst e; exact P.coal i hp
      · rw [P.same c e] at hp
        rw [P.other c e]
        obtain ⟨h1, h2, h3, y, h4⟩ := L.coal c i hp
        refine ⟨toLit _ h1 fun hg => e (hret c 0 y hg (List.mem_cons_self ..) h4), h2, h3, y, h4⟩
    · by_cases e : c = n
      · subst e; exact P.move b i hp
      · rw [P.same c e] at hp
        rw [P.other c e]
        obtain ⟨h1, h2, y, h3, h4⟩ := L.move c b i hp
        refine ⟨toLit _ h1 fun hg => e (hret c 0 y hg (List.mem_cons_self ..) h3), h2, y, h3, h4⟩
    · have hc : c ≠ n := by
        rintro rfl
        have := P.plain'; rw [hp] at this; cases this
      rw [P.same c hc] at hp
      obtain ⟨h1, h2, h3, h4, h5, h6⟩ := L.claim c _ _ _ _ _ _ _ _ hp
      rw [P.nN, hlv]
      exact ⟨h1, h2, h3, h4, h5, fun h => ⟨held _ (h6 h).1, held _ (h6 h).2⟩⟩
    · have hc : c ≠ n := by
        rintro rfl
        have := P.plain'; rw [hp] at this; cases this
      rw [P.same c hc] at hp
      obtain ⟨h1, h2, h3, h4, h5, h6, h7⟩ := L.fin c _ _ _ _ _ hp
      rw [P.nN]
      exact ⟨h1, h2, h3, h4, h5, fun h => held _ (h6 h), fun h => held _ (h7 h)⟩
    · have hc : c ≠ n := by
        rintro rfl
        have := P.plain'; rw [hp] at this; cases this
      rw [P.same c hc] at hp
      obtain ⟨h1, h2, h3, h4, h5⟩ := L.finLow c _ _ _ _ hp
      rw [P.nL]
      exact ⟨h1, by rw [dead' _ (by simp)]; exact h2, deadMono _ h3, fun c' i J h => h4 c' i J ((hhalf _ _ _).1 h), hold _ _ h5⟩
    · have hc : c ≠ n := by
        rintro rfl
        have := P.plain'; rw [hp] at this; cases this
      rw [P.same c hc] at hp
      obtain ⟨h1, h2, h3, h4, h5⟩ := L.finHigh c _ _ _ _ _ hp hj
      rw [P.nL]
      exact ⟨h1, by rw [dead' _ (by simp)]; exact h2, deadMono _ h3, fun c' i J h => h4 c' i J ((hhalf _ _ _).1 h), hold _ _ h5⟩
    · have hc : c ≠ n := (jobNe c J (Phase.plan_job hp)).1
      rw [P.same c hc] at hp
      obtain ⟨h1, h2, h3, h4⟩ := L.hold c i J l hp hl
      rw [P.nL]
      exact ⟨h1, by rw [dead' _ (by simp)]; exact h2, h3, hold _ _ h4⟩
    · have hc : c ≠ n := (jobNe c J (Phase.plan_job hp)).1
      rw [P.same c hc] at hp
      rw [hlvl, hlvl, hlvl, hlv]
      exact L.kind c i J hp

end Scc.Grove
