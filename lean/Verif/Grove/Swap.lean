import Verif.Grove.Turn

/-!
# New objects take their places
-/

namespace Scc.Grove

local notation "Key" => Nat
local notation "Id" => Nat
local notation "Thr" => Nat

variable {V : Type} {m m' : Mem V} {A : Key → Option V} {src : Ref → Ref}

/-- Search paths through obsolete objects come through the node that is changed. -/
theorem Spot.up {R : Option Id} {N : Id → Node} {u i : Nat} {J : Job} (S : Spot R N u i J)
    (hroot : ∀ r, R = some r → .node r ∉ J.ch) {k : Key} {z : Ref} (ho : On R N k z) (hz : z ∈ J.ch) :
    On R N k (.node u) ∧ route (N u).kids k = i := by
  induction ho with
  | root h => exact absurd hz (hroot _ h)
  | @step n y ho hd ih =>
    rcases S.parent y hz n _ ho.use hd with ⟨rfl, e⟩ | hn
    · exact ⟨ho, e⟩
    · exact ih hn

theorem Turn.drift {u : Id} {T E : Key → Prop} {J : Job} {fil : Key → Prop} {d : Bool} (Q : Turn m m' src u T E J fil d) (I : Inv m A src)
    (hb : (∃ i x y, m.phase u = .single i x y ∧ J.ch = [.leaf x] ∧ ∀ k, J.side k = .leaf y) ∨
      (m.phase u).job = some J ∧ ∀ i x xl xh mid ch cl, m.phase u ≠ .full i x xl xh mid ch cl)
    (hc : ∀ k z, On m.root m.node k z → z ∈ J.ch → T k → E k ∧ ∃ y, Pair m.node k J.x (J.side k) z y)
    (hroot : ∀ r, m'.root = some r → .node r ∉ J.ch) :
    Drift m m' A src := by
  have twin : ∀ k x y, T k → E k → Pair m.node k J.x (J.side k) (.leaf x) (.leaf y) → Twin m src x y := by
    intro k x y hT hE hp
    have P := Q.job.pair k _ _ (Q.fil k hT hE) hp
    refine ⟨P.src, ?_⟩
    rcases hb with ⟨i, x', y', h1, h2, h3⟩ | h
    · have := P.mem
      rw [h2, List.mem_singleton] at this
      cases this
      have hb := (Q.job.pair k _ _ (Q.fil k hT hE) .base).mem
      rw [h2, List.mem_singleton] at hb
      rw [h3, hb] at hp
      have := (Pair.of_leaf hp).2
      cases this
      exact .inl ⟨u, i, h1⟩
    · exact .inr ⟨u, J, h.1, P.mem, h.2⟩
  have split : ∀ k y, On m'.root m'.node k (.leaf y) → On m.root m.node k (.leaf y) ∨
      (T k ∧ E k ∧ ∃ x, On m.root m.node k (.leaf x) ∧ Pair m.node k J.x (J.side k) (.leaf x) (.leaf y)) := by
    intro k y ho
    rcases Q.flow.of k _ ho (by simp) with ⟨h, _⟩ | ⟨h1, h2, z, h3, h4⟩
    · exact .inl h
    · have P := Q.job.pair k _ _ (Q.fil k h1 h2) h4
      cases z with
      | node n => have := P.same; simp [Match] at this
      | leaf x => exact .inr ⟨h1, h2, x, h3, h4⟩
  refine ⟨fun k x ho => ?_, fun l hl => ?_, fun k1 k2 x y hne h1 h2 h3 => ?_⟩
  · by_cases hx : .leaf x ∈ J.ch
    · by_cases ho' : On m'.root m'.node k (.leaf x)
      · exact .inl ho'
      · refine .inr (.inl ⟨(Q.dead _).2 (.inr hx), ?_⟩)
        have hT : T k ∧ E k ∧ ∃ y, Pair m.node k J.x (J.side k) (.leaf x) y := by
          have hT : T k := Classical.byContradiction fun h => ho' (Q.flow.to k _ ho fun h' => absurd h' h)
          exact ⟨hT, hc k _ ho hx hT⟩
        obtain ⟨hT, hE, y, hp⟩ := hT
        have P := Q.job.pair k _ _ (Q.fil k hT hE) hp
        have hs := P.same
        cases y with
        | node n => simp [Match] at hs
        | leaf y => exact ⟨y, twin k x y hT hE hp, Q.flow.add k _ _ hT hE hp, hs.2.1⟩
    · exact .inl (Q.flow.to k _ ho fun _ => hx)
  · by_cases hk : ∃ k, On m.root m.node k (.leaf l) ∧ On m'.root m'.node k (.leaf l)
    · exact .inl hk
    · have all : ∀ k, On m'.root m'.node k (.leaf l) → T k ∧ E k ∧ ∃ x, On m.root m.node k (.leaf x) ∧
          Pair m.node k J.x (J.side k) (.leaf x) (.leaf l) :=
        fun k ho => (split k l ho).resolve_left fun h => hk ⟨k, h, ho⟩
      refine .inr ⟨fun k ho => ?_, fun e he => ?_⟩
      · obtain ⟨h1, h2, x, h3, h4⟩ := all k ho
        exact ⟨x, twin k x l h1 h2 h4, h3⟩
      · obtain ⟨k, ho⟩ := hl
        obtain ⟨h1, h2, x, h3, h4⟩ := all k ho
        have P := Q.job.pair k _ _ (Q.fil k h1 h2) h4
        obtain ⟨g1, g2, g3⟩ := P.same.2.2 e he
        obtain ⟨t1, t2⟩ := Q.flow.cl k _ e h1 h2 P.mem g1 g2
        exact Q.flow.add e _ _ t1 t2 g3
  · rcases split k2 y h2 with h | ⟨t1, t2, x', t3, t4⟩
    · cases h1.unique I.shape.lev h rfl
      exact absurd rfl hne
    · cases h1.unique I.shape.lev t3 rfl
      have P := Q.job.pair k2 _ _ (Q.fil k2 t1 t2) t4
      obtain ⟨i, hh⟩ := Q.lit _ P.mem ⟨k1, h3⟩
      obtain ⟨O', H'⟩ := Q.half i J hh
      have hk1 : J.mid < k1 := H'.only k1 (H'.spot.up hroot h3 P.mem).2
      apply Decidable.byContradiction
      intro hc'
      have hk2 : J.mid < k2 := by omega
      refine (O'.pair k2 _ _ hk2 .base).unlit ⟨k2, .step ((Q.flow.upper k2).2 t2) (Q.flow.new k2 t1)⟩

/-- What is obsolete is on no search path any more. -/
theorem Flow.clear {R R' : Option Id} {N N' : Id → Node} {u : Id} {T E : Key → Prop} {J : Job} {L : Id → Leaf V}
    {F : Id → Bool} {D : Ref → Bool} {nN nL : Nat} {fil : Key → Prop} {d : Bool}
    (W : Flow R R' N N' u T E J) (O : JobOk R N L F D nN nL src J fil d) (hf : ∀ k, T k → E k → fil k)
    (hT : ∀ k z, On R N k z → z ∈ J.ch → T k) {y : Ref} (hy : y ∈ J.ch) : ¬ Lit R' N' y := by
  rintro ⟨k, ho⟩
  rcases W.of k y ho (fun e => W.notin (e ▸ hy)) with ⟨h1, h2⟩ | ⟨h1, h2, x, h3, h4⟩
  · exact h2 (hT k y h1 hy) hy
  · have P := O.pair k x y (hf k h1 h2) h4
    cases d with
    | false => exact P.unlit (O.lit rfl y hy)
    | true => have := O.dead y hy; rw [P.live] at this; cases this

/-- The pointer at a place is exchanged. -/
theorem NodeOk.setCell {N N' : Id → Node} {nN nL c i : Nat} {z : Ref} (K : NodeOk N nN nL c)
    (hN : N' c = { N c with cell := upd (N c).cell i (.to z) }) (hl : ∀ y, lvl N' y = lvl N y)
    (hz : Alloc nN nL z) (hlz : (N c).lv = lvl N z + 1) : NodeOk N' nN nL c := by
  have hcell : ∀ j, (N' c).cell j = if j = i then .to z else (N c).cell j := fun j => by rw [hN]; rfl
  have hk : (N' c).kids = (N c).kids := by rw [hN]
  have hv : (N' c).lv = (N c).lv := by rw [hN]
  have hu : (N' c).used = (N c).used := by rw [hN]
  refine ⟨fun j y hy => ?_, fun j y hy => ?_, by rw [hv]; exact K.lv_pos, by rw [hk]; exact K.asc,
    by rw [hk]; exact K.nodup, by rw [hk, hu]; exact K.pos, by rw [hu]; exact K.used_pos, ?_, ?_⟩
  · rw [hcell] at hy
    split at hy
    · cases hy; exact hz
    · exact K.cell_al j y hy
  · rw [hcell] at hy
    rw [hl, hv]
    split at hy
    · cases hy; exact hlz
    · exact K.lev j y hy
  · rw [hk, hcell]
    intro h
    split
    · exact ⟨z, rfl⟩
    · exact K.unb h
  · rw [hk]
    intro e he
    rw [hcell]
    split
    · exact ⟨z, rfl⟩
    · exact K.kid e he

theorem lvl_congr {N N' : Id → Node} (h : ∀ n, (N' n).lv = (N n).lv) (y : Ref) : lvl N' y = lvl N y := by
  cases y with
  | leaf l => rfl
  | node n => exact h n

/-- The root is not below any node on a search path. -/
theorem Inv.root_above (I : Inv m A src) {n r : Id} (hl : Lit m.root m.node (.node n)) (hr : m.root = some r) :
    (m.node n).lv ≤ (m.node r).lv := by
  obtain ⟨k, ho⟩ := hl
  rcases ho.lvl_root I.shape.lev hr with e | e
  · cases e; exact Nat.le_refl _
  · simpa using Nat.le_of_lt e

/-- The keys of a node that is not obsolete. -/
theorem Inv.kid_on (I : Inv m A src) {n : Id} (hl : Lit m.root m.node (.node n))
    (hn : ∀ i x xl xh mid ch cl, m.phase n ≠ .full i x xl xh mid ch (some cl)) {e : Key × Nat}
    (he : e ∈ (m.node n).kids) : On m.root m.node e.1 (.node n) :=
  (I.order.bound n hl e he).resolve_right (I.not_cut hn _)

theorem Inv.copied (I : Inv m A src) {n i x y : Nat} (h : m.phase n = .single i x y) :
    Both m (((m.setNode n { m.node n with cell := upd (m.node n).cell i (.to (.leaf y)) }).setPhase n .locked).kill
        [.leaf x]) A src := by
  have K := I.jobs.copy n i x y h
  have hlit : Lit m.root m.node (.node n) := K.use.lit
  have hxl : Lit m.root m.node (.leaf x) := K.use.child K.cell
  have hnf : ∀ i x xl xh mid ch cl, m.phase n ≠ .full i x xl xh mid ch (some cl) := by simp [h]
  have hn : n < m.nN := I.lt_of_phase (by simp [h])
  have hnot : ∀ n' J, (m.phase n').job = some J → .leaf x ∉ J.ch := by
    intro n' J hj
    refine I.not_in_ch hnf (by simp [h, Phase.half]) K.use K.cell hj ?_
    rintro rfl
    rw [h] at hj; cases hj
  have hpar : ∀ q j, Use m.root m.node q j → (m.node q).cell j = .to (.leaf x) → q = n ∧ j = i := by
    intro q j h1 h2
    obtain ⟨e, e'⟩ := I.order.parent q n j i _ h1 K.use h2 K.cell
    refine ⟨e, e'.resolve_right ?_⟩
    rintro ⟨b, i', e'', _⟩
    rw [e, h] at e''; cases e''
  generalize hm' : (((m.setNode n { m.node n with cell := upd (m.node n).cell i (.to (.leaf y)) }).setPhase n
      .locked).kill [.leaf x] : Mem V) = m'
  have e1 : m'.root = m.root := by rw [← hm']; rfl
  have e2 : m'.node = upd m.node n { m.node n with cell := upd (m.node n).cell i (.to (.leaf y)) } := by
    rw [← hm']; rfl
  have e3 : m'.phase = upd m.phase n .locked := by rw [← hm']; rfl
  have e4 : ∀ r, m'.dead r = (m.dead r || [Ref.leaf x].contains r) := by rw [← hm']; exact fun _ => rfl
  have e5 : m'.leaf = m.leaf := by rw [← hm']; rfl
  have e6 : m'.frozen = m.frozen := by rw [← hm']; rfl
  have e7 : m'.nL = m.nL := by rw [← hm']; rfl
  have e8 : m'.nN = m.nN := by rw [← hm']; rfl
  clear hm'
  have hN : m'.node n = { m.node n with cell := upd (m.node n).cell i (.to (.leaf y)) } := by rw [e2, upd_eq]
  have hlv : ∀ c, (m'.node c).lv = (m.node c).lv := by
    intro c
    by_cases e : c = n
    · subst e; rw [hN]
    · rw [e2, upd_ne e]
  let J : Job := ⟨.leaf x, .leaf y, .leaf y, 0, [.leaf x]⟩
  have side : ∀ k, J.side k = .leaf y := fun k => by simp [J, Job.side]
  have O : JobOk m.root m.node m.leaf m.frozen m.dead m.nN m.nL src J (fun _ => True) false := by
    refine ⟨fun k a b _ hp => ?_, fun k k' a c c' _ _ hp _ _ => ?_, fun k k' _ _ _ _ _ _ => ?_, fun z hz => ?_,
      fun _ z hz => ?_, fun l hl => ?_, fun _ _ _ _ => trivial⟩
    · obtain ⟨rfl, rfl⟩ := Pair.of_leaf hp
      rw [side]
      refine ⟨List.mem_singleton.2 rfl, K.src, K.al, rfl, K.unlit, K.live', ?_, K.frozen, ?_, fun k2 h2 => ⟨?_, ?_, ?_⟩⟩
      · simp only [Retired, K.ret]; simp
      · simp [Leaf.get, K.same]
      · refine (I.order.entry x k2 hxl ?_).resolve_right ?_
        · simpa [Leaf.get, K.same] using h2
        · rintro ⟨n', i', J', g1, g2, _⟩
          exact hnot n' J' (Phase.half_job g1) g2
      · rw [side, side]
      · rw [side]; exact .base
    · obtain ⟨_, e⟩ := Pair.of_leaf hp
      rw [side] at e; cases e
    · rw [side, side]
    · rw [List.mem_singleton.1 hz]; exact K.live
    · rw [List.mem_singleton.1 hz]; exact hxl
    · cases List.mem_singleton.1 hl; exact K.frozen
  have S : Spot m.root m.node n i J := by
    refine ⟨K.cell, fun z hz q j h1 h2 => ?_⟩
    rw [List.mem_singleton.1 hz] at h2
    exact .inl (hpar q j h1 h2)
  have hroot : ∀ r, m.root = some r → .node r ∉ J.ch := fun r _ => by simp [J]
  have kids : (m'.node n).kids = (m.node n).kids := by rw [hN]
  have W : Flow m.root m'.root m.node m'.node n (fun k => route (m.node n).kids k = i)
      (fun k => On m.root m.node k (.node n)) J := by
    rw [e1]
    refine flow_local O S hroot (fun _ _ => trivial) (fun c hc => by rw [e2, upd_ne hc]) (fun k hk => ⟨by rw [kids], ?_⟩)
      (fun k hk => ?_) (fun k hk => ?_) (fun k k' h1 h2 _ => ?_) (fun k k2 _ h2 _ => h2) (by simp [J])
    · simp only [Node.dest, hN, upd_ne hk]
    · simp only [Node.dest, hk]; exact K.cell
    · simp only [Node.dest, hN, hk, upd_eq, side]
    · rw [kids, h1, h2]
  have hT : ∀ k z, On m.root m.node k z → z ∈ J.ch → route (m.node n).kids k = i :=
    fun k z h1 h2 => (S.up hroot h1 h2).2
  have Q : Turn m m' src n (fun k => route (m.node n).kids k = i) (fun k => On m.root m.node k (.node n)) J
      (fun _ => True) false := by
    refine {
      flow := W, job := O, fil := fun _ _ _ => trivial, leaf := e5, frozen := e6, nN := e8, nL := e7, lv := hlv,
      node := (I.shape.nodeOk n).setCell hN (lvl_congr hlv) K.al (I.shape.lev _ _ (.leaf x) K.cell), root := .inl e1,
      root_lt := ?_, lt := hn, live := ?_, own := .inl hlit, dead := fun r => ?_,
      parent := fun z hz q j h1 h2 => (S.parent z hz q j h1 h2).imp (·.1) id,
      same := fun c hc _ => by rw [e3, upd_ne hc], full := fun c hc => ?_, next := .inl fun c hc => ?_,
      before := .inl ⟨i, x, y, h⟩, after := .inl (by rw [e3, upd_eq]), apart := fun n2 J2 hj _ _ z hz hz' => ?_,
      away := fun n2 J2 hj => I.chain.not_mem hj hnf, uniq := fun n2 J2 hj _ e => ?_,
      ulit := ?_, half := fun i' J' h' => ?_, lit := fun z hz hl => ?_,
      plan := fun c hc => ?_, hold := .inl K.live, nosingle := fun _ _ _ _ i' b h' => ?_, cells := fun j l hc => ?_ }
    · obtain ⟨k, ho⟩ := hlit
      obtain ⟨r, hr, _⟩ := ho.path
      exact ⟨r, by rw [e1]; exact hr, I.shape.root_lt r hr⟩
    · cases hd : m.dead (.node n) with
      | false => rfl
      | true => have := I.dead.over n hd; rw [h] at this; cases this
    · rw [e4]; simp [J]
    · cases List.mem_singleton.1 hc
    · cases List.mem_singleton.1 hc
    · rw [List.mem_singleton.1 hz'] at hz; exact hnot n2 J2 hj hz
    · replace e : J2.x = .leaf x := e
      exact hnot n2 J2 hj (e ▸ I.chain.head_mem hj)
    · obtain ⟨k, ho, _⟩ := K.use
      exact ⟨k, (W.upper k).2 ho⟩
    · rw [e3, upd_eq] at h'; cases h'
    · exact absurd hl (W.clear O (fun _ _ _ => trivial) hT hz)
    · cases List.mem_singleton.1 hc
    · rw [e3, upd_eq] at h'; cases h'
    · rw [hN] at hc
      by_cases e : j = i
      · subst e
        simp only [upd_eq] at hc
        cases hc
        exact .inr K.src
      · simp only [upd_ne e] at hc
        exact .inl hc
  refine ⟨⟨Q.inv I (Q.gone hT) (fun e he => ?_) ?_, Q.evo I⟩, Q.drift I (.inl ⟨i, x, y, h, rfl, side⟩) (fun k z h1 h2 _ => ⟨(S.up hroot h1 h2).1, (O.counterpart S h1 h2 trivial hroot).2.2⟩) (by rw [e1]; exact hroot)⟩
  · rw [kids] at he
    exact .inl ((W.upper _).2 (I.kid_on hlit hnf he))
  · obtain ⟨k, h1, h2⟩ := I.order.above n hlit
    exact ⟨k, (W.upper _).2 h1, by rw [kids]; exact h2⟩

theorem Inv.swap (I : Inv m A src) {n i : Nat} {x xl xh : Ref} {mid : Key} {ch : List Ref}
    (h : m.phase n = .ins i x xl xh mid ch true) :
    Both m (((m.setNode n { m.node n with cell := upd (m.node n).cell i (.to xh) }).setPhase n .locked).release ch)
      A src := by
  have hj : (m.phase n).job = some ⟨x, xl, xh, mid, ch⟩ := by rw [h]; rfl
  have hh : (m.phase n).half = some (i, ⟨x, xl, xh, mid, ch⟩) := by rw [h]; rfl
  obtain ⟨O, H⟩ := I.jobs.half n i _ hh
  generalize hJ : (⟨x, xl, xh, mid, ch⟩ : Job) = J at hj hh O H
  have hxh : J.xh = xh := by rw [← hJ]
  have hch : J.ch = ch := by rw [← hJ]
  have hmid : J.mid = mid := by rw [← hJ]
  have hnf : ∀ i x xl xh mid ch cl, m.phase n ≠ .full i x xl xh mid ch (some cl) := by simp [h]
  have hn : n < m.nN := I.lt_of_phase (by simp [h])
  have hlit : Lit m.root m.node (.node n) := by
    obtain ⟨k, ho, _⟩ := H.high
    exact ⟨k, ho⟩
  have hroot : ∀ r, m.root = some r → .node r ∉ J.ch := by
    intro r hr hm
    have g1 := H.below _ hm
    have g2 := I.root_above hlit hr
    simp only [lvl_node] at g1
    omega
  have hnot : .node n ∉ J.ch := I.chain.not_mem hj hnf
  generalize hm' : (((m.setNode n { m.node n with cell := upd (m.node n).cell i (.to xh) }).setPhase n
      .locked).release ch : Mem V) = m'
  have e1 : m'.root = m.root := by rw [← hm']; rfl
  have e2 : m'.node = upd m.node n { m.node n with cell := upd (m.node n).cell i (.to xh) } := by
    rw [← hm']; rfl
  have e3 : ∀ c, m'.phase c = if ch.contains (.node c) then (upd m.phase n .locked c).released
      else upd m.phase n .locked c := by rw [← hm']; exact fun _ => rfl
  have e4 : m'.dead = m.dead := by rw [← hm']; rfl
  have e5 : m'.leaf = m.leaf := by rw [← hm']; rfl
  have e6 : m'.frozen = m.frozen := by rw [← hm']; rfl
  have e7 : m'.nL = m.nL := by rw [← hm']; rfl
  have e8 : m'.nN = m.nN := by rw [← hm']; rfl
  clear hm'
  have p1 : m'.phase n = .locked := by
    rw [e3, if_neg (by simpa [← hch] using hnot), upd_eq]
  have p2 : ∀ c, c ≠ n → .node c ∉ J.ch → m'.phase c = m.phase c := by
    intro c h1 h2
    rw [e3, if_neg (by simpa [← hch] using h2), upd_ne h1]
  have p3 : ∀ c, .node c ∈ J.ch → m'.phase c = (m.phase c).released := by
    intro c h1
    rw [e3, if_pos (by simpa [← hch] using h1), upd_ne (by rintro rfl; exact hnot h1)]
  have hN : m'.node n = { m.node n with cell := upd (m.node n).cell i (.to xh) } := by rw [e2, upd_eq]
  have hlv : ∀ c, (m'.node c).lv = (m.node c).lv := by
    intro c
    by_cases e : c = n
    · subst e; rw [hN]
    · rw [e2, upd_ne e]
  have kids : (m'.node n).kids = (m.node n).kids := by rw [hN]
  have S := H.spot
  have base := O.pair (J.mid + 1) _ _ (Nat.lt_succ_self _) .base
  rw [Job.side_high (Nat.lt_succ_self _), hxh] at base
  have W : Flow m.root m'.root m.node m'.node n (fun k => route (m.node n).kids k = i)
      (fun k => On m.root m.node k (.node n)) J := by
    rw [e1]
    refine flow_local O S hroot (fun k hk => H.only k hk) (fun c hc => by rw [e2, upd_ne hc]) (fun k hk => ⟨by rw [kids], ?_⟩)
      (fun k hk => ?_) (fun k hk => ?_) (fun k k' h1 h2 _ => ?_) (fun k k2 _ h2 _ => h2) hnot
    · simp only [Node.dest, hN, upd_ne hk]
    · simp only [Node.dest, hk]; exact H.cell
    · simp only [Node.dest, hN, hk, upd_eq, Job.side_high (H.only k hk), hxh]
    · rw [kids, h1, h2]
  have hT : ∀ k z, On m.root m.node k z → z ∈ J.ch → route (m.node n).kids k = i :=
    fun k z h1 h2 => (S.up hroot h1 h2).2
  have hf : ∀ k, route (m.node n).kids k = i → On m.root m.node k (.node n) → J.mid < k := fun k hk _ => H.only k hk
  have Q : Turn m m' src n (fun k => route (m.node n).kids k = i) (fun k => On m.root m.node k (.node n)) J
      (fun k => J.mid < k) true := by
    refine {
      flow := W, job := O, fil := hf, leaf := e5, frozen := e6, nN := e8, nL := e7, lv := hlv,
      node := (I.shape.nodeOk n).setCell hN (lvl_congr hlv) base.al ?_, root := .inl e1,
      root_lt := ?_, lt := hn, live := H.live, own := .inl hlit, dead := fun r => ?_,
      parent := fun z hz q j h1 h2 => (S.parent z hz q j h1 h2).imp (·.1) id,
      same := p2, full := fun c hc => I.chain.mem_full hj hc, next := .inr ⟨by rw [p1]; rfl, p3⟩,
      before := .inr ⟨hj, by rw [h]; rfl⟩, after := .inl p1, apart := fun n2 J2 hj2 hne hm z hz hz' => ?_,
      away := fun n2 J2 hj => I.chain.not_mem hj hnf, uniq := fun n2 J2 hj2 hne e => hne (I.chain.uniq _ _ _ _ hj2 hj e),
      ulit := ?_, half := fun i' J' h' => ?_, lit := fun z hz hl => absurd hl (W.clear O hf hT hz),
      plan := fun c hc hp => ?_, hold := .inr ⟨i, hh⟩, nosingle := fun _ _ _ _ i' b h' => ?_, cells := fun j l hc => ?_ }
    · rw [base.lvl]; exact I.shape.lev _ _ _ H.cell
    · obtain ⟨k, ho⟩ := hlit
      obtain ⟨r, hr, _⟩ := ho.path
      exact ⟨r, by rw [e1]; exact hr, I.shape.root_lt r hr⟩
    · rw [e4]
      exact ⟨.inl, fun h => h.elim id fun h => O.dead r h⟩
    · rcases I.chain.disj hj2 hj hz hz' with e | e | e
      · exact hne e
      · exact hm e
      · exact I.chain.not_mem hj2 hnf e
    · obtain ⟨k, ho⟩ := hlit
      exact ⟨k, (W.upper k).2 ho⟩
    · rw [p1] at h'; cases h'
    · obtain ⟨_, _, _, _, _, _, _, _, b1, _⟩ := I.chain.mem_full hj hc
      rw [p3 c hc, b1, Turn.released_full.2.1] at hp
      exact absurd rfl hp
    · rw [p1] at h'; cases h'
    · rw [hN] at hc
      by_cases e : j = i
      · subst e
        simp only [upd_eq] at hc
        cases hc
        exact .inr base.src
      · simp only [upd_ne e] at hc
        exact .inl hc
  refine ⟨⟨Q.inv I (Q.gone hT) (fun e he => ?_) ?_, Q.evo I⟩, Q.drift I (.inr ⟨hj, by simp [h]⟩) (fun k z h1 h2 h3 => ⟨(S.up hroot h1 h2).1, (O.counterpart S h1 h2 (hf k h3 (S.up hroot h1 h2).1) hroot).2.2⟩) (by rw [e1]; exact hroot)⟩
  · rw [kids] at he
    exact .inl ((W.upper _).2 (I.kid_on hlit hnf he))
  · obtain ⟨k, h1, h2⟩ := I.order.above n hlit
    exact ⟨k, (W.upper _).2 h1, by rw [kids]; exact h2⟩

theorem Inv.rootSwap (I : Inv m A src) {r n nl nh : Nat} {b : Key} {ch : List Ref}
    (h : m.phase r = .root n nl nh b ch) (hr : m.root = some n) :
    Both m ({ (m.setPhase r .locked).kill ch with root := some r }.release ch) A src := by
  have hj : (m.phase r).job = some ⟨.node n, .node nl, .node nh, b, ch⟩ := by rw [h]; rfl
  obtain ⟨O, H⟩ := I.jobs.root r n nl nh b ch h
  generalize hJ : (⟨.node n, .node nl, .node nh, b, ch⟩ : Job) = J at hj O
  have hx : J.x = .node n := by rw [← hJ]
  have hxl : J.xl = .node nl := by rw [← hJ]
  have hxh : J.xh = .node nh := by rw [← hJ]
  have hch : J.ch = ch := by rw [← hJ]
  have hmid : J.mid = b := by rw [← hJ]
  have hnf : ∀ i x xl xh mid ch cl, m.phase r ≠ .full i x xl xh mid ch (some cl) := by simp [h]
  have hnot : .node r ∉ J.ch := I.chain.not_mem hj hnf
  generalize hm' : ({ (m.setPhase r .locked).kill ch with root := some r }.release ch : Mem V) = m'
  have e1 : m'.root = some r := by rw [← hm']; rfl
  have e2 : m'.node = m.node := by rw [← hm']; rfl
  have e3 : ∀ c, m'.phase c = if ch.contains (.node c) then (upd m.phase r .locked c).released
      else upd m.phase r .locked c := by rw [← hm']; exact fun _ => rfl
  have e4 : ∀ y, m'.dead y = (m.dead y || ch.contains y) := by rw [← hm']; exact fun _ => rfl
  have e5 : m'.leaf = m.leaf := by rw [← hm']; rfl
  have e6 : m'.frozen = m.frozen := by rw [← hm']; rfl
  have e7 : m'.nL = m.nL := by rw [← hm']; rfl
  have e8 : m'.nN = m.nN := by rw [← hm']; rfl
  clear hm'
  have p1 : m'.phase r = .locked := by
    rw [e3, if_neg (by simpa [← hch] using hnot), upd_eq]
  have p2 : ∀ c, c ≠ r → .node c ∉ J.ch → m'.phase c = m.phase c := by
    intro c h1 h2
    rw [e3, if_neg (by simpa [← hch] using h2), upd_ne h1]
  have p3 : ∀ c, .node c ∈ J.ch → m'.phase c = (m.phase c).released := by
    intro c h1
    rw [e3, if_pos (by simpa [← hch] using h1), upd_ne (by rintro rfl; exact hnot h1)]
  have hro : ∀ k, route (m.node r).kids k = if k ≤ b then 1 else 0 := fun k => by rw [H.kids, route_cons]; rfl
  have hpar : ∀ y ∈ J.ch, ∀ q j, Use m.root m.node q j → (m.node q).cell j = .to y → .node q ∈ J.ch := by
    rw [hch]; exact H.parent
  have W : Flow m.root m'.root m.node m'.node r (fun _ => True) (fun _ => True) J := by
    rw [e1, e2]
    refine flow_top O hx hr hpar (fun k => ?_) (fun k k' hs => ?_) hnot
    · simp only [Node.dest, hro, Job.side, hmid]
      split
      · rw [hxl]; exact H.low
      · rw [hxh]; exact H.high
    · simp only [Job.side, hmid, hxl, hxh] at hs
      rw [hro, hro]
      have := H.ne
      by_cases c1 : k ≤ b <;> by_cases c2 : k' ≤ b
      · rw [if_pos c1, if_pos c2]
      · rw [if_pos c1, if_neg c2] at hs; cases hs; exact absurd rfl this
      · rw [if_neg c1, if_pos c2] at hs; cases hs; exact absurd rfl this
      · rw [if_neg c1, if_neg c2]
  have hT : ∀ k z, On m.root m.node k z → z ∈ J.ch → True := fun _ _ _ _ => trivial
  have Q : Turn m m' src r (fun _ => True) (fun _ => True) J (fun _ => True) false := by
    refine {
      flow := W, job := O, fil := fun _ _ _ => trivial, leaf := e5, frozen := e6, nN := e8, nL := e7,
      lv := fun c => by rw [e2],
      node := by rw [e2]; exact I.shape.nodeOk r, root := .inr ⟨n, hr, hx ▸ I.chain.head_mem hj⟩,
      root_lt := ⟨r, e1, H.lt⟩, lt := H.lt, live := H.live, own := .inr H.src, dead := fun y => ?_,
      parent := fun z hz q j h1 h2 => .inr (hpar z hz q j h1 h2),
      same := p2, full := fun c hc => I.chain.mem_full hj hc, next := .inr ⟨by rw [p1]; rfl, p3⟩,
      before := .inr ⟨hj, by rw [h]; rfl⟩, after := .inl p1, apart := fun n2 J2 hj2 hne hm z hz hz' => ?_,
      away := fun n2 J2 hj => I.chain.not_mem hj hnf, uniq := fun n2 J2 hj2 hne e => hne (I.chain.uniq _ _ _ _ hj2 hj e),
      ulit := ⟨0, (W.upper 0).2 trivial⟩, half := fun i' J' h' => ?_,
      lit := fun z hz hl => absurd hl (W.clear O (fun _ _ _ => trivial) hT hz),
      plan := fun c hc hp => ?_, hold := .inl (O.dead _ (I.chain.head_mem hj)), nosingle := fun _ _ _ _ i' b h' => ?_,
      cells := fun j l hc => .inl (by rw [e2] at hc; exact hc) }
    · rw [e4, ← hch]; simp
    · rcases I.chain.disj hj2 hj hz hz' with e | e | e
      · exact hne e
      · exact hm e
      · exact I.chain.not_mem hj2 hnf e
    · rw [p1] at h'; cases h'
    · obtain ⟨_, _, _, _, _, _, _, _, b1, _⟩ := I.chain.mem_full hj hc
      rw [p3 c hc, b1, Turn.released_full.2.1] at hp
      exact absurd rfl hp
    · rw [p1] at h'; cases h'
  refine ⟨⟨Q.inv I (Q.gone hT) (fun e he => .inl ((W.upper _).2 trivial)) ⟨b + 1, (W.upper _).2 trivial, fun e he => ?_⟩, Q.evo I⟩, Q.drift I (.inr ⟨hj, by simp [h]⟩) (fun k z h1 h2 _ => ⟨trivial, O.counterpart_top hx hr hpar k z h1 h2⟩) (by rw [e1]; rintro _ ⟨rfl⟩; exact hnot)⟩
  rw [e2, H.kids] at he
  rw [List.mem_singleton.1 he]
  exact Nat.lt_succ_self _

end Scc.Grove
