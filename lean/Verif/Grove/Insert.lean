import Verif.Grove.Swap

/-!
# The lower half is added
-/

namespace Scc.Grove

local notation "Key" => Nat
local notation "Id" => Nat
local notation "Thr" => Nat

theorem insKid_mem {b i : Nat} {l : List (Key × Nat)} {e : Key × Nat} :
    e ∈ insKid b i l ↔ e = (b, i) ∨ e ∈ l := by
  induction l with
  | nil => simp [insKid]
  | cons a l ih =>
    simp only [insKid]
    split
    · simp
    · simp only [List.mem_cons, ih]
      constructor
      · rintro (h | h | h) <;> simp [h]
      · rintro (h | h | h) <;> simp [h]

theorem insKid_route {b s i : Nat} {l : List (Key × Nat)} (hn : (l.map Prod.snd).Nodup) (hp : ∀ e ∈ l, e.2 ≠ 0)
    (hb : route l b = i) (k : Key) :
    route (insKid b s l) k = if k ≤ b ∧ route l k = i then s else route l k := by
  induction l with
  | nil =>
    have hk : route ([] : List (Key × Nat)) k = i := hb
    simp only [insKid]
    rw [route_cons]
    by_cases h : k ≤ b
    · rw [if_pos h, if_pos ⟨h, hk⟩]
    · rw [if_neg h, if_neg fun h' => h h'.1]
  | cons e l ih =>
    simp only [List.map_cons, List.nodup_cons, List.mem_map, not_exists, not_and] at hn
    rw [route_cons] at hb
    simp only [insKid]
    by_cases he : b ≤ e.1
    · rw [if_pos he] at hb ⊢
      rw [route_cons]
      by_cases h : k ≤ b
      · rw [if_pos h, route_cons, if_pos (Nat.le_trans h he), if_pos ⟨h, hb⟩]
      · rw [if_neg h, if_neg fun h' => h h'.1]
    · rw [if_neg he] at hb ⊢
      rw [route_cons, route_cons]
      by_cases h : k ≤ e.1
      · rw [if_pos h, if_pos h, if_neg]
        rintro ⟨_, h2⟩
        rcases route_mem (l := l) (k := b) with h3 | ⟨b', _, h3⟩
        · exact hp e (List.mem_cons_self ..) (by omega)
        · rw [hb, ← h2] at h3
          exact hn.1 _ h3 rfl
      · rw [if_neg h, if_neg h]
        exact ih hn.2 (fun e he => hp e (List.mem_cons_of_mem _ he)) hb

theorem insKid_asc {b s : Nat} {l : List (Key × Nat)} (ha : Asc l) (hb : ∀ e ∈ l, e.1 ≠ b) : Asc (insKid b s l) := by
  induction l with
  | nil => simp [insKid, Asc]
  | cons e l ih =>
    have ha' := List.pairwise_cons.1 ha
    simp only [insKid]
    split
    · next h =>
      refine List.pairwise_cons.2 ⟨fun a h' => ?_, ha⟩
      have h2 := hb e (List.mem_cons_self ..)
      rcases List.mem_cons.1 h' with rfl | h'
      · simp only; omega
      · have := ha'.1 a h'
        simp only; omega
    · next h =>
      refine List.pairwise_cons.2 ⟨fun a h' => ?_, ih ha'.2 fun e he => hb e (List.mem_cons_of_mem _ he)⟩
      rcases insKid_mem.1 h' with rfl | h'
      · simp only; omega
      · exact ha'.1 a h'

theorem insKid_nodup {b s : Nat} {l : List (Key × Nat)} (hn : (l.map Prod.snd).Nodup) (hs : ∀ e ∈ l, e.2 ≠ s) :
    ((insKid b s l).map Prod.snd).Nodup := by
  induction l with
  | nil => simp [insKid]
  | cons e l ih =>
    simp only [insKid]
    split
    · simp only [List.map_cons, List.nodup_cons]
      refine ⟨fun h => ?_, by simpa using hn⟩
      rcases List.mem_cons.1 h with h | h
      · exact hs e (List.mem_cons_self ..) h.symm
      · obtain ⟨a, h1, h2⟩ := List.mem_map.1 h
        exact hs a (List.mem_cons_of_mem _ h1) h2
    · simp only [List.map_cons, List.nodup_cons] at hn ⊢
      refine ⟨fun h => ?_, ih hn.2 fun e he => hs e (List.mem_cons_of_mem _ he)⟩
      obtain ⟨a, h1, h2⟩ := List.mem_map.1 h
      rcases insKid_mem.1 h1 with rfl | h1
      · exact hs e (List.mem_cons_self ..) h2.symm
      · exact hn.1 (List.mem_map.2 ⟨a, h1, h2⟩)

variable {V : Type} {m m' : Mem V} {A : Key → Option V} {src : Ref → Ref}

/-- A change goes on for some of the keys. -/
theorem JobOk.frameOn {R R' : Option Id} {N N' : Id → Node} {L : Id → Leaf V} {F : Id → Bool}
    {D D' : Ref → Bool} {nN nL : Nat} {J : Job} {fil fil' : Key → Prop} {d d' : Bool}
    (O : JobOk R N L F D nN nL src J fil d) (hf : ∀ k, fil' k → fil k)
    (fcl : ∀ k k', fil' k → J.side k' = J.side k → fil' k')
    (hx : ∀ x ∈ J.ch, Kept N N' L L x ∧ D' x = d' ∧ (d' = false → Lit R' N' x) ∧ ∀ k, fil' k → On R N k x → On R' N' k x)
    (hp : ∀ k x y, fil' k → Pair N k J.x (J.side k) x y → PairOk R N L F D nN nL src J k x y →
      Kept N N' L L y ∧ ¬ Lit R' N' y ∧ D' y = false) :
    JobOk R' N' L F D' nN nL src J fil' d' := by
  have priv : ∀ k x y, fil' k → Pair N k J.x (J.side k) x y → Kept N N' L L y ∧ ¬ Lit R' N' y ∧ D' y = false :=
    fun k x y hk h => hp k x y hk h (O.pair k x y (hf k hk) h)
  have fwd : ∀ k x y, fil' k → Pair N k J.x (J.side k) x y → Pair N' k J.x (J.side k) x y := by
    intro k x y hk h
    induction h with
    | base => exact .base
    | @step n n' w w' h hd hd' hne ih =>
      have e1 : N' n = N n := (hx _ (O.pair k _ _ (hf k hk) h).mem).1
      have e2 : N' n' = N n' := (priv k _ _ hk h).1
      exact .step ih (by rw [e1, hd]) (by rw [e2, hd']) hne
  have bwd : ∀ k x y, fil' k → Pair N' k J.x (J.side k) x y → Pair N k J.x (J.side k) x y := by
    intro k x y hk h
    induction h with
    | base => exact .base
    | @step n n' w w' _ hd hd' hne h =>
      have e1 : N' n = N n := (hx _ (O.pair k _ _ (hf k hk) h).mem).1
      have e2 : N' n' = N n' := (priv k _ _ hk h).1
      exact .step h (by rw [← e1, hd]) (by rw [← e2, hd']) hne
  have same : ∀ k x y k2, fil' k → x ∈ J.ch → Same R N J k x y k2 → Same R' N' J k x y k2 := by
    intro k x y k2 hk hxm h
    have hk2 := fcl k k2 hk h.2.1
    exact ⟨(hx x hxm).2.2.2 _ hk2 h.1, h.2.1, fwd k2 _ _ hk2 h.2.2⟩
  refine ⟨fun k x y hk h => ?_, fun k k' x n n' hk hk' h h' he => ?_, fun k k' x y hk hk' h h' => ?_,
    fun y hy => (hx y hy).2.1, fun hd y hy => (hx y hy).2.2.1 hd, O.frozen, fcl⟩
  · have h := bwd k x y hk h
    have P := O.pair k x y (hf k hk) h
    obtain ⟨q1, q4, q5⟩ := priv k x y hk h
    obtain ⟨p1, p2, p3⟩ := hx x P.mem
    refine ⟨P.mem, P.src, P.al, ?_, q4, q5, fun hr => P.ret (q1.retired.1 hr), ?_⟩
    · rw [q1.lvl, p1.lvl, P.lvl]
    · have hs := P.same
      cases x with
      | leaf l =>
        cases y with
        | node n => simp [Match] at hs
        | leaf l' => exact ⟨hs.1, hs.2.1, fun k2 h2 => same _ _ _ _ hk P.mem (hs.2.2 k2 h2)⟩
      | node n =>
        cases y with
        | leaf l => simp [Match] at hs
        | node n' =>
          simp only [Kept] at p1 q1
          obtain ⟨⟨w, w', g1, g2, g3⟩, s1, k2, s2, s3⟩ := hs
          refine ⟨⟨w, w', by rw [p1, g1], by rw [q1, g2], g3⟩, fun e he => ?_, k2, ?_, same _ _ _ _ hk P.mem s3⟩
          · rw [q1] at he
            exact same _ _ _ _ hk P.mem (s1 e he)
          · rw [q1]; exact s2
  · have h := bwd k _ _ hk h
    have h' := bwd k' _ _ hk' h'
    have e1 : N' n = N n := (priv k _ _ hk h).1
    have e2 : N' n' = N n' := (priv k' _ _ hk' h').1
    rw [e1, e2] at he ⊢
    exact O.inj k k' x n n' (hf k hk) (hf k' hk') h h' he
  · exact O.sep k k' x y (hf k hk) (hf k' hk') (bwd k _ _ hk h) (bwd k' _ _ hk' h')

theorem Inv.insert (I : Inv m A src) {n i : Nat} {x xl xh : Ref} {mid : Key} {ch : List Ref}
    (h : m.phase n = .split i x xl xh mid ch) :
    Both m ((((m.setNode n
        { m.node n with kids := insKid mid (m.node n).used (m.node n).kids, cell := upd (m.node n).cell (m.node n).used (.to xl), used := (m.node n).used + 1 }).bump n).setPhase n (.ins i x xl xh mid ch false)).kill ch)
      A src := by
  have hpl : (m.phase n).plan = some (i, ⟨x, xl, xh, mid, ch⟩) := by rw [h]; rfl
  have hlive : m.dead (.node n) = false := by
    cases hd : m.dead (.node n) with
    | false => rfl
    | true => have := I.dead.over n hd; rw [h] at this; cases this
  obtain ⟨O, S⟩ := I.jobs.plan n i _ hpl hlive
  have hj := Phase.plan_job hpl
  generalize hJ : (⟨x, xl, xh, mid, ch⟩ : Job) = J at hj O S hpl
  have hx : J.x = x := by rw [← hJ]
  have hxl : J.xl = xl := by rw [← hJ]
  have hxh : J.xh = xh := by rw [← hJ]
  have hch : J.ch = ch := by rw [← hJ]
  have hmid : J.mid = mid := by rw [← hJ]
  have hnf : ∀ i x xl xh mid ch cl, m.phase n ≠ .full i x xl xh mid ch (some cl) := by simp [h]
  have hn : n < m.nN := I.lt_of_phase (by simp [h])
  have hlit : Lit m.root m.node (.node n) := ⟨_, S.low.1⟩
  have hroot : ∀ r, m.root = some r → .node r ∉ J.ch := by
    intro r hr hm
    have g1 := S.below _ hm
    have g2 := I.root_above hlit hr
    simp only [lvl_node] at g1
    omega
  have hnot : .node n ∉ J.ch := I.chain.not_mem hj hnf
  generalize hm' : (((((m.setNode n
        { m.node n with kids := insKid mid (m.node n).used (m.node n).kids, cell := upd (m.node n).cell (m.node n).used (.to xl), used := (m.node n).used + 1 }).bump n).setPhase n (.ins i x xl xh mid ch false)).kill ch) : Mem V) = m'
  have e1 : m'.root = m.root := by rw [← hm']; rfl
  have e2 : m'.node = upd m.node n { m.node n with kids := insKid mid (m.node n).used (m.node n).kids, cell := upd (m.node n).cell (m.node n).used (.to xl), used := (m.node n).used + 1 } := by
    rw [← hm']; rfl
  have e3 : m'.phase = upd m.phase n (.ins i x xl xh mid ch false) := by rw [← hm']; rfl
  have e4 : ∀ y, m'.dead y = (m.dead y || ch.contains y) := by rw [← hm']; exact fun _ => rfl
  have e5 : m'.leaf = m.leaf := by rw [← hm']; rfl
  have e6 : m'.frozen = m.frozen := by rw [← hm']; rfl
  have e7 : m'.nL = m.nL := by rw [← hm']; rfl
  have e8 : m'.nN = m.nN := by rw [← hm']; rfl
  clear hm'
  have p1 : m'.phase n = .ins i x xl xh mid ch false := by rw [e3, upd_eq]
  have hh : (m'.phase n).half = some (i, J) := by rw [p1, ← hJ]; rfl
  have p2 : ∀ c, c ≠ n → m'.phase c = m.phase c := fun c hc => by rw [e3, upd_ne hc]
  have hN : m'.node n = { m.node n with kids := insKid mid (m.node n).used (m.node n).kids, cell := upd (m.node n).cell (m.node n).used (.to xl), used := (m.node n).used + 1 } := by rw [e2, upd_eq]
  have hlv : ∀ c, (m'.node c).lv = (m.node c).lv := by
    intro c
    by_cases e : c = n
    · subst e; rw [hN]
    · rw [e2, upd_ne e]
  have kids : (m'.node n).kids = insKid mid (m.node n).used (m.node n).kids := by rw [hN]
  have cell : ∀ j, (m'.node n).cell j = if j = (m.node n).used then .to xl else (m.node n).cell j := by
    intro j; rw [hN]; rfl
  have K := I.shape.nodeOk n
  have lt_used : ∀ j ∈ (m.node n).slots, j < (m.node n).used := by
    intro j hj
    rcases List.mem_cons.1 hj with rfl | hj
    · exact K.used_pos
    · obtain ⟨e, he, rfl⟩ := List.mem_map.1 hj
      exact (K.pos e he).2
  have hi : i ≠ (m.node n).used := Nat.ne_of_lt (lt_used i S.slot)
  have low := S.low
  rw [hmid] at low
  have ro : ∀ k, route (m'.node n).kids k =
      if k ≤ mid ∧ route (m.node n).kids k = i then (m.node n).used else route (m.node n).kids k := by
    intro k
    rw [kids]
    exact insKid_route K.nodup (fun e he => (K.pos e he).1) low.2 k
  have roT : ∀ k, route (m.node n).kids k = i ∧ k ≤ mid → route (m'.node n).kids k = (m.node n).used :=
    fun k hk => by rw [ro, if_pos ⟨hk.2, hk.1⟩]
  have roF : ∀ k, ¬ (route (m.node n).kids k = i ∧ k ≤ mid) → route (m'.node n).kids k = route (m.node n).kids k :=
    fun k hk => by rw [ro, if_neg fun h => hk ⟨h.2, h.1⟩]
  have base := O.pair J.mid _ _ trivial .base
  rw [Job.side_low (Nat.le_refl _), hxl] at base
  have hnew : ∀ e ∈ (m.node n).kids, e.1 ≠ mid := by
    rintro ⟨b, j⟩ he rfl
    obtain ⟨k2, g1, g2, g3⟩ := S.high
    have g4 := route_bound K.asc he
    rw [low.2] at g4
    subst g4
    have := route_le he g3 K.nodup (K.pos _ he).1
    omega
  have S' := S.spot
  have W : Flow m.root m'.root m.node m'.node n (fun k => route (m.node n).kids k = i ∧ k ≤ mid)
      (fun k => On m.root m.node k (.node n)) J := by
    rw [e1]
    refine flow_local O S' hroot (fun k hk => trivial) (fun c hc => by rw [e2, upd_ne hc])
      (fun k hk => ⟨roF k hk, ?_⟩)
      (fun k hk => ?_) (fun k hk => ?_) (fun k k' h1 h2 _ => by rw [roT k h1, roT k' h2]) (fun k k2 h1 h2 h3 => ⟨h2, ?_⟩) hnot
    · simp only [Node.dest, roF k hk, cell]
      rw [if_neg (Nat.ne_of_lt (lt_used _ route_slots))]
    · simp only [Node.dest, hk.1]; exact S.cell
    · simp only [Node.dest, roT k hk, cell, if_pos, Job.side_low (J := J) (k := k) (by rw [hmid]; exact hk.2), hxl]
    · apply Decidable.byContradiction
      intro hc
      rw [Job.side_high (k := k2) (by omega), Job.side_low (k := k) (by rw [hmid]; exact h1.2)] at h3
      exact S.ne h3.symm
  have hf : ∀ k, (route (m.node n).kids k = i ∧ k ≤ mid) → On m.root m.node k (.node n) → True := fun _ _ _ => trivial
  have stay : ∀ y, y ∉ J.ch → m'.dead y = m.dead y := fun y hy => by
    rw [e4]; simp [← hch, hy]
  have hkill : ∀ y ∈ J.ch, m'.dead y = true := fun y hy => by
    rw [e4]; simp [← hch, hy]
  have hun : ∀ y ∈ J.ch, ∀ k a, Pair m.node k J.x (J.side k) a y → False :=
    fun y hy k a hp => (O.pair k a y trivial hp).unlit (O.lit rfl y hy)
  have edge : ∀ y ∈ J.ch, ∀ q j, Use m'.root m'.node q j → (m'.node q).cell j = .to y →
      (q = n ∧ j = i) ∨ .node q ∈ J.ch := by
    intro y hy q j hu hc
    obtain ⟨k, ho, hk⟩ := hu
    rcases W.edge O hf (z := y) ho (by simp only [Node.dest, hk, hc]) with
      ⟨a1, a2, a3, a4⟩ | ⟨a1, a2, a3, a4⟩ | ⟨a1, a2, c, w, a3, a4, a5, a6, a7, a8⟩
    · rw [hk] at a3
      simp only [Node.dest, a3] at a2
      exact S.parent y hy q j ⟨k, a1, a3⟩ a2
    · exact (hun y hy k J.x (a4 ▸ .base)).elim
    · rcases a8 with ⟨rfl, a8⟩ | a8
      · exact absurd hy a8
      · exact (hun y hy k w a8).elim
  have live' : ∀ y, ¬ Lit m.root m.node y → m.dead y = false → m'.dead y = false := by
    intro y h1 h2
    rw [stay y fun hy => h1 (O.lit rfl y hy), h2]
  have O' : JobOk m'.root m'.node m'.leaf m'.frozen m'.dead m'.nN m'.nL src J (fun k => J.mid < k) true := by
    rw [e5, e6, e7, e8]
    refine O.frameOn (fun _ _ => trivial) (fun k k' h1 h2 => ?_) (fun a ha => ⟨?_, hkill a ha, by simp, fun k hk ho => ?_⟩)
      (fun k a y hk hp P => ⟨?_, ?_, live' y P.unlit P.live⟩)
    · apply Decidable.byContradiction
      intro hc
      rw [Job.side_high (k := k) h1, Job.side_low (k := k') (by omega)] at h2
      exact S.ne h2
    · cases a with
      | leaf l => rfl
      | node c => exact W.other c fun e => hnot (e ▸ ha)
    · exact W.to k a ho fun ht => by omega
    · cases y with
      | leaf l => rfl
      | node c =>
        refine W.other c ?_
        rintro rfl
        exact P.unlit hlit
    · rintro ⟨k1, ho⟩
      rcases W.of k1 y ho (by rintro rfl; exact P.unlit hlit) with ⟨h1, _⟩ | ⟨h1, h2, a', h3, h4⟩
      · exact P.unlit ⟨k1, h1⟩
      · have P1 := O.pair k1 a' y trivial h4
        have e : a' = a := P1.src.symm.trans P.src
        subst e
        have := O.sep k k1 a' y trivial trivial hp h4
        rw [Job.side_high (k := k) hk, Job.side_low (k := k1) (by rw [hmid]; exact h1.2)] at this
        exact S.ne this.symm
  have onlow : On m'.root m'.node mid (.node n) := (W.upper mid).2 low.1
  have H' : Half m'.root m'.node m'.dead n i J := by
    obtain ⟨k2, g1, g2, g3⟩ := S.high
    refine ⟨?_, ?_, by rw [stay _ hnot]; exact hlive, fun k hk => ?_, ⟨k2, (W.upper k2).2 g2, ?_⟩, edge, fun y hy => ?_,
      ⟨(m.node n).used, ⟨mid, onlow, roT mid ⟨low.2, Nat.le_refl _⟩⟩, by rw [cell, if_pos rfl, hxl]⟩, ?_⟩
    · have := S.slot
      rcases List.mem_cons.1 this with e | e
      · rw [e]; exact List.mem_cons_self ..
      · obtain ⟨e, he, e'⟩ := List.mem_map.1 e
        refine List.mem_cons_of_mem _ (List.mem_map.2 ⟨e, ?_, e'⟩)
        rw [kids]; exact insKid_mem.2 (.inr he)
    · rw [cell, if_neg hi]; exact S.cell
    · rw [ro] at hk
      split at hk
      · exact absurd hk.symm hi
      · next hk' =>
        apply Decidable.byContradiction
        intro hc
        exact hk' ⟨by omega, hk⟩
    · rw [roF k2 (by omega), g3]
    · rw [lvl_congr hlv, hlv]; exact S.below y hy
    · rw [hxl]; exact live' xl base.unlit base.live
  have Q : Turn m m' src n (fun k => route (m.node n).kids k = i ∧ k ≤ mid) (fun k => On m.root m.node k (.node n)) J
      (fun _ => True) false := by
    refine {
      flow := W, job := O, fil := hf, leaf := e5, frozen := e6, nN := e8, nL := e7, lv := hlv,
      node := ?_, root := .inl e1,
      root_lt := ?_, lt := hn, live := hlive, own := .inl hlit, dead := fun r => ?_,
      parent := fun z hz q j h1 h2 => (S.parent z hz q j h1 h2).imp (·.1) id,
      same := fun c hc _ => p2 c hc, full := fun c hc => I.chain.mem_full hj hc,
      next := .inl fun c hc => p2 c fun e => hnot (e ▸ hc),
      before := .inr ⟨hj, by rw [h]; rfl⟩, after := .inr ⟨⟨i, false, by rw [p1, ← hJ]⟩, rfl⟩,
      apart := fun n2 J2 hj2 hne hm z hz hz' => ?_,
      away := fun n2 J2 hj => I.chain.not_mem hj hnf, uniq := fun n2 J2 hj2 hne e => hne (I.chain.uniq _ _ _ _ hj2 hj e),
      ulit := ⟨mid, onlow⟩, half := fun i' J' h' => ?_, lit := fun z hz hl => ⟨i, hh⟩,
      plan := fun c hc hp => ⟨i, hh⟩, hold := .inl (O.dead _ (I.chain.head_mem hj)),
      nosingle := fun _ _ _ h' => (by rw [h] at h'; cases h'), cells := fun j l hc => ?_ }
    · have hlx : (m.node n).lv = lvl m.node xl + 1 := by rw [base.lvl]; exact I.shape.lev _ _ _ S.cell
      refine ⟨fun j y hy => ?_, fun j y hy => ?_, by rw [hlv]; exact K.lv_pos, ?_, ?_, ?_, ?_, ?_, ?_⟩
      · rw [cell] at hy
        split at hy
        · cases hy; exact base.al
        · exact K.cell_al j y hy
      · rw [cell] at hy
        rw [lvl_congr hlv, hlv]
        split at hy
        · cases hy; exact hlx
        · exact K.lev j y hy
      · rw [kids]; exact insKid_asc K.asc hnew
      · rw [kids]
        exact insKid_nodup K.nodup fun e he => Nat.ne_of_lt (K.pos e he).2
      · rw [kids, hN]
        intro e he
        have := K.used_pos
        rcases insKid_mem.1 he with rfl | he
        · simp only; omega
        · have := K.pos e he
          simp only; omega
      · rw [hN]; simp
      · intro _
        rw [cell, if_neg (by have := K.used_pos; omega)]
        cases hk : (m.node n).kids with
        | nil =>
          have := S.slot
          simp only [Node.slots, hk, List.map_nil, List.mem_cons, List.not_mem_nil, or_false] at this
          exact ⟨J.x, this ▸ S.cell⟩
        | cons a b => exact K.unb (by simp [hk])
      · rw [kids]
        intro e he
        rw [cell]
        split
        · exact ⟨_, rfl⟩
        · next hne =>
          rcases insKid_mem.1 he with rfl | he
          · exact absurd rfl hne
          · exact K.kid e he
    · obtain ⟨k, ho⟩ := hlit
      obtain ⟨r, hr, _⟩ := ho.path
      exact ⟨r, by rw [e1]; exact hr, I.shape.root_lt r hr⟩
    · rw [e4, ← hch]; simp
    · rcases I.chain.disj hj2 hj hz hz' with e | e | e
      · exact hne e
      · exact hm e
      · exact I.chain.not_mem hj2 hnf e
    · rw [hh] at h'
      cases h'
      exact ⟨O', H'⟩
    · rw [cell] at hc
      split at hc
      · cases hc; exact .inr base.src
      · exact .inl hc
  refine ⟨⟨Q.inv I ?_ (fun e he => ?_) ?_, Q.evo I⟩, Q.drift I (.inr ⟨hj, by simp [h]⟩) (fun k z h1 h2 _ => ⟨(S'.up hroot h1 h2).1, (O.counterpart S' h1 h2 trivial hroot).2.2⟩) (by rw [e1]; exact hroot)⟩
  · refine ⟨fun z hz k e h1 h2 h3 h4 => ⟨n, i, J, hh, hz, by rw [hmid]; exact h4.2⟩, fun z k e h1 h2 h3 => ?_,
      fun z hz k k2 h1 h2 h3 h4 h5 => ?_, fun k k1 c c' z h1 h2 h3 h4 h5 h6 h7 h8 => ?_, fun c b j hc => ?_⟩
    · obtain ⟨n2, i2, J2, g1, g2, g3⟩ := h3
      have hne : n2 ≠ n := by
        rintro rfl
        rw [h] at g1; cases g1
      exact ⟨n2, i2, J2, by rw [p2 n2 hne]; exact g1, g2, g3⟩
    · have := (S'.up hroot h1 hz).2
      exact h2 ⟨this, Nat.le_trans h4 h5.2⟩
    · have hm := (O.pair k _ _ trivial h5).mem
      obtain ⟨_, g2, y', g3⟩ := O.counterpart S' h4 hm trivial hroot
      have hk1 : mid < k1 := by
        apply Decidable.byContradiction
        intro hc
        exact h3 ⟨g2, by omega⟩
      cases y' with
      | leaf l => have := (O.pair k1 _ _ trivial g3).same; simp [Match] at this
      | node c1 =>
        obtain ⟨c2, w, w', a1, a2, a3, a4⟩ := O.node_pair trivial g3
        cases a1
        rw [h6] at a2
        cases a2
        rcases a4 with ⟨rfl, _⟩ | a4
        · obtain ⟨b1, _⟩ := O.inj k k1 _ c' c1 trivial trivial h5 g3 (by rw [h7, a3])
          subst b1
          have := O.sep k k1 _ _ trivial trivial h5 g3
          rw [Job.side_high (k := k1) (by omega), Job.side_low (k := k) (by rw [hmid]; exact h1.2)] at this
          exact S.ne this
        · exact h8 (O.pair k1 _ _ trivial a4).mem
    · rw [p2 c ?_]
      · exact hc
      · rintro rfl
        rw [h] at hc; cases hc
  · rw [kids] at he
    rcases insKid_mem.1 he with rfl | he
    · exact .inl onlow
    · exact .inl ((W.upper _).2 (I.kid_on hlit hnf he))
  · obtain ⟨k, h1, h2⟩ := I.order.above n hlit
    obtain ⟨k2, g1, g2, _⟩ := S.high
    rw [hmid] at g1
    refine ⟨if k ≤ k2 then k2 else k, (W.upper _).2 (by split <;> assumption), fun e he => ?_⟩
    rw [kids] at he
    rcases insKid_mem.1 he with rfl | he
    · simp only; split <;> omega
    · have := h2 e he
      split <;> omega

end Scc.Grove
