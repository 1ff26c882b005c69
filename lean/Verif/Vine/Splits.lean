import Verif.Vine.Turns

/-!
# Splits and merges, in terms of leaves
-/

namespace Scc.Vine

open Scc.Grove

local notation "Key" => Nat
local notation "Id" => Nat
local notation "Thr" => Nat

variable {V : Type} {m m' : Mem V} {d : Lst} {A : Key → Option V} {src src' : Ref → Ref} {lt : Id → Id → Prop}

/-! ## Nodes with room -/

theorem Base.insert (B : Base m d A src) {n i : Nat} {x xl xh : Ref} {mid : Key} {ch : List Ref}
    (h : m.phase n = .split i x xl xh mid ch) (hg : ∀ a b, x = .leaf a → xl = .leaf b → d.lst b = true)
    (hm' : ((((m.setNode n
        { m.node n with kids := insKid mid (m.node n).used (m.node n).kids,
                        cell := upd (m.node n).cell (m.node n).used (.to xl),
                        used := (m.node n).used + 1 }).bump n).setPhase n (.ins i x xl xh mid ch false)).kill ch) = m') :
    Data m m' d A src src := by
  have I := B.inv
  have e1 : m'.root = m.root := by rw [← hm']; rfl
  have e2 : m'.node = upd m.node n { m.node n with kids := insKid mid (m.node n).used (m.node n).kids, cell := upd (m.node n).cell (m.node n).used (.to xl), used := (m.node n).used + 1 } := by rw [← hm']; rfl
  have e3 : m'.phase = upd m.phase n (.ins i x xl xh mid ch false) := by rw [← hm']; rfl
  have e4 : m'.dead = fun r => m.dead r || ch.contains r := by rw [← hm']; rfl
  have e5 : m'.leaf = m.leaf := by rw [← hm']; rfl
  have e6 : m'.frozen = m.frozen := by rw [← hm']; rfl
  have e8 : m'.nN = m.nN := by rw [← hm']; rfl
  have e9 : m'.ver = upd m.ver n (m.ver n + 1) := by rw [← hm']; rfl
  have hI := I.insert h
  rw [hm'] at hI
  have hj : (m.phase n).job = some ⟨x, xl, xh, mid, ch⟩ := by rw [h]; rfl
  refine .plain hI.next (.bump e9 fun c hc => by rw [e2, upd_ne hc]) hI.drift e5 (fun l hl => by rw [e6]; exact hl)
    (B.killed hj fun r => by rw [e4]) ?_ (B.nul_keep e1 e8 ?_) (fin1_upd e3 (by simp))
  · cases x with
    | node c =>
      have js := job_upd (d := d) (A := A) e3 (fun o => by rw [h]; rfl) (fun o => rfl)
      exact ⟨n, fun c _ => js c, by rw [js n]; exact .keep _, fun L h _ => by rw [js n, h]; simp, fun h => by rw [js n]; exact h⟩
    | leaf x =>
      obtain ⟨a, b, e, e'⟩ := Inv.leaves I hj rfl
      simp only at e e'
      subst e e'
      have jn : (view m d A).job n = some ⟨x, a, b, .split⟩ := by simp only [view, h, ljob]
      have jn' : (view m' (d.after m m') A).job n = some ⟨x, a, b, .ins⟩ := by simp only [view, e3, upd_eq, ljob]
      refine ⟨n, job_one e3, ?_, fun L hL hs => by rw [jn'] ; simp, fun hL => by rw [jn] at hL; cases hL⟩
      rw [jn, jn']
      refine .ins x a b (hg x a rfl rfl) ?_
      show m'.dead (.leaf x) = true
      have hch := Inv.ch_leaf I hj rfl
      simp only at hch
      rw [e4, hch]; simp
  · intro c hc
    rw [e2, upd_apply] at hc
    split at hc
    · next e =>
      subst e
      simp only [upd_apply] at hc
      split at hc
      · cases hc
      · exact hc
    · exact hc

/-- Replacement of other leaves, or of the same. -/
theorem VInv.job_eq {w : View V} (I : VInv w d lt) {n c l : Id} {J L : LJob} (h : w.job n = some J) (hm : J.mem l) (h' : w.job c = some L)
    (hm' : L.mem l) : c = n ∧ L = J := by
  have e := I.sep _ _ _ _ _ h' h hm' hm
  subst e
  rw [h] at h'
  cases h'
  exact ⟨rfl, rfl⟩

theorem Base.thaw (B : Base m d A src) (I : VInv (view m d A) d lt) {n i : Nat} {x xl xh : Ref} {mid : Key} {ch : List Ref}
    (h : m.phase n = .ins i x xl xh mid ch false) (hg : ∀ a, x = .leaf a → d.gone a = true)
    (hm' : (m.thaw xl).setPhase n (.ins i x xl xh mid ch true) = m') : Data m m' d A src src := by
  have J := B.inv
  have hI := J.thaw h
  rw [hm'] at hI
  have hj : (m.phase n).job = some ⟨x, xl, xh, mid, ch⟩ := by rw [h]; rfl
  cases x with
  | node c =>
    obtain ⟨ch', _, _, h3⟩ := J.chain.list n _ hj
    obtain ⟨_, _, _, _, _, nl, nh, _, q1, q2⟩ := h3 c rfl
    simp only at q1 q2
    subst q1 q2
    have e3 : m'.phase = upd m.phase n (.ins i (.node c) (.node nl) (.node nh) mid ch true) := by rw [← hm']; rfl
    have e : ∀ f : Mem V → Prop, f ((m.thaw (.node nl)).setPhase n (.ins i (.node c) (.node nl) (.node nh) mid ch true)) → f m' :=
      fun f h => hm' ▸ h
    refine .calm ⟨hI, e (fun m' => Evo m m' A) (.quiet rfl rfl rfl rfl rfl rfl)⟩ (e (Vers m) (.same rfl fun _ _ => rfl))
      (e (fun m' => Drift m m' A src) (.quiet J.shape.lev rfl rfl)) (by rw [← hm']; rfl) (by rw [← hm']; rfl)
      (by rw [← hm']; exact fun _ => rfl) (job_upd e3 (fun o => by rw [h]; rfl) fun o => rfl)
      (B.nul_keep (by rw [← hm']; rfl) (by rw [← hm']; rfl) (by rw [← hm']; exact fun _ h => h)) (fin1_upd e3 (by simp))
  | leaf x =>
    obtain ⟨a, b, e, e'⟩ := Inv.leaves J hj rfl
    simp only at e e'
    subst e e'
    have e1 : m'.root = m.root := by rw [← hm']; rfl
    have e2 : m'.node = m.node := by rw [← hm']; rfl
    have e3 : m'.phase = upd m.phase n (.ins i (.leaf x) (.leaf a) (.leaf b) mid ch true) := by rw [← hm']; rfl
    have e4 : m'.dead = m.dead := by rw [← hm']; rfl
    have e5 : m'.leaf = m.leaf := by rw [← hm']; rfl
    have e6 : m'.frozen = upd m.frozen a false := by rw [← hm']; rfl
    have e7 : m'.nL = m.nL := by rw [← hm']; rfl
    have e8 : m'.nN = m.nN := by rw [← hm']; rfl
    have e9 : m'.ver = m.ver := by rw [← hm']; rfl
    have jn : (view m d A).job n = some ⟨x, a, b, .ins⟩ := by simp only [view, h, ljob]
    have jn' : (view m' (d.after m m') A).job n = some ⟨x, a, b, .thawed⟩ := by simp only [view, e3, upd_eq, ljob]
    have K := I.jobs n _ jn
    refine ⟨⟨hI, .quiet e1 e2 e5 e4 e8 e7⟩, .same e9 fun _ _ => by rw [e2], .quiet J.shape.lev e1 e2, fun l _ => by rw [e5],
      fun l hl => .inl (by rw [← e4]; exact hl), ?_, ⟨n, job_one e3, ?_⟩, fun z x h => .inl h, ?_,
      B.nul_keep e1 e8 (fun _ h => by rw [← e2]; exact h), fin1_upd e3 (by simp), ?_⟩
    · intro l _ hf
      by_cases e : l = a
      · subst e
        refine .inr fun c L hc hm => .inr ?_
        obtain ⟨rfl, rfl⟩ := I.job_eq jn (LJob.mem_l _) hc hm
        refine ⟨rfl, K.two (by simp), fun L' hL' => ?_⟩
        rw [jn'] at hL'; cases hL'; rfl
      · rw [e6, upd_ne e]; exact .inl hf
    · rw [jn, jn']
      exact .thaw x a b (hg x rfl)
    · intro c L hc hs hn
      by_cases e : c = n
      · subst e; rw [jn'] at hn; cases hn
      · rw [job_one e3 c e, hc] at hn; cases hn
    · intro c L hc hn
      by_cases e : c = n
      · subst e; rw [jn] at hc; cases hc
      · rw [job_one e3 c e, hc] at hn; cases hn

theorem Base.full (B : Base m d A src) {n i : Nat} {x xl xh : Ref} {mid : Key} {ch : List Ref}
    (h : m.phase n = .split i x xl xh mid ch) (hg : ∀ a b, x = .leaf a → xl = .leaf b → d.lst b = true)
    (hm' : (match xh with | .leaf l => m.freeze l true | .node _ => m).setPhase n (.full i x xl xh mid ch none) = m') :
    Data m m' d A src src := by
  have J := B.inv
  have hI : Inv m' A src := hm' ▸ J.fullStep h
  have hj : (m.phase n).job = some ⟨x, xl, xh, mid, ch⟩ := by rw [h]; rfl
  cases x with
  | node c =>
    obtain ⟨ch', _, _, h3⟩ := J.chain.list n _ hj
    obtain ⟨_, _, _, _, _, nl, nh, _, q1, q2⟩ := h3 c rfl
    simp only at q1 q2
    subst q1 q2
    have e3 : m'.phase = upd m.phase n (.full i (.node c) (.node nl) (.node nh) mid ch none) := by rw [← hm']; rfl
    have e : ∀ f : Mem V → Prop, f (m.setPhase n (.full i (.node c) (.node nl) (.node nh) mid ch none)) → f m' :=
      fun f h => hm' ▸ h
    refine .calm ⟨hI, e (fun m' => Evo m m' A) (.quiet rfl rfl rfl rfl rfl rfl)⟩ (e (Vers m) (.same rfl fun _ _ => rfl))
      (e (fun m' => Drift m m' A src) (.quiet J.shape.lev rfl rfl)) (by rw [← hm']; rfl) (by rw [← hm']; rfl)
      (by rw [← hm']; exact fun _ => rfl) (job_upd e3 (fun o => by rw [h]; rfl) fun o => rfl)
      (B.nul_keep (by rw [← hm']; rfl) (by rw [← hm']; rfl) (by rw [← hm']; exact fun _ h => h)) (fin1_upd e3 (by simp))
  | leaf x =>
    obtain ⟨a, b, e, e'⟩ := Inv.leaves J hj rfl
    simp only at e e'
    subst e e'
    have e1 : m'.root = m.root := by rw [← hm']; rfl
    have e2 : m'.node = m.node := by rw [← hm']; rfl
    have e3 : m'.phase = upd m.phase n (.full i (.leaf x) (.leaf a) (.leaf b) mid ch none) := by rw [← hm']; rfl
    have e4 : m'.dead = m.dead := by rw [← hm']; rfl
    have e5 : m'.leaf = m.leaf := by rw [← hm']; rfl
    have e6 : m'.frozen = upd m.frozen b true := by rw [← hm']; rfl
    have e7 : m'.nL = m.nL := by rw [← hm']; rfl
    have e8 : m'.nN = m.nN := by rw [← hm']; rfl
    have e9 : m'.ver = m.ver := by rw [← hm']; rfl
    have jn : (view m d A).job n = some ⟨x, a, b, .split⟩ := by simp only [view, h, ljob]
    have jn' : (view m' (d.after m m') A).job n = some ⟨x, a, b, .full⟩ := by simp only [view, e3, upd_eq, ljob]
    refine .plain ⟨hI, .quiet e1 e2 e5 e4 e8 e7⟩ (.same e9 fun _ _ => by rw [e2]) (.quiet J.shape.lev e1 e2) e5 ?_
      (fun l hl => .inl (by rw [← e4]; exact hl)) ⟨n, job_one e3, ?_, fun L hL hs => by rw [jn']; simp, fun hL => by rw [jn] at hL; cases hL⟩
      (B.nul_keep e1 e8 (fun _ h => by rw [← e2]; exact h)) (fin1_upd e3 (by simp))
    · intro l hf
      rw [e6, upd_apply]
      split
      · rfl
      · exact hf
    · rw [jn, jn']
      refine .full x a b (hg x a rfl rfl) ?_
      show m'.frozen b = true
      rw [e6, upd_eq]

/-! ## The end of a change of nodes -/

/-- At most one of the nodes that become obsolete with a change replaces a leaf. -/
theorem Inv.lowest (I : Inv m A src) {n : Id} {J : Job} (h : (m.phase n).job = some J) :
    ∃ n0, ∀ c, .node c ∈ J.ch → c ≠ n0 → ∃ i c' nl nh mid ch cl, m.phase c = .full i (.node c') (.node nl) (.node nh) mid ch (some cl) := by
  obtain ⟨ch', h1, h2, h3⟩ := I.chain.list n J h
  generalize hlen : J.ch.length = len
  induction len generalizing n J ch' with
  | zero => rw [h1] at hlen; cases hlen
  | succ len ih =>
    cases hx : J.x with
    | leaf l =>
      refine ⟨0, fun c hc => ?_⟩
      rw [h1, h2 l hx, hx] at hc
      simp at hc
    | node b =>
      obtain ⟨i, x, xl, xh, mid, nl, nh, hb, _⟩ := h3 b hx
      have hj : (m.phase b).job = some ⟨x, xl, xh, mid, ch'⟩ := by rw [hb]; rfl
      obtain ⟨ch2, g1, g2, g3⟩ := I.chain.list b _ hj
      simp only at g1 g2 g3
      cases x with
      | leaf l =>
        refine ⟨b, fun c hc hne => ?_⟩
        rw [h1, hx, g1, g2 l rfl] at hc
        simp [hne] at hc
      | node b' =>
        obtain ⟨n0, hn⟩ := ih hj ch2 g1 g2 g3 (by rw [h1] at hlen; simpa using hlen)
        refine ⟨n0, fun c hc hne => ?_⟩
        rw [h1, hx] at hc
        rcases List.mem_cons.1 hc with hc | hc
        · cases hc
          obtain ⟨_, _, _, _, _, nl', nh', _, q1, q2⟩ := g3 b' rfl
          subst q1 q2
          exact ⟨_, _, _, _, _, _, _, hb⟩
        · exact hn c hc hne

theorem Base.release (B : Base m d A src) {n : Id} {J : Job} (hj : (m.phase n).job = some J) (hn : ∀ o, ljob (m.phase n) o = none)
    (hp : ∀ c, m'.phase c = if J.ch.contains (.node c) then (upd m.phase n .locked c).released else upd m.phase n .locked c)
    (hc : .node n ∉ J.ch) (hd : ∀ l, .leaf l ∈ J.ch → m'.dead (.leaf l) = true) :
    (∃ n, (∀ c, c ≠ n → (view m' (d.after m m') A).job c = (view m d A).job c) ∧
      Trans (view m d A) (view m' (d.after m m') A) d ((view m d A).job n) ((view m' (d.after m m') A).job n) ∧
      (∀ L, (view m d A).job n = some L → L.st = .full → (view m' (d.after m m') A).job n ≠ none) ∧
      ((view m d A).job n = none → (view m' (d.after m m') A).job n = none)) ∧
    (∀ n xl xh nl nh, m'.phase n = .fin 1 xl xh nl nh → m.phase n = .fin 1 xl xh nl nh ∨ m.phase n = .fin 0 xl xh nl nh) := by
  obtain ⟨n0, hn0⟩ := Inv.lowest B.inv hj
  have out : ∀ c, .node c ∉ J.ch → (view m' (d.after m m') A).job c = (view m d A).job c := by
    intro c hm
    have hf : J.ch.contains (.node c) = false := by
      cases h : J.ch.contains (.node c) with
      | false => rfl
      | true => exact absurd (List.contains_iff_mem.1 h) hm
    have := hp c
    rw [hf] at this
    by_cases e : c = n
    · subst e
      simp only [Bool.false_eq_true, if_false, upd_eq] at this
      show ljob (m'.phase c) _ = ljob (m.phase c) _
      rw [this, hn]; rfl
    · simp only [Bool.false_eq_true, if_false, upd_ne e] at this
      exact job_same this
  have phase : ∀ c, .node c ∈ J.ch → m'.phase c = (m.phase c).released := by
    intro c hm
    have := hp c
    rw [List.contains_iff_mem.2 hm, if_pos rfl, upd_ne] at this
    · exact this
    · rintro rfl; exact hc hm
  refine ⟨⟨n0, fun c hne => ?_, ?_⟩, ?_⟩
  · by_cases hm : .node c ∈ J.ch
    · obtain ⟨i, c', nl, nh, mid, ch, cl, hph⟩ := hn0 c hm hne
      have := phase c hm
      rw [hph] at this
      simp only [view, this, hph, Phase.released, ljob]
    · exact out c hm
  · by_cases hm : .node n0 ∈ J.ch
    · obtain ⟨i, x, xl, xh, mid, ch, nl, nh, hph, hs⟩ := B.inv.chain.mem_full hj hm
      have hj0 : (m.phase n0).job = some ⟨x, xl, xh, mid, ch⟩ := by rw [hph]; rfl
      have he := phase n0 hm
      rw [hph] at he
      cases x with
      | leaf x =>
        obtain ⟨a, b, e, e'⟩ := Inv.leaves B.inv hj0 rfl
        simp only at e e'
        subst e e'
        have jn : (view m d A).job n0 = some ⟨x, a, b, .claimed⟩ := by simp only [view, hph, ljob]
        have ho : (d.after m m').old n0 = x := by
          rw [after_old (by rw [hph]; simp), B.old n0 _ jn]
        have jn' : (view m' (d.after m m') A).job n0 = some ⟨x, a, b, .fin⟩ := by
          simp only [view, he, Phase.released, ljob, ho]
        refine ⟨?_, fun L hL hst => by rw [jn']; simp, fun h => by rw [jn] at h; cases h⟩
        rw [jn, jn']
        exact .fin x a b (hd x (hs (B.inv.chain.head_mem hj0)))
      | node c' =>
        obtain ⟨ch', _, _, h3⟩ := B.inv.chain.list n0 _ hj0
        obtain ⟨_, _, _, _, _, nl', nh', _, q1, q2⟩ := h3 c' rfl
        simp only at q1 q2
        subst q1 q2
        have e1 : (view m d A).job n0 = none := by simp only [view, hph, ljob]
        have e2 : (view m' (d.after m m') A).job n0 = none := by simp only [view, he, Phase.released, ljob]
        rw [e1, e2]
        exact ⟨.keep _, by simp, by simp⟩
    · rw [out n0 hm]
      exact ⟨.keep _, fun L h _ => by rw [h]; simp, fun h => h⟩
  · intro c xl xh nl nh h
    rw [hp c] at h
    split at h
    · next hm =>
      exfalso
      obtain ⟨i, x, xl', xh', mid, ch, nl', nh', hph, hs⟩ := B.inv.chain.mem_full hj (List.contains_iff_mem.1 hm)
      rw [upd_ne (by rintro rfl; exact hc (List.contains_iff_mem.1 hm)), hph] at h
      unfold Phase.released at h
      split at h <;> cases h
    · rw [upd_apply] at h
      split at h
      · cases h
      · exact .inl h

theorem Base.swap (B : Base m d A src) {n i : Nat} {x xl xh : Ref} {mid : Key} {ch : List Ref}
    (h : m.phase n = .ins i x xl xh mid ch true)
    (hm' : ((m.setNode n { m.node n with cell := upd (m.node n).cell i (.to xh) }).setPhase n .locked).release ch = m') :
    Data m m' d A src src := by
  have I := B.inv
  have e1 : m'.root = m.root := by rw [← hm']; rfl
  have e2 : m'.node = upd m.node n { m.node n with cell := upd (m.node n).cell i (.to xh) } := by rw [← hm']; rfl
  have e3 : ∀ c, m'.phase c = if ch.contains (.node c) then (upd m.phase n .locked c).released else upd m.phase n .locked c := by
    rw [← hm']; exact fun _ => rfl
  have e4 : m'.dead = m.dead := by rw [← hm']; rfl
  have e5 : m'.leaf = m.leaf := by rw [← hm']; rfl
  have e6 : m'.frozen = m.frozen := by rw [← hm']; rfl
  have e8 : m'.nN = m.nN := by rw [← hm']; rfl
  have e9 : m'.ver = m.ver := by rw [← hm']; rfl
  have hI := I.swap h
  rw [hm'] at hI
  have hj : (m.phase n).job = some ⟨x, xl, xh, mid, ch⟩ := by rw [h]; rfl
  have hh : (m.phase n).half = some (i, ⟨x, xl, xh, mid, ch⟩) := by rw [h]; rfl
  have nul : ∀ c, (m'.node c).cell 0 = .null → (m.node c).cell 0 = .null := by
    intro c hc
    rw [e2, upd_apply] at hc
    split at hc
    · next e =>
      subst e
      simp only [upd_apply] at hc
      split at hc
      · cases hc
      · exact hc
    · exact hc
  have vers : Vers m m' := .same e9 fun c _ => by
    rw [e2, upd_apply]
    split
    · next e => rw [e]
    · rfl
  have build := fun j f => Data.plain (d := d) hI.next vers hI.drift e5 (fun l hl => by rw [e6]; exact hl)
    (fun l hl => .inl (by rw [← e4]; exact hl)) j (B.nul_keep e1 e8 nul) f
  cases x with
  | node c =>
    obtain ⟨q1, q2⟩ := B.release (d := d) hj (fun o => by rw [h]; rfl) e3 (I.chain.not_mem hj (by simp [h]))
      (fun l hl => by rw [e4]; exact (I.jobs.half n i _ hh).1.dead _ hl)
    exact build q1 q2
  | leaf x =>
    obtain ⟨a, b, e, e'⟩ := Inv.leaves I hj rfl
    simp only at e e'
    subst e e'
    have hch := Inv.ch_leaf I hj rfl
    simp only at hch
    have e3' : m'.phase = upd m.phase n .locked := by
      funext c
      rw [e3 c, hch, if_neg (by simp)]
    have jn : (view m d A).job n = some ⟨x, a, b, .thawed⟩ := by simp only [view, h, ljob]
    have jn' : (view m' (d.after m m') A).job n = none := by simp only [view, e3', upd_eq, ljob]
    refine build ⟨n, job_one e3', ?_, ?_, ?_⟩ (fin1_upd e3' (by simp))
    · rw [jn, jn']; exact .swap x a b
    · intro L hL hs
      rw [jn] at hL; cases hL; cases hs
    · intro hL; rw [jn] at hL; cases hL

theorem Base.rootSwap (B : Base m d A src) {r n nl nh : Nat} {b : Key} {ch : List Ref} (h : m.phase r = .root n nl nh b ch)
    (hr : m.root = some n) (hm' : { (m.setPhase r .locked).kill ch with root := some r }.release ch = m') : Data m m' d A src src := by
  have I := B.inv
  have e1 : m'.root = some r := by rw [← hm']; rfl
  have e2 : m'.node = m.node := by rw [← hm']; rfl
  have e3 : ∀ c, m'.phase c = if ch.contains (.node c) then (upd m.phase r .locked c).released else upd m.phase r .locked c := by
    rw [← hm']; exact fun _ => rfl
  have e4 : m'.dead = fun y => m.dead y || ch.contains y := by rw [← hm']; rfl
  have e5 : m'.leaf = m.leaf := by rw [← hm']; rfl
  have e6 : m'.frozen = m.frozen := by rw [← hm']; rfl
  have e8 : m'.nN = m.nN := by rw [← hm']; rfl
  have e9 : m'.ver = m.ver := by rw [← hm']; rfl
  have hI := I.rootSwap h hr
  rw [hm'] at hI
  have hj : (m.phase r).job = some ⟨.node n, .node nl, .node nh, b, ch⟩ := by rw [h]; rfl
  obtain ⟨q1, q2⟩ := B.release (d := d) hj (fun o => by rw [h]; rfl) e3 (I.chain.not_mem hj (by simp [h]))
    (fun l hl => by rw [e4]; simp [hl])
  refine .plain hI.next (.same e9 fun _ _ => by rw [e2]) hI.drift e5 (fun l hl => by rw [e6]; exact hl) (B.killed hj fun r => by rw [e4]) q1 ?_ q2
  intro c hc h0
  have := B.nul c (by omega) (by rw [← e2]; exact h0)
  rw [hr] at this
  cases this
  refine absurd h0 (hI.next.inv.dead.null n ?_)
  rw [e4]
  simp [I.chain.head_mem hj]

/-! ## Nodes without room -/

theorem Base.rollLeaf (B : Base m d A src) (I : VInv (view m d A) d lt) {n i x : Nat} {xl xh : Ref} {mid : Key} {ch : List Ref}
    (h : m.phase n = .full i (.leaf x) xl xh mid ch none) (hg : ∀ a, xl = .leaf a → d.gone a = true)
    (hm' : (m.freeze x false).setPhase n .free = m') : ∃ src', Data m m' d A src src' := by
  have J := B.inv
  have hI := J.rollLeaf h
  rw [hm'] at hI
  have hj : (m.phase n).job = some ⟨.leaf x, xl, xh, mid, ch⟩ := by rw [h]; rfl
  have hp : (m.phase n).plan = some (i, ⟨.leaf x, xl, xh, mid, ch⟩) := by rw [h]; rfl
  obtain ⟨a, b, e, e'⟩ := Inv.leaves J hj rfl
  simp only at e e'
  subst e e'
  have e1 : m'.root = m.root := by rw [← hm']; rfl
  have e2 : m'.node = m.node := by rw [← hm']; rfl
  have e3 : m'.phase = upd m.phase n .free := by rw [← hm']; rfl
  have e4 : m'.dead = m.dead := by rw [← hm']; rfl
  have e5 : m'.leaf = m.leaf := by rw [← hm']; rfl
  have e6 : m'.frozen = upd m.frozen x false := by rw [← hm']; rfl
  have e7 : m'.nL = m.nL := by rw [← hm']; rfl
  have e8 : m'.nN = m.nN := by rw [← hm']; rfl
  have e9 : m'.ver = m.ver := by rw [← hm']; rfl
  have jn : (view m d A).job n = some ⟨x, a, b, .full⟩ := by simp only [view, h, ljob]
  have jn' : (view m' (d.after m m') A).job n = none := by simp only [view, e3, upd_eq, ljob]
  have K := I.jobs n _ jn
  have hab : a ≠ b := K.two (by simp)
  have s1 := (J.locks.hold n i _ a hp (.inl rfl)).2.2.1
  have s2 := (J.locks.hold n i _ b hp (.inr rfl)).2.2.1
  have hf : m'.frozen x = false := by rw [e6, upd_eq]
  have hI1 := Inv.reset hI s1 hf
  have hI2 := Inv.reset hI1 (z := b) (x := x) (by rw [if_neg (by simpa using hab.symm)]; exact s2) hf
  have W := B.world
  refine ⟨_, ⟨hI2, .quiet e1 e2 e5 e4 e8 e7⟩, .same e9 fun _ _ => by rw [e2], .quiet J.shape.lev e1 e2, fun l _ => by rw [e5],
    fun l hl => .inl (by rw [← e4]; exact hl), ?_, ⟨n, job_one e3, ?_⟩, ?_, ?_,
    B.nul_keep e1 e8 (fun _ h => by rw [← e2]; exact h), fin1_upd e3 (by simp), ?_⟩
  · intro l _ hf
    by_cases e : l = x
    · subst e
      refine .inr fun c L hc hm => .inl ?_
      obtain ⟨rfl, rfl⟩ := I.job_eq jn (LJob.mem_x _) hc hm
      exact jn'
    · rw [e6, upd_ne e]; exact .inl hf
  · rw [jn, jn']
    have lit : ∀ l, (view m' (d.after m m') A).lit l → (view m d A).lit l := by
      rintro l ⟨k, hk⟩
      refine ⟨k, ?_⟩
      simp only [view, e1, e2] at hk
      exact hk
    exact .roll x a b (hg a rfl) (fun hl => W.unlitL n _ jn (by simp) (lit _ hl)) (fun hl => W.unlitH n _ jn (by simp) (by simp) (lit _ hl))
  · intro z y hz
    split at hz
    · cases hz; exact .inr (.inl rfl)
    · split at hz
      · cases hz; exact .inr (.inl rfl)
      · exact .inl hz
  · intro c L hc hs hn
    by_cases e : c = n
    · subst e
      rw [jn] at hc
      cases hc
      simp
    · rw [job_one e3 c e, hc] at hn; cases hn
  · intro c L hc hn
    by_cases e : c = n
    · subst e; rw [jn] at hc; cases hc
    · rw [job_one e3 c e, hc] at hn; cases hn

theorem Base.rollNode (B : Base m d A src) {n i c : Nat} {xl xh : Ref} {mid : Key} {ch : List Ref} {i' : Nat}
    {x' xl' xh' : Ref} {mid' : Key} {ch' : List Ref} {cl : Option (Id × Id)}
    (h : m.phase n = .full i (.node c) xl xh mid ch none) (hc : m.phase c = .full i' x' xl' xh' mid' ch' cl)
    (hm' : (m.setPhase n .free).setPhase c (.full i' x' xl' xh' mid' ch' none) = m') : Data m m' d A src src := by
  have J := B.inv
  have hI := J.rollNode h hc
  rw [hm'] at hI
  have hj : (m.phase n).job = some ⟨.node c, xl, xh, mid, ch⟩ := by rw [h]; rfl
  have hjc : (m.phase c).job = some ⟨x', xl', xh', mid', ch'⟩ := by rw [hc]; rfl
  obtain ⟨_, _, _, h3⟩ := J.chain.list n _ hj
  obtain ⟨_, _, _, _, _, nl, nh, q, _⟩ := h3 c rfl
  rw [hc] at q
  cases q
  have hnc : n ≠ c := by rintro rfl; rw [h] at hc; cases hc
  have e1 : m'.root = m.root := by rw [← hm']; rfl
  have e2 : m'.node = m.node := by rw [← hm']; rfl
  have e3 : m'.phase = upd (upd m.phase n .free) c (.full i' x' xl' xh' mid' ch' none) := by rw [← hm']; rfl
  have e4 : m'.dead = m.dead := by rw [← hm']; rfl
  have e5 : m'.leaf = m.leaf := by rw [← hm']; rfl
  have e6 : m'.frozen = m.frozen := by rw [← hm']; rfl
  have e7 : m'.nL = m.nL := by rw [← hm']; rfl
  have e8 : m'.nN = m.nN := by rw [← hm']; rfl
  have e9 : m'.ver = m.ver := by rw [← hm']; rfl
  have other : ∀ b, b ≠ c → (view m' (d.after m m') A).job b = (view m d A).job b := by
    intro b hb
    by_cases e : b = n
    · subst e
      simp only [view, e3, upd_ne hb, upd_eq, h, ljob]
    · exact job_same (by rw [e3, upd_ne hb, upd_ne e])
  refine .plain ⟨hI, .quiet e1 e2 e5 e4 e8 e7⟩ (.same e9 fun _ _ => by rw [e2]) (.quiet J.shape.lev e1 e2) e5 (fun l hl => by rw [e6]; exact hl)
    (fun l hl => .inl (by rw [← e4]; exact hl)) ⟨c, other, ?_⟩ (B.nul_keep e1 e8 (fun _ h => by rw [← e2]; exact h)) ?_
  · have he : m'.phase c = .full i' x' xl' xh' mid' ch' none := by rw [e3, upd_eq]
    cases x' with
    | node c' =>
      have j1 : (view m d A).job c = none := by simp only [view, hc, ljob]
      have j2 : (view m' (d.after m m') A).job c = none := by simp only [view, he, ljob]
      rw [j1, j2]
      exact ⟨.keep _, by simp, by simp⟩
    | leaf x =>
      obtain ⟨a, b, e, e'⟩ := Inv.leaves J hjc rfl
      simp only at e e'
      subst e e'
      have j1 : (view m d A).job c = some ⟨x, a, b, .claimed⟩ := by simp only [view, hc, ljob]
      have j2 : (view m' (d.after m m') A).job c = some ⟨x, a, b, .full⟩ := by simp only [view, he, ljob]
      rw [j1, j2]
      exact ⟨.unclaim x a b, by simp, by simp⟩
  · intro b yl yh zl zh hb
    rw [e3, upd_apply] at hb
    split at hb
    · cases hb
    · rw [upd_apply] at hb
      split at hb
      · cases hb
      · exact .inl hb

/-- The exchange of the root fails. -/
theorem Base.rootFail (B : Base m d A src) {n c nl nh : Nat} {mid : Key} {ch : List Ref} {i' : Nat}
    {x' xl' xh' : Ref} {mid' : Key} {ch' : List Ref} {cl : Option (Id × Id)}
    (h : m.phase n = .root c nl nh mid ch) (hc : m.phase c = .full i' x' xl' xh' mid' ch' cl)
    (hm' : (m.setPhase n .gone).setPhase c (.full i' x' xl' xh' mid' ch' none) = m') : Data m m' d A src src := by
  have J := B.inv
  have hI := J.rootFail h hc
  rw [hm'] at hI
  have hj : (m.phase n).job = some ⟨.node c, .node nl, .node nh, mid, ch⟩ := by rw [h]; rfl
  have hjc : (m.phase c).job = some ⟨x', xl', xh', mid', ch'⟩ := by rw [hc]; rfl
  obtain ⟨_, _, _, h3⟩ := J.chain.list n _ hj
  obtain ⟨_, _, _, _, _, nl, nh, q, _⟩ := h3 c rfl
  rw [hc] at q
  cases q
  have hnc : n ≠ c := by rintro rfl; rw [h] at hc; cases hc
  have e1 : m'.root = m.root := by rw [← hm']; rfl
  have e2 : m'.node = m.node := by rw [← hm']; rfl
  have e3 : m'.phase = upd (upd m.phase n .gone) c (.full i' x' xl' xh' mid' ch' none) := by rw [← hm']; rfl
  have e4 : m'.dead = m.dead := by rw [← hm']; rfl
  have e5 : m'.leaf = m.leaf := by rw [← hm']; rfl
  have e6 : m'.frozen = m.frozen := by rw [← hm']; rfl
  have e7 : m'.nL = m.nL := by rw [← hm']; rfl
  have e8 : m'.nN = m.nN := by rw [← hm']; rfl
  have e9 : m'.ver = m.ver := by rw [← hm']; rfl
  have other : ∀ b, b ≠ c → (view m' (d.after m m') A).job b = (view m d A).job b := by
    intro b hb
    by_cases e : b = n
    · subst e
      simp only [view, e3, upd_ne hb, upd_eq, h, ljob]
    · exact job_same (by rw [e3, upd_ne hb, upd_ne e])
  refine .plain ⟨hI, .quiet e1 e2 e5 e4 e8 e7⟩ (.same e9 fun _ _ => by rw [e2]) (.quiet J.shape.lev e1 e2) e5 (fun l hl => by rw [e6]; exact hl)
    (fun l hl => .inl (by rw [← e4]; exact hl)) ⟨c, other, ?_⟩ (B.nul_keep e1 e8 (fun _ h => by rw [← e2]; exact h)) ?_
  · have he : m'.phase c = .full i' x' xl' xh' mid' ch' none := by rw [e3, upd_eq]
    cases x' with
    | node c' =>
      have j1 : (view m d A).job c = none := by simp only [view, hc, ljob]
      have j2 : (view m' (d.after m m') A).job c = none := by simp only [view, he, ljob]
      rw [j1, j2]
      exact ⟨.keep _, by simp, by simp⟩
    | leaf x =>
      obtain ⟨a, b, e, e'⟩ := Inv.leaves J hjc rfl
      simp only at e e'
      subst e e'
      have j1 : (view m d A).job c = some ⟨x, a, b, .claimed⟩ := by simp only [view, hc, ljob]
      have j2 : (view m' (d.after m m') A).job c = some ⟨x, a, b, .full⟩ := by simp only [view, he, ljob]
      rw [j1, j2]
      exact ⟨.unclaim x a b, by simp, by simp⟩
  · intro b yl yh zl zh hb
    rw [e3, upd_apply] at hb
    split at hb
    · cases hb
    · rw [upd_apply] at hb
      split at hb
      · cases hb
      · exact .inl hb

/-- A full node is claimed. -/
theorem Base.claimed (B : Base m d A src) {n i : Nat} {x xl xh : Ref} {mid : Key} {ch : List Ref} {nl nh : Id}
    (hf : m.phase n = .full i x xl xh mid ch none) (hf' : m'.phase n = .full i x xl xh mid ch (some (nl, nh)))
    (hg : ∀ a b, x = .leaf a → xh = .leaf b → d.gone b = false)
    (other : ∀ c, c ≠ n → (view m' (d.after m m') A).job c = (view m d A).job c) :
    ∃ n, (∀ c, c ≠ n → (view m' (d.after m m') A).job c = (view m d A).job c) ∧
      Trans (view m d A) (view m' (d.after m m') A) d ((view m d A).job n) ((view m' (d.after m m') A).job n) ∧
      (∀ L, (view m d A).job n = some L → L.st = .full → (view m' (d.after m m') A).job n ≠ none) ∧
      ((view m d A).job n = none → (view m' (d.after m m') A).job n = none) := by
  have hj : (m.phase n).job = some ⟨x, xl, xh, mid, ch⟩ := by rw [hf]; rfl
  refine ⟨n, other, ?_⟩
  cases x with
  | node c' =>
    have j1 : (view m d A).job n = none := by simp only [view, hf, ljob]
    have j2 : (view m' (d.after m m') A).job n = none := by simp only [view, hf', ljob]
    rw [j1, j2]
    exact ⟨.keep _, by simp, by simp⟩
  | leaf x =>
    obtain ⟨a, b, e, e'⟩ := Inv.leaves B.inv hj rfl
    simp only at e e'
    subst e e'
    have j1 : (view m d A).job n = some ⟨x, a, b, .full⟩ := by simp only [view, hf, ljob]
    have j2 : (view m' (d.after m m') A).job n = some ⟨x, a, b, .claimed⟩ := by simp only [view, hf', ljob]
    rw [j1, j2]
    exact ⟨.claim x a b (hg x b rfl rfl), by simp, by simp⟩

theorem srcNode_leaf (src : Ref → Ref) (a n l : Id) : srcNode src a n (.leaf l) = src (.leaf l) := by
  simp [srcNode]

end Scc.Vine
