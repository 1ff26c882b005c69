import Verif.Vine.Splits

/-!
# All steps of structural changes, in terms of leaves, continued
-/

namespace Scc.Vine

open Scc.Grove

local notation "Key" => Nat
local notation "Id" => Nat
local notation "Thr" => Nat

variable {V : Type} {m m' : Mem V} {d : Lst} {A : Key → Option V} {src src' : Ref → Ref} {lt : Id → Id → Prop}

/-! ## New nodes -/

theorem Base.claim (B : Base m d A src) {p s n : Nat} {i : Nat} {x xl xh : Ref} {mid : Key} {ch : List Ref}
    {pre post : List (Key × Ptr)} {b : Key} {q u : Ptr}
    (h : m.phase p = .locked) (hd : s ∈ (m.node p).slots) (hn : (m.node p).cell s = .to (.node n))
    (hf : m.phase n = .full i x xl xh mid ch none)
    (he : (m.node n).expand i xl xh mid = (pre ++ (b, q) :: post, u))
    (hg : ∀ a b, x = .leaf a → xh = .leaf b → d.gone b = false)
    (hm' : { (((((m.setNode m.nN (mkNode (m.node n).lv pre q)).setNode
          (m.nN + 1) (mkNode (m.node n).lv post u)).setPhase
          m.nN (if (m.node n).lv = 1 then .held else .free)).setPhase
          (m.nN + 1) (if (m.node n).lv = 1 then .held else .free)).setPhase n
          (.full i x xl xh mid ch (some (m.nN, m.nN + 1)))).setPhase p
          (.split s (.node n) (.node m.nN) (.node (m.nN + 1)) b (.node n :: ch)) with nN := m.nN + 2 } = m') :
    Data m m' d A src (srcNode src m.nN n) := by
  have J := B.inv
  have hI := J.claim h hd hn hf he
  rw [hm'] at hI
  have P := J.spread hf he
  obtain ⟨yq, hq, _⟩ := P.ptr q (.inr ⟨(b, q), by simp, rfl⟩)
  obtain ⟨yu, hu, _⟩ := P.ptr u (.inl rfl)
  have e1 : m'.root = m.root := by rw [← hm']; rfl
  have e2 : m'.node = upd (upd m.node m.nN (mkNode (m.node n).lv pre q)) (m.nN + 1) (mkNode (m.node n).lv post u) := by rw [← hm']; rfl
  have e3 : m'.phase = upd (upd (upd (upd m.phase m.nN (if (m.node n).lv = 1 then .held else .free)) (m.nN + 1) (if (m.node n).lv = 1 then .held else .free)) n (.full i x xl xh mid ch (some (m.nN, m.nN + 1)))) p (.split s (.node n) (.node m.nN) (.node (m.nN + 1)) b (.node n :: ch)) := by rw [← hm']; rfl
  have e4 : m'.dead = m.dead := by rw [← hm']; rfl
  have e5 : m'.leaf = m.leaf := by rw [← hm']; rfl
  have e6 : m'.frozen = m.frozen := by rw [← hm']; rfl
  have e7 : m'.nL = m.nL := by rw [← hm']; rfl
  have e8 : m'.nN = m.nN + 2 := by rw [← hm']
  have e9 : m'.ver = m.ver := by rw [← hm']; rfl
  have hpn : n ≠ p := by rintro rfl; rw [h] at hf; cases hf
  have nodes : ∀ c, c < m.nN → m'.node c = m.node c := by
    intro c hc
    rw [e2, upd_ne (by omega), upd_ne (by omega)]
  have ph : ∀ c, c ≠ n → m'.phase c = m.phase c ∨ (ljob (m.phase c) (d.old c) = none ∧ ljob (m'.phase c) ((d.after m m').old c) = none ∧
      ∀ j a b s t, m'.phase c ≠ .fin j a b s t) := by
    intro c hc
    rw [e3, upd_apply]
    split
    · next e => subst e; rw [h]; exact .inr ⟨rfl, rfl, by simp⟩
    · rw [upd_ne hc, upd_apply]
      split
      · next e =>
        rw [(J.shape.fresh c (by omega)).2]
        exact .inr ⟨rfl, by split <;> rfl, by split <;> simp⟩
      · rw [upd_apply]
        split
        · next e =>
          rw [(J.shape.fresh c (by omega)).2]
          exact .inr ⟨rfl, by split <;> rfl, by split <;> simp⟩
        · exact .inl rfl
  have hf' : m'.phase n = .full i x xl xh mid ch (some (m.nN, m.nN + 1)) := by rw [e3, upd_ne hpn, upd_eq]
  refine .plainN (fun l => srcNode_leaf _ _ _ _) ⟨hI, .grow J e1 nodes (fun l _ => by rw [e5]) e4 (by omega) (by omega)⟩
    (.same e9 fun c hc => by rw [nodes c hc]) (.grow J e1 nodes) e5 (fun l hl => by rw [e6]; exact hl)
    (fun l hl => .inl (by rw [← e4]; exact hl)) (B.claimed hf hf' hg fun c hc => ?_) ?_ ?_
  · rcases ph c hc with q | ⟨q1, q2, _⟩
    · exact job_same q
    · show ljob _ _ = ljob _ _
      rw [q1, q2]
  · intro c hc h0
    rw [e1]
    by_cases hlt : c < m.nN
    · rw [nodes c hlt] at h0
      exact B.nul c hlt h0
    · exfalso
      rw [e2, upd_apply] at h0
      split at h0
      · simp [mkNode, hu] at h0
      · rw [upd_apply, if_pos (by omega)] at h0
        simp [mkNode, hq] at h0
  · intro c a1 a2 a3 a4 hc
    by_cases e : c = n
    · subst e; rw [hf'] at hc; cases hc
    · rcases ph c e with q | ⟨_, _, q⟩
      · exact .inl (q ▸ hc)
      · exact absurd hc (q _ _ _ _ _)

theorem Base.rootClaim (B : Base m d A src) {n : Nat} {i : Nat} {x xl xh : Ref} {mid : Key} {ch : List Ref}
    {pre post : List (Key × Ptr)} {b : Key} {q u : Ptr}
    (hf : m.phase n = .full i x xl xh mid ch none) (hr : m.root = some n)
    (he : (m.node n).expand i xl xh mid = (pre ++ (b, q) :: post, u))
    (hg : ∀ a b, x = .leaf a → xh = .leaf b → d.gone b = false)
    (hm' : { ((((((m.setNode m.nN (mkNode (m.node n).lv pre q)).setNode
          (m.nN + 1) (mkNode (m.node n).lv post u)).setNode
          (m.nN + 2) (mkNode ((m.node n).lv + 1) [(b, .to (.node m.nN))] (.to (.node (m.nN + 1))))).setPhase
          m.nN (if (m.node n).lv = 1 then .held else .free)).setPhase
          (m.nN + 1) (if (m.node n).lv = 1 then .held else .free)).setPhase
          (m.nN + 2) (.root n m.nN (m.nN + 1) b (.node n :: ch))).setPhase n
          (.full i x xl xh mid ch (some (m.nN, m.nN + 1))) with nN := m.nN + 3 } = m') :
    Data m m' d A src (srcNode src m.nN n) := by
  have J := B.inv
  have hI := J.rootClaim hf hr he
  rw [hm'] at hI
  have P := J.spread hf he
  obtain ⟨yq, hq, _⟩ := P.ptr q (.inr ⟨(b, q), by simp, rfl⟩)
  obtain ⟨yu, hu, _⟩ := P.ptr u (.inl rfl)
  have e1 : m'.root = m.root := by rw [← hm']; rfl
  have e2 : m'.node = upd (upd (upd m.node m.nN (mkNode (m.node n).lv pre q)) (m.nN + 1) (mkNode (m.node n).lv post u)) (m.nN + 2) (mkNode ((m.node n).lv + 1) [(b, .to (.node m.nN))] (.to (.node (m.nN + 1)))) := by rw [← hm']; rfl
  have e3 : m'.phase = upd (upd (upd (upd m.phase m.nN (if (m.node n).lv = 1 then .held else .free)) (m.nN + 1) (if (m.node n).lv = 1 then .held else .free)) (m.nN + 2) (.root n m.nN (m.nN + 1) b (.node n :: ch))) n (.full i x xl xh mid ch (some (m.nN, m.nN + 1))) := by rw [← hm']; rfl
  have e4 : m'.dead = m.dead := by rw [← hm']; rfl
  have e5 : m'.leaf = m.leaf := by rw [← hm']; rfl
  have e6 : m'.frozen = m.frozen := by rw [← hm']; rfl
  have e7 : m'.nL = m.nL := by rw [← hm']; rfl
  have e8 : m'.nN = m.nN + 3 := by rw [← hm']
  have e9 : m'.ver = m.ver := by rw [← hm']; rfl
  have nodes : ∀ c, c < m.nN → m'.node c = m.node c := by
    intro c hc
    rw [e2, upd_ne (by omega), upd_ne (by omega), upd_ne (by omega)]
  have ph : ∀ c, c ≠ n → m'.phase c = m.phase c ∨ (ljob (m.phase c) (d.old c) = none ∧ ljob (m'.phase c) ((d.after m m').old c) = none ∧
      ∀ j a b s t, m'.phase c ≠ .fin j a b s t) := by
    intro c hc
    rw [e3, upd_ne hc, upd_apply]
    split
    · next e =>
      rw [(J.shape.fresh c (by omega)).2]
      exact .inr ⟨rfl, rfl, by simp⟩
    · rw [upd_apply]
      split
      · next e =>
        rw [(J.shape.fresh c (by omega)).2]
        exact .inr ⟨rfl, by split <;> rfl, by split <;> simp⟩
      · rw [upd_apply]
        split
        · next e =>
          rw [(J.shape.fresh c (by omega)).2]
          exact .inr ⟨rfl, by split <;> rfl, by split <;> simp⟩
        · exact .inl rfl
  have hf' : m'.phase n = .full i x xl xh mid ch (some (m.nN, m.nN + 1)) := by rw [e3, upd_eq]
  refine .plainN (fun l => srcNode_leaf _ _ _ _) ⟨hI, .grow J e1 nodes (fun l _ => by rw [e5]) e4 (by omega) (by omega)⟩
    (.same e9 fun c hc => by rw [nodes c hc]) (.grow J e1 nodes) e5 (fun l hl => by rw [e6]; exact hl)
    (fun l hl => .inl (by rw [← e4]; exact hl)) (B.claimed hf hf' hg fun c hc => ?_) ?_ ?_
  · rcases ph c hc with q | ⟨q1, q2, _⟩
    · exact job_same q
    · show ljob _ _ = ljob _ _
      rw [q1, q2]
  · intro c hc h0
    rw [e1]
    by_cases hlt : c < m.nN
    · rw [nodes c hlt] at h0
      exact B.nul c hlt h0
    · exfalso
      rw [e2, upd_apply] at h0
      split at h0
      · simp [mkNode] at h0
      · rw [upd_apply] at h0
        split at h0
        · simp [mkNode, hu] at h0
        · rw [upd_apply, if_pos (by omega)] at h0
          simp [mkNode, hq] at h0
  · intro c a1 a2 a3 a4 hc
    by_cases e : c = n
    · subst e; rw [hf'] at hc; cases hc
    · rcases ph c e with q | ⟨_, _, q⟩
      · exact .inl (q ▸ hc)
      · exact absurd hc (q _ _ _ _ _)

/-! ## The end of a change of nodes -/

theorem Base.finLow (B : Base m d A src) (I : VInv (view m d A) d lt) {n xl xh nl nh : Nat} (h : m.phase n = .fin 0 xl xh nl nh)
    (hg : d.gone (d.old n) = true) (hm' : (m.freeze xl false).setPhase n (.fin 1 xl xh nl nh) = m') : Data m m' d A src src := by
  have J := B.inv
  have hI := J.finLow h
  rw [hm'] at hI
  have e1 : m'.root = m.root := by rw [← hm']; rfl
  have e2 : m'.node = m.node := by rw [← hm']; rfl
  have e3 : m'.phase = upd m.phase n (.fin 1 xl xh nl nh) := by rw [← hm']; rfl
  have e4 : m'.dead = m.dead := by rw [← hm']; rfl
  have e5 : m'.leaf = m.leaf := by rw [← hm']; rfl
  have e6 : m'.frozen = upd m.frozen xl false := by rw [← hm']; rfl
  have e7 : m'.nL = m.nL := by rw [← hm']; rfl
  have e8 : m'.nN = m.nN := by rw [← hm']; rfl
  have e9 : m'.ver = m.ver := by rw [← hm']; rfl
  have jn : (view m d A).job n = some ⟨d.old n, xl, xh, .fin⟩ := by simp only [view, h, ljob]
  have jn' : (view m' (d.after m m') A).job n = none := by simp only [view, e3, upd_eq, ljob]
  refine ⟨⟨hI, .quiet e1 e2 e5 e4 e8 e7⟩, .same e9 fun _ _ => by rw [e2], .quiet J.shape.lev e1 e2, fun l _ => by rw [e5],
    fun l hl => .inl (by rw [← e4]; exact hl), ?_, ⟨n, job_one e3, ?_⟩, fun z x h => .inl h, ?_,
    B.nul_keep e1 e8 (fun _ h => by rw [← e2]; exact h), ?_, ?_⟩
  · intro l _ hf
    by_cases e : l = xl
    · subst e
      refine .inr fun c L hc hm => .inl ?_
      obtain ⟨rfl, rfl⟩ := I.job_eq jn (LJob.mem_l _) hc hm
      exact jn'
    · rw [e6, upd_ne e]; exact .inl hf
  · rw [jn, jn']
    exact .done _ xl xh hg
  · intro c L hc hs hn
    by_cases e : c = n
    · subst e; rw [jn] at hc; cases hc; cases hs
    · rw [job_one e3 c e, hc] at hn; cases hn
  · intro c a1 a2 a3 a4 hc
    rw [e3, upd_apply] at hc
    split at hc
    · next e => cases hc; subst e; exact .inr h
    · exact .inl hc
  · intro c L hc hn
    by_cases e : c = n
    · subst e; rw [jn] at hc; cases hc
    · rw [job_one e3 c e, hc] at hn; cases hn

theorem Base.finHigh (B : Base m d A src) {n xl xh nl nh : Nat} (h : m.phase n = .fin 1 xl xh nl nh)
    (hm' : (m.freeze xh false).setPhase n (.fin 2 xl xh nl nh) = m') : Data m m' d A src src := by
  have J := B.inv
  have hI := J.finHigh h
  rw [hm'] at hI
  have e1 : m'.root = m.root := by rw [← hm']; rfl
  have e2 : m'.node = m.node := by rw [← hm']; rfl
  have e3 : m'.phase = upd m.phase n (.fin 2 xl xh nl nh) := by rw [← hm']; rfl
  have e4 : m'.dead = m.dead := by rw [← hm']; rfl
  have e5 : m'.leaf = m.leaf := by rw [← hm']; rfl
  have e6 : m'.frozen = upd m.frozen xh false := by rw [← hm']; rfl
  have e7 : m'.nL = m.nL := by rw [← hm']; rfl
  have e8 : m'.nN = m.nN := by rw [← hm']; rfl
  have e9 : m'.ver = m.ver := by rw [← hm']; rfl
  have js := job_upd (d := d) (A := A) e3 (fun o => by rw [h]; rfl) (fun o => rfl)
  refine ⟨⟨hI, .quiet e1 e2 e5 e4 e8 e7⟩, .same e9 fun _ _ => by rw [e2], .quiet J.shape.lev e1 e2, fun l _ => by rw [e5],
    fun l hl => .inl (by rw [← e4]; exact hl), ?_, ⟨n, fun c _ => js c, by rw [js n]; exact .keep _⟩, fun z x h => .inl h, ?_,
    B.nul_keep e1 e8 (fun _ h => by rw [← e2]; exact h), fin1_upd e3 (by simp), ?_⟩
  · intro l _ hf
    by_cases e : l = xh
    · subst e
      exact .inr fun c L hc hm => absurd hm (B.fin1 n _ _ _ _ h c L hc)
    · rw [e6, upd_ne e]; exact .inl hf
  · intro c L hc hs hn
    rw [js c, hc] at hn; cases hn
  · intro c L hc hn
    rw [js c, hc] at hn; cases hn

/-- Steps that only change the phases of nodes that replace no leaves. -/
theorem Data.phases (B : Base m d A src) (inv : Inv m' A src) (e1 : m'.root = m.root) (e2 : m'.node = m.node) (e4 : m'.dead = m.dead)
    (e5 : m'.leaf = m.leaf) (e6 : m'.frozen = m.frozen) (e7 : m'.nL = m.nL) (e8 : m'.nN = m.nN)
    (ver : Vers m m')
    (ph : ∀ c, m'.phase c = m.phase c ∨ (ljob (m.phase c) (d.old c) = none ∧ ljob (m'.phase c) ((d.after m m').old c) = none ∧
      ∀ a b s t, m'.phase c ≠ .fin 1 a b s t)) : Data m m' d A src src := by
  refine .calm ⟨inv, .quiet e1 e2 e5 e4 e8 e7⟩ ver (.quiet B.inv.shape.lev e1 e2) e5 e6 (fun l => by rw [e4])
    (fun c => ?_) (B.nul_keep e1 e8 fun _ h => by rw [← e2]; exact h) ?_
  · rcases ph c with q | ⟨q1, q2, _⟩
    · exact job_same q
    · show ljob _ _ = ljob _ _
      rw [q1, q2]
  · intro c a1 a2 a3 a4 hc
    rcases ph c with q | ⟨_, _, q⟩
    · exact .inl (q ▸ hc)
    · exact absurd hc (q _ _ _ _)

/-! ## Merges -/

/-- Steps that change one node. -/
theorem Data.node (B : Base m d A src) {n : Id} {N : Node} {p : Phase} (both : Both m m' A src) (ver : Vers m m') (e1 : m'.root = m.root)
    (e2 : m'.node = upd m.node n N) (e3 : m'.phase = upd m.phase n p) (e4 : m'.dead = m.dead)
    (e5 : m'.leaf = m.leaf) (e6 : m'.frozen = m.frozen) (e8 : m'.nN = m.nN)
    (h1 : ∀ o, ljob (m.phase n) o = none) (h2 : ∀ o, ljob p o = none) (h3 : ∀ xl xh nl nh, p ≠ .fin 1 xl xh nl nh)
    (h4 : N.cell 0 = .null → (m.node n).cell 0 = .null) : Data m m' d A src src := by
  refine .calm both.next ver both.drift e5 e6 (fun l => by rw [e4]) (job_upd e3 h1 h2) (B.nul_keep e1 e8 fun c h => ?_) (fin1_upd e3 h3)
  rw [e2, upd_apply] at h
  split at h
  · next e => subst e; exact h4 h
  · exact h

/-- All steps of structural changes. -/
theorem Base.change (B : Base m d A src) (I : VInv (view m d A) d lt) {vis : Id → Prop}
    (hv : ∀ n, vis n → m.phase n = .free → Lit m.root m.node (.node n) ∨ (m.node n).cell 0 = .ret)
    (h : Change vis m m') (hp : ∀ n, Pass d m m' n) : ∃ src', Data m m' d A src src' := by
  have J := B.inv
  cases h with
  | lock n h hn =>
    refine ⟨src, .phases B (J.lock h ?_) rfl rfl rfl rfl rfl rfl rfl (.same rfl fun _ _ => rfl) fun c => ?_⟩
    · rcases hn with hn | hn
      · exact hv n hn h
      · exact .inl ⟨0, .root hn⟩
    · simp only [Mem.setPhase, upd_apply]
      split
      · next e => subst e; rw [h]; exact .inr ⟨rfl, rfl, by simp⟩
      · exact .inl rfl
  | unlock n h =>
    refine ⟨src, .phases B (J.unlock h) rfl rfl rfl rfl rfl rfl rfl (.same rfl fun _ _ => rfl) fun c => ?_⟩
    simp only [Mem.setPhase, upd_apply]
    split
    · next e => subst e; rw [h]; exact .inr ⟨rfl, rfl, by simp⟩
    · exact .inl rfl
  | copy n i x h hi hx =>
    refine B.copy h hi hx ?_ rfl
    have := hp n
    simpa only [Pass, Mem.setPhase, upd_eq, h] using this
  | copied n i x y h =>
    refine ⟨src, B.copied h ?_ rfl⟩
    have := hp n
    simpa only [Pass, Mem.kill, Mem.setPhase, upd_eq, h] using this
  | halve n i x mid k v w h hi hx hm hk hlt =>
    refine B.halve h hi hx ?_ hm hk hlt rfl
    have := hp n
    simpa only [Pass, Mem.setPhase, upd_eq, h] using this
  | reserve n i x xl xh mid ch h =>
    exact ⟨src, .phases B J.reserve rfl rfl rfl rfl rfl rfl rfl (.bump (n := n) rfl fun _ _ => rfl) fun c => .inl rfl⟩
  | insert n i x xl xh mid ch h =>
    refine ⟨src, B.insert h (fun a b e e' => ?_) rfl⟩
    subst e e'
    have := hp n
    simpa only [Pass, Mem.kill, Mem.setPhase, upd_eq, h] using this
  | thaw n i x xl xh mid ch h =>
    refine ⟨src, B.thaw I h (fun a e => ?_) rfl⟩
    subst e
    have := hp n
    simpa only [Pass, Mem.setPhase, upd_eq, h] using this
  | swap n i x xl xh mid ch h => exact ⟨src, B.swap h rfl⟩
  | full n i x xl xh mid ch h =>
    refine ⟨src, B.full h (fun a b e e' => ?_) rfl⟩
    subst e e'
    have := hp n
    simpa only [Pass, Mem.setPhase, upd_eq, h] using this
  | rollLeaf n i x xl xh mid ch h =>
    refine B.rollLeaf I h (fun a e => ?_) rfl
    subst e
    have := hp n
    simpa only [Pass, Mem.setPhase, upd_eq, h] using this
  | rollNode n i c xl xh mid ch i' x' xl' xh' mid' ch' cl h hc => exact ⟨src, B.rollNode h hc rfl⟩
  | claim p s n i x xl xh mid ch pre post b q u h hs hn hf he =>
    have hpn : n ≠ p := by rintro rfl; rw [h] at hf; cases hf
    refine ⟨_, B.claim h hs hn hf he (fun a b e e' => ?_) rfl⟩
    subst e e'
    have := hp n
    simpa only [Pass, Mem.setPhase, upd_ne hpn, upd_eq, hf] using this
  | rootClaim n i x xl xh mid ch pre post b q u hf hr he =>
    refine ⟨_, B.rootClaim hf hr he (fun a b e e' => ?_) rfl⟩
    subst e e'
    have := hp n
    simpa only [Pass, Mem.setPhase, upd_eq, hf] using this
  | rootSwap r n nl nh b ch h hr => exact ⟨src, B.rootSwap h hr rfl⟩
  | rootFail r n nl nh b ch i x xl xh mid ch' cl h hn => exact ⟨src, B.rootFail h hn rfl⟩
  | finLow n xl xh nl nh h =>
    refine ⟨src, B.finLow I h ?_ rfl⟩
    have := hp n
    simpa only [Pass, Mem.setPhase, upd_eq, h] using this
  | finHigh n xl xh nl nh h => exact ⟨src, B.finHigh h rfl⟩
  | finLowNode n xl xh nl nh h =>
    have hh := (J.locks.fin n _ _ _ _ _ h).2.2.2.2.2.1 (Nat.le_refl _)
    refine ⟨src, .phases B (J.finLowNode h) rfl rfl rfl rfl rfl rfl rfl (.same rfl fun _ _ => rfl) fun c => ?_⟩
    simp only [Mem.setPhase, upd_apply]
    split
    · next e => subst e; rw [hh]; exact .inr ⟨rfl, rfl, by simp⟩
    · split
      · next e => subst e; rw [h]; exact .inr ⟨rfl, rfl, by simp⟩
      · exact .inl rfl
  | finHighNode n xl xh nl nh h =>
    have hh := (J.locks.fin n _ _ _ _ _ h).2.2.2.2.2.2 (Nat.le_refl _)
    refine ⟨src, .phases B (J.finHighNode h) rfl rfl rfl rfl rfl rfl rfl (.same rfl fun _ _ => rfl) fun c => ?_⟩
    simp only [Mem.setPhase, upd_apply]
    split
    · next e => subst e; rw [hh]; exact .inr ⟨rfl, rfl, by simp⟩
    · split
      · next e => subst e; rw [h]; exact .inr ⟨rfl, rfl, by simp⟩
      · exact .inl rfl
  | unlink n i b r l l' h hk hc hr =>
    exact ⟨src, .node B (J.unlink h hk hc hr) (.bump (n := n) rfl fun c hc => upd_ne hc) rfl rfl rfl rfl rfl rfl rfl
      (fun o => by rw [h]; rfl) (fun _ => rfl) (by simp) (fun h => h)⟩
  | clear n i h =>
    refine ⟨src, .node B (J.clear h) (.same rfl fun c _ => ?_) rfl rfl rfl rfl rfl rfl rfl
      (fun o => by rw [h]; rfl) (fun _ => rfl) (by simp) (fun h0 => ?_)⟩
    · simp only [Mem.setPhase, Mem.setNode, upd_apply]
      split
      · next e => rw [e]
      · rfl
    · simp only [upd_ne (J.locks.coal n i h).2.1.symm] at h0
      exact h0
  | retire n r h hk hc hr =>
    refine ⟨src, .node (p := .locked) B (J.retire h hk hc hr) (.same rfl fun c _ => ?_) rfl rfl ?_ rfl rfl rfl rfl
      (fun o => by rw [h]; rfl) (fun _ => rfl) (by simp) (fun h0 => ?_)⟩
    · simp only [Mem.setNode, upd_apply]
      split
      · next e => rw [e]
      · rfl
    · funext c
      simp only [Mem.setNode, upd_apply]
      split
      · next e => rw [e, h]
      · rfl
    · simp at h0
  | move n i b r z l h hk hc hr hz =>
    refine ⟨src, .node B (J.moveStep h hk hc hr hz) (.same rfl fun c _ => ?_) rfl rfl rfl rfl rfl rfl rfl
      (fun o => by rw [h]; rfl) (fun _ => rfl) (by simp) (fun h0 => ?_)⟩
    · simp only [Mem.setPhase, Mem.setNode, upd_apply]
      split
      · next e => rw [e]
      · rfl
    · simp at h0
  | moved n i b l h hk =>
    exact ⟨src, .node B (J.movedStep h hk) (.bump (n := n) rfl fun c hc => upd_ne hc) rfl rfl rfl rfl rfl rfl rfl
      (fun o => by rw [h]; rfl) (fun _ => rfl) (by simp) (fun h => h)⟩
  | rootEmpty n h hr hn =>
    have hI := J.rootEmpty h hr hn
    refine ⟨src, .calm hI.next (.same rfl fun _ _ => rfl) hI.drift rfl rfl (fun _ => rfl) (fun c => job_same rfl) ?_
      fun _ _ _ _ _ h => .inl h⟩
    intro c hc h0
    have := B.nul c hc h0
    rw [hr] at this
    cases this
    have h2 : (m.node n).cell 0 = .ret := by simpa [Mem.retired] using hn
    have h0' : (m.node n).cell 0 = .null := h0
    rw [h2] at h0'; cases h0'
  | rootOnly n c h hr hk hc =>
    have hI := J.rootOnly h hr hk hc
    refine ⟨src, .calm hI.next (.same rfl fun _ _ => rfl) hI.drift rfl rfl (fun l => ?_)
      (job_upd rfl (fun o => by rw [h]; rfl) (fun _ => rfl)) ?_ (fin1_upd rfl (by simp))⟩
    · simp [Mem.kill, Mem.setPhase]
    · intro a ha h0
      have := B.nul a ha h0
      rw [hr] at this
      cases this
      have h0' : (m.node n).cell 0 = .null := h0
      rw [hc] at h0'; cases h0'

end Scc.Vine
