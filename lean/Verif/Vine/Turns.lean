import Verif.Vine.Moves

/-!
# All steps of structural changes, in terms of leaves
-/

namespace Scc.Vine

open Scc.Grove

local notation "Key" => Nat
local notation "Id" => Nat
local notation "Thr" => Nat

variable {V : Type} {m m' : Mem V} {d : Lst} {A : Key → Option V} {src src' : Ref → Ref} {lt : Id → Id → Prop}

theorem Base.nul_keep (B : Base m d A src) (h1 : m'.root = m.root) (h2 : m'.nN = m.nN)
    (h3 : ∀ n, (m'.node n).cell 0 = .null → (m.node n).cell 0 = .null) :
    ∀ n, n < m'.nN → (m'.node n).cell 0 = .null → m'.root = some n := by
  intro n hn h
  rw [h1]
  exact B.nul n (by omega) (h3 n h)

theorem fin1_upd {n : Id} {p : Phase} (h : m'.phase = upd m.phase n p) (hp : ∀ xl xh nl nh, p ≠ .fin 1 xl xh nl nh) :
    ∀ c xl xh nl nh, m'.phase c = .fin 1 xl xh nl nh → m.phase c = .fin 1 xl xh nl nh ∨ m.phase c = .fin 0 xl xh nl nh := by
  intro c xl xh nl nh hc
  rw [h, upd_apply] at hc
  split at hc
  · exact absurd hc (hp _ _ _ _)
  · exact .inl hc

/-- Steps that do not create leaves and thaw none, and end no replacement that can be rolled back. -/
theorem Data.plainN (hsrc : ∀ l, src' (.leaf l) = src (.leaf l)) (next : Next m m' A src') (vers : Vers m m') (drift : Drift m m' A src) (hl : m'.leaf = m.leaf)
    (hf : ∀ l, m.frozen l = true → m'.frozen l = true)
    (kill : ∀ l, m'.dead (.leaf l) = true → m.dead (.leaf l) = true ∨ ∃ n L, (view m d A).job n = some L ∧ L.x = l)
    (job : ∃ n, (∀ c, c ≠ n → (view m' (d.after m m') A).job c = (view m d A).job c) ∧
      Trans (view m d A) (view m' (d.after m m') A) d ((view m d A).job n) ((view m' (d.after m m') A).job n) ∧
      (∀ L, (view m d A).job n = some L → L.st = .full → (view m' (d.after m m') A).job n ≠ none) ∧
      ((view m d A).job n = none → (view m' (d.after m m') A).job n = none))
    (nul : ∀ n, n < m'.nN → (m'.node n).cell 0 = .null → m'.root = some n)
    (fin1 : ∀ n xl xh nl nh, m'.phase n = .fin 1 xl xh nl nh → m.phase n = .fin 1 xl xh nl nh ∨ m.phase n = .fin 0 xl xh nl nh) :
    Data m m' d A src src' := by
  obtain ⟨n, h1, h2, h3, h4⟩ := job
  refine ⟨next, vers, drift, fun l _ => by rw [hl], kill, fun l _ h => .inl (hf l h), ⟨n, h1, h2⟩, fun z x h => .inl (by rw [← hsrc]; exact h), ?_, nul, fin1, ?_⟩
  · intro c L hc hs hn
    by_cases e : c = n
    · subst e; exact absurd hn (h3 L hc hs)
    · rw [h1 c e, hc] at hn; cases hn
  · intro c L hc hn
    by_cases e : c = n
    · subst e; rw [h4 hc] at hn; cases hn
    · rw [h1 c e, hc] at hn; cases hn

theorem Data.plain (next : Next m m' A src) (vers : Vers m m') (drift : Drift m m' A src) (hl : m'.leaf = m.leaf)
    (hf : ∀ l, m.frozen l = true → m'.frozen l = true)
    (kill : ∀ l, m'.dead (.leaf l) = true → m.dead (.leaf l) = true ∨ ∃ n L, (view m d A).job n = some L ∧ L.x = l)
    (job : ∃ n, (∀ c, c ≠ n → (view m' (d.after m m') A).job c = (view m d A).job c) ∧
      Trans (view m d A) (view m' (d.after m m') A) d ((view m d A).job n) ((view m' (d.after m m') A).job n) ∧
      (∀ L, (view m d A).job n = some L → L.st = .full → (view m' (d.after m m') A).job n ≠ none) ∧
      ((view m d A).job n = none → (view m' (d.after m m') A).job n = none))
    (nul : ∀ n, n < m'.nN → (m'.node n).cell 0 = .null → m'.root = some n)
    (fin1 : ∀ n xl xh nl nh, m'.phase n = .fin 1 xl xh nl nh → m.phase n = .fin 1 xl xh nl nh ∨ m.phase n = .fin 0 xl xh nl nh) :
    Data m m' d A src src :=
  .plainN (fun _ => rfl) next vers drift hl hf kill job nul fin1

/-- Steps that do not change replacements. -/
theorem Data.calm (next : Next m m' A src) (vers : Vers m m') (drift : Drift m m' A src) (hl : m'.leaf = m.leaf)
    (hf : m'.frozen = m.frozen) (kill : ∀ l, m'.dead (.leaf l) = m.dead (.leaf l))
    (job : ∀ c, (view m' (d.after m m') A).job c = (view m d A).job c)
    (nul : ∀ n, n < m'.nN → (m'.node n).cell 0 = .null → m'.root = some n)
    (fin1 : ∀ n xl xh nl nh, m'.phase n = .fin 1 xl xh nl nh → m.phase n = .fin 1 xl xh nl nh ∨ m.phase n = .fin 0 xl xh nl nh) :
    Data m m' d A src src :=
  .plain next vers drift hl (fun l h => by rw [hf]; exact h) (fun l h => .inl (by rw [← kill l]; exact h))
    ⟨0, fun c _ => job c, by rw [job 0]; exact .keep _, fun L h _ => by rw [job 0, h]; simp, fun h => by rw [job 0]; exact h⟩ nul fin1

/-- The phase of one node changes, and none of the phases has to do with leaves. -/
theorem job_upd {n : Id} {p : Phase} (h : m'.phase = upd m.phase n p) (h1 : ∀ o, ljob (m.phase n) o = none) (h2 : ∀ o, ljob p o = none) :
    ∀ c, (view m' (d.after m m') A).job c = (view m d A).job c := by
  intro c
  by_cases e : c = n
  · subst e
    simp only [view, h, upd_eq, h1, h2]
  · exact job_same (by rw [h, upd_ne e])

/-- The phase of one node changes. -/
theorem job_one {n : Id} {p : Phase} (h : m'.phase = upd m.phase n p) :
    ∀ c, c ≠ n → (view m' (d.after m m') A).job c = (view m d A).job c :=
  fun _ e => job_same (by rw [h, upd_ne e])

/-- The child of a node that is locked takes part in no replacement. -/
theorem Base.child_free (B : Base m d A src) {n i x : Nat} (h : m.phase n = .locked)
    (hi : i ∈ (m.node n).slots) (hx : (m.node n).cell i = .to (.leaf x)) : ∀ c L, (view m d A).job c = some L → ¬ L.mem x := by
  intro c L hL hm
  have I := B.inv
  have W := B.world
  obtain ⟨hl, hu, hd, hch, hp⟩ := I.locked_child h hi hx
  have lit : (view m d A).lit x := hu.child hx
  have held : ∀ n', ¬ Hold m.node m.phase src n' x := fun n' hh => by
    have := (hh n i hx).1
    rw [h] at this; cases this
  have F := ljob_form hL
  have fd := B.fdead c L hL
  have u1 := W.unlitL c L hL
  have u2 := W.unlitH c L hL
  have chain : ∀ mid ch xl xh, (m.phase c).job = some ⟨.leaf x, xl, xh, mid, ch⟩ → False := fun mid ch xl xh hj =>
    hch c _ hj (I.chain.head_mem hj)
  have half : ∀ i' J, (m.phase c).half = some (i', J) → J.xl = .leaf x → False := by
    intro i' J hh e
    obtain ⟨j, h1, h2⟩ := (I.jobs.half c i' J hh).2.low
    rw [e] at h2
    obtain ⟨rfl, _⟩ := hp c j h1 h2
    rw [h] at hh; cases hh
  have hold := fun i' J hj e => held c (I.locks.hold c i' J x hj e).2.2.2
  generalize hph : m.phase c = p at F chain half hold
  cases F with
  | copy i' x' y =>
    rcases hm with rfl | rfl | rfl
    · have C := I.jobs.copy c _ _ _ hph
      obtain ⟨rfl, _⟩ := hp c _ C.use C.cell
      rw [h] at hph; cases hph
    · exact u1 (by simp) lit
    · exact u1 (by simp) lit
  | split i' x' xl xh mid ch =>
    rcases hm with rfl | rfl | rfl
    · exact chain _ _ _ _ rfl
    · exact u1 (by simp) lit
    · exact u2 (by simp) (by simp) lit
  | ins i' x' xl xh mid ch =>
    rcases hm with rfl | rfl | rfl
    · exact chain _ _ _ _ rfl
    · exact half _ _ rfl rfl
    · exact u2 (by simp) (by simp) lit
  | thawed i' x' xl xh mid ch =>
    rcases hm with rfl | rfl | rfl
    · exact chain _ _ _ _ rfl
    · exact half _ _ rfl rfl
    · exact u2 (by simp) (by simp) lit
  | full i' x' xl xh mid ch =>
    rcases hm with rfl | rfl | rfl
    · exact chain _ _ _ _ rfl
    · exact u1 (by simp) lit
    · exact u2 (by simp) (by simp) lit
  | claimed i' x' xl xh mid ch cl =>
    rcases hm with rfl | rfl | rfl
    · exact chain _ _ _ _ rfl
    · exact hold _ _ rfl (.inl rfl)
    · exact hold _ _ rfl (.inr rfl)
  | fin xl xh nl nh =>
    rcases hm with rfl | rfl | rfl
    · have := fd rfl
      rw [hd] at this; cases this
    · exact held c (I.locks.finLow c _ _ _ _ hph).2.2.2.2
    · exact held c (I.locks.finHigh c _ _ _ _ _ hph (Nat.zero_le _)).2.2.2.2

theorem Base.child_fin (B : Base m d A src) {n i x : Nat} (h : m.phase n = .locked) (hx : (m.node n).cell i = .to (.leaf x)) :
    ∀ c xl xh nl nh, m.phase c = .fin 1 xl xh nl nh → x ≠ xh := by
  rintro c xl xh nl nh hc rfl
  have := ((B.inv.locks.finHigh c _ _ _ _ _ hc (Nat.le_refl _)).2.2.2.2 n i hx).1
  rw [h] at this; cases this

theorem Base.copy (B : Base m d A src) {n i x : Nat} (h : m.phase n = .locked)
    (hi : i ∈ (m.node n).slots) (hx : (m.node n).cell i = .to (.leaf x)) (hg : d.gone x = false)
    (hm' : { (((m.freeze x true).setLeaf m.nL { m := (m.leaf x).m, retired := false }).freeze m.nL false).setPhase n
          (.single i x m.nL) with nL := m.nL + 1 } = m') : ∃ src', Data m m' d A src src' := by
  have I := B.inv
  obtain ⟨hl, hu, hd, hch, hp⟩ := I.locked_child h hi hx
  have hxl : x < m.nL := I.shape.cell_al _ _ _ hx
  have e1 : m'.root = m.root := by rw [← hm']; rfl
  have e2 : m'.node = m.node := by rw [← hm']; rfl
  have e3 : m'.phase = upd m.phase n (.single i x m.nL) := by rw [← hm']; rfl
  have e4 : m'.dead = m.dead := by rw [← hm']; rfl
  have e5 : m'.leaf = upd m.leaf m.nL { m := (m.leaf x).m, retired := false } := by rw [← hm']; rfl
  have e6 : m'.frozen = upd (upd m.frozen x true) m.nL false := by rw [← hm']; rfl
  have e7 : m'.nL = m.nL + 1 := by rw [← hm']
  have e8 : m'.nN = m.nN := by rw [← hm']; rfl
  have e9 : m'.ver = m.ver := by rw [← hm']; rfl
  have hI := I.copy h hi hx
  rw [hm'] at hI
  have leaf : ∀ l, l < m.nL → m'.leaf l = m.leaf l := fun l hl => by rw [e5, upd_ne (by omega)]
  have jn : (view m d A).job n = none := by simp only [view, h, ljob]
  have jn' : (view m' (d.after m m') A).job n = some ⟨x, m.nL, m.nL, .copy⟩ := by simp only [view, e3, upd_eq, ljob]
  refine ⟨_, ⟨hI, .grow I e1 (fun _ _ => by rw [e2]) leaf e4 (by omega) (by omega)⟩, .same e9 fun _ _ => by rw [e2],
    .grow I e1 (fun _ _ => by rw [e2]), leaf, fun l h => .inl (by rw [← e4]; exact h), fun l hl hf => .inl ?_, ?_, ?_, ?_,
    B.nul_keep e1 e8 (fun _ h => by rw [← e2]; exact h), fin1_upd e3 (by simp), ?_⟩
  · rw [e6, upd_ne (by omega), upd_apply]
    split
    · rfl
    · exact hf
  · refine ⟨n, job_one e3, ?_⟩
    rw [jn, jn']
    refine .copy x m.nL (hu.child hx) hd hg (Nat.le_refl _) ?_ ?_ ?_ ?_ ?_ (B.child_free h hi hx)
    · show m.nL < m'.nL
      omega
    · show m'.frozen x = true
      rw [e6, upd_ne (by omega), upd_eq]
    · show (m'.leaf m.nL).get = (m.leaf x).get
      rw [e5, upd_eq]
      rfl
    · show (m'.leaf m.nL).retired = false
      rw [e5, upd_eq]
    · show m'.dead (.leaf m.nL) = false
      rw [e4]
      exact I.live_new (by simp [Alloc])
  · intro z y hz
    simp only [srcLeaf] at hz
    split at hz
    · next e =>
      cases hz
      have : z = m.nL := by rcases e.2 with e | e <;> cases e <;> rfl
      subst this
      exact .inr (.inr ⟨n, _, jn', rfl, .inl rfl⟩)
    · exact .inl hz
  · intro c L hc hs hn
    by_cases e : c = n
    · subst e; rw [jn] at hc; cases hc
    · rw [job_one e3 c e, hc] at hn; cases hn
  · intro c L hc hn
    by_cases e : c = n
    · subst e
      rw [jn'] at hn
      cases hn
      exact ⟨h, B.child_fin h hx⟩
    · rw [job_one e3 c e, hc] at hn; cases hn

theorem Base.halve (B : Base m d A src) {n i x : Nat} {mid k : Key} {v w : V} (h : m.phase n = .locked)
    (hi : i ∈ (m.node n).slots) (hx : (m.node n).cell i = .to (.leaf x)) (hg : d.gone x = false)
    (hv : (m.leaf x).get mid = some v) (hk : (m.leaf x).get k = some w) (hlt : mid < k)
    (hm' : { (((((m.freeze x true).setLeaf m.nL ((m.leaf x).low mid)).freeze m.nL true).setLeaf (m.nL + 1)
          ((m.leaf x).high mid)).freeze (m.nL + 1) false).setPhase n
          (.split i (.leaf x) (.leaf m.nL) (.leaf (m.nL + 1)) mid [.leaf x]) with nL := m.nL + 2 } = m') :
    ∃ src', Data m m' d A src src' := by
  have I := B.inv
  obtain ⟨hl, hu, hd, hch, hp⟩ := I.locked_child h hi hx
  have hxl : x < m.nL := I.shape.cell_al _ _ _ hx
  have e1 : m'.root = m.root := by rw [← hm']; rfl
  have e2 : m'.node = m.node := by rw [← hm']; rfl
  have e3 : m'.phase = upd m.phase n (.split i (.leaf x) (.leaf m.nL) (.leaf (m.nL + 1)) mid [.leaf x]) := by rw [← hm']; rfl
  have e4 : m'.dead = m.dead := by rw [← hm']; rfl
  have e5 : m'.leaf = upd (upd m.leaf m.nL ((m.leaf x).low mid)) (m.nL + 1) ((m.leaf x).high mid) := by rw [← hm']; rfl
  have e6 : m'.frozen = upd (upd (upd m.frozen x true) m.nL true) (m.nL + 1) false := by rw [← hm']; rfl
  have e7 : m'.nL = m.nL + 2 := by rw [← hm']
  have e8 : m'.nN = m.nN := by rw [← hm']; rfl
  have e9 : m'.ver = m.ver := by rw [← hm']; rfl
  have hI := I.halve h hi hx hv hk hlt
  rw [hm'] at hI
  have leaf : ∀ l, l < m.nL → m'.leaf l = m.leaf l := fun l hl => by rw [e5, upd_ne (by omega), upd_ne (by omega)]
  have jn : (view m d A).job n = none := by simp only [view, h, ljob]
  have jn' : (view m' (d.after m m') A).job n = some ⟨x, m.nL, m.nL + 1, .split⟩ := by simp only [view, e3, upd_eq, ljob]
  refine ⟨_, ⟨hI, .grow I e1 (fun _ _ => by rw [e2]) leaf e4 (by omega) (by omega)⟩, .same e9 fun _ _ => by rw [e2],
    .grow I e1 (fun _ _ => by rw [e2]), leaf, fun l h => .inl (by rw [← e4]; exact h), fun l hl hf => .inl ?_, ?_, ?_, ?_,
    B.nul_keep e1 e8 (fun _ h => by rw [← e2]; exact h), fin1_upd e3 (by simp), ?_⟩
  · rw [e6, upd_ne (by omega), upd_ne (by omega), upd_apply]
    split
    · rfl
    · exact hf
  · refine ⟨n, job_one e3, ?_⟩
    rw [jn, jn']
    refine .split x m.nL (m.nL + 1) mid mid k (hu.child hx) hd hg (Nat.le_refl _) (Nat.lt_succ_self _) ?_ ?_ ?_ ?_ ?_ ?_ ⟨?_, ?_⟩ ⟨?_, ?_⟩
      (B.child_free h hi hx)
    · show m.nL + 1 < m'.nL
      omega
    · show m'.frozen x = true
      rw [e6, upd_ne (by omega), upd_ne (by omega), upd_eq]
    · show m'.frozen m.nL = true
      rw [e6, upd_ne (by omega), upd_eq]
    · refine ⟨Nat.le_refl _, hlt, ?_, ?_⟩
      · show (m.leaf x).get mid ≠ none
        rw [hv]; simp
      · show (m.leaf x).get k ≠ none
        rw [hk]; simp
    · intro j
      show (m'.leaf m.nL).get j = if j ≤ mid then (m.leaf x).get j else none
      rw [e5, upd_ne (by omega), upd_eq]
      exact Leaf.get_low
    · intro j
      show (m'.leaf (m.nL + 1)).get j = if mid < j then (m.leaf x).get j else none
      rw [e5, upd_eq]
      exact Leaf.get_high
    · show (m'.leaf m.nL).retired = false
      rw [e5, upd_ne (by omega), upd_eq]
      rfl
    · show (m'.leaf (m.nL + 1)).retired = false
      rw [e5, upd_eq]
      rfl
    · show m'.dead (.leaf m.nL) = false
      rw [e4]
      exact I.live_new (by simp [Alloc])
    · show m'.dead (.leaf (m.nL + 1)) = false
      rw [e4]
      exact I.live_new (by simp [Alloc])
  · intro z y hz
    simp only [srcLeaf] at hz
    split at hz
    · next e =>
      cases hz
      rcases e.2 with e | e <;> cases e
      · exact .inr (.inr ⟨n, _, jn', rfl, .inl rfl⟩)
      · exact .inr (.inr ⟨n, _, jn', rfl, .inr rfl⟩)
    · exact .inl hz
  · intro c L hc hs hn
    by_cases e : c = n
    · subst e; rw [jn] at hc; cases hc
    · rw [job_one e3 c e, hc] at hn; cases hn
  · intro c L hc hn
    by_cases e : c = n
    · subst e
      rw [jn'] at hn
      cases hn
      exact ⟨h, B.child_fin h hx⟩
    · rw [job_one e3 c e, hc] at hn; cases hn

/-- Obsolete leaves are being replaced. -/
theorem Base.killed (B : Base m d A src) {n : Id} {J : Job} (hj : (m.phase n).job = some J)
    (hm : ∀ r, m'.dead r = (m.dead r || J.ch.contains r)) (l : Id) (h : m'.dead (.leaf l) = true) :
    m.dead (.leaf l) = true ∨ ∃ n L, (view m d A).job n = some L ∧ L.x = l := by
  rw [hm] at h
  rcases Bool.or_eq_true_iff.1 h with h | h
  · exact .inl h
  · exact .inr (Inv.mem_job B.inv d hj (List.contains_iff_mem.1 h))

theorem Base.copied (B : Base m d A src) {n i x y : Nat} (h : m.phase n = .single i x y) (hg : d.gone x = true)
    (hm' : ((m.setNode n { m.node n with cell := upd (m.node n).cell i (.to (.leaf y)) }).setPhase n .locked).kill
        [.leaf x] = m') : Data m m' d A src src := by
  have I := B.inv
  have e1 : m'.root = m.root := by rw [← hm']; rfl
  have e2 : m'.node = upd m.node n { m.node n with cell := upd (m.node n).cell i (.to (.leaf y)) } := by rw [← hm']; rfl
  have e3 : m'.phase = upd m.phase n .locked := by rw [← hm']; rfl
  have e4 : m'.dead = fun r => m.dead r || [Ref.leaf x].contains r := by rw [← hm']; rfl
  have e5 : m'.leaf = m.leaf := by rw [← hm']; rfl
  have e6 : m'.frozen = m.frozen := by rw [← hm']; rfl
  have e8 : m'.nN = m.nN := by rw [← hm']; rfl
  have e9 : m'.ver = m.ver := by rw [← hm']; rfl
  have hI := I.copied h
  rw [hm'] at hI
  have jn : (view m d A).job n = some ⟨x, y, y, .copy⟩ := by simp only [view, h, ljob]
  have jn' : (view m' (d.after m m') A).job n = none := by simp only [view, e3, upd_eq, ljob]
  refine .plain hI.next (.same e9 fun c _ => ?_) hI.drift e5 (fun l hl => by rw [e6]; exact hl) ?_ ?_ (B.nul_keep e1 e8 ?_) (fin1_upd e3 (by simp))
  · rw [e2, upd_apply]
    split
    · next e => rw [e]
    · rfl
  · intro l hl
    rw [e4] at hl
    rcases Bool.or_eq_true_iff.1 hl with hl | hl
    · exact .inl hl
    · have := List.contains_iff_mem.1 hl
      simp only [List.mem_singleton] at this
      cases this
      exact .inr ⟨n, _, jn, rfl⟩
  · refine ⟨n, job_one e3, ?_, ?_, ?_⟩
    · rw [jn, jn']
      refine .copied x y hg ?_
      show m'.dead (.leaf x) = true
      rw [e4]; simp
    · intro L hL hs
      rw [jn] at hL; cases hL; cases hs
    · intro hL
      rw [jn] at hL; cases hL
  · intro c hc
    rw [e2, upd_apply] at hc
    split at hc
    · next e =>
      subst e
      simp only [upd_apply] at hc
      split at hc
      · cases hc
      · exact hc
    · exact hc

end Scc.Vine
