import Verif.Mow.Step

/-!
# `remove_range` on one node: what always holds
-/

namespace Scc.Mow

variable {V : Type}

/-- A child with a key that is met next by the scanner. -/
theorem ScanOk.split {g : Cfg} {s : St V} {y rest st lb ub ex lows mid hi}
    (S : ScanOk g s (y :: rest) st lb ub ex lows mid hi) : s.kids = (lows ++ mid) ++ y :: rest := by
  rw [S.kids, S.hi_eq.2]

/-- Before a key in the range is met, there are only children below the range. -/
theorem ScanOk.low {g : Cfg} {s : St V} {rest lb ub ex lows mid hi}
    (S : ScanOk g s rest .below lb ub ex lows mid hi) : mid = [] ∧ (g.internal = true → lb = none) := by
  have := (S.below rfl).1
  exact ⟨this, fun h => by rw [S.hlb h, this]; rfl⟩

/-- The loop goes on behind a child below the range. -/
theorem ScanOk.toBelow {g : Cfg} {s s' : St V} {x i rest lb ub lows mid hi} {ex : Option Nat}
    (S : ScanOk g s ((x, i) :: rest) .below lb ub none lows mid hi) (hf : g.a.from x = false)
    (hk : s'.kids = s.kids) (hc : s'.cell = s.cell) (hm : s'.map = s.map) (hh : s'.fresh = s.fresh)
    (hx : g.internal = false → s.cell i = none ∨ s.cell i = ex) :
    ScanOk g s' rest .below lb ub ex (lows ++ [(x, i)]) mid rest := by
  have m := S.low
  have cl : ∀ c, Clean g s c → Clean g s' c := fun c h k h1 h2 => by
    rw [hh]; rw [hm] at h2; exact h k h1 h2
  refine ⟨?_, ?_, S.hmid, S.su, S.hlb, fun _ => ⟨m.1, rfl⟩, fun e => (by cases e), fun e => (by cases e), fun e => (by cases e), ?_⟩
  · rw [hk, S.split, m.1]; simp
  · intro d hd
    rcases List.mem_append.1 hd with h | h
    · exact S.hlows d h
    · cases List.mem_singleton.1 h; exact hf
  · intro hg e he d hd
    rw [hc] at hd
    rw [m.1, List.append_nil] at he
    rcases List.mem_append.1 he with h | h
    · rcases S.clean hg e (List.mem_append_left _ h) d hd with q | q
      · exact .inl (cl d q)
      · cases q
    · cases List.mem_singleton.1 h
      rcases hx hg with q | q
      · rw [q] at hd; cases hd
      · rw [q] at hd; exact .inr hd.symm

/-- The loop goes on behind the child that has the lower border. -/
theorem ScanOk.toBorder {g : Cfg} {s s' : St V} {x i rest lb ub lows mid hi} {ex : Option Nat} {lb' : Option (Nat × Nat)}
    (S : ScanOk g s ((x, i) :: rest) .below lb ub none lows mid hi) (hf : g.has x = true) (hsu : g.su = false)
    (hk : s'.kids = s.kids) (hc : s'.cell = s.cell) (hm : s'.map = s.map) (hh : s'.fresh = s.fresh)
    (hl : g.internal = true → lb' = some (x, i))
    (hx : g.internal = false → s.cell i = none ∨ s.cell i = ex) :
    ScanOk g s' rest .maybeBelow lb' ub ex lows [(x, i)] rest := by
  have m := S.low
  have cl : ∀ c, Clean g s c → Clean g s' c := fun c h k h1 h2 => by
    rw [hh]; rw [hm] at h2; exact h k h1 h2
  refine ⟨?_, S.hlows, .inr ⟨_, rfl, hf⟩, fun e => (by rw [hsu] at e; cases e), hl, fun e => (by cases e),
    fun _ => ⟨fun e => (by cases e), rfl⟩, fun e => (by cases e), fun e => (by cases e), ?_⟩
  · rw [hk, S.split, m.1]; simp
  · intro hg e he d hd
    rw [hc] at hd
    rcases List.mem_append.1 he with h | h
    · rcases S.clean hg e (List.mem_append_left _ h) d hd with q | q
      · exact .inl (cl d q)
      · cases q
    · cases List.mem_singleton.1 h
      rcases hx hg with q | q
      · rw [q] at hd; cases hd
      · rw [q] at hd; exact .inr hd.symm

/-- The loop ends at a child above the range. -/
theorem ScanOk.toAbove {g : Cfg} {s s' : St V} {x i rest st lb ub ub' lows mid hi} {ex : Option Nat}
    (S : ScanOk g s ((x, i) :: rest) st lb ub none lows mid hi) (hf : g.b.to x = false)
    (hk : s'.kids = s.kids) (hc : s'.cell = s.cell) (hm : s'.map = s.map) (hh : s'.fresh = s.fresh)
    (hl : g.internal = true → g.mode ≠ .lower) (hu : g.internal = true → ub' = some i)
    (hx : g.internal = false → s.cell i = none ∨ s.cell i = ex) :
    ScanOk g s' [] .maybeAbove lb ub' ex lows mid ((x, i) :: rest) := by
  have cl : ∀ c, Clean g s c → Clean g s' c := fun c h k h1 h2 => by
    rw [hh]; rw [hm] at h2; exact h k h1 h2
  refine ⟨?_, S.hlows, S.hmid, S.su, S.hlb, fun e => (by cases e), fun e => (by cases e), fun e => (by cases e),
    fun _ => ⟨rfl, hl, x, i, rest, rfl, hf, hu, fun hg d hd => ?_⟩, ?_⟩
  · rw [hk, S.split]
  · rw [hc] at hd
    rcases hx hg with q | q
    · rw [q] at hd; cases hd
    · rw [q] at hd; exact .inr hd.symm
  · intro hg e he d hd
    rw [hc] at hd
    rcases S.clean hg e he d hd with q | q
    · exact .inl (cl d q)
    · cases q

/-- The three cases of a leaf node in one. -/
theorem ScanOk.toLeaf {g : Cfg} (G : Good g) {s₀ s s' : St V} (I : Inv g s₀ s) {x i rest st lb ub lows mid hi}
    {ex : Option Nat} (S : ScanOk g s ((x, i) :: rest) st lb ub none lows mid hi) (hg : g.internal = false)
    (hn : g.next st x ≠ .fully)
    (hk : s'.kids = s.kids) (hc : s'.cell = s.cell) (hm : s'.map = s.map) (hh : s'.fresh = s.fresh)
    (hx : s.cell i = none ∨ s.cell i = ex) :
    ∃ lows mid hi,
      ScanOk g s' (if g.next st x = .maybeAbove then [] else rest) (g.next st x) lb ub ex lows mid hi := by
  have ni : ∀ {P : Prop}, g.internal = true → P := fun h => by rw [hg] at h; cases h
  cases e : g.next st x with
  | below =>
    obtain ⟨e1, e2⟩ := next_below e
    subst e1
    exact ⟨_, _, _, S.toBelow e2 hk hc hm hh (fun _ => hx)⟩
  | maybeBelow =>
    obtain ⟨e1, e2⟩ := next_mbelow e
    subst e1
    exact ⟨_, _, _, S.toBorder (next_has (.inr e)) e2 hk hc hm hh ni (fun _ => hx)⟩
  | fully => exact absurd e hn
  | maybeAbove => exact ⟨_, _, _, S.toAbove (S.above_to G I e) hk hc hm hh ni ni (fun _ => hx)⟩

/-- A child within the range was removed. -/
theorem ScanOk.toFully {g : Cfg} {s s' : St V} {x i rest st lb ub lows mid hi}
    (S : ScanOk g s ((x, i) :: rest) st lb ub none lows mid hi) (hn : g.next st x = .fully)
    (hk : s'.kids = (lows ++ mid) ++ rest) (hc : s'.cell = s.cell) (hm : s'.map = s.map) (hh : s'.fresh = s.fresh) :
    ScanOk g s' rest .fully lb ub none lows mid rest := by
  have cl : ∀ c, Clean g s c → Clean g s' c := fun c h k h1 h2 => by
    rw [hh]; rw [hm] at h2; exact h k h1 h2
  refine ⟨hk, S.hlows, S.hmid, S.su, S.hlb, fun e => (by cases e), fun e => (by cases e), fun _ => ⟨?_, rfl⟩,
    fun e => (by cases e), ?_⟩
  · cases st with
    | below => exact fun _ => next_fully hn rfl
    | maybeBelow => exact (S.mbelow rfl).1
    | fully => exact (S.fully rfl).1
    | maybeAbove => exact absurd rfl S.hi_eq.1
  · intro hg e he d hd
    rw [hc] at hd
    rcases S.clean hg e he d hd with q | q
    · exact .inl (cl d q)
    · cases q

/-- Clearing a pointer that nobody uses. -/
theorem ScanOk.wipe {g : Cfg} {s : St V} {i rest st lb ub lows mid hi rr}
    (S : ScanOk g s rest st lb ub none lows mid hi) (hi0 : ∀ e ∈ s.kids, e.2 ≠ i) :
    ScanOk g { s with cell := upd s.cell i none, rr := rr } rest st lb ub none lows mid hi := by
  have ce : ∀ e ∈ s.kids, upd s.cell i none e.2 = s.cell e.2 := fun e he => by
    unfold upd; rw [if_neg (hi0 e he)]
  have kk := S.kids
  refine ⟨S.kids, S.hlows, S.hmid, S.su, S.hlb, S.below, S.mbelow, S.fully, fun e => ?_, fun hg e he d hd => ?_⟩
  · obtain ⟨a1, a2, x, j, tl, a3, a4, a5, a6⟩ := S.above e
    refine ⟨a1, a2, x, j, tl, a3, a4, a5, fun f d hd => ?_⟩
    have : upd s.cell i none j = s.cell j := ce (x, j) (by rw [kk, a3]; simp)
    have hd : upd s.cell i none j = some d := hd
    rw [this] at hd
    exact a6 f d hd
  · have : upd s.cell i none e.2 = s.cell e.2 := ce e (by rw [kk]; exact List.mem_append_left _ he)
    have hd : upd s.cell i none e.2 = some d := hd
    rw [this] at hd
    exact S.clean hg e he d hd

/-- The treated leaf is clean. -/
theorem ScanOk.treated {g : Cfg} {s : St V} {c rest st lb ub lows mid hi rr}
    (S : ScanOk g s rest st lb ub (some c) lows mid hi) (hc : Clean g s c) :
    ScanOk g { s with rr := rr } rest st lb ub none lows mid hi := by
  refine ⟨S.kids, S.hlows, S.hmid, S.su, S.hlb, S.below, S.mbelow, S.fully, fun e => ?_, fun hg e he d hd => ?_⟩
  · obtain ⟨a1, a2, x, j, tl, a3, a4, a5, a6⟩ := S.above e
    refine ⟨a1, a2, x, j, tl, a3, a4, a5, fun f d hd => .inl ?_⟩
    rcases a6 f d hd with q | q
    · exact q
    · cases q; exact hc
  · left
    rcases S.clean hg e he d hd with q | q
    · exact q
    · cases q; exact hc

/-- Every step keeps the invariant. -/
theorem Inv.step {g : Cfg} (G : Good g) {s₀ s s' : St V} (I : Inv g s₀ s) (h : Step g s s') : Inv g s₀ s' := by
  cases h with
  | begin t k op hp hk =>
    refine ⟨I.sorted, I.place, I.pos, I.inside, I.cell, I.cell0, ROk.mono (s := s) rfl rfl rfl (fun _ _ h => h) I.rr,
      Own.mono (s := s) rfl rfl rfl I.own, fun u => ?_, I.past, I.later⟩
    show PcOk g s₀ _ (upd s.th t _ u).key (upd s.th t _ u).pc
    unfold upd
    split
    · exact hk
    · exact PcOk.mono (s := s) rfl rfl rfl rfl (I.th u)
  | select t hp =>
    have P := I.th t
    rw [hp] at P
    refine I.go ?_
    simp only [PcOk] at P ⊢
    exact ⟨P, Nat.le_refl _, fun _ => ⟨by trivial, fun h => h⟩, fun e => ⟨by
      cases hr : s.rr <;> rw [hr] at e <;> simp [RPc.when] at e ⊢, trivial⟩⟩
  | load t i v w c hp hc =>
    have P := I.th t
    rw [hp] at P
    refine I.go ?_
    simp only [PcOk] at P ⊢
    refine ⟨P.1, P.2.1, fun hv hw ho => ?_, fun e => ?_⟩
    · obtain ⟨e1, e2⟩ := P.2.2.1 hv
      rw [← own_plain I (e2 hw) ho P.1, ← e1]
      exact hc
    · obtain ⟨e1, e2⟩ := P.2.2.2 e
      refine ⟨e1, e2, ?_⟩
      rw [← (P.2.2.1 e2).1]
      exact hc
  | null t i v w hp hc hi =>
    have P := I.th t
    rw [hp] at P
    exact I.go P.1
  | void t v w hp hc ho => exact absurd hc I.cell0
  | valid t c v w hp hv =>
    have P := I.th t
    rw [hp] at P
    refine I.go ?_
    simp only [PcOk] at P ⊢
    exact ⟨P.1, P.2.2.1 hv, fun e => ⟨(P.2.2.2 e).1, (P.2.2.2 e).2.2⟩⟩
  | invalid t c v w hp hv =>
    have P := I.th t
    rw [hp] at P
    exact I.go P.1
  | act t c w hp =>
    have P := I.th t
    rw [hp] at P
    simp only [PcOk] at P
    refine I.acts (fun hr d => clean_act hr) ?_ ?_
    · cases hk : g.has (s.th t).key with
      | true =>
        refine past_in I.past hk fun d k h1 => ?_
        have : k ≠ (s.th t).key := fun e => by rw [e, hk] at h1; cases h1
        unfold upd
        by_cases e : d = c
        · rw [if_pos e, if_neg this, e]
        · rw [if_neg e]
      | false => exact past_out I.past hk P.1 (fun hw => P.2.1 hw hk)
    · refine later_snoc I.later fun hw hk hf => ?_
      obtain ⟨e1, e2⟩ := P.2.2 hw
      have R := I.rr
      unfold ROk at R
      rw [e1] at R
      have hn : s.map c (s.th t).key = none := by
        rcases R _ hk P.1 c e2 with q | q
        · cases e : s.map c (s.th t).key with
          | none => rfl
          | some v => rw [q _ hk (by rw [e]; simp)] at hf; cases hf
        · cases q
      rw [hn]
      exact ⟨_, does_run _ _⟩
  | stray t c w ans hp hw hk =>
    refine I.acts (fun hr d h k h1 h2 => fresh_call (h k h1 h2)) (past_in I.past hk fun _ _ _ => rfl) ?_
    exact later_snoc I.later fun e => absurd e hw
  | lock hr =>
    refine I.turn (by rw [hr]; simp) (by rw [hr]; simp [RPc.when]) (by simp [RPc.when]) ?_
    exact ⟨[], [], s.kids, by simp, by simp, .inl rfl, fun _ => rfl, fun _ => rfl, fun _ => ⟨rfl, rfl⟩,
      fun e => (by cases e), fun e => (by cases e), fun e => (by cases e), fun _ e he => (by cases he)⟩
  | below k i rest st lb ub hr hn hg =>
    have R := I.rr
    unfold ROk at R
    rw [hr] at R
    obtain ⟨l, m, u, S⟩ := R
    refine I.turn (by rw [hr]; simp) (by rw [hr]; simp [RPc.when]) (by simp [RPc.when]) ?_
    obtain ⟨e1, e2⟩ := next_below hn
    subst e1
    exact ⟨_, _, _, S.toBelow e2 rfl rfl rfl rfl (fun h => by rw [hg] at h; cases h)⟩
  | border k i rest st lb ub hr hn hg =>
    have R := I.rr
    unfold ROk at R
    rw [hr] at R
    obtain ⟨l, m, u, S⟩ := R
    refine I.turn (by rw [hr]; simp) (by rw [hr]; simp [RPc.when]) (by simp [RPc.when]) ?_
    obtain ⟨e1, e2⟩ := next_mbelow hn
    subst e1
    exact ⟨_, _, _, S.toBorder (next_has (.inr hn)) e2 rfl rfl rfl rfl (fun _ => rfl)
      (fun h => by rw [hg] at h; cases h)⟩
  | fully k i rest st lb ub hr hn =>
    have R := I.rr
    unfold ROk at R
    rw [hr] at R
    obtain ⟨l, m, u, S⟩ := R
    have hk := S.split
    have hpl := I.place
    rw [hk, List.pairwise_append, List.pairwise_cons] at hpl
    refine I.cut hk (by rw [hr]; simp) ⟨I.pos (k, i) (by rw [hk]; simp), fun e he => ?_, _, _, _, S.toFully hn rfl rfl rfl rfl⟩ ?_
    · rcases List.mem_append.1 he with h | h
      · exact hpl.2.2 e h (k, i) (by simp)
      · exact fun q => hpl.2.1.1 e h q.symm
    · intro y h1 h2
      show s.cell (route ((l ++ m) ++ rest) y) = _
      rw [← own_plain I (by rw [hr]; simp [RPc.when]) h1 h2, hk]
      have q1 := route_append (l ++ m) rest y
      rcases route_append (l ++ m) ((k, i) :: rest) y with ⟨e, a1, a2, a3, a4⟩ | ⟨a1, a2⟩
      · rcases q1 with ⟨e', b1, b2, b3, b4⟩ | ⟨b1, _⟩
        · rw [a3, b3, ← a4, ← b4]
        · have := b1 e a1; omega
      · rcases q1 with ⟨e', b1, b2, _, _⟩ | ⟨_, b2⟩
        · have := a1 e' b1; omega
        · rw [a2, b2, route_cons]
          by_cases hx : y ≤ k
          · rw [S.fully_in G hn h2 a1 hx] at h1; cases h1
          · rw [if_neg hx]
  | aboveCut k i rest st lb ub hr hn hg hm =>
    have R := I.rr
    unfold ROk at R
    rw [hr] at R
    obtain ⟨l, m, u, S⟩ := R
    have e1 := S.above_to G I hn
    have e2 := G.to hm (I.inside (k, i) (by rw [S.split]; simp))
    simp only at e2
    rw [e1] at e2
    cases e2
  | above k i rest st lb ub hr hn hg hm =>
    have R := I.rr
    unfold ROk at R
    rw [hr] at R
    obtain ⟨l, m, u, S⟩ := R
    refine I.turn (by rw [hr]; simp) (by rw [hr]; simp [RPc.when]) (by simp [RPc.when]) ?_
    exact ⟨_, _, _, S.toAbove (S.above_to G I hn) rfl rfl rfl rfl (fun _ => hm) (fun _ => rfl)
      (fun h => by rw [hg] at h; cases h)⟩
  | leaf k i rest st lb ub c hr hn hg hc =>
    have R := I.rr
    unfold ROk at R
    rw [hr] at R
    obtain ⟨l, m, u, S⟩ := R
    refine I.turn (by rw [hr]; simp) (by rw [hr]; simp [RPc.when]) (by simp [RPc.when]) ?_
    exact ⟨hg, S.toLeaf G I hg hn rfl rfl rfl rfl (.inr hc)⟩
  | leafNull k i rest st lb ub hr hn hg hc =>
    have R := I.rr
    unfold ROk at R
    rw [hr] at R
    obtain ⟨l, m, u, S⟩ := R
    refine I.turn (by rw [hr]; simp) (by rw [hr]; simp [RPc.when]) (by simp [RPc.when]) ?_
    exact S.toLeaf G I hg hn rfl rfl rfl rfl (.inl hc)
  | leafDrop c rest st lb ub x hr hx => exact I.drop hx
  | leafEnd c rest st lb ub hr hc =>
    have R := I.rr
    unfold ROk at R
    rw [hr] at R
    obtain ⟨hg, l, m, u, S⟩ := R
    refine I.turn (by rw [hr]; simp) (by rw [hr]; simp [RPc.when]) (by simp [RPc.when]) ?_
    exact ⟨_, _, _, S.treated hc⟩
  | clear i rest st lb ub hr =>
    have R := I.rr
    unfold ROk at R
    rw [hr] at R
    obtain ⟨h0, hi, l, m, u, S⟩ := R
    refine I.wipe h0 hi (by rw [hr]; simp) (by rw [hr]; simp [RPc.when]) (by simp [RPc.when]) ?_
    exact ⟨_, _, _, S.wipe hi⟩
  | endLeaf st lb ub hr hg =>
    have R := I.rr
    unfold ROk at R
    rw [hr] at R
    obtain ⟨l, m, u, S⟩ := R
    refine I.turn (by rw [hr]; simp) (by rw [hr]; simp [RPc.when]) (subs_when _) (rok_subs (S.cov_leaf hg))
  | endMove st k i ub hr hg hm =>
    have R := I.rr
    unfold ROk at R
    rw [hr] at R
    obtain ⟨l, m, u, S⟩ := R
    refine I.turn (by rw [hr]; simp) (by rw [hr]; simp [RPc.when]) (by simp [RPc.when]) ?_
    have hm' : m = [(k, i)] ∧ g.has k = true := by
      have := S.hlb hg
      rcases S.hmid with e | ⟨e, e1, e2⟩
      · rw [e] at this; cases this
      · rw [e1] at this
        cases this
        exact ⟨e1, e2⟩
    refine ⟨hm, hm'.2, l, ?_, S.hlows⟩
    have hu : u = [] := by
      cases st with
      | below => rw [(S.below rfl).1] at hm'; cases hm'.1
      | maybeBelow => exact (S.mbelow rfl).2
      | fully => exact (S.fully rfl).2
      | maybeAbove => exact absurd hm ((S.above rfl).2.1 hg)
    show s.kids = _
    rw [S.kids, hu, hm'.1, List.append_nil]
  | endNode st lb ub hr hg hm =>
    have R := I.rr
    unfold ROk at R
    rw [hr] at R
    obtain ⟨l, m, u, S⟩ := R
    exact I.turn (by rw [hr]; simp) (by rw [hr]; simp [RPc.when]) (subs_when _) (rok_subs (S.cov_node G I hg hm))
  | move k i hr =>
    have R := I.rr
    unfold ROk at R
    rw [hr] at R
    obtain ⟨hm, hk, l, hl, hlow⟩ := R
    have hpl := I.place
    rw [hl, List.pairwise_append] at hpl
    refine I.cut hl (by rw [hr]; simp) ⟨I.pos (k, i) (by rw [hl]; simp), fun e he => ?_, I.cell (k, i) (by rw [hl]; simp), fun d hd => ?_⟩ ?_
    · have he : e ∈ l ++ [] := he
      rw [List.append_nil] at he
      exact hpl.2.2 e he (k, i) (by simp)
    · have hd : d ∈ l ++ [] := hd
      rw [List.append_nil] at hd
      exact hlow d hd
    · intro y h1 h2
      have q := own_plain I (by rw [hr]; simp [RPc.when]) h1 h2
      show (route (l ++ []) y ≠ 0 → s.cell (route (l ++ []) y) = _) ∧ (route (l ++ []) y = 0 → s.cell i = _)
      rw [List.append_nil]
      rw [hl] at q
      rcases route_append l [(k, i)] y with ⟨e, a1, a2, a3, a4⟩ | ⟨a1, a2⟩
      · refine ⟨fun _ => by rw [a4, ← a3]; exact q, fun e0 => ?_⟩
        rw [a4] at e0
        exact absurd e0 (I.pos e (by rw [hl]; exact List.mem_append_left _ a1))
      · refine ⟨fun e0 => absurd (route_low a1) e0, fun _ => ?_⟩
        rw [a2, route_cons] at q
        by_cases hx : y ≤ k
        · rw [if_pos hx] at q; exact q
        · have : g.has y = true :=
            has_iff.2 ⟨from_mono (has_iff.1 hk).1 (Nat.le_of_lt (Nat.lt_of_not_le hx)), G.to hm h2⟩
          rw [this] at h1; cases h1
  | gap i hr =>
    have R := I.rr
    unfold ROk at R
    rw [hr] at R
    obtain ⟨h0, hi, hc, hlow⟩ := R
    have ce : ∀ j, j ≠ 0 → upd s.cell 0 (s.cell i) j = s.cell j := fun j hj => by unfold upd; rw [if_neg hj]
    have cz : upd s.cell 0 (s.cell i) 0 = s.cell i := by unfold upd; rw [if_pos rfl]
    refine ⟨I.sorted, I.place, I.pos, I.inside, fun e he => ?_, ?_, ⟨h0, hi, hlow⟩, fun k h1 h2 => ?_,
      fun t => PcOk.same (s := s) rfl rfl (by rw [hr]; simp) (fun _ => by simp [RPc.when]) (I.th t),
      I.past.keep rfl (fun _ _ _ => rfl), I.later.keep rfl⟩
    · show upd s.cell 0 (s.cell i) e.2 ≠ none
      rw [ce _ (I.pos e he)]
      exact I.cell e he
    · show upd s.cell 0 (s.cell i) 0 ≠ none
      rw [cz]; exact hc
    · have q := I.own k h1 h2
      rw [hr] at q
      show upd s.cell 0 (s.cell i) (route s.kids k) = _
      by_cases e : route s.kids k = 0
      · rw [e, cz]; exact q.2 e
      · rw [ce _ e]; exact q.1 e
  | tidy i hr =>
    have R := I.rr
    unfold ROk at R
    rw [hr] at R
    obtain ⟨h0, hi, hlow⟩ := R
    refine I.wipe h0 hi (by rw [hr]; simp) (by rw [hr]; simp [RPc.when]) (subs_when _) ?_
    refine rok_subs (s := { s with cell := upd s.cell i none }) ?_
    intro k hk hw d hd
    right
    have hd : upd s.cell i none (route s.kids k) = some d := hd
    have : route s.kids k = 0 := route_low fun e he => by
      apply Decidable.byContradiction
      intro n
      have := hlow e he
      rw [from_mono (has_iff.1 hk).1 (Nat.le_of_not_lt n)] at this
      cases this
    rw [this] at hd
    unfold upd at hd
    rw [if_neg (fun e => h0 e.symm)] at hd
    rw [hd]
    simp
  | drop c todo x hr hx => exact I.drop hx
  | subEnd c todo hr hc =>
    have R := I.rr
    unfold ROk at R
    rw [hr] at R
    refine I.turn (by rw [hr]; simp) (by rw [hr]; simp [RPc.when]) (subs_when _) (rok_subs ?_)
    intro k hk hw d hd
    rcases R k hk hw d hd with q | q
    · exact .inl q
    · rcases List.mem_cons.1 q with q | q
      · rw [q]; exact .inl hc
      · exact .inr q

theorem Inv.reach {g : Cfg} (G : Good g) {s₀ s : St V} (h0 : Init g s₀) (h : Reach g s₀ s) : Inv g s₀ s := by
  induction h with
  | refl => exact Inv.init h0
  | step _ st ih => exact ih.step G st

end Scc.Mow
