import Verif.Mow.Inv

/-!
# `remove_range` on one node: the steps keep the invariant
-/

namespace Scc.Mow

variable {V : Type}

/-- The keys of the node stay. -/
theorem PcOk.same {g : Cfg} {s₀ s s' : St V} {k pc} (hk : s'.kids = s.kids) (hv : s'.ver = s.ver) (hd : s.rr ≠ .done)
    (hg : s.rr.when ≠ .gap → s'.rr.when ≠ .gap) (h : PcOk g s₀ s k pc) : PcOk g s₀ s' k pc := by
  cases pc with
  | idle => trivial
  | top => exact h
  | sel i v w =>
    simp only [PcOk, hk, hv] at *
    exact ⟨h.1, h.2.1, fun e => ⟨(h.2.2.1 e).1, fun e' => hg ((h.2.2.1 e).2 e')⟩, fun e => absurd (h.2.2.2 e).1 hd⟩
  | got c v w =>
    simp only [PcOk, hv] at *
    exact ⟨h.1, h.2.1, h.2.2.1, fun e => absurd (h.2.2.2 e).1 hd⟩
  | act c w =>
    simp only [PcOk] at *
    exact ⟨h.1, h.2.1, fun e => absurd (h.2.2 e).1 hd⟩

/-- The keys of the node change. -/
theorem PcOk.bump {g : Cfg} {s₀ s s' : St V} {k pc} (hv : s'.ver = s.ver + 1) (hd : s.rr ≠ .done)
    (h : PcOk g s₀ s k pc) : PcOk g s₀ s' k pc := by
  cases pc with
  | idle => trivial
  | top => exact h
  | sel i v w =>
    simp only [PcOk] at *
    exact ⟨h.1, by have := h.2.1; omega, fun e => by have := h.2.1; omega, fun e => absurd (h.2.2.2 e).1 hd⟩
  | got c v w =>
    simp only [PcOk] at *
    exact ⟨h.1, by have := h.2.1; omega, fun e => by have := h.2.1; omega, fun e => absurd (h.2.2.2 e).1 hd⟩
  | act c w =>
    simp only [PcOk] at *
    exact ⟨h.1, h.2.1, fun e => absurd (h.2.2 e).1 hd⟩

theorem Past.keep {g : Cfg} {s₀ s s' : St V} (P : Past g s₀ s) (hh : s'.hist = s.hist)
    (hm : ∀ c k, g.has k = false → s'.map c k = s.map c k) : Past g s₀ s' := by
  unfold Past
  rw [hh]
  intro h
  obtain ⟨m, l, f⟩ := P h
  exact ⟨m, l, fun k h1 h2 c hc => by rw [hm c k h1]; exact f k h1 h2 c hc⟩

theorem Later.keep {g : Cfg} {s s' : St V} (L : Later g s) (hh : s'.hist = s.hist) : Later g s' := by
  unfold Later
  rw [hh]
  exact L

/-- A step of `remove_range` that only changes where it is. -/
theorem Inv.turn {g : Cfg} {s₀ s : St V} (I : Inv g s₀ s) {r : RPc} (hd : s.rr ≠ .done) (hs : s.rr.when ≠ .gap)
    (hr : r.when ≠ .gap) (h : ROk g { s with rr := r }) : Inv g s₀ { s with rr := r } := by
  refine ⟨I.sorted, I.place, I.pos, I.inside, I.cell, I.cell0, h, fun k h1 h2 => ?_,
    fun t => PcOk.same (s := s) rfl rfl hd (fun _ => hr) (I.th t), I.past.keep rfl (fun _ _ _ => rfl), I.later.keep rfl⟩
  have q := I.own k h1 h2
  have q' : s.cell (route s.kids k) = s₀.cell (route s₀.kids k) := by
    cases e : s.rr <;> rw [e] at q hs <;> first | exact q | exact absurd rfl hs
  cases r <;> first | exact q' | exact absurd rfl hr

/-- Entries in the range disappear. -/
theorem clean_drop {g : Cfg} {s : St V} {c x : Nat} {d : Nat} (h : Clean g s d) :
    Clean g { s with map := upd s.map c (upd (s.map c) x none) } d := by
  intro k hk hm
  refine h k hk fun e => hm ?_
  show upd s.map c (upd (s.map c) x none) d k = none
  unfold upd
  by_cases e1 : d = c
  · rw [if_pos e1]
    by_cases e2 : k = x
    · rw [if_pos e2]
    · rw [if_neg e2, ← e1]; exact e
  · rw [if_neg e1]; exact e

theorem Inv.drop {g : Cfg} {s₀ s : St V} (I : Inv g s₀ s) {c x : Nat} (hx : g.has x = true) :
    Inv g s₀ { s with map := upd s.map c (upd (s.map c) x none) } := by
  refine ⟨I.sorted, I.place, I.pos, I.inside, I.cell, I.cell0,
    ROk.mono (s := s) rfl rfl rfl (fun _ _ h => clean_drop h) I.rr, Own.mono (s := s) rfl rfl rfl I.own,
    fun t => PcOk.mono (s := s) rfl rfl rfl rfl (I.th t), I.past.keep rfl (fun d k hk => ?_), I.later.keep rfl⟩
  show upd s.map c (upd (s.map c) x none) d k = _
  have e2 : k ≠ x := fun e => by rw [e, hx] at hk; cases hk
  unfold upd
  by_cases e1 : d = c
  · rw [if_pos e1, if_neg e2, e1]
  · rw [if_neg e1]

/-- The key of a child is removed. -/
theorem Inv.cut {g : Cfg} {s₀ s : St V} (I : Inv g s₀ s) {p r : List (Nat × Nat)} {x i : Nat} {rr : RPc}
    (hk : s.kids = p ++ (x, i) :: r) (hd : s.rr ≠ .done)
    (h : ROk g { s with kids := p ++ r, ver := s.ver + 1, rr := rr })
    (ho : Own g s₀ { s with kids := p ++ r, ver := s.ver + 1, rr := rr }) : Inv g s₀ (s.cut x rr) := by
  have e : s.cut x rr = { s with kids := p ++ r, ver := s.ver + 1, rr := rr } := by
    unfold St.cut
    have := I.sorted
    rw [hk] at this
    rw [hk, cut_eq this]
  have sub : (p ++ r).Sublist s.kids := by
    rw [hk]
    exact (List.Sublist.refl p).append (List.sublist_cons_self _ _)
  have mem : ∀ e ∈ p ++ r, e ∈ s.kids := fun e he => sub.mem he
  rw [e]
  exact ⟨I.sorted.sublist sub, I.place.sublist sub, fun e he => I.pos e (mem e he), fun e he => I.inside e (mem e he),
    fun e he => I.cell e (mem e he), I.cell0, h, ho, fun t => (I.th t).bump rfl hd,
    I.past.keep rfl (fun _ _ _ => rfl), I.later.keep rfl⟩

/-- A pointer is cleared whose key was removed. -/
theorem Inv.wipe {g : Cfg} {s₀ s : St V} (I : Inv g s₀ s) {i : Nat} {rr : RPc} (h0 : i ≠ 0)
    (hi : ∀ e ∈ s.kids, e.2 ≠ i) (hd : s.rr ≠ .done) (hs : s.rr.when ≠ .gap) (hr : rr.when ≠ .gap)
    (h : ROk g { s with cell := upd s.cell i none, rr := rr }) :
    Inv g s₀ { s with cell := upd s.cell i none, rr := rr } := by
  have ne : ∀ k, route s.kids k ≠ i := by
    intro k
    rcases route_cases s.kids k with ⟨e, h1, _, h2⟩ | ⟨_, h2⟩
    · rw [h2]; exact hi e h1
    · rw [h2]; exact fun e => h0 e.symm
  refine ⟨I.sorted, I.place, I.pos, I.inside, fun e he => ?_, ?_, h, fun k h1 h2 => ?_,
    fun t => PcOk.same (s := s) rfl rfl hd (fun _ => hr) (I.th t), I.past.keep rfl (fun _ _ _ => rfl), I.later.keep rfl⟩
  · show upd s.cell i none e.2 ≠ none
    unfold upd; rw [if_neg (hi e he)]; exact I.cell e he
  · show upd s.cell i none 0 ≠ none
    unfold upd; rw [if_neg (fun e => h0 e.symm)]; exact I.cell0
  · have q := I.own k h1 h2
    have q' : s.cell (route s.kids k) = s₀.cell (route s₀.kids k) := by
      cases e : s.rr <;> rw [e] at q hs <;> first | exact q | exact absurd rfl hs
    have q2 : upd s.cell i none (route s.kids k) = s₀.cell (route s₀.kids k) := by
      unfold upd; rw [if_neg (ne k)]; exact q'
    cases rr <;> first | exact q2 | exact absurd rfl hr

/-! ## The loop -/

theorem next_has {g : Cfg} {st : RS} {k : Nat} (h : g.next st k = .fully ∨ g.next st k = .maybeBelow) :
    g.has k = true := by
  unfold Cfg.next at h
  split at h
  · assumption
  · cases st <;> simp only at h <;> first | (split at h <;> simp at h) | simp at h

theorem next_below {g : Cfg} {st : RS} {k : Nat} (h : g.next st k = .below) : st = .below ∧ g.a.from k = false := by
  unfold Cfg.next at h
  split at h
  · cases st <;> simp only at h <;> first | (split at h <;> simp at h) | simp at h
  · cases st <;> simp only at h <;> first | (split at h <;> simp_all) | simp at h

theorem next_mbelow {g : Cfg} {st : RS} {k : Nat} (h : g.next st k = .maybeBelow) : st = .below ∧ g.su = false := by
  unfold Cfg.next at h
  split at h
  · cases st <;> simp only at h <;> first | (split at h <;> simp_all) | simp at h
  · cases st <;> simp only at h <;> first | (split at h <;> simp at h) | simp at h

theorem next_fully {g : Cfg} {st : RS} {k : Nat} (h : g.next st k = .fully) : st = .below → g.su = true := by
  intro e
  subst e
  unfold Cfg.next at h
  split at h
  · simp only at h; split at h <;> simp_all
  · simp only at h; split at h <;> simp_all

theorem next_above {g : Cfg} {st : RS} {k : Nat} (h : g.next st k = .maybeAbove) :
    g.has k = false ∧ (st = .below → g.a.from k = true) := by
  unfold Cfg.next at h
  split at h
  · cases st <;> simp only at h <;> first | (split at h <;> simp at h) | simp at h
  · rename_i e
    refine ⟨by simpa using e, fun e' => ?_⟩
    subst e'
    simp only at h
    split at h
    · assumption
    · simp at h

/-- While the loop goes on, the rest is what the scanner will return. -/
theorem ScanOk.hi_eq {g : Cfg} {s : St V} {y rest st lb ub ex lows mid hi}
    (S : ScanOk g s (y :: rest) st lb ub ex lows mid hi) : st ≠ .maybeAbove ∧ hi = y :: rest := by
  cases st with
  | below => exact ⟨by simp, (S.below rfl).2⟩
  | maybeBelow => exact ⟨by simp, (S.mbelow rfl).2⟩
  | fully => exact ⟨by simp, (S.fully rfl).2⟩
  | maybeAbove => exact absurd (S.above rfl).1 (by simp)

/-- A key behind all children before the scanner, once a key in the range was met, is not below the range. -/
theorem ScanOk.from {g : Cfg} (G : Good g) {s : St V} {rest st lb ub ex lows mid hi}
    (S : ScanOk g s rest st lb ub ex lows mid hi) (hst : mid = [] → g.su = true) {k : Nat} (hk : g.within k)
    (hm : ∀ e ∈ lows ++ mid, e.1 < k) : g.a.from k = true := by
  rcases S.hmid with h | ⟨e, h, he⟩
  · exact G.from (hst h) hk
  · have := hm e (by rw [h]; simp)
    exact from_mono (has_iff.1 he).1 (Nat.le_of_lt this)

/-- The keys for a child within the range are in the range. -/
theorem ScanOk.fully_in {g : Cfg} (G : Good g) {s : St V} {x i rest st lb ub ex lows mid hi}
    (S : ScanOk g s ((x, i) :: rest) st lb ub ex lows mid hi) (hn : g.next st x = .fully) {k : Nat} (hk : g.within k)
    (hm : ∀ e ∈ lows ++ mid, e.1 < k) (hx : k ≤ x) : g.has k = true := by
  have hh := has_iff.1 (next_has (.inl hn))
  refine has_iff.2 ⟨S.from G ?_ hk hm, to_mono hh.2 hx⟩
  cases st with
  | below => exact fun _ => next_fully hn rfl
  | maybeBelow => exact (S.mbelow rfl).1
  | fully => exact (S.fully rfl).1
  | maybeAbove => exact absurd rfl S.hi_eq.1

/-- The child that ends the loop is above the range. -/
theorem ScanOk.above_to {g : Cfg} (G : Good g) {s₀ s : St V} (I : Inv g s₀ s) {x i rest st lb ub ex lows mid hi}
    (S : ScanOk g s ((x, i) :: rest) st lb ub ex lows mid hi) (hn : g.next st x = .maybeAbove) : g.b.to x = false := by
  obtain ⟨h1, h2⟩ := next_above hn
  have hk := S.kids
  rw [S.hi_eq.2] at hk
  have hw := I.inside (x, i) (by rw [hk]; simp)
  have hs := I.sorted
  rw [hk, List.pairwise_append] at hs
  have hm : ∀ e ∈ lows ++ mid, e.1 < x := fun e he => hs.2.2 e he (x, i) (by simp)
  have hf : g.a.from x = true := by
    cases st with
    | below => exact h2 rfl
    | maybeBelow => exact S.from G (S.mbelow rfl).1 hw hm
    | fully => exact S.from G (S.fully rfl).1 hw hm
    | maybeAbove => exact absurd rfl S.hi_eq.1
  cases e : g.b.to x with
  | false => rfl
  | true => rw [has_iff.2 ⟨hf, e⟩] at h1; cases h1

theorem own_plain {g : Cfg} {s₀ s : St V} (I : Inv g s₀ s) (hs : s.rr.when ≠ .gap) {k : Nat} (h1 : g.has k = false)
    (h2 : g.within k) : s.cell (route s.kids k) = s₀.cell (route s₀.kids k) := by
  have q := I.own k h1 h2
  cases e : s.rr <;> rw [e] at q hs <;> first | exact q | exact absurd rfl hs

/-- What is left to do covers all keys in the range: leaf nodes. -/
theorem ScanOk.cov_leaf {g : Cfg} {s : St V} {st lb ub lows mid hi}
    (S : ScanOk g s [] st lb ub none lows mid hi) (hg : g.internal = false) : Cov g s (s.cell 0).toList := by
  intro k hk hw d hd
  rw [S.kids] at hd
  rcases route_append (lows ++ mid) hi k with ⟨e, h1, _, h2, _⟩ | ⟨_, h2⟩
  · rw [h2] at hd
    rcases S.clean hg e h1 d hd with q | q
    · exact .inl q
    · cases q
  · rw [h2] at hd
    have nil : hi = [] → Clean g s d ∨ d ∈ (s.cell 0).toList := by
      intro e
      rw [e] at hd
      have hd' : s.cell 0 = some d := hd
      rw [hd']
      exact .inr (by simp)
    cases st with
    | below => exact nil (S.below rfl).2
    | maybeBelow => exact nil (S.mbelow rfl).2
    | fully => exact nil (S.fully rfl).2
    | maybeAbove =>
      obtain ⟨_, _, x, i, tl, e, hx, _, hc⟩ := S.above rfl
      rw [e, route_cons] at hd
      have : k ≤ x := by
        apply Decidable.byContradiction
        intro n
        have := to_mono (has_iff.1 hk).2 (Nat.le_of_lt (Nat.lt_of_not_le n))
        rw [hx] at this
        cases this
      rw [if_pos this] at hd
      rcases hc hg d hd with q | q
      · exact .inl q
      · cases q

/-- What is left to do covers all keys in the range: internal nodes. -/
theorem ScanOk.cov_node {g : Cfg} (G : Good g) {s₀ s : St V} (I : Inv g s₀ s) {st lb ub lows mid hi}
    (S : ScanOk g s [] st lb ub none lows mid hi) (hg : g.internal = true) (hm : g.mode = .lower → lb = none) :
    Cov g s (g.todo s lb (g.upper st ub)) := by
  intro k hk hw d hd
  right
  have hlb := S.hlb hg
  -- the child is the lower border, or the upper one
  have key : (∃ e, lb = some e ∧ s.cell e.2 = some d) ∨ (∃ i, g.upper st ub = some i ∧ s.cell i = some d) ∨
      (g.mode = .lower ∧ s.cell 0 = some d) := by
    rw [S.kids] at hd
    rcases route_append (lows ++ mid) hi k with ⟨e, h1, h0, h2, _⟩ | ⟨_, h2⟩
    · rw [h2] at hd
      rcases List.mem_append.1 h1 with h3 | h3
      · have := S.hlows e h3
        have h4 := (has_iff.1 hk).1
        rw [from_mono h4 h0] at this
        cases this
      · rcases S.hmid with h4 | ⟨e', h4, _⟩
        · rw [h4] at h3; cases h3
        · rw [h4] at h3 hlb
          cases List.mem_singleton.1 h3
          exact .inl ⟨e, hlb, hd⟩
    · rw [h2] at hd
      right
      have nil : hi = [] → s.cell 0 = some d := fun e => by rw [e] at hd; exact hd
      cases st with
      | below =>
        by_cases hl : g.mode = .lower
        · exact .inr ⟨hl, nil (S.below rfl).2⟩
        · exact .inl ⟨0, by unfold Cfg.upper; exact if_neg hl, nil (S.below rfl).2⟩
      | maybeBelow => exact .inl ⟨0, rfl, nil (S.mbelow rfl).2⟩
      | fully => exact .inl ⟨0, rfl, nil (S.fully rfl).2⟩
      | maybeAbove =>
        obtain ⟨_, _, x, i, tl, e, hx, hu, _⟩ := S.above rfl
        rw [e, route_cons] at hd
        have : k ≤ x := by
          apply Decidable.byContradiction
          intro n
          have := to_mono (has_iff.1 hk).2 (Nat.le_of_lt (Nat.lt_of_not_le n))
          rw [hx] at this
          cases this
        rw [if_pos this] at hd
        exact .inl ⟨i, hu hg, hd⟩
  -- the upper border is there
  have up : g.mode ≠ .lower → ∃ i u, g.upper st ub = some i ∧ s.cell i = some u := by
    intro hl
    have zero : ∃ i u, (some 0 : Option Nat) = some i ∧ s.cell i = some u := by
      cases e : s.cell 0 with
      | none => exact absurd e I.cell0
      | some u => exact ⟨0, u, rfl, e⟩
    cases st with
    | below =>
      have : g.upper .below ub = some 0 := by unfold Cfg.upper; exact if_neg hl
      rw [this]; exact zero
    | maybeBelow => exact zero
    | fully => exact zero
    | maybeAbove =>
      obtain ⟨_, _, x, i, tl, e, hx, hu, _⟩ := S.above rfl
      have hc := I.cell (x, i) (by rw [S.kids, e]; simp)
      cases e : s.cell i with
      | none => exact absurd e hc
      | some u => exact ⟨i, u, hu hg, e⟩
  unfold Cfg.todo
  cases hmode : g.mode with
  | plain =>
    obtain ⟨i, u, hu, hcu⟩ := up (by rw [hmode]; simp)
    rcases key with ⟨e, k1, k2⟩ | ⟨j, k1, k2⟩ | ⟨k1, _⟩
    · simp only [k1, hu, Option.bind_some, k2, hcu]
      simp
    · rw [hu] at k1
      cases k1
      rw [hcu] at k2
      cases k2
      simp only [hu, Option.bind_some, hcu]
      cases lb.bind (fun e => s.cell e.2) <;> simp
    · rw [hmode] at k1; cases k1
  | upper =>
    have nolb : lb = none := by
      rw [hlb, S.su (G.upper hmode)]; rfl
    rcases key with ⟨e, k1, k2⟩ | ⟨j, k1, k2⟩ | ⟨k1, _⟩
    · rw [nolb] at k1; cases k1
    · simp only [k1, Option.bind_some, k2]; simp
    · rw [hmode] at k1; cases k1
  | lower =>
    have su := (G.lower hmode).1
    have nolb := hm hmode
    rcases key with ⟨e, k1, k2⟩ | ⟨j, k1, k2⟩ | ⟨_, k2⟩
    · rw [nolb] at k1; cases k1
    · -- without lower border all children are below the range
      have hmid : mid = [] := by
        rw [nolb] at hlb
        cases mid with
        | nil => rfl
        | cons a b => cases hlb
      cases st with
      | below =>
        have : g.upper .below ub = ub := by unfold Cfg.upper; exact if_pos hmode
        have hl : s.cell 0 = some d := by
          have hd := hd
          rw [S.kids, hmid, (S.below rfl).2, List.append_nil, List.append_nil, route_low] at hd
          · exact hd
          · intro e he
            apply Decidable.byContradiction
            intro n
            have := S.hlows e he
            rw [from_mono (has_iff.1 hk).1 (Nat.le_of_not_lt n)] at this
            cases this
        simp only [hl]; simp
      | maybeBelow => rw [(S.mbelow rfl).1 hmid] at su; cases su
      | fully => rw [(S.fully rfl).1 hmid] at su; cases su
      | maybeAbove => exact absurd hmode ((S.above rfl).2.1 hg)
    · simp only [k2]; simp

theorem subs_when (l : List Nat) : (subs l).when ≠ .gap := by
  cases l <;> simp [subs, RPc.when]

theorem rok_subs {g : Cfg} {s : St V} {l : List Nat} (h : Cov g s l) : ROk g { s with rr := subs l } := by
  cases l with
  | nil => exact h
  | cons a b => exact h

end Scc.Mow
