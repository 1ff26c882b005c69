import Verif.Mow.Spec

/-!
# `remove_range` on one node: the invariant
-/

namespace Scc.Mow

variable {V : Type}

/-! ## Lists of children -/

theorem route_append (p r : List (Nat × Nat)) (k : Nat) :
    (∃ e ∈ p, k ≤ e.1 ∧ route (p ++ r) k = e.2 ∧ route p k = e.2) ∨ ((∀ e ∈ p, e.1 < k) ∧ route (p ++ r) k = route r k) := by
  unfold route
  rw [List.find?_append]
  cases hf : p.find? (fun e => decide (k ≤ e.1)) with
  | some e =>
    left
    have h1 := List.mem_of_find?_eq_some hf
    have h2 := List.find?_some hf
    exact ⟨e, h1, by simpa using h2, rfl, rfl⟩
  | none =>
    right
    rw [List.find?_eq_none] at hf
    refine ⟨fun e he => ?_, rfl⟩
    have := hf e he
    simp only [decide_eq_true_eq] at this
    omega

theorem route_cons (x i : Nat) (r : List (Nat × Nat)) (k : Nat) :
    route ((x, i) :: r) k = if k ≤ x then i else route r k := by
  unfold route
  simp only [List.find?_cons]
  by_cases h : k ≤ x
  · simp [h]
  · simp [h]

/-- The child of a key is one with a key, or the unbounded one. -/
theorem route_cases (kids : List (Nat × Nat)) (k : Nat) :
    (∃ e ∈ kids, k ≤ e.1 ∧ route kids k = e.2) ∨ ((∀ e ∈ kids, e.1 < k) ∧ route kids k = 0) := by
  rcases route_append kids [] k with ⟨e, h1, h2, h3, _⟩ | ⟨h1, h2⟩
  · rw [List.append_nil] at h3; exact .inl ⟨e, h1, h2, h3⟩
  · rw [List.append_nil] at h2; exact .inr ⟨h1, h2⟩

theorem route_low {kids : List (Nat × Nat)} {k : Nat} (h : ∀ e ∈ kids, e.1 < k) : route kids k = 0 := by
  rcases route_cases kids k with ⟨e, h1, h2, _⟩ | ⟨_, h2⟩
  · have := h e h1; omega
  · exact h2

theorem cut_eq {p r : List (Nat × Nat)} {x i : Nat} (h : (p ++ (x, i) :: r).Pairwise fun d e => d.1 < e.1) :
    ((p ++ (x, i) :: r).filter fun e => decide (e.1 ≠ x)) = p ++ r := by
  rw [List.pairwise_append] at h
  obtain ⟨_, h2, h3⟩ := h
  rw [List.pairwise_cons] at h2
  rw [List.filter_append, List.filter_cons]
  have e1 : (p.filter fun e => decide (e.1 ≠ x)) = p := by
    rw [List.filter_eq_self]
    intro e he
    have := h3 e he (x, i) (List.mem_cons_self ..)
    simp only [ne_eq, decide_not, Bool.not_eq_eq_eq_not, Bool.not_true, decide_eq_false_iff_not]
    simp only at this
    omega
  have e2 : (r.filter fun e => decide (e.1 ≠ x)) = r := by
    rw [List.filter_eq_self]
    intro e he
    have := h2.1 e he
    simp only [ne_eq, decide_not, Bool.not_eq_eq_eq_not, Bool.not_true, decide_eq_false_iff_not]
    simp only at this
    omega
  rw [e1, e2]
  simp

/-! ## Bounds -/

theorem from_mono {a : Bd} {x k : Nat} (h : a.from x = true) (hk : x ≤ k) : a.from k = true := by
  cases a <;> simp only [Bd.from, decide_eq_true_eq] at * <;> omega

theorem to_mono {b : Bd} {x k : Nat} (h : b.to x = true) (hk : k ≤ x) : b.to k = true := by
  cases b <;> simp only [Bd.to, decide_eq_true_eq] at * <;> omega

theorem has_iff {g : Cfg} {k : Nat} : g.has k = true ↔ g.a.from k = true ∧ g.b.to k = true := by
  unfold Cfg.has; rw [Bool.and_eq_true]

/-- With `start_unbounded`, no key of the node is below the range. -/
theorem Good.from {g : Cfg} (G : Good g) (h : g.su = true) {k : Nat} (hk : g.within k) : g.a.from k = true := by
  rcases G.su h with e | ⟨p, e1, e2⟩
  · rw [e]; rfl
  · exact from_mono (has_iff.1 e2).1 (Nat.le_of_lt (hk.1 p e1))

/-- On the lower border, no key of the node is above the range. -/
theorem Good.to {g : Cfg} (G : Good g) (h : g.mode = .lower) {k : Nat} (hk : g.within k) : g.b.to k = true := by
  obtain ⟨_, q, e1, e2⟩ := G.lower h
  exact to_mono (has_iff.1 e2).2 (hk.2 q e1)

/-! ## `remove_range` -/

/-- The children before the position of the scan: those below the range, and at most one whose key is in the range.
`ex` is the leaf that is being treated. -/
structure ScanOk (g : Cfg) (s : St V) (rest : List (Nat × Nat)) (st : RS) (lb : Option (Nat × Nat)) (ub : Option Nat)
    (ex : Option Nat) (lows mid hi : List (Nat × Nat)) : Prop where
  kids : s.kids = lows ++ mid ++ hi
  hlows : ∀ d ∈ lows, g.a.from d.1 = false
  hmid : mid = [] ∨ ∃ e, mid = [e] ∧ g.has e.1 = true
  su : g.su = true → mid = []
  hlb : g.internal = true → lb = mid.head?
  below : st = .below → mid = [] ∧ hi = rest
  mbelow : st = .maybeBelow → (mid = [] → g.su = true) ∧ hi = rest
  fully : st = .fully → (mid = [] → g.su = true) ∧ hi = rest
  above : st = .maybeAbove → rest = [] ∧ (g.internal = true → g.mode ≠ .lower) ∧
    ∃ x i tail, hi = (x, i) :: tail ∧ g.b.to x = false ∧ (g.internal = true → ub = some i) ∧
      (g.internal = false → ∀ d, s.cell i = some d → Clean g s d ∨ some d = ex)
  clean : g.internal = false → ∀ e ∈ lows ++ mid, ∀ d, s.cell e.2 = some d → Clean g s d ∨ some d = ex

/-- The children that may still have old entries in the range are in `L`. -/
def Cov (g : Cfg) (s : St V) (L : List Nat) : Prop :=
  ∀ k, g.has k = true → g.within k → ∀ d, s.cell (route s.kids k) = some d → Clean g s d ∨ d ∈ L

/-- Where `remove_range` is. -/
def ROk (g : Cfg) (s : St V) : Prop :=
  match s.rr with
  | .idle => True
  | .scan rest st lb ub => ∃ lows mid hi, ScanOk g s rest st lb ub none lows mid hi
  | .leaf c rest st lb ub => g.internal = false ∧ ∃ lows mid hi, ScanOk g s rest st lb ub (some c) lows mid hi
  | .clear i rest st lb ub => i ≠ 0 ∧ (∀ e ∈ s.kids, e.2 ≠ i) ∧ ∃ lows mid hi, ScanOk g s rest st lb ub none lows mid hi
  | .move k i => g.mode = .lower ∧ g.has k = true ∧ ∃ lows, s.kids = lows ++ [(k, i)] ∧ ∀ d ∈ lows, g.a.from d.1 = false
  | .gap i => i ≠ 0 ∧ (∀ e ∈ s.kids, e.2 ≠ i) ∧ s.cell i ≠ none ∧ ∀ d ∈ s.kids, g.a.from d.1 = false
  | .tidy i => i ≠ 0 ∧ (∀ e ∈ s.kids, e.2 ≠ i) ∧ ∀ d ∈ s.kids, g.a.from d.1 = false
  | .sub c todo => Cov g s (c :: todo)
  | .done => Cov g s []

/-- The child that is responsible for a key outside the range is always the same. -/
def Own (g : Cfg) (s₀ s : St V) : Prop :=
  ∀ k, g.has k = false → g.within k →
    match s.rr with
    | .gap i => (route s.kids k ≠ 0 → s.cell (route s.kids k) = s₀.cell (route s₀.kids k)) ∧
        (route s.kids k = 0 → s.cell i = s₀.cell (route s₀.kids k))
    | _ => s.cell (route s.kids k) = s₀.cell (route s₀.kids k)

/-- Where a thread is. -/
def PcOk (g : Cfg) (s₀ s : St V) (k : Nat) : Pc → Prop
  | .idle => True
  | .top => g.within k
  | .sel i v w => g.within k ∧ v ≤ s.ver ∧ (v = s.ver → i = route s.kids k ∧ (w ≠ .gap → s.rr.when ≠ .gap)) ∧
      (w = .after → s.rr = .done ∧ v = s.ver)
  | .got c v w => g.within k ∧ v ≤ s.ver ∧
      (v = s.ver → w ≠ .gap → g.has k = false → s₀.cell (route s₀.kids k) = some c) ∧
      (w = .after → s.rr = .done ∧ v = s.ver ∧ s.cell (route s.kids k) = some c)
  | .act c w => g.within k ∧ (w ≠ .gap → g.has k = false → s₀.cell (route s₀.kids k) = some c) ∧
      (w = .after → s.rr = .done ∧ s.cell (route s.kids k) = some c)

/-- The calls on keys outside the range that have acted so far are those of a map. -/
def Past (g : Cfg) (s₀ s : St V) : Prop :=
  (∀ e ∈ outside g s.hist, e.w ≠ .gap) → ∃ m, Legal s₀.look (outside g s.hist) m ∧
    ∀ k, g.has k = false → g.within k → ∀ c, s₀.cell (route s₀.kids k) = some c → s.map c k = m k

/-- The calls on keys in the range after `remove_range`. -/
def Later (g : Cfg) (s : St V) : Prop :=
  ∀ e ∈ s.hist, e.w = .after → g.has e.key = true → e.fresh = false → ∃ o, Does e.op none e.ans o

/-- The invariant. -/
structure Inv (g : Cfg) (s₀ s : St V) : Prop where
  sorted : s.kids.Pairwise fun d e => d.1 < e.1
  place : s.kids.Pairwise fun d e => d.2 ≠ e.2
  pos : ∀ e ∈ s.kids, e.2 ≠ 0
  inside : ∀ e ∈ s.kids, g.within e.1
  cell : ∀ e ∈ s.kids, s.cell e.2 ≠ none
  cell0 : s.cell 0 ≠ none
  rr : ROk g s
  own : Own g s₀ s
  th : ∀ t, PcOk g s₀ s (s.th t).key (s.th t).pc
  past : Past g s₀ s
  later : Later g s

theorem Inv.init {g : Cfg} {s : St V} (I : Init g s) : Inv g s s := by
  refine ⟨I.sorted, I.place, I.pos, I.inside, I.cell, I.cell0, ?_, ?_, ?_, ?_, ?_⟩
  · unfold ROk; rw [I.rr]; trivial
  · intro k _ _; rw [I.rr]
  · intro t; rw [I.idle t]; trivial
  · intro _
    rw [I.hist]
    refine ⟨s.look, .nil, fun k _ _ c hc => ?_⟩
    unfold St.look; rw [hc]
  · intro e he; rw [I.hist] at he; cases he

/-! ## Steps of threads -/

/-- What `remove_range` knows survives when entries disappear or are marked. -/
theorem ScanOk.mono {g : Cfg} {s s' : St V} {rest st lb ub ex lows mid hi} (hk : s'.kids = s.kids)
    (hc : s'.cell = s.cell) (hm : ∀ c, Clean g s c → Clean g s' c)
    (h : ScanOk g s rest st lb ub ex lows mid hi) : ScanOk g s' rest st lb ub ex lows mid hi := by
  refine ⟨by rw [hk]; exact h.kids, h.hlows, h.hmid, h.su, h.hlb, h.below, h.mbelow, h.fully, fun e => ?_, fun e => ?_⟩
  · obtain ⟨a1, a2, x, i, tl, a3, a4, a5, a6⟩ := h.above e
    refine ⟨a1, a2, x, i, tl, a3, a4, a5, fun f d hd => ?_⟩
    rw [hc] at hd
    exact (a6 f d hd).imp (hm d) id
  · intro x hx d hd
    rw [hc] at hd
    exact (h.clean e x hx d hd).imp (hm d) id

theorem Cov.mono {g : Cfg} {s s' : St V} {L} (hk : s'.kids = s.kids)
    (hc : s'.cell = s.cell) (hm : ∀ c, Clean g s c → Clean g s' c) (h : Cov g s L) : Cov g s' L := by
  intro k h1 h2 d hd
  rw [hk, hc] at hd
  exact (h k h1 h2 d hd).imp (hm d) id

theorem ROk.mono {g : Cfg} {s s' : St V} (hk : s'.kids = s.kids) (hc : s'.cell = s.cell) (hr : s'.rr = s.rr)
    (hm : s.rr ≠ .idle → ∀ c, Clean g s c → Clean g s' c) (h : ROk g s) : ROk g s' := by
  unfold ROk at *
  rw [hr]
  cases hs : s.rr with
  | idle => trivial
  | scan rest st lb ub =>
    rw [hs] at h hm
    obtain ⟨l, m, u, h⟩ := h
    exact ⟨l, m, u, h.mono hk hc (hm (by simp))⟩
  | leaf c rest st lb ub =>
    rw [hs] at h hm
    obtain ⟨hi, l, m, u, h⟩ := h
    exact ⟨hi, l, m, u, h.mono hk hc (hm (by simp))⟩
  | clear i rest st lb ub =>
    rw [hs] at h hm
    obtain ⟨h1, h2, l, m, u, h⟩ := h
    exact ⟨h1, by rw [hk]; exact h2, l, m, u, h.mono hk hc (hm (by simp))⟩
  | move k i => rw [hs] at h; simp only [hk]; exact h
  | gap i => rw [hs] at h; simp only [hk, hc]; exact h
  | tidy i => rw [hs] at h; simp only [hk]; exact h
  | sub c todo => rw [hs] at h hm; exact Cov.mono hk hc (hm (by simp)) h
  | done => rw [hs] at h hm; exact Cov.mono hk hc (hm (by simp)) h

theorem Own.mono {g : Cfg} {s₀ s s' : St V} (hk : s'.kids = s.kids) (hc : s'.cell = s.cell) (hr : s'.rr = s.rr)
    (h : Own g s₀ s) : Own g s₀ s' := by
  intro k h1 h2
  have q := h k h1 h2
  rw [hr, hk, hc]
  exact q

theorem PcOk.mono {g : Cfg} {s₀ s s' : St V} {k pc} (hk : s'.kids = s.kids) (hc : s'.cell = s.cell) (hr : s'.rr = s.rr)
    (hv : s'.ver = s.ver) (h : PcOk g s₀ s k pc) : PcOk g s₀ s' k pc := by
  cases pc <;> simp only [PcOk, hk, hc, hr, hv] at * <;> exact h

/-- A thread goes on within its call. -/
theorem Inv.go {g : Cfg} {s₀ s : St V} (I : Inv g s₀ s) {t : Nat} {pc : Pc}
    (h : PcOk g s₀ s (s.th t).key pc) : Inv g s₀ (s.go t pc) := by
  refine ⟨I.sorted, I.place, I.pos, I.inside, I.cell, I.cell0, ROk.mono (s := s) rfl rfl rfl (fun _ _ h => h) I.rr,
    Own.mono (s := s) rfl rfl rfl I.own, fun u => ?_, I.past, I.later⟩
  show PcOk g s₀ _ (upd s.th t _ u).key (upd s.th t _ u).pc
  unfold upd
  split
  · exact PcOk.mono (s := s) rfl rfl rfl rfl h
  · exact PcOk.mono (s := s) rfl rfl rfl rfl (I.th u)

/-- A call acts. -/
theorem Inv.acts {g : Cfg} {s₀ s : St V} (I : Inv g s₀ s) {t : Nat} {ans : Ans V} {w : When}
    {m : Nat → Nat → Option V}
    (h1 : s.rr ≠ .idle → ∀ c, Clean g s c → Clean g (s.call t ans w m) c)
    (h2 : Past g s₀ (s.call t ans w m)) (h3 : Later g (s.call t ans w m)) : Inv g s₀ (s.call t ans w m) := by
  refine ⟨I.sorted, I.place, I.pos, I.inside, I.cell, I.cell0, ROk.mono (s := s) rfl rfl rfl h1 I.rr,
    Own.mono (s := s) rfl rfl rfl I.own, fun u => ?_, h2, h3⟩
  show PcOk g s₀ _ (upd s.th t _ u).key (upd s.th t _ u).pc
  unfold upd
  split
  · trivial
  · exact PcOk.mono (s := s) rfl rfl rfl rfl (I.th u)

theorem does_run (op : Op V) (o : Option V) : Does op o (op.run o).1 (op.run o).2 := by
  cases op <;> cases o <;> simp only [Op.run, Option.isSome] <;> constructor

/-- The mark of the key of a call. -/
theorem fresh_call {s : St V} {t : Nat} {ans : Ans V} {w : When} {m : Nat → Nat → Option V} {k : Nat}
    (h : s.fresh k = true) : (s.call t ans w m).fresh k = true := by
  show upd s.fresh _ _ k = true
  unfold upd
  split
  · rename_i e; rw [← e, h]; rfl
  · exact h

theorem fresh_ins {s : St V} {t : Nat} {ans : Ans V} {w : When} {m : Nat → Nat → Option V} {v : V}
    (h : (s.th t).op = .insert v) (hr : s.rr ≠ .idle) : (s.call t ans w m).fresh (s.th t).key = true := by
  show upd s.fresh _ _ _ = true
  unfold upd
  rw [if_pos rfl, h]
  simp [RPc.marks, hr]

/-- Calls do not bring back entries unmarked. -/
theorem clean_act {g : Cfg} {s : St V} {t c : Nat} {w : When} (hr : s.rr ≠ .idle) {d : Nat} (h : Clean g s d) :
    Clean g (s.call t ((s.th t).op.run (s.map c (s.th t).key)).1 w
        (upd s.map c (upd (s.map c) (s.th t).key ((s.th t).op.run (s.map c (s.th t).key)).2))) d := by
  intro k hk hm
  by_cases e : d = c ∧ k = (s.th t).key
  · obtain ⟨rfl, rfl⟩ := e
    cases ho : (s.th t).op with
    | insert v => exact fresh_ins ho hr
    | peek =>
      have hm' : upd s.map d (upd (s.map d) (s.th t).key ((s.th t).op.run (s.map d (s.th t).key)).2) d (s.th t).key
        ≠ none := hm
      simp only [upd, if_pos, ho, Op.run] at hm'
      exact fresh_call (h _ hk hm')
    | remove =>
      have hm' : upd s.map d (upd (s.map d) (s.th t).key ((s.th t).op.run (s.map d (s.th t).key)).2) d (s.th t).key
        ≠ none := hm
      simp [upd, ho, Op.run] at hm'
  · have hm' : upd s.map c (upd (s.map c) (s.th t).key ((s.th t).op.run (s.map c (s.th t).key)).2) d k ≠ none := hm
    have e2 : upd s.map c (upd (s.map c) (s.th t).key ((s.th t).op.run (s.map c (s.th t).key)).2) d k = s.map d k := by
      unfold upd
      by_cases e1 : d = c
      · have e3 : k ≠ (s.th t).key := fun x => e ⟨e1, x⟩
        rw [if_pos e1, if_neg e3, e1]
      · rw [if_neg e1]
    rw [e2] at hm'
    exact fresh_call (h k hk hm')

/-- A call on a key in the range is not among the calls on keys outside. -/
theorem past_in {g : Cfg} {s₀ s : St V} (P : Past g s₀ s) {t : Nat} {ans : Ans V} {w : When}
    {m : Nat → Nat → Option V} (hk : g.has (s.th t).key = true)
    (hm : ∀ c k, g.has k = false → m c k = s.map c k) : Past g s₀ (s.call t ans w m) := by
  have e : outside g (s.call t ans w m).hist = outside g s.hist := by
    show outside g (s.hist ++ _) = _
    unfold outside
    rw [List.filter_append]
    simp [hk]
  unfold Past
  rw [e]
  intro h
  obtain ⟨mm, l, f⟩ := P h
  refine ⟨mm, l, fun k h1 h2 c hc => ?_⟩
  show m c k = _
  rw [hm c k h1]
  exact f k h1 h2 c hc

/-- A call on a key outside the range acts on the child that is responsible for it. -/
theorem past_out {g : Cfg} {s₀ s : St V} (P : Past g s₀ s) {t c : Nat} {w : When} (hk : g.has (s.th t).key = false)
    (hw : g.within (s.th t).key) (hc : w ≠ .gap → s₀.cell (route s₀.kids (s.th t).key) = some c) :
    Past g s₀ (s.call t ((s.th t).op.run (s.map c (s.th t).key)).1 w
        (upd s.map c (upd (s.map c) (s.th t).key ((s.th t).op.run (s.map c (s.th t).key)).2))) := by
  intro h
  have e : outside g (s.call t ((s.th t).op.run (s.map c (s.th t).key)).1 w
        (upd s.map c (upd (s.map c) (s.th t).key ((s.th t).op.run (s.map c (s.th t).key)).2))).hist =
      outside g s.hist ++ [⟨(s.th t).key, (s.th t).op, ((s.th t).op.run (s.map c (s.th t).key)).1, w,
        s.fresh (s.th t).key⟩] := by
    show outside g (s.hist ++ _) = _
    unfold outside
    rw [List.filter_append]
    simp [hk]
  rw [e] at h ⊢
  have h0 : w ≠ .gap := h _ (List.mem_append_right _ (List.mem_cons_self ..))
  have hc := hc h0
  obtain ⟨mm, l, f⟩ := P (fun e he => h e (List.mem_append_left _ he))
  have fk := f _ hk hw c hc
  refine ⟨_, .snoc l (o := ((s.th t).op.run (s.map c (s.th t).key)).2) ?_, fun k h1 h2 d hd => ?_⟩
  · show Does (s.th t).op (mm (s.th t).key) _ _
    rw [← fk]
    exact does_run _ _
  · show upd s.map c (upd (s.map c) (s.th t).key ((s.th t).op.run (s.map c (s.th t).key)).2) d k =
      if k = (s.th t).key then _ else mm k
    unfold upd
    by_cases e1 : k = (s.th t).key
    · subst e1
      have : d = c := by rw [hc] at hd; exact (Option.some.inj hd).symm
      rw [if_pos this, if_pos rfl, if_pos rfl]
    · rw [if_neg e1]
      by_cases e2 : d = c
      · rw [if_pos e2, if_neg e1, ← f k h1 h2 d hd, e2]
      · rw [if_neg e2]
        exact f k h1 h2 d hd

theorem later_snoc {g : Cfg} {s : St V} (L : Later g s) {t : Nat} {ans : Ans V} {w : When}
    {m : Nat → Nat → Option V}
    (h : w = .after → g.has (s.th t).key = true → s.fresh (s.th t).key = false → ∃ o, Does (s.th t).op none ans o) :
    Later g (s.call t ans w m) := by
  intro e he
  have he : e ∈ s.hist ++ [⟨(s.th t).key, (s.th t).op, ans, w, s.fresh (s.th t).key⟩] := he
  rcases List.mem_append.1 he with h1 | h1
  · exact L e h1
  · cases List.mem_singleton.1 h1
    exact h

end Scc.Mow
