import Verif.Mow.Main

/-!
# Property C61: `remove_range` beside other calls

A call of `remove_range` leaves alone the keys outside its range, and calls beside it on such keys do what they would
do without it; when it has returned, the keys in the range are gone that were not inserted since it began.
-/

namespace Scc.Mow

variable {V : Type}

/-! ## Where the property fails -/

/-- A node on the lower border: range `8..25`, keys up to 20. -/
def gW : Cfg := { a := .incl 8, b := .excl 25, su := false, mode := .lower, internal := true, lo := none, hi := some 20 }

/-- The contents of two children. -/
def mW : Nat → Nat → Option Nat
  | 1, 5 => some 50
  | 2, 15 => some 150
  | _, _ => none

/-- The pointers to the two children. -/
def cW : Nat → Option Nat
  | 0 => some 2
  | 1 => some 1
  | _ => none

/-- A node with two children: keys up to 10 are in the first one, the others in the second one. -/
def sW : St Nat :=
  { kids := [(10, 1)], cell := cW, ver := 0, map := mW, th := fun _ => ⟨0, .peek, .idle⟩, rr := .idle,
    fresh := fun _ => false, hist := [] }

theorem gW_good : Good gW :=
  ⟨fun h => (by cases h), fun _ => ⟨rfl, 20, rfl, rfl⟩, fun h => (by cases h)⟩

theorem sW_init : Init gW sW where
  idle _ := rfl
  rr := rfl
  fresh _ := rfl
  hist := rfl
  sorted := List.pairwise_singleton _ _
  place := List.pairwise_singleton _ _
  pos e he := by cases List.mem_singleton.1 he; decide
  inside e he := by
    cases List.mem_singleton.1 he
    exact ⟨fun p h => (by cases h), fun q h => (by cases h; decide)⟩
  cell e he := by cases List.mem_singleton.1 he; simp [sW, cW]
  cell0 := by simp [sW, cW]

theorem withinW {k : Nat} (h : k ≤ 20) : gW.within k :=
  ⟨fun p h => (by cases h), fun q e => (by cases e; exact h)⟩

/-- The first child has no entry in the range. -/
theorem clean1 {m : Nat → Nat → Option Nat} {s : St Nat} (hs : s.map = m)
    (h : ∀ k, 8 ≤ k → m 1 k = none) : Clean gW s 1 := by
  intro k hk hm
  have h1 := (has_iff.1 hk).1
  simp only [gW, Bd.from, decide_eq_true_eq] at h1
  rw [hs, h k h1] at hm
  exact absurd rfl hm

theorem mW_low : ∀ k, 8 ≤ k → mW 1 k = none := by
  intro k hk
  unfold mW
  split <;> first | omega | rfl | (rename_i h _; simp at h) | skip
  all_goals simp_all

/-- **C61, negation**: key 5 is outside the range and is in the tree all the time; `peek(5)` beside `remove_range` finds
nothing. -/
theorem c61_peek_violated : ∃ (g : Cfg) (s₀ s : St Nat), Good g ∧ Init g s₀ ∧ Reach g s₀ s ∧ s.rr = .done ∧
    g.has 5 = false ∧ s₀.look 5 = some 50 ∧ s.look 5 = some 50 ∧
    s.hist.map (fun e => (e.key, e.op, e.ans)) = [(5, .peek, .found none)] := by
  have r : Reach gW sW sW := .refl
  have r := r.step (.lock rfl)
  have r := r.step (.border 10 1 [] .below none none rfl rfl rfl)
  have r := r.step (.endMove .maybeBelow 10 1 none rfl rfl rfl)
  have r := r.step (.move 10 1 rfl)
  have r := r.step (.begin 0 5 .peek rfl (withinW (by decide)))
  have r := r.step (.select 0 rfl)
  have r := r.step (.load 0 0 1 .gap 2 rfl rfl)
  have r := r.step (.valid 0 2 1 .gap rfl rfl)
  have r := r.step (.gap 1 rfl)
  have r := r.step (.tidy 1 rfl)
  have r := r.step (.act 0 2 .gap rfl)
  have r := r.step (.subEnd 1 [] rfl (clean1 (m := mW) (by
    funext c k
    show upd mW 2 (upd (mW 2) 5 (mW 2 5)) c k = mW c k
    unfold upd
    by_cases h : c = 2
    · rw [if_pos h]
      by_cases h' : k = 5
      · rw [if_pos h', h, h']
      · rw [if_neg h', h]
    · rw [if_neg h]) mW_low))
  exact ⟨gW, sW, _, gW_good, sW_init, r, rfl, rfl, rfl, rfl, rfl⟩

/-- The lost insertion does not matter to the first child. -/
theorem ins_low (x : Option Nat) : ∀ k, 8 ≤ k → upd mW 2 (upd (mW 2) 6 x) 1 k = none := fun k hk => mW_low k hk

/-- **C61, negation**: key 6 is outside the range and nobody removes it; it is inserted beside `remove_range`, and the
insertion succeeds; after both have returned the key is not there. -/
theorem c61_insert_violated : ∃ (g : Cfg) (s₀ s : St Nat), Good g ∧ Init g s₀ ∧ Reach g s₀ s ∧ s.rr = .done ∧
    g.has 6 = false ∧ s.look 6 = none ∧
    s.hist.map (fun e => (e.key, e.op, e.ans, e.w)) =
      [(6, .insert 60, .inserted, .gap), (6, .peek, .found none, .after)] := by
  have r : Reach gW sW sW := .refl
  have r := r.step (.lock rfl)
  have r := r.step (.border 10 1 [] .below none none rfl rfl rfl)
  have r := r.step (.endMove .maybeBelow 10 1 none rfl rfl rfl)
  have r := r.step (.move 10 1 rfl)
  have r := r.step (.begin 0 6 (.insert 60) rfl (withinW (by decide)))
  have r := r.step (.select 0 rfl)
  have r := r.step (.load 0 0 1 .gap 2 rfl rfl)
  have r := r.step (.valid 0 2 1 .gap rfl rfl)
  have r := r.step (.act 0 2 .gap rfl)
  have r := r.step (.gap 1 rfl)
  have r := r.step (.tidy 1 rfl)
  have r := r.step (.subEnd 1 [] rfl (clean1 rfl (ins_low (some 60))))
  have r := r.step (.begin 0 6 .peek rfl (withinW (by decide)))
  have r := r.step (.select 0 rfl)
  have r := r.step (.load 0 0 1 .after 1 rfl rfl)
  have r := r.step (.valid 0 1 1 .after rfl rfl)
  have r := r.step (.act 0 1 .after rfl)
  exact ⟨gW, sW, _, gW_good, sW_init, r, rfl, rfl, rfl, rfl⟩

/-- Such an execution is not one of a map. -/
theorem c61_insert_illegal {m m' : Nat → Option Nat} {w w' : When} {f f' : Bool} :
    ¬ Legal m [⟨6, .insert 60, .inserted, w, f⟩, ⟨6, .peek, .found none, w', f'⟩] m' := by
  intro h
  generalize hl : ([⟨6, .insert 60, .inserted, w, f⟩, ⟨6, .peek, .found none, w', f'⟩] : List (Ev Nat)) = l at h
  cases h with
  | nil => cases hl
  | @snoc h1 m1 e o L D =>
    have e1 : h1 = [⟨6, .insert 60, .inserted, w, f⟩] ∧ e = ⟨6, .peek, .found none, w', f'⟩ := by
      have := congrArg List.reverse hl
      simp only [List.reverse_cons, List.reverse_nil, List.nil_append, List.reverse_append, List.cons_append] at this
      injection this with a b
      have b := congrArg List.reverse b
      rw [List.reverse_reverse] at b
      exact ⟨b.symm, a.symm⟩
    obtain ⟨e1, e2⟩ := e1
    subst e1 e2
    generalize hl1 : ([⟨6, .insert 60, .inserted, w, f⟩] : List (Ev Nat)) = l1 at L
    cases L with
    | nil => cases hl1
    | @snoc h2 m2 e2 o2 L2 D2 =>
      have e3 : h2 = [] ∧ e2 = ⟨6, .insert 60, .inserted, w, f⟩ := by
        have := congrArg List.reverse hl1
        simp only [List.reverse_cons, List.reverse_nil, List.nil_append, List.reverse_append, List.cons_append] at this
        injection this with a b
        have b := congrArg List.reverse b
        rw [List.reverse_reverse] at b
        exact ⟨b.symm, a.symm⟩
      obtain ⟨_, e4⟩ := e3
      subst e4
      simp only at D D2
      generalize m2 6 = q at D2
      cases D2
      simp only [if_pos] at D
      cases D

/-! ## What holds -/

/-- What a user finds under a key outside the range is in the child that was responsible at the beginning. -/
theorem look_own {g : Cfg} {s₀ s : St V} (I : Inv g s₀ s) (hr : ∀ i, s.rr ≠ .gap i) {k : Nat} (h1 : g.has k = false)
    (h2 : g.within k) {m : Nat → Option V}
    (f : ∀ k, g.has k = false → g.within k → ∀ c, s₀.cell (route s₀.kids k) = some c → s.map c k = m k) :
    s.look k = m k := by
  have q := own_plain I (by
    cases e : s.rr <;> simp only [RPc.when] <;> first | exact absurd e (hr _) | simp) h1 h2
  unfold St.look
  cases e : s.cell (route s.kids k) with
  | none =>
    exfalso
    rcases route_cases s.kids k with ⟨x, a1, _, a2⟩ | ⟨_, a2⟩
    · rw [a2] at e; exact I.cell x a1 e
    · rw [a2] at e; exact I.cell0 e
  | some c => exact f k h1 h2 c (by rw [← q]; exact e)

/-- **C61, keys outside the range**: as long as no call on such a key chooses its child between the removal of the key
of the lower border and the replacement of the unbounded child (internal_node.rs 518-520), the calls on keys outside
the range are those of a map, and what a user finds is what this map has. Missing: calls in that gap, see
`c61_peek_violated` and `c61_insert_violated`. -/
theorem c61_outside_partial {g : Cfg} (G : Good g) {s₀ s : St V} (h0 : Init g s₀) (h : Reach g s₀ s)
    (hw : ∀ e ∈ s.hist, g.has e.key = false → e.w ≠ .gap) :
    ∃ m, Legal s₀.look (outside g s.hist) m ∧
      ((∀ i, s.rr ≠ .gap i) → ∀ k, g.has k = false → g.within k → s.look k = m k) := by
  have I := Inv.reach G h0 h
  obtain ⟨m, l, f⟩ := I.past fun e he => by
    unfold outside at he
    rw [List.mem_filter] at he
    exact hw e he.1 (by simpa using he.2)
  exact ⟨m, l, fun hr k h1 h2 => look_own I hr h1 h2 f⟩

/-- There is no gap in leaf nodes, nor in a node that is not on the lower border alone. -/
structure NoGap (s : St V) : Prop where
  move : ∀ k i, s.rr ≠ .move k i
  gap : ∀ i, s.rr ≠ .gap i
  sel : ∀ t i v w, (s.th t).pc = .sel i v w → w ≠ .gap
  got : ∀ t c v w, (s.th t).pc = .got c v w → w ≠ .gap
  act : ∀ t c w, (s.th t).pc = .act c w → w ≠ .gap
  hist : ∀ e ∈ s.hist, e.w ≠ .gap

theorem NoGap.rr {s : St V} (N : NoGap s) {r : RPc} {kids cell ver map} (h1 : ∀ k i, r ≠ .move k i) (h2 : ∀ i, r ≠ .gap i) :
    NoGap { s with kids := kids, cell := cell, ver := ver, map := map, rr := r } :=
  ⟨h1, h2, N.sel, N.got, N.act, N.hist⟩

theorem NoGap.go {s : St V} (N : NoGap s) {t : Nat} {x : Th V}
    (h1 : ∀ i v w, x.pc = .sel i v w → w ≠ .gap) (h2 : ∀ c v w, x.pc = .got c v w → w ≠ .gap)
    (h3 : ∀ c w, x.pc = .act c w → w ≠ .gap) : NoGap { s with th := upd s.th t x } := by
  refine ⟨N.move, N.gap, fun u => ?_, fun u => ?_, fun u => ?_, N.hist⟩ <;> show ∀ _, _ <;> simp only [upd] <;> split
  · exact h1
  · exact N.sel u
  · exact h2
  · exact N.got u
  · exact h3
  · exact N.act u

theorem NoGap.call {s : St V} (N : NoGap s) {t : Nat} {ans : Ans V} {w : When} {m} (h : w ≠ .gap) :
    NoGap (s.call t ans w m) := by
  have q := N.go (t := t) (x := { s.th t with pc := .idle }) (fun _ _ _ e => (by cases e)) (fun _ _ _ e => (by cases e))
    (fun _ _ e => (by cases e))
  refine ⟨N.move, N.gap, q.sel, q.got, q.act, fun e he => ?_⟩
  have he : e ∈ s.hist ++ [⟨(s.th t).key, (s.th t).op, ans, w, s.fresh (s.th t).key⟩] := he
  rcases List.mem_append.1 he with h1 | h1
  · exact N.hist e h1
  · cases List.mem_singleton.1 h1; exact h

theorem subs_no (l : List Nat) : (∀ k i, subs l ≠ .move k i) ∧ ∀ i, subs l ≠ .gap i := by
  cases l <;> simp [subs]

theorem NoGap.step {g : Cfg} (hg : g.internal = false ∨ g.mode ≠ .lower) {s s' : St V} (N : NoGap s) (h : Step g s s') :
    NoGap s' := by
  cases h with
  | begin t k op hp hk =>
    exact N.go (fun _ _ _ e => (by cases e)) (fun _ _ _ e => (by cases e)) (fun _ _ e => (by cases e))
  | select t hp =>
    refine N.go (fun i v w e => ?_) (fun _ _ _ e => (by cases e)) (fun _ _ e => (by cases e))
    cases e
    cases e : s.rr <;> simp only [RPc.when] <;> first | exact absurd e (N.gap _) | simp
  | load t i v w c hp hc =>
    exact N.go (fun _ _ _ e => (by cases e)) (fun _ _ _ e => (by cases e; exact N.sel t _ _ _ hp)) (fun _ _ e => (by cases e))
  | null t i v w hp hc hi =>
    exact N.go (fun _ _ _ e => (by cases e)) (fun _ _ _ e => (by cases e)) (fun _ _ e => (by cases e))
  | void t v w hp hc ho => exact N.call (N.sel t _ _ _ hp)
  | valid t c v w hp hv =>
    exact N.go (fun _ _ _ e => (by cases e)) (fun _ _ _ e => (by cases e)) (fun _ _ e => (by cases e; exact N.got t _ _ _ hp))
  | invalid t c v w hp hv =>
    exact N.go (fun _ _ _ e => (by cases e)) (fun _ _ _ e => (by cases e)) (fun _ _ e => (by cases e))
  | act t c w hp => exact N.call (N.act t _ _ hp)
  | stray t c w ans hp hw hk => exact N.call (N.act t _ _ hp)
  | endMove st k i ub hr hi hm => exact hg.elim (fun e => by rw [e] at hi; cases hi) (fun e => absurd hm e)
  | move k i hr => exact absurd hr (N.move k i)
  | gap i hr => exact absurd hr (N.gap i)
  | endLeaf => exact N.rr (subs_no _).1 (subs_no _).2
  | endNode => exact N.rr (subs_no _).1 (subs_no _).2
  | tidy => exact N.rr (subs_no _).1 (subs_no _).2
  | subEnd => exact N.rr (subs_no _).1 (subs_no _).2
  | leafDrop c rest st lb ub x hr hx => exact ⟨N.move, N.gap, N.sel, N.got, N.act, N.hist⟩
  | drop c todo x hr hx => exact ⟨N.move, N.gap, N.sel, N.got, N.act, N.hist⟩
  | _ => exact N.rr (fun _ _ => (by simp)) (fun _ => (by simp))

theorem NoGap.reach {g : Cfg} (hg : g.internal = false ∨ g.mode ≠ .lower) {s₀ s : St V} (h0 : Init g s₀)
    (h : Reach g s₀ s) : NoGap s := by
  induction h with
  | refl =>
    refine ⟨fun _ _ => by rw [h0.rr]; simp, fun _ => by rw [h0.rr]; simp, fun t _ _ _ e => ?_, fun t _ _ _ e => ?_,
      fun t _ _ e => ?_, fun e he => ?_⟩
    · rw [h0.idle t] at e; cases e
    · rw [h0.idle t] at e; cases e
    · rw [h0.idle t] at e; cases e
    · rw [h0.hist] at he; cases he
  | step _ st ih => exact ih.step hg st

/-- **C61, keys outside the range, all other nodes**: in a leaf node, and in an internal node that is not the one on
the lower border with another one on the upper border, calls on keys outside the range are those of a map in every
execution, and what a user finds is what this map has. Missing: internal nodes on the lower border. -/
theorem c61_elsewhere_partial {g : Cfg} (G : Good g) (hg : g.internal = false ∨ g.mode ≠ .lower) {s₀ s : St V}
    (h0 : Init g s₀) (h : Reach g s₀ s) :
    ∃ m, Legal s₀.look (outside g s.hist) m ∧ ∀ k, g.has k = false → g.within k → s.look k = m k := by
  have N := NoGap.reach hg h0 h
  obtain ⟨m, l, f⟩ := c61_outside_partial G h0 h (fun e he _ => N.hist e he)
  exact ⟨m, l, f N.gap⟩

/-- A key is marked only by an insertion. -/
theorem fresh_hist {g : Cfg} {s₀ s : St V} (h0 : Init g s₀) (h : Reach g s₀ s) :
    ∀ k, s.fresh k = true → ∃ e ∈ s.hist, e.key = k ∧ ∃ v, e.op = .insert v := by
  induction h with
  | refl => intro k hk; rw [h0.fresh k] at hk; cases hk
  | @step s s' _ st ih =>
    have call : ∀ t ans w m k, (s.call t ans w m).fresh k = true →
        ∃ e ∈ (s.call t ans w m).hist, e.key = k ∧ ∃ v, e.op = .insert v := by
      intro t ans w m k hk
      have hk : upd s.fresh (s.th t).key (s.fresh (s.th t).key || s.rr.marks (s.th t).op) k = true := hk
      show ∃ e ∈ s.hist ++ [⟨(s.th t).key, (s.th t).op, ans, w, s.fresh (s.th t).key⟩], _
      have old : s.fresh k = true → ∃ e ∈ s.hist ++ [⟨(s.th t).key, (s.th t).op, ans, w, s.fresh (s.th t).key⟩],
          e.key = k ∧ ∃ v, e.op = .insert v := fun q => by
        obtain ⟨e, h1, h2⟩ := ih k q
        exact ⟨e, List.mem_append_left _ h1, h2⟩
      unfold upd at hk
      split at hk
      · rename_i e
        rw [Bool.or_eq_true] at hk
        rcases hk with hk | hk
        · exact old (by rw [e]; exact hk)
        · refine ⟨_, List.mem_append_right _ (List.mem_cons_self ..), e.symm, ?_⟩
          show ∃ v, (s.th t).op = .insert v
          cases ho : (s.th t).op with
          | insert v => exact ⟨v, rfl⟩
          | peek => rw [ho] at hk; cases hk
          | remove => rw [ho] at hk; cases hk
      · exact old hk
    cases st with
    | void t v w hp hc ho => exact call t _ w _
    | act t c w hp => exact call t _ w _
    | stray t c w ans hp hw hk => exact call t ans w _
    | _ => exact ih

/-- **C61, keys in the range**: when `remove_range` has returned, no key in the range is found that was not inserted
since it began, and calls that choose their child afterwards answer that the key is not there. Partial, because a
child is assumed to do its part: for a child that is a node this is the same statement, for a leaf it is
`Leaf::remove_range` (leaf.rs 481-499). -/
theorem c61_inside_partial {g : Cfg} (G : Good g) {s₀ s : St V} (h0 : Init g s₀) (h : Reach g s₀ s)
    (hd : s.rr = .done) :
    (∀ k, g.has k = true → g.within k → s.look k ≠ none →
      s.fresh k = true ∧ ∃ e ∈ s.hist, e.key = k ∧ ∃ v, e.op = .insert v) ∧
    ∀ e ∈ s.hist, e.w = .after → g.has e.key = true → e.fresh = false → ∃ o, Does e.op none e.ans o := by
  have I := Inv.reach G h0 h
  refine ⟨fun k h1 h2 h3 => ?_, I.later⟩
  have R := I.rr
  unfold ROk at R
  rw [hd] at R
  have hf : s.fresh k = true := by
    unfold St.look at h3
    split at h3
    · rename_i c hc
      rcases R k h1 h2 c hc with q | q
      · exact q k h1 h3
      · cases q
    · exact absurd rfl h3
  exact ⟨hf, fresh_hist h0 h k hf⟩

/-! ## Examples -/

/-- A call at the root: range `5..20`. -/
def gX (internal : Bool) : Cfg :=
  { a := .incl 5, b := .excl 20, su := false, mode := .plain, internal, lo := none, hi := none }

/-- The contents of five children. -/
def mX : Nat → Nat → Option Nat
  | 1, 3 => some 30
  | 2, 4 => some 40
  | 3, 11 => some 110
  | 4, 25 => some 250
  | 5, 50 => some 500
  | _, _ => none

/-- The pointers to five children. -/
def cX : Nat → Option Nat
  | 0 => some 5
  | 1 => some 1
  | 2 => some 2
  | 3 => some 3
  | 4 => some 4
  | _ => none

/-- A node with five children. -/
def sX : St Nat :=
  { kids := [(3, 1), (10, 2), (12, 3), (30, 4)], cell := cX, ver := 0, map := mX, th := fun _ => ⟨0, .peek, .idle⟩,
    rr := .idle, fresh := fun _ => false, hist := [] }

theorem gX_good (b : Bool) : Good (gX b) :=
  ⟨fun h => (by cases h), fun h => (by cases h), fun h => (by cases h)⟩

theorem gX_within (b : Bool) (k : Nat) : (gX b).within k := ⟨fun _ h => (by cases h), fun _ h => (by cases h)⟩

theorem sX_init (b : Bool) : Init (gX b) sX where
  idle _ := rfl
  rr := rfl
  fresh _ := rfl
  hist := rfl
  sorted := by simp [sX]
  place := by simp [sX]
  pos := by simp [sX]
  inside _ _ := gX_within b _
  cell := by simp [sX, cX]
  cell0 := by simp [sX, cX]

theorem cleanX {b : Bool} {s : St Nat} (c : Nat) (h : ∀ k, 5 ≤ k → k < 20 → s.map c k = none) : Clean (gX b) s c := by
  intro k hk hm
  have h1 := has_iff.1 hk
  simp only [gX, Bd.from, Bd.to, decide_eq_true_eq] at h1
  exact absurd (h k h1.1 h1.2) hm

theorem mX_out (c : Nat) (h : c ≠ 3) : ∀ k, 5 ≤ k → k < 20 → mX c k = none := by
  intro k h1 h2
  unfold mX
  split <;> first | omega | rfl

/-- `remove_range(5..20)` on an internal node beside an insertion of 4 and lookups of 11: 11 is gone. -/
example : ∃ s, Reach (gX true) sX s ∧ s.rr = .done ∧ s.kids = [(3, 1), (10, 2), (30, 4)] ∧
    s.hist.map (fun e => (e.key, e.op, e.ans)) =
      [(11, .peek, .found (some 110)), (4, .insert 0, .duplicate), (11, .peek, .found none)] := by
  have r : Reach (gX true) sX sX := .refl
  have r := r.step (.lock rfl)
  have r := r.step (.below 3 1 _ .below none none rfl rfl rfl)
  have r := r.step (.border 10 2 _ .below none none rfl rfl rfl)
  have r := r.step (.begin 0 11 .peek rfl (gX_within _ _))
  have r := r.step (.select 0 rfl)
  have r := r.step (.load 0 3 0 .usual 3 rfl rfl)
  have r := r.step (.valid 0 3 0 .usual rfl rfl)
  have r := r.step (.fully 12 3 _ .maybeBelow _ _ rfl rfl)
  have r := r.step (.act 0 3 .usual rfl)
  have r := r.step (.clear 3 _ .fully _ _ rfl)
  have r := r.step (.begin 0 4 (.insert 0) rfl (gX_within _ _))
  have r := r.step (.select 0 rfl)
  have r := r.step (.load 0 2 1 .usual 2 rfl rfl)
  have r := r.step (.valid 0 2 1 .usual rfl rfl)
  have r := r.step (.act 0 2 .usual rfl)
  have r := r.step (.above 30 4 [] .fully _ _ rfl rfl rfl (fun h => by cases h))
  have r := r.step (.endNode .maybeAbove _ _ rfl rfl (fun h => by cases h))
  have r := r.step (.drop 2 [4] 9 rfl rfl)
  have r := r.step (.subEnd 2 [4] rfl (cleanX 2 (fun k h1 h2 => by
    have h3 : k ≠ 4 := by omega
    have h4 := mX_out 2 (by decide) k h1 h2
    have h5 : mX 3 = fun k => mX 3 k := rfl
    show (if k = 9 then none else upd (upd mX 3 (upd (mX 3) 11 (mX 3 11))) 2 (upd (mX 2) 4 (mX 2 4)) 2 k) = none
    by_cases h6 : k = 9
    · rw [if_pos h6]
    · rw [if_neg h6]
      show (if k = 4 then mX 2 4 else mX 2 k) = none
      rw [if_neg h3, h4])))
  have r := r.step (.subEnd 4 [] rfl (cleanX 4 (fun k h1 h2 => mX_out 4 (by decide) k h1 h2)))
  have r := r.step (.begin 0 11 .peek rfl (gX_within _ _))
  have r := r.step (.select 0 rfl)
  have r := r.step (.load 0 4 1 .after 4 rfl rfl)
  have r := r.step (.valid 0 4 1 .after rfl rfl)
  have r := r.step (.act 0 4 .after rfl)
  exact ⟨_, r, rfl, rfl, rfl⟩

/-- `remove_range(5..20)` on a leaf node. -/
example : ∃ s, Reach (gX false) sX s ∧ s.rr = .done ∧ s.kids = [(3, 1), (10, 2), (30, 4)] ∧ s.look 11 = none ∧
    s.look 4 = some 40 ∧ s.look 25 = some 250 := by
  have r : Reach (gX false) sX sX := .refl
  have r := r.step (.lock rfl)
  have r := r.step (.leaf 3 1 _ .below none none 1 rfl (fun h => by cases h) rfl rfl)
  have r := r.step (.leafEnd 1 _ _ _ _ rfl (cleanX 1 (mX_out 1 (by decide))))
  have r := r.step (.leaf 10 2 _ .below none none 2 rfl (fun h => by cases h) rfl rfl)
  have r := r.step (.leafEnd 2 _ _ _ _ rfl (cleanX 2 (mX_out 2 (by decide))))
  have r := r.step (.fully 12 3 _ .maybeBelow _ _ rfl rfl)
  have r := r.step (.clear 3 _ .fully _ _ rfl)
  have r := r.step (.leaf 30 4 _ .fully none none 4 rfl (fun h => by cases h) rfl rfl)
  have r := r.step (.leafEnd 4 _ _ _ _ rfl (cleanX 4 (mX_out 4 (by decide))))
  have r := r.step (.endLeaf .maybeAbove _ _ rfl rfl)
  have r := r.step (.subEnd 5 [] rfl (cleanX 5 (mX_out 5 (by decide))))
  exact ⟨_, r, rfl, rfl, rfl, rfl, rfl⟩

/-- The theorems apply to these nodes, and `c61_outside_partial` and `c61_inside_partial` to that of the negations. -/
example (b : Bool) {s : St Nat} (h : Reach (gX b) sX s) :
    ∃ m, Legal sX.look (outside (gX b) s.hist) m ∧ ∀ k, (gX b).has k = false → s.look k = m k := by
  obtain ⟨m, l, f⟩ := c61_elsewhere_partial (gX_good b) (.inr (fun h => by cases h)) (sX_init b) h
  exact ⟨m, l, fun k hk => f k hk (gX_within b k)⟩

end Scc.Mow
