import Verif.Gc.Inv

/-!
# Every step keeps the invariant of the garbage list
-/

namespace Scc.Gc

theorem Inv.init : Inv .init (fun _ => .fresh) [] (fun _ => []) where
  fresh := by intro i; simp [St.init]
  epoch := by intro t g h; simp [St.init] at h
  cont := by intro i; simp [St.init]
  old := by intro x y h; simp [St.init] at h
  src := by intro x j h; simp [St.init] at h
  mem := by intro i; simp
  nodup := .nil
  head := rfl
  linked := trivial
  fmem := by intro t i; simp
  fnodup := fun _ => .nil
  fhead := by intro t k n h; simp [St.init] at h
  flinked := fun _ => trivial
  fnone := fun _ _ => rfl
  stampLe := by intro e h; simp [St.init] at h
  held := by intro t i h; simp [St.init] at h
  works := by intro t h; simp [St.init] at h
  guarded := by intro t h; simp [St.init] at h
  pend := by intro t y; simp [St.init, Pc.pend]
  link := by intro t y p h; simp [St.init] at h
  aim := by intro t h e; simp [St.init, Pc.aim] at e
  addr := by intro i j h; simp at h
  cas := by intro t k h e; simp [St.init] at e
  freed := by intro i; simp [St.init]
  once := .nil

variable {s : St} {st : Inst → Status} {L : List Inst} {F : Thr → List Inst}

/-- A thread moves on in `dealloc_garbage` without touching anything. -/
theorem Inv.pcOnly (v : Inv s st L F) (t : Thr) (p : Pc) (hg : s.guard t ≠ none)
    (ho : ∀ y q, s.pc t ≠ .link y q) (hF : F t = []) (hs : ∀ y, p ≠ .swap y) (hl : ∀ y q, p ≠ .link y q)
    (hf : ∀ k n, p ≠ .free k n) (hp : p.pend = (s.pc t).pend)
    (ha : ∀ h, p.aim = some h → (st h = .pushed ∨ (∃ u, st h = .taken u) ∨ st h = .freed) ∧
      ∀ i, st i ≠ .fresh → st i ≠ .freed → s.addr i = s.addr h → i = h)
    (hc : ∀ k h, p = .cas k h → s.chain = some h →
      (∀ i, i ∈ L → ∀ u, s.holds u i = false) ∧ ∀ u y q, s.pc u ≠ .link y q) :
    Inv { s with pc := upd s.pc t p } st L F :=
  { v with
    linked := by
      refine Chained.mono (fun _ _ => rfl) ?_ v.linked
      rintro x y _ ⟨u, hu⟩
      refine ⟨u, ?_⟩
      have : u ≠ t := fun e => ho x y (e ▸ hu)
      show upd s.pc t p u = _
      rw [upd_ne _ _ this]; exact hu
    fhead := by
      intro u k n h
      by_cases e : u = t
      · subst e; simp only [upd_same] at h; exact absurd h (hf k n)
      · simp only [upd_ne _ _ e] at h; exact v.fhead u k n h
    fnone := by
      intro u h
      by_cases e : u = t
      · subst e; exact hF
      · simp only [upd_ne _ _ e] at h; exact v.fnone u h
    held := by
      intro u i h
      obtain ⟨g, e1, e2⟩ := v.held u i h
      refine ⟨g, e1, ?_⟩
      rcases e2 with e2 | ⟨w, e2, e3⟩ | e2
      · exact .inl e2
      · refine .inr (.inl ⟨w, e2, fun q => ?_⟩)
        by_cases e : w = t
        · subst e; simp only [upd_same] at q; exact absurd q (hs i)
        · simp only [upd_ne _ _ e] at q; exact e3 q
      · exact .inr (.inr e2)
    works := by
      intro u h
      by_cases e : u = t
      · subst e; simp only [upd_same] at h
        rcases h with ⟨y, h⟩ | ⟨y, q, h⟩
        · exact absurd h (hs y)
        · exact absurd h (hl y q)
      · simp only [upd_ne _ _ e] at h; exact v.works u h
    guarded := by
      intro u h
      by_cases e : u = t
      · subst e; exact hg
      · simp only [upd_ne _ _ e] at h; exact v.guarded u h
    pend := by
      intro u y
      by_cases e : u = t
      · subst e; simp only [upd_same, hp]; exact v.pend u y
      · simp only [upd_ne _ _ e]; exact v.pend u y
    link := by
      intro u y q h
      by_cases e : u = t
      · subst e; simp only [upd_same] at h; exact absurd h (hl y q)
      · simp only [upd_ne _ _ e] at h; exact v.link u y q h
    aim := by
      intro u h e1
      by_cases e : u = t
      · subst e; simp only [upd_same] at e1; exact ha h e1
      · simp only [upd_ne _ _ e] at e1; exact v.aim u h e1
    cas := by
      intro u k h e1 e2
      have : (∀ i, i ∈ L → ∀ u, s.holds u i = false) ∧ ∀ u y q, s.pc u ≠ .link y q := by
        by_cases e : u = t
        · subst e; simp only [upd_same] at e1; exact hc k h e1 e2
        · simp only [upd_ne _ _ e] at e1; exact v.cas u k h e1 e2
      refine ⟨this.1, fun w y q h => ?_⟩
      by_cases e : w = t
      · subst e; simp only [upd_same] at h; exact hl y q h
      · simp only [upd_ne _ _ e] at h; exact this.2 w y q h }

theorem after_pend (k : Option Inst) : (Pc.after k).pend = k := by cases k <;> rfl
theorem after_aim (k : Option Inst) : (Pc.after k).aim = none := by cases k <;> rfl
theorem after_swap (k : Option Inst) (y : Inst) : Pc.after k ≠ .swap y := by cases k <;> simp [Pc.after]
theorem after_link (k : Option Inst) (y q : Inst) : Pc.after k ≠ .link y q := by cases k <;> simp [Pc.after]
theorem after_free (k k' n : Option Inst) : Pc.after k ≠ .free k' n := by cases k <;> simp [Pc.after]
theorem after_cas (k k' : Option Inst) (h : Inst) : Pc.after k ≠ .cas k' h := by cases k <;> simp [Pc.after]

/-- `dealloc_garbage` returns. -/
theorem Inv.toAfter (v : Inv s st L F) (t : Thr) (k : Option Inst) (hi : s.pc t ≠ .idle)
    (ho : ∀ y q, s.pc t ≠ .link y q) (hF : F t = []) (hp : (s.pc t).pend = k) :
    Inv { s with pc := upd s.pc t (.after k) } st L F :=
  v.pcOnly t _ (v.guarded t hi) ho hF (after_swap k) (after_link k) (after_free k) (by rw [after_pend, hp])
    (by intro h e; rw [after_aim] at e; cases e) (by intro k' h e; exact absurd e (after_cas k k' h))

theorem Inv.enter (v : Inv s st L F) (t : Thr) (h : s.guard t = none) :
    Inv { s with guard := upd s.guard t (some s.epoch) } st L F :=
  { v with
    epoch := by
      intro u g e
      by_cases c : u = t
      · subst c; simp only [upd_same, Option.some.injEq] at e; subst e
        exact ⟨Nat.le_refl _, Nat.le_succ _⟩
      · simp only [upd_ne _ _ c] at e; exact v.epoch u g e
    held := by
      intro u i e
      obtain ⟨g, e1, e2⟩ := v.held u i e
      have c : u ≠ t := by rintro rfl; rw [h] at e1; cases e1
      exact ⟨g, by simp only [upd_ne _ _ c]; exact e1, e2⟩
    works := by
      intro u e
      obtain ⟨g, e', e1, e2⟩ := v.works u e
      have c : u ≠ t := by rintro rfl; rw [h] at e1; cases e1
      exact ⟨g, e', by simp only [upd_ne _ _ c]; exact e1, e2⟩
    guarded := by
      intro u e
      by_cases c : u = t
      · subst c; simp only [upd_same]; simp
      · simp only [upd_ne _ _ c]; exact v.guarded u e }

theorem Inv.leave (v : Inv s st L F) (t : Thr) (h : s.pc t = .idle) :
    Inv { s with guard := upd s.guard t none, holds := upd s.holds t fun _ => false } st L F :=
  { v with
    epoch := by
      intro u g e
      by_cases c : u = t
      · subst c; simp only [upd_same] at e; cases e
      · simp only [upd_ne _ _ c] at e; exact v.epoch u g e
    held := by
      intro u i e
      by_cases c : u = t
      · subst c; simp only [upd_same] at e; cases e
      · simp only [upd_ne _ _ c] at e ⊢; exact v.held u i e
    works := by
      intro u e
      have c : u ≠ t := by
        rintro rfl; rw [h] at e; simp at e
      simp only [upd_ne _ _ c]; exact v.works u e
    guarded := by
      intro u e
      have c : u ≠ t := by
        rintro rfl; exact e h
      simp only [upd_ne _ _ c]; exact v.guarded u e
    cas := by
      intro u k x e1 e2
      refine ⟨fun i m w => ?_, (v.cas u k x e1 e2).2⟩
      by_cases c : w = t
      · subst c; simp only [upd_same]
      · simp only [upd_ne _ _ c]; exact (v.cas u k x e1 e2).1 i m w }

theorem Inv.advance (v : Inv s st L F) (h : ∀ t g, s.guard t = some g → g = s.epoch) :
    Inv { s with epoch := s.epoch + 1 } st L F :=
  { v with
    epoch := by
      intro t g e
      have := h t g e
      subst this
      exact ⟨Nat.le_succ _, Nat.le_refl _⟩
    stampLe := fun e q => Nat.le_succ_of_le (v.stampLe e q) }

/-- A thread obtains a reference to an array of the container, or to one behind an array it has. -/
theorem Inv.hold (v : Inv s st L F) (t : Thr) (i : Inst)
    (hi : ∃ g, s.guard t = some g ∧
      (st i = .cont ∨ (st i = .pushed ∧ ∃ e, s.stamp = some e ∧ g ≤ e + 1)))
    (hk : ∀ u k h, s.pc u = .cas k h → s.chain = some h → i ∉ L) :
    Inv { s with holds := upd s.holds t (upd (s.holds t) i true) } st L F :=
  { v with
    held := by
      intro u j e
      by_cases c : u = t ∧ j = i
      · obtain ⟨rfl, rfl⟩ := c
        obtain ⟨g, e1, e2⟩ := hi
        exact ⟨g, e1, e2.elim .inl fun e2 => .inr (.inr e2)⟩
      · refine v.held u j ?_
        by_cases d : u = t
        · subst d
          have : j ≠ i := fun e => c ⟨rfl, e⟩
          simpa only [upd_same, upd_ne _ _ this] using e
        · simpa only [upd_ne _ _ d] using e
    cas := by
      intro u k h e1 e2
      refine ⟨fun j m w => ?_, (v.cas u k h e1 e2).2⟩
      have hj : j ≠ i := by rintro rfl; exact hk u k h e1 e2 m
      by_cases d : w = t
      · subst d; simp only [upd_same, upd_ne _ _ hj]; exact (v.cas u k h e1 e2).1 j m w
      · simp only [upd_ne _ _ d]; exact (v.cas u k h e1 e2).1 j m w }

theorem Inv.not_pushed_cont (v : Inv s st L F) {i : Inst} (h : st i = .cont) : i ∉ L := by
  rw [v.mem, h]; simp

theorem Inv.see (v : Inv s st L F) (t : Thr) (i : Inst) (h : s.guard t ≠ none) (hr : s.root = some i) :
    Inv { s with holds := upd s.holds t (upd (s.holds t) i true) } st L F := by
  have hc : st i = .cont := (v.cont i).2 (.inl hr)
  cases e : s.guard t with
  | none => exact absurd e h
  | some g => exact v.hold t i ⟨g, e, .inl hc⟩ (fun _ _ _ _ _ => v.not_pushed_cont hc)

/-- What a link of an array leads to. -/
theorem Inv.target (v : Inv s st L F) {x j : Inst} (e : s.linked x = some j) :
    (s.root = some x ∧ st j = .cont) ∨ (st x = .pushed ∧ st j = .pushed) ∨
      ∃ t, st x = .taken t ∧ st j = .taken t := by
  rcases v.src x j e with h | h | ⟨t, h⟩
  · exact .inl ⟨h, (v.cont j).2 (.inr ⟨x, h, e⟩)⟩
  · exact .inr (.inl ⟨h, (v.mem j).1 (v.linked.next e ((v.mem x).2 h)).mem.2⟩)
  · exact .inr (.inr ⟨t, h, (v.fmem t j).1 ((v.flinked t).next e ((v.fmem t x).2 h)).mem.2⟩)

theorem Inv.follow (v : Inv s st L F) (t : Thr) (i j : Inst) (hi : s.holds t i = true)
    (hj : s.linked i = some j) :
    Inv { s with holds := upd s.holds t (upd (s.holds t) j true) } st L F := by
  obtain ⟨g, e1, e2⟩ := v.held t i hi
  rcases v.target hj with ⟨_, h⟩ | ⟨h1, h2⟩ | ⟨u, h1, _⟩
  · exact v.hold t j ⟨g, e1, .inl h⟩ (fun _ _ _ _ _ => v.not_pushed_cont h)
  · refine v.hold t j ⟨g, e1, .inr ⟨h2, ?_⟩⟩ ?_
    · simpa [h1] using e2
    · intro u k x q1 q2 _
      have := (v.cas u k x q1 q2).1 i ((v.mem i).2 h1) t
      rw [hi] at this; cases this
  · exfalso; simp [h1] at e2

end Scc.Gc
