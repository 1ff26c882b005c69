import Verif.Gc.Steps

/-!
# Every step keeps the invariant of the garbage list, continued
-/

namespace Scc.Gc

variable {s : St} {st : Inst → Status} {L : List Inst} {F : Thr → List Inst}

theorem Inv.free_addr (v : Inv s st L F) {a : Addr} (ha : s.Free false a) :
    (∀ i, st i ≠ .fresh → st i ≠ .freed → s.addr i ≠ a) ∧
    ∀ t h, (s.pc t).aim = some h → s.addr h ≠ a := by
  refine ⟨fun i h1 h2 => ha.1 i ?_ ?_, fun t h e => ?_⟩
  · have := mt (v.fresh i).2 h1; omega
  · exact mt (v.freed i).1 h2
  · cases q : s.pc t <;> simp only [q, Pc.aim, Option.some.injEq, reduceCtorEq] at e
    · subst e; exact ha.2 rfl t _ _ (.inl q)
    · subst e; exact ha.2 rfl t _ _ (.inr q)

/-- A new array becomes the array of the container, linked to the old one, if any. -/
theorem Inv.alloc (v : Inv s st L F) (a : Addr) (hl : ∀ x, s.root = some x → s.linked x = none)
    (ha : s.Free false a) :
    Inv { s with root := some s.next, linked := upd s.linked s.next s.root, addr := upd s.addr s.next a,
                 next := s.next + 1 } (upd st s.next .cont) L F := by
  have hn : st s.next = .fresh := (v.fresh _).2 (Nat.le_refl _)
  have hne : ∀ i, st i ≠ .fresh → i ≠ s.next := fun i h e => h (e ▸ hn)
  have hst : ∀ i, st i ≠ .fresh → upd st s.next .cont i = st i := fun i h => upd_ne _ _ (hne i h)
  have hroot : ∀ x, s.root = some x → st x = .cont := fun x h => (v.cont x).2 (.inl h)
  have hmem : ∀ i, i ∈ L → i ≠ s.next := fun i m => hne i (by rw [(v.mem i).1 m]; simp)
  have hfmem : ∀ t i, i ∈ F t → i ≠ s.next := fun t i m => hne i (by rw [(v.fmem t i).1 m]; simp)
  obtain ⟨fa1, fa2⟩ := v.free_addr ha
  exact
  { v with
    fresh := by
      intro i
      by_cases c : i = s.next
      · subst c; simp [upd_same]
      · rw [upd_ne _ _ c, v.fresh i]
        exact ⟨fun h => Nat.lt_of_le_of_ne h (Ne.symm c), fun h => Nat.le_of_succ_le h⟩
    cont := by
      intro i
      by_cases c : i = s.next
      · subst c; simp [upd_same]
      · rw [upd_ne _ _ c, v.cont i]
        simp only [Option.some.injEq, exists_eq_left', upd_same]
        constructor
        · rintro (h | ⟨x, h1, h2⟩)
          · exact .inr h
          · rw [hl x h1] at h2; cases h2
        · rintro (h | h)
          · exact absurd h.symm c
          · exact .inl h
    old := by
      intro x y h1 h2
      simp only [Option.some.injEq] at h1
      subst h1
      simp only [upd_same] at h2
      have hy : y ≠ s.next := hne y (by rw [hroot y h2]; simp)
      exact ⟨fun e => hy e.symm, by simp only [upd_ne _ _ hy]; exact hl y h2⟩
    src := by
      intro x j h
      by_cases c : x = s.next
      · subst c; exact .inl rfl
      · simp only [upd_ne _ _ c] at h ⊢
        rcases v.src x j h with q | q | q
        · rw [hl x q] at h; cases h
        · exact .inr (.inl q)
        · exact .inr (.inr q)
    mem := by
      intro i
      by_cases c : i = s.next
      · subst c; simp only [upd_same, reduceCtorEq, iff_false]; exact fun m => hmem _ m rfl
      · rw [upd_ne _ _ c]; exact v.mem i
    linked := Chained.mono (fun x m => upd_ne _ _ (hmem x m)) (fun _ _ _ h => h) v.linked
    fmem := by
      intro t i
      by_cases c : i = s.next
      · subst c; simp only [upd_same, reduceCtorEq, iff_false]; exact fun m => hfmem t _ m rfl
      · rw [upd_ne _ _ c]; exact v.fmem t i
    flinked := fun t => Chained.mono (fun x m => upd_ne _ _ (hfmem t x m)) (fun _ _ _ h => h) (v.flinked t)
    held := by
      intro t i h
      obtain ⟨g, e1, e2⟩ := v.held t i h
      refine ⟨g, e1, ?_⟩
      have : st i ≠ .fresh := by
        rcases e2 with e | ⟨_, e, _⟩ | ⟨e, _⟩ <;> rw [e] <;> simp
      rw [hst i this]; exact e2
    pend := by
      intro t y
      by_cases c : y = s.next
      · subst c; simp only [upd_same, reduceCtorEq, false_iff]
        intro e
        have := (v.pend t s.next).2 e
        rw [hn] at this; cases this
      · rw [upd_ne _ _ c]; exact v.pend t y
    aim := by
      intro t h e
      obtain ⟨a1, a2⟩ := v.aim t h e
      have hf : st h ≠ .fresh := by
        rcases a1 with e | ⟨_, e⟩ | e <;> rw [e] <;> simp
      refine ⟨by rw [hst h hf]; exact a1, fun i h1 h2 h3 => ?_⟩
      simp only [upd_ne _ _ (hne h hf)] at h3
      by_cases c : i = s.next
      · subst c; simp only [upd_same] at h3; exact absurd h3.symm (fa2 t h e)
      · simp only [upd_ne _ _ c] at h1 h2 h3; exact a2 i h1 h2 h3
    addr := by
      intro i j h1 h2 h3 h4 h5
      by_cases c : i = s.next <;> by_cases d : j = s.next
      · rw [c, d]
      · subst c; simp only [upd_same, upd_ne _ _ d] at h3 h4 h5
        exact absurd h5.symm (fa1 j h3 h4)
      · subst d; simp only [upd_same, upd_ne _ _ c] at h1 h2 h5
        exact absurd h5 (fa1 i h1 h2)
      · simp only [upd_ne _ _ c, upd_ne _ _ d] at h1 h2 h3 h4 h5
        exact v.addr i j h1 h2 h3 h4 h5
    freed := by
      intro i
      by_cases c : i = s.next
      · subst c; simp only [upd_same, reduceCtorEq, iff_false]
        intro m
        have := (v.freed _).1 m
        rw [hn] at this; cases this
      · rw [upd_ne _ _ c]; exact v.freed i }

/-- An array of the container is unlinked and is going to be pushed by a thread. -/
theorem Inv.unlink (v : Inv s st L F) (t : Thr) (y : Inst) (root : Option Inst) (lk : Inst → Option Inst)
    (rh : Inst → Bool) (hg : s.guard t ≠ none) (hp : s.pc t = .idle) (hy : st y = .cont) (hly : lk y = none)
    (hc : ∀ i, (st i = .cont ∧ i ≠ y) ↔ root = some i ∨ ∃ x, root = some x ∧ lk x = some i)
    (ho : ∀ x z, root = some x → lk x = some z → x ≠ z ∧ lk z = none)
    (hs : ∀ x, st x ≠ .cont → lk x = s.linked x)
    (hr : ∀ x z, st x = .cont → lk x = some z → root = some x) :
    Inv { s with root := root, linked := lk, rehashed := rh, pc := upd s.pc t (.load (some y)) }
      (upd st y (.pend t)) L F := by
  have hst : ∀ i, st i ≠ .cont → upd st y (.pend t) i = st i := fun i h =>
    upd_ne _ _ (fun e : i = y => h (by rw [e, hy]))
  have hmem : ∀ i, i ∈ L → st i ≠ .cont := fun i m => by rw [(v.mem i).1 m]; simp
  have hfmem : ∀ t i, i ∈ F t → st i ≠ .cont := fun t i m => by rw [(v.fmem t i).1 m]; simp
  have hpe : ∀ z, st z ≠ .pend t := fun z h => by
    have := (v.pend t z).1 h
    rw [hp] at this; simp [Pc.pend] at this
  exact
  { v with
    fresh := by
      intro i
      by_cases c : i = y
      · subst c; simp only [upd_same, reduceCtorEq, false_iff]
        intro h
        have := (v.fresh i).2 h
        rw [hy] at this; cases this
      · rw [upd_ne _ _ c]; exact v.fresh i
    cont := by
      intro i
      rw [← hc i]
      by_cases c : i = y
      · subst c; simp [upd_same]
      · rw [upd_ne _ _ c]; simp [c]
    old := ho
    src := by
      intro x j h
      by_cases c : st x = .cont
      · exact .inl (hr x j c h)
      · simp only [hs x c] at h
        rw [hst x c]
        rcases v.src x j h with q | q | q
        · exact absurd ((v.cont x).2 (.inl q)) c
        · exact .inr (.inl q)
        · exact .inr (.inr q)
    mem := by
      intro i
      by_cases c : i = y
      · subst c; simp only [upd_same, reduceCtorEq, iff_false]; exact fun m => hmem _ m hy
      · rw [upd_ne _ _ c]; exact v.mem i
    linked := by
      refine Chained.mono (fun x m => hs x (hmem x m)) ?_ v.linked
      rintro x z _ ⟨u, hu⟩
      have : u ≠ t := by rintro rfl; rw [hp] at hu; cases hu
      exact ⟨u, by show upd s.pc t _ u = _; rw [upd_ne _ _ this]; exact hu⟩
    fmem := by
      intro t i
      by_cases c : i = y
      · subst c; simp only [upd_same, reduceCtorEq, iff_false]; exact fun m => hfmem t _ m hy
      · rw [upd_ne _ _ c]; exact v.fmem t i
    fhead := by
      intro u k n h
      by_cases e : u = t
      · subst e; simp only [upd_same] at h; cases h
      · simp only [upd_ne _ _ e] at h; exact v.fhead u k n h
    flinked := fun t => Chained.mono (fun x m => hs x (hfmem t x m)) (fun _ _ _ h => h) (v.flinked t)
    fnone := by
      intro u h
      by_cases e : u = t
      · subst e; exact v.fnone u (by rw [hp]; simp)
      · simp only [upd_ne _ _ e] at h; exact v.fnone u h
    held := by
      intro u i h
      obtain ⟨g, e1, e2⟩ := v.held u i h
      refine ⟨g, e1, ?_⟩
      by_cases c : i = y
      · subst c
        refine .inr (.inl ⟨t, upd_same _ _ _, fun q => ?_⟩)
        simp only [upd_same] at q; cases q
      · rw [upd_ne _ _ c]
        rcases e2 with e2 | ⟨w, e2, e3⟩ | e2
        · exact .inl e2
        · refine .inr (.inl ⟨w, e2, fun q => ?_⟩)
          have : w ≠ t := by rintro rfl; exact hpe i e2
          simp only [upd_ne _ _ this] at q; exact e3 q
        · exact .inr (.inr e2)
    works := by
      intro u h
      by_cases e : u = t
      · subst e; simp [upd_same] at h
      · simp only [upd_ne _ _ e] at h; exact v.works u h
    guarded := by
      intro u h
      by_cases e : u = t
      · subst e; exact hg
      · simp only [upd_ne _ _ e] at h; exact v.guarded u h
    pend := by
      intro u z
      by_cases e : u = t
      · subst e; simp only [upd_same, Pc.pend, Option.some.injEq]
        by_cases c : z = y
        · subst c; simp [upd_same]
        · rw [upd_ne _ _ c]
          exact ⟨fun h => absurd h (hpe z), fun h => absurd h.symm c⟩
      · simp only [upd_ne _ _ e]
        by_cases c : z = y
        · subst c; rw [upd_same]
          constructor
          · intro h; exact absurd (by injection h with h; exact h.symm) e
          · intro h
            have := (v.pend u z).2 h
            rw [hy] at this; cases this
        · rw [upd_ne _ _ c]; exact v.pend u z
    link := by
      intro u z q h
      by_cases e : u = t
      · subst e; simp only [upd_same] at h; cases h
      · simp only [upd_ne _ _ e] at h; exact v.link u z q h
    aim := by
      intro u h e1
      have e1' : (s.pc u).aim = some h := by
        by_cases e : u = t
        · subst e; simp [upd_same, Pc.aim] at e1
        · simpa only [upd_ne _ _ e] using e1
      obtain ⟨a1, a2⟩ := v.aim u h e1'
      have hh : st h ≠ .cont := by
        rcases a1 with q | ⟨_, q⟩ | q <;> rw [q] <;> simp
      refine ⟨by rw [hst h hh]; exact a1, fun i h1 h2 h3 => ?_⟩
      by_cases c : i = y
      · subst c; exact a2 i (by rw [hy]; simp) (by rw [hy]; simp) h3
      · rw [upd_ne _ _ c] at h1 h2; exact a2 i h1 h2 h3
    addr := by
      have k : ∀ i, upd st y (.pend t) i ≠ .fresh → upd st y (.pend t) i ≠ .freed →
          st i ≠ .fresh ∧ st i ≠ .freed := by
        intro i h1 h2
        by_cases c : i = y
        · subst c; rw [hy]; simp
        · rw [upd_ne _ _ c] at h1 h2; exact ⟨h1, h2⟩
      intro i j h1 h2 h3 h4 h5
      exact v.addr i j (k i h1 h2).1 (k i h1 h2).2 (k j h3 h4).1 (k j h3 h4).2 h5
    cas := by
      intro u k h e1 e2
      have e1' : s.pc u = .cas k h := by
        by_cases e : u = t
        · subst e; simp only [upd_same] at e1; cases e1
        · simpa only [upd_ne _ _ e] using e1
      refine ⟨(v.cas u k h e1' e2).1, fun w z q hw => ?_⟩
      by_cases e : w = t
      · subst e; simp only [upd_same] at hw; cases hw
      · simp only [upd_ne _ _ e] at hw; exact (v.cas u k h e1' e2).2 w z q hw
    freed := by
      intro i
      by_cases c : i = y
      · subst c; simp only [upd_same, reduceCtorEq, iff_false]
        intro m
        have := (v.freed _).1 m
        rw [hy] at this; cases this
      · rw [upd_ne _ _ c]; exact v.freed i }

theorem Inv.clear (v : Inv s st L F) (t : Thr) (x : Inst) (h : s.guard t ≠ none) (hp : s.pc t = .idle)
    (hr : s.root = some x) (hl : s.linked x = none) :
    Inv { s with root := none, pc := upd s.pc t (.load (some x)) } (upd st x (.pend t)) L F := by
  have hx : st x = .cont := (v.cont x).2 (.inl hr)
  refine v.unlink t x none s.linked s.rehashed h hp hx hl ?_ ?_ (fun _ _ => rfl) ?_
  · intro i
    constructor
    · rintro ⟨h1, h2⟩
      exfalso
      rcases (v.cont i).1 h1 with e | ⟨z, e, e'⟩
      · rw [hr] at e; cases e; exact h2 rfl
      · rw [hr] at e; cases e; rw [hl] at e'; cases e'
    · simp
  · intro a z e; cases e
  · intro a z ha e
    exfalso
    rcases v.target e with ⟨q, _⟩ | ⟨q, _⟩ | ⟨_, q, _⟩
    · rw [hr] at q; cases q; rw [hl] at e; cases e
    · rw [ha] at q; cases q
    · rw [ha] at q; cases q

theorem Inv.detach (v : Inv s st L F) (t : Thr) (x y : Inst) (h : s.guard t ≠ none) (hp : s.pc t = .idle)
    (hl : s.linked x = some y) (hx : s.root = some x) :
    Inv { s with linked := upd s.linked x none, rehashed := upd s.rehashed y true,
                 pc := upd s.pc t (.load (some y)) } (upd st y (.pend t)) L F := by
  have hxc : st x = .cont := (v.cont x).2 (.inl hx)
  have hyc : st y = .cont := (v.cont y).2 (.inr ⟨x, hx, hl⟩)
  obtain ⟨hxy, hly⟩ := v.old x y hx hl
  refine v.unlink t y s.root (upd s.linked x none) _ h hp hyc
    (by rw [upd_ne _ _ (fun e => hxy e.symm)]; exact hly) ?_ ?_ ?_ ?_
  · intro i
    constructor
    · rintro ⟨h1, h2⟩
      rcases (v.cont i).1 h1 with e | ⟨z, e, e'⟩
      · exact .inl e
      · rw [hx] at e; cases e; rw [hl] at e'; cases e'; exact absurd rfl h2
    · rintro (e | ⟨z, e, e'⟩)
      · refine ⟨(v.cont i).2 (.inl e), ?_⟩
        rw [hx] at e; cases e; exact hxy
      · rw [hx] at e; cases e; rw [upd_same] at e'; cases e'
  · intro a z e e'
    rw [hx] at e; cases e; rw [upd_same] at e'; cases e'
  · intro a ha
    exact upd_ne _ _ (fun e => ha (by rw [e]; exact hxc))
  · intro a z ha e
    by_cases c : a = x
    · subst c; exact hx
    · rw [upd_ne _ _ c] at e
      rcases v.target e with ⟨q, _⟩ | ⟨q, _⟩ | ⟨_, q, _⟩
      · exact q
      · rw [ha] at q; cases q
      · rw [ha] at q; cases q

theorem Inv.stampStep (v : Inv s st L F) (t : Thr) (y : Inst) (g : Nat) (hp : s.pc t = .stamp y)
    (hg : s.guard t = some g) :
    Inv { s with stamp := some g, pc := upd s.pc t (.swap y) } st L F := by
  have hb : ∀ u g', s.guard u = some g' → g' ≤ g + 1 := fun u g' e =>
    Nat.le_trans (v.epoch u g' e).1 (v.epoch t g hg).2
  have ho : ∀ a b, s.pc t ≠ .link a b := by rw [hp]; simp
  exact
  { v with
    linked := by
      refine Chained.mono (fun _ _ => rfl) ?_ v.linked
      rintro a b _ ⟨u, hu⟩
      have : u ≠ t := fun e => ho a b (e ▸ hu)
      exact ⟨u, by show upd s.pc t _ u = _; rw [upd_ne _ _ this]; exact hu⟩
    fhead := by
      intro u k n h
      by_cases e : u = t
      · subst e; simp only [upd_same] at h; cases h
      · simp only [upd_ne _ _ e] at h; exact v.fhead u k n h
    fnone := by
      intro u h
      by_cases e : u = t
      · subst e; exact v.fnone u (by rw [hp]; simp)
      · simp only [upd_ne _ _ e] at h; exact v.fnone u h
    stampLe := by
      intro e h
      simp only [Option.some.injEq] at h; subst h
      exact (v.epoch t g hg).1
    held := by
      intro u i h
      obtain ⟨g', e1, e2⟩ := v.held u i h
      refine ⟨g', e1, ?_⟩
      rcases e2 with e2 | ⟨w, e2, _⟩ | ⟨e2, _⟩
      · exact .inl e2
      · exact .inr (.inl ⟨w, e2, fun _ => ⟨g, rfl, hb u g' e1⟩⟩)
      · exact .inr (.inr ⟨e2, g, rfl, hb u g' e1⟩)
    works := by
      intro u h
      have : ∃ g', s.guard u = some g' := by
        by_cases e : u = t
        · subst e; exact ⟨g, hg⟩
        · simp only [upd_ne _ _ e] at h
          obtain ⟨g', _, q, _⟩ := v.works u h
          exact ⟨g', q⟩
      obtain ⟨g', q⟩ := this
      exact ⟨g', g, q, rfl, hb u g' q⟩
    guarded := by
      intro u h
      by_cases e : u = t
      · subst e; show s.guard u ≠ none; rw [hg]; simp
      · simp only [upd_ne _ _ e] at h; exact v.guarded u h
    pend := by
      intro u z
      by_cases e : u = t
      · subst e; simp only [upd_same]
        have := v.pend u z
        rw [hp] at this; exact this
      · simp only [upd_ne _ _ e]; exact v.pend u z
    link := by
      intro u a b h
      by_cases e : u = t
      · subst e; simp only [upd_same] at h; cases h
      · simp only [upd_ne _ _ e] at h; exact v.link u a b h
    aim := by
      intro u h e1
      by_cases e : u = t
      · subst e; simp [upd_same, Pc.aim] at e1
      · simp only [upd_ne _ _ e] at e1; exact v.aim u h e1
    cas := by
      intro u k h e1 e2
      have e1' : s.pc u = .cas k h := by
        by_cases e : u = t
        · subst e; simp only [upd_same] at e1; cases e1
        · simpa only [upd_ne _ _ e] using e1
      refine ⟨(v.cas u k h e1' e2).1, fun w a b hw => ?_⟩
      by_cases e : w = t
      · subst e; simp only [upd_same] at hw; cases hw
      · simp only [upd_ne _ _ e] at hw; exact (v.cas u k h e1' e2).2 w a b hw }

/-- The array is pushed; `p` is what the thread does next. -/
theorem Inv.push (v : Inv s st L F) (t : Thr) (y : Inst) (p : Pc) (hp : s.pc t = .swap y)
    (hq : (p = .idle ∧ L = []) ∨ ∃ z, L.head? = some z ∧ p = .link y z) :
    Inv { s with chain := some y, pc := upd s.pc t p } (upd st y .pushed) (y :: L) F := by
  have hy : st y = .pend t := (v.pend t y).2 (by rw [hp]; rfl)
  have hpe : ∀ z, st z = .pend t → z = y := fun z h => by
    have := (v.pend t z).1 h
    rw [hp] at this; simp [Pc.pend] at this; exact this.symm
  have hyL : y ∉ L := by rw [v.mem, hy]; simp
  have hyF : ∀ u, y ∉ F u := fun u => by rw [v.fmem, hy]; simp
  have hyl : s.linked y = none := by
    cases e : s.linked y with
    | none => rfl
    | some j =>
      rcases v.target e with ⟨q, _⟩ | ⟨q, _⟩ | ⟨_, q, _⟩
      · have := (v.cont y).2 (.inl q); rw [hy] at this; cases this
      · rw [hy] at q; cases q
      · rw [hy] at q; cases q
  have ho : ∀ a b, s.pc t ≠ .link a b := by rw [hp]; simp
  have hps : ∀ z, p ≠ .swap z := by rcases hq with ⟨rfl, _⟩ | ⟨_, _, rfl⟩ <;> simp
  have hpf : ∀ k n, p ≠ .free k n := by rcases hq with ⟨rfl, _⟩ | ⟨_, _, rfl⟩ <;> simp
  have hpc : ∀ k n, p ≠ .cas k n := by rcases hq with ⟨rfl, _⟩ | ⟨_, _, rfl⟩ <;> simp
  have hpa : p.aim = none := by rcases hq with ⟨rfl, _⟩ | ⟨_, _, rfl⟩ <;> rfl
  have hpp : p.pend = none := by rcases hq with ⟨rfl, _⟩ | ⟨_, _, rfl⟩ <;> rfl
  exact
  { v with
    fresh := by
      intro i
      by_cases c : i = y
      · subst c; simp only [upd_same, reduceCtorEq, false_iff]
        intro h
        have := (v.fresh i).2 h
        rw [hy] at this; cases this
      · rw [upd_ne _ _ c]; exact v.fresh i
    cont := by
      intro i
      rw [← v.cont i]
      by_cases c : i = y
      · subst c; simp [upd_same, hy]
      · rw [upd_ne _ _ c]
    src := by
      intro x j h
      by_cases c : x = y
      · subst c; exact .inr (.inl (upd_same _ _ _))
      · rw [upd_ne _ _ c]; exact v.src x j h
    mem := by
      intro i
      by_cases c : i = y
      · subst c; simp [upd_same]
      · rw [upd_ne _ _ c, ← v.mem i]; simp [c]
    nodup := List.nodup_cons.2 ⟨hyL, v.nodup⟩
    head := rfl
    linked := by
      have base : Chained s.linked (fun a b => ∃ u, upd s.pc t p u = .link a b) L := by
        refine Chained.mono (fun _ _ => rfl) ?_ v.linked
        rintro a b _ ⟨u, hu⟩
        have : u ≠ t := fun e => ho a b (e ▸ hu)
        exact ⟨u, by rw [upd_ne _ _ this]; exact hu⟩
      cases L with
      | nil => exact hyl
      | cons z r =>
        refine ⟨.inr ⟨hyl, t, ?_⟩, base⟩
        rcases hq with ⟨_, q⟩ | ⟨z', q, rfl⟩
        · cases q
        · simp only [List.head?_cons, Option.some.injEq] at q; subst q; exact upd_same _ _ _
    fmem := by
      intro u i
      by_cases c : i = y
      · subst c; simp only [upd_same, reduceCtorEq, iff_false]; exact hyF u
      · rw [upd_ne _ _ c]; exact v.fmem u i
    fhead := by
      intro u k n h
      by_cases e : u = t
      · subst e; simp only [upd_same] at h; exact absurd h (hpf k n)
      · simp only [upd_ne _ _ e] at h; exact v.fhead u k n h
    fnone := by
      intro u h
      by_cases e : u = t
      · subst e; exact v.fnone u (by rw [hp]; simp)
      · simp only [upd_ne _ _ e] at h; exact v.fnone u h
    held := by
      intro u i h
      obtain ⟨g, e1, e2⟩ := v.held u i h
      refine ⟨g, e1, ?_⟩
      by_cases c : i = y
      · subst c
        rw [hy] at e2
        rcases e2 with e2 | ⟨w, e2, e3⟩ | ⟨e2, _⟩
        · cases e2
        · cases e2; exact .inr (.inr ⟨upd_same _ _ _, e3 hp⟩)
        · cases e2
      · rw [upd_ne _ _ c]
        rcases e2 with e2 | ⟨w, e2, e3⟩ | e2
        · exact .inl e2
        · refine .inr (.inl ⟨w, e2, fun q => ?_⟩)
          have : w ≠ t := by rintro rfl; exact c (hpe i e2)
          simp only [upd_ne _ _ this] at q; exact e3 q
        · exact .inr (.inr e2)
    works := by
      intro u h
      by_cases e : u = t
      · subst e; exact v.works u (.inl ⟨y, hp⟩)
      · simp only [upd_ne _ _ e] at h; exact v.works u h
    guarded := by
      intro u h
      by_cases e : u = t
      · subst e; exact v.guarded u (by rw [hp]; simp)
      · simp only [upd_ne _ _ e] at h; exact v.guarded u h
    pend := by
      intro u z
      by_cases e : u = t
      · subst e; simp only [upd_same, hpp, reduceCtorEq, iff_false]
        by_cases c : z = y
        · subst c; simp [upd_same]
        · rw [upd_ne _ _ c]; exact fun h => c (hpe z h)
      · simp only [upd_ne _ _ e]
        by_cases c : z = y
        · subst c; simp only [upd_same, reduceCtorEq, false_iff]
          intro h
          have := (v.pend u z).2 h
          rw [hy] at this; injection this with this; exact e this.symm
        · rw [upd_ne _ _ c]; exact v.pend u z
    link := by
      intro u a b h
      by_cases e : u = t
      · subst e; simp only [upd_same] at h
        rcases hq with ⟨rfl, _⟩ | ⟨z, q, rfl⟩
        · cases h
        · cases h
          cases L with
          | nil => simp at q
          | cons c r =>
            simp only [List.head?_cons, Option.some.injEq] at q; subst q
            exact ⟨[], r, rfl⟩
      · simp only [upd_ne _ _ e] at h; exact (v.link u a b h).cons y
    aim := by
      intro u h e1
      have e1' : (s.pc u).aim = some h := by
        by_cases e : u = t
        · subst e; simp [upd_same, hpa] at e1
        · simpa only [upd_ne _ _ e] using e1
      obtain ⟨a1, a2⟩ := v.aim u h e1'
      have hh : h ≠ y := by
        rintro rfl; rw [hy] at a1; simp at a1
      refine ⟨by rw [upd_ne _ _ hh]; exact a1, fun i h1 h2 h3 => ?_⟩
      by_cases c : i = y
      · subst c; exact a2 i (by rw [hy]; simp) (by rw [hy]; simp) h3
      · rw [upd_ne _ _ c] at h1 h2; exact a2 i h1 h2 h3
    addr := by
      have k : ∀ i, upd st y .pushed i ≠ .fresh → upd st y .pushed i ≠ .freed →
          st i ≠ .fresh ∧ st i ≠ .freed := by
        intro i h1 h2
        by_cases c : i = y
        · subst c; rw [hy]; simp
        · rw [upd_ne _ _ c] at h1 h2; exact ⟨h1, h2⟩
      intro i j h1 h2 h3 h4 h5
      exact v.addr i j (k i h1 h2).1 (k i h1 h2).2 (k j h3 h4).1 (k j h3 h4).2 h5
    cas := by
      intro u k h e1 e2
      exfalso
      have e1' : s.pc u = .cas k h := by
        by_cases e : u = t
        · subst e; simp only [upd_same] at e1; exact absurd e1 (hpc k h)
        · simpa only [upd_ne _ _ e] using e1
      simp only [Option.some.injEq] at e2
      subst e2
      have := (v.aim u y (by rw [e1']; rfl)).1
      rw [hy] at this; simp at this
    freed := by
      intro i
      by_cases c : i = y
      · subst c; simp only [upd_same, reduceCtorEq, iff_false]
        intro m
        have := (v.freed _).1 m
        rw [hy] at this; cases this
      · rw [upd_ne _ _ c]; exact v.freed i }

theorem Inv.linkStep (v : Inv s st L F) (t : Thr) (y p : Inst) (hp : s.pc t = .link y p) :
    Inv { s with linked := upd s.linked y (some p), pc := upd s.pc t .idle } st L F := by
  have n := v.link t y p hp
  have hy : st y = .pushed := (v.mem y).1 n.mem.1
  have hne : ∀ x, st x ≠ .pushed → x ≠ y := fun x h e => h (e ▸ hy)
  have hroot : ∀ x, s.root = some x → x ≠ y := fun x e => hne x (by
    rw [(v.cont x).2 (.inl e)]; simp)
  exact
  { v with
    cont := by
      intro i
      rw [v.cont i]
      constructor
      · rintro (h | ⟨x, h1, h2⟩)
        · exact .inl h
        · exact .inr ⟨x, h1, by simp only [upd_ne _ _ (hroot x h1)]; exact h2⟩
      · rintro (h | ⟨x, h1, h2⟩)
        · exact .inl h
        · exact .inr ⟨x, h1, by simpa only [upd_ne _ _ (hroot x h1)] using h2⟩
    old := by
      intro x z h1 h2
      simp only [upd_ne _ _ (hroot x h1)] at h2
      have hz : z ≠ y := hne z (by rw [(v.cont z).2 (.inr ⟨x, h1, h2⟩)]; simp)
      exact ⟨(v.old x z h1 h2).1, by simp only [upd_ne _ _ hz]; exact (v.old x z h1 h2).2⟩
    src := by
      intro x j h
      by_cases c : x = y
      · subst c; exact .inr (.inl hy)
      · simp only [upd_ne _ _ c] at h; exact v.src x j h
    linked := by
      refine Chained.set v.nodup ?_ n v.linked
      rintro a b hab ⟨u, hu⟩
      have : u ≠ t := by
        rintro rfl; rw [hp] at hu; cases hu; exact hab rfl
      exact ⟨u, by show upd s.pc t _ u = _; rw [upd_ne _ _ this]; exact hu⟩
    fhead := by
      intro u k n h
      by_cases e : u = t
      · subst e; simp only [upd_same] at h; cases h
      · simp only [upd_ne _ _ e] at h; exact v.fhead u k n h
    flinked := fun u => Chained.mono (fun x m => upd_ne _ _ (hne x (by
      rw [(v.fmem u x).1 m]; simp))) (fun _ _ _ h => h) (v.flinked u)
    fnone := by
      intro u h
      by_cases e : u = t
      · subst e; exact v.fnone u (by rw [hp]; simp)
      · simp only [upd_ne _ _ e] at h; exact v.fnone u h
    held := by
      intro u i h
      obtain ⟨g, e1, e2⟩ := v.held u i h
      refine ⟨g, e1, ?_⟩
      rcases e2 with e2 | ⟨w, e2, e3⟩ | e2
      · exact .inl e2
      · refine .inr (.inl ⟨w, e2, fun q => ?_⟩)
        by_cases e : w = t
        · subst e; simp only [upd_same] at q; cases q
        · simp only [upd_ne _ _ e] at q; exact e3 q
      · exact .inr (.inr e2)
    works := by
      intro u h
      by_cases e : u = t
      · subst e; simp [upd_same] at h
      · simp only [upd_ne _ _ e] at h; exact v.works u h
    guarded := by
      intro u h
      by_cases e : u = t
      · subst e; simp [upd_same] at h
      · simp only [upd_ne _ _ e] at h; exact v.guarded u h
    pend := by
      intro u z
      by_cases e : u = t
      · subst e
        have := v.pend u z
        rw [hp] at this; simp only [upd_same]; exact this
      · simp only [upd_ne _ _ e]; exact v.pend u z
    link := by
      intro u a b h
      by_cases e : u = t
      · subst e; simp only [upd_same] at h; cases h
      · simp only [upd_ne _ _ e] at h; exact v.link u a b h
    aim := by
      intro u h e1
      by_cases e : u = t
      · subst e; simp [upd_same, Pc.aim] at e1
      · simp only [upd_ne _ _ e] at e1; exact v.aim u h e1
    cas := by
      intro u k h e1 e2
      have e1' : s.pc u = .cas k h := by
        by_cases e : u = t
        · subst e; simp only [upd_same] at e1; cases e1
        · simpa only [upd_ne _ _ e] using e1
      exact absurd hp ((v.cas u k h e1' e2).2 t y p) }

/-- The whole list is taken by a thread. -/
theorem Inv.take (v : Inv s st L F) (t : Thr) (k : Option Inst) (h h' : Inst) (hp : s.pc t = .cas k h)
    (hc : s.chain = some h') (ha : s.addr h' = s.addr h) :
    Inv { s with chain := none, pc := upd s.pc t (.free k (some h')) }
      (fun i => if st i = .pushed then .taken t else st i) [] (upd F t L) := by
  have hm : h' ∈ L := by
    have := v.head; rw [hc] at this
    cases L with
    | nil => simp at this
    | cons a r => simp at this; subst this; simp
  have hp' : st h' = .pushed := (v.mem h').1 hm
  have : h' = h := (v.aim t h (by rw [hp]; rfl)).2 h' (by rw [hp']; simp) (by rw [hp']; simp) ha
  subst this
  obtain ⟨k1, k2⟩ := v.cas t k h' hp hc
  have hFt : F t = [] := v.fnone t (by rw [hp]; simp)
  have ht : ∀ i, st i ≠ .taken t := fun i e => by
    have := (v.fmem t i).2 e
    rw [hFt] at this; simp at this
  have nf : ∀ i, (if st i = .pushed then Status.taken t else st i) ≠ .fresh ↔ st i ≠ .fresh := by
    intro i; split <;> simp [*]
  have nd : ∀ i, (if st i = .pushed then Status.taken t else st i) ≠ .freed ↔ st i ≠ .freed := by
    intro i; split <;> simp [*]
  exact
  { v with
    fresh := by
      intro i
      rw [← v.fresh i]
      have := nf i
      simpa only [ne_eq, Decidable.not_iff_not] using this
    cont := by
      intro i
      rw [← v.cont i]
      split <;> simp [*]
    src := by
      intro x j e
      rcases v.src x j e with q | q | ⟨u, q⟩
      · exact .inl q
      · exact .inr (.inr ⟨t, by simp [q]⟩)
      · exact .inr (.inr ⟨u, by simp [q]⟩)
    mem := by
      intro i
      simp only [List.not_mem_nil, false_iff]
      split <;> simp [*]
    nodup := .nil
    head := rfl
    linked := trivial
    fmem := by
      intro u i
      by_cases e : u = t
      · subst e; rw [upd_same, v.mem]
        by_cases c : st i = .pushed
        · simp [c]
        · simp [c, ht i]
      · rw [upd_ne _ _ e, v.fmem u i]
        by_cases c : st i = .pushed
        · have : t ≠ u := fun q => e q.symm
          simp [c, this]
        · simp [c]
    fnodup := by
      intro u
      by_cases e : u = t
      · subst e; rw [upd_same]; exact v.nodup
      · rw [upd_ne _ _ e]; exact v.fnodup u
    fhead := by
      intro u k' n q
      by_cases e : u = t
      · subst e; simp only [upd_same, Pc.free.injEq] at q ⊢; rw [← q.2, ← hc, v.head]
      · simp only [upd_ne _ _ e] at q ⊢; exact v.fhead u k' n q
    flinked := by
      intro u
      by_cases e : u = t
      · subst e; rw [upd_same]
        exact Chained.mono (fun _ _ => rfl) (fun x y _ ⟨w, hw⟩ => k2 w x y hw) v.linked
      · rw [upd_ne _ _ e]; exact v.flinked u
    fnone := by
      intro u q
      by_cases e : u = t
      · subst e; simp only [upd_same] at q; exact absurd rfl (q k (some h'))
      · simp only [upd_ne _ _ e] at q ⊢; exact v.fnone u q
    held := by
      intro u i q
      obtain ⟨g, e1, e2⟩ := v.held u i q
      have hn : st i ≠ .pushed := fun e => by
        have := k1 i ((v.mem i).2 e) u
        rw [q] at this; cases this
      refine ⟨g, e1, ?_⟩
      simp only [hn, if_false]
      rcases e2 with e2 | ⟨w, e2, e3⟩ | ⟨e2, _⟩
      · exact .inl e2
      · refine .inr (.inl ⟨w, e2, fun q => ?_⟩)
        by_cases e : w = t
        · subst e; simp only [upd_same] at q; cases q
        · simp only [upd_ne _ _ e] at q; exact e3 q
      · exact absurd e2 hn
    works := by
      intro u q
      by_cases e : u = t
      · subst e; simp [upd_same] at q
      · simp only [upd_ne _ _ e] at q; exact v.works u q
    guarded := by
      intro u q
      by_cases e : u = t
      · subst e; exact v.guarded u (by rw [hp]; simp)
      · simp only [upd_ne _ _ e] at q; exact v.guarded u q
    pend := by
      intro u z
      have e1 : ((if st z = .pushed then Status.taken t else st z) = .pend u) ↔ st z = .pend u := by
        split <;> simp [*]
      rw [e1]
      by_cases e : u = t
      · subst e
        have := v.pend u z
        rw [hp] at this; simp only [upd_same]; exact this
      · simp only [upd_ne _ _ e]; exact v.pend u z
    link := by
      intro u a b q
      by_cases e : u = t
      · subst e; simp only [upd_same] at q; cases q
      · simp only [upd_ne _ _ e] at q; exact absurd q (k2 u a b)
    aim := by
      intro u x e1
      have e1' : (s.pc u).aim = some x := by
        by_cases e : u = t
        · subst e; simp [upd_same, Pc.aim] at e1
        · simpa only [upd_ne _ _ e] using e1
      obtain ⟨a1, a2⟩ := v.aim u x e1'
      refine ⟨?_, fun i q1 q2 q3 => a2 i ((nf i).1 q1) ((nd i).1 q2) q3⟩
      rcases a1 with q | ⟨w, q⟩ | q
      · exact .inr (.inl ⟨t, by simp [q]⟩)
      · exact .inr (.inl ⟨w, by simp [q]⟩)
      · exact .inr (.inr (by simp [q]))
    addr := fun i j q1 q2 q3 q4 q5 =>
      v.addr i j ((nf i).1 q1) ((nd i).1 q2) ((nf j).1 q3) ((nd j).1 q4) q5
    cas := by
      intro u k' x e1 e2
      cases e2
    freed := by
      intro i
      rw [v.freed i]
      have := nd i
      simp only [ne_eq, Decidable.not_iff_not] at this
      exact this.symm }

/-- One array is freed. -/
theorem Inv.freeStep (v : Inv s st L F) (t : Thr) (k : Option Inst) (i : Inst)
    (hp : s.pc t = .free k (some i)) :
    Inv { s with linked := upd s.linked i none, freed := i :: s.freed,
                 pc := upd s.pc t (.free k (s.linked i)) } (upd st i .freed) L (upd F t (F t).tail) := by
  obtain ⟨r, hr⟩ : ∃ r, F t = i :: r := by
    have := v.fhead t k _ hp
    cases q : F t with
    | nil => rw [q] at this; simp at this
    | cons a r => rw [q] at this; simp at this; subst this; exact ⟨r, rfl⟩
  have hi : st i = .taken t := (v.fmem t i).1 (by rw [hr]; simp)
  have hnd := v.fnodup t
  rw [hr] at hnd
  obtain ⟨hir, hrn⟩ := List.nodup_cons.1 hnd
  have hch := v.flinked t
  rw [hr] at hch
  have hli : s.linked i = r.head? := hch.head_link
  have hne : ∀ x, st x ≠ .taken t → x ≠ i := fun x h e => h (e ▸ hi)
  have htail : (F t).tail = r := by rw [hr]; rfl
  have hroot : ∀ x, s.root = some x → x ≠ i := fun x e => hne x (by
    rw [(v.cont x).2 (.inl e)]; simp)
  have al : ∀ j, upd st i .freed j ≠ .freed → j ≠ i := fun j h e => h (by rw [e, upd_same])
  rw [htail]
  exact
  { v with
    fresh := by
      intro j
      by_cases c : j = i
      · subst c; simp only [upd_same, reduceCtorEq, false_iff]
        intro h
        have := (v.fresh j).2 h
        rw [hi] at this; cases this
      · rw [upd_ne _ _ c]; exact v.fresh j
    cont := by
      intro j
      by_cases c : j = i
      · subst c
        simp only [upd_same, reduceCtorEq, false_iff]
        rintro (e | ⟨x, e, e'⟩)
        · exact hroot j e rfl
        · simp only [upd_ne _ _ (hroot x e)] at e'
          have := (v.cont j).2 (.inr ⟨x, e, e'⟩)
          rw [hi] at this; cases this
      · rw [upd_ne _ _ c, v.cont j]
        constructor
        · rintro (h | ⟨x, h1, h2⟩)
          · exact .inl h
          · exact .inr ⟨x, h1, by simp only [upd_ne _ _ (hroot x h1)]; exact h2⟩
        · rintro (h | ⟨x, h1, h2⟩)
          · exact .inl h
          · exact .inr ⟨x, h1, by simpa only [upd_ne _ _ (hroot x h1)] using h2⟩
    old := by
      intro x z h1 h2
      simp only [upd_ne _ _ (hroot x h1)] at h2
      have hz : z ≠ i := hne z (by rw [(v.cont z).2 (.inr ⟨x, h1, h2⟩)]; simp)
      exact ⟨(v.old x z h1 h2).1, by simp only [upd_ne _ _ hz]; exact (v.old x z h1 h2).2⟩
    src := by
      intro x j h
      by_cases c : x = i
      · subst c; simp only [upd_same] at h; cases h
      · simp only [upd_ne _ _ c] at h ⊢; exact v.src x j h
    mem := by
      intro j
      by_cases c : j = i
      · subst c; simp only [upd_same, reduceCtorEq, iff_false]; rw [v.mem, hi]; simp
      · rw [upd_ne _ _ c]; exact v.mem j
    linked := by
      refine Chained.mono (fun x m => upd_ne _ _ (hne x (by rw [(v.mem x).1 m]; simp))) ?_ v.linked
      rintro a b _ ⟨u, hu⟩
      have : u ≠ t := by rintro rfl; rw [hp] at hu; cases hu
      exact ⟨u, by show upd s.pc t _ u = _; rw [upd_ne _ _ this]; exact hu⟩
    fmem := by
      intro u j
      by_cases e : u = t
      · subst e; rw [upd_same]
        by_cases c : j = i
        · subst c; rw [upd_same]; simp [hir]
        · rw [upd_ne _ _ c, ← v.fmem u j, hr]; simp [c]
      · rw [upd_ne _ _ e]
        by_cases c : j = i
        · subst c; rw [upd_same, v.fmem, hi]
          have : t ≠ u := fun q => e q.symm
          simp [this]
        · rw [upd_ne _ _ c]; exact v.fmem u j
    fnodup := by
      intro u
      by_cases e : u = t
      · subst e; rw [upd_same]; exact hrn
      · rw [upd_ne _ _ e]; exact v.fnodup u
    fhead := by
      intro u k' n q
      by_cases e : u = t
      · subst e; simp only [upd_same, Pc.free.injEq] at q ⊢; rw [← q.2, hli]
      · simp only [upd_ne _ _ e] at q ⊢; exact v.fhead u k' n q
    flinked := by
      intro u
      by_cases e : u = t
      · subst e; rw [upd_same]
        exact Chained.mono (fun x m => upd_ne _ _ (fun q : x = i => hir (q ▸ m))) (fun _ _ _ h => h) hch.tail
      · rw [upd_ne _ _ e]
        refine Chained.mono (fun x m => upd_ne _ _ (hne x ?_)) (fun _ _ _ h => h) (v.flinked u)
        rw [(v.fmem u x).1 m]; simpa using e
    fnone := by
      intro u q
      by_cases e : u = t
      · subst e; simp only [upd_same] at q; exact absurd rfl (q k _)
      · simp only [upd_ne _ _ e] at q ⊢; exact v.fnone u q
    held := by
      intro u j q
      obtain ⟨g, e1, e2⟩ := v.held u j q
      have hn : j ≠ i := by
        rintro rfl; rw [hi] at e2; simp at e2
      refine ⟨g, e1, ?_⟩
      rw [upd_ne _ _ hn]
      rcases e2 with e2 | ⟨w, e2, e3⟩ | e2
      · exact .inl e2
      · refine .inr (.inl ⟨w, e2, fun q => ?_⟩)
        by_cases e : w = t
        · subst e; simp only [upd_same] at q; cases q
        · simp only [upd_ne _ _ e] at q; exact e3 q
      · exact .inr (.inr e2)
    works := by
      intro u q
      by_cases e : u = t
      · subst e; simp [upd_same] at q
      · simp only [upd_ne _ _ e] at q; exact v.works u q
    guarded := by
      intro u q
      by_cases e : u = t
      · subst e; exact v.guarded u (by rw [hp]; simp)
      · simp only [upd_ne _ _ e] at q; exact v.guarded u q
    pend := by
      intro u z
      have e1 : upd st i .freed z = .pend u ↔ st z = .pend u := by
        by_cases c : z = i
        · subst c; rw [upd_same, hi]; simp
        · rw [upd_ne _ _ c]
      rw [e1]
      by_cases e : u = t
      · subst e
        have := v.pend u z
        rw [hp] at this; simp only [upd_same]; exact this
      · simp only [upd_ne _ _ e]; exact v.pend u z
    link := by
      intro u a b q
      by_cases e : u = t
      · subst e; simp only [upd_same] at q; cases q
      · simp only [upd_ne _ _ e] at q; exact v.link u a b q
    aim := by
      intro u x e1
      have e1' : (s.pc u).aim = some x := by
        by_cases e : u = t
        · subst e; simp [upd_same, Pc.aim] at e1
        · simpa only [upd_ne _ _ e] using e1
      obtain ⟨a1, a2⟩ := v.aim u x e1'
      refine ⟨?_, fun j q1 q2 q3 => ?_⟩
      · by_cases c : x = i
        · subst c; exact .inr (.inr (upd_same _ _ _))
        · rw [upd_ne _ _ c]; exact a1
      · have := al j q2
        rw [upd_ne _ _ this] at q1 q2; exact a2 j q1 q2 q3
    addr := by
      intro j l q1 q2 q3 q4 q5
      have c1 := al j q2
      have c2 := al l q4
      rw [upd_ne _ _ c1] at q1 q2
      rw [upd_ne _ _ c2] at q3 q4
      exact v.addr j l q1 q2 q3 q4 q5
    cas := by
      intro u k' h e1 e2
      have e1' : s.pc u = .cas k' h := by
        by_cases e : u = t
        · subst e; simp only [upd_same] at e1; cases e1
        · simpa only [upd_ne _ _ e] using e1
      refine ⟨(v.cas u k' h e1' e2).1, fun w a b hw => ?_⟩
      by_cases e : w = t
      · subst e; simp only [upd_same] at hw; cases hw
      · simp only [upd_ne _ _ e] at hw; exact (v.cas u k' h e1' e2).2 w a b hw
    freed := by
      intro j
      by_cases c : j = i
      · subst c; simp [upd_same]
      · rw [upd_ne _ _ c, ← v.freed j]; simp [c]
    once := List.nodup_cons.2 ⟨by rw [v.freed, hi]; simp, v.once⟩ }

end Scc.Gc
