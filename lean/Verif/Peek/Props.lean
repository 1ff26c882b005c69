import Verif.Peek.Span

/-!
# Properties of lock-free reads of a bucket of `HashIndex`
-/

set_option linter.unusedSimpArgs false
set_option linter.unusedSectionVars false
set_option linter.unusedVariables false

namespace Scc.Peek

variable {K V : Type} [DecidableEq K]

/-! ## C21: a slot somebody may look at is not recycled -/

theorem refs_mono {hp : K → Nat} {s s' : St K V} (h : Step hp s s') {r : Nat} {x : Nat × Nat × K × V}
    (hx : x ∈ s.refs r) : x ∈ s'.refs r := by
  cases h with
  | @sMatch q k b bm i v =>
    show x ∈ upd1 s.refs q ((b, i, k, v) :: s.refs q) r
    unfold upd1; split
    · rename_i h; subst h; exact List.mem_cons_of_mem _ hx
    · exact hx
  | @iYield q b c rm i k v =>
    show x ∈ upd1 s.refs q ((b, i, k, v) :: s.refs q) r
    unfold upd1; split
    · rename_i h; subst h; exact List.mem_cons_of_mem _ hx
    · exact hx
  | _ => exact hx

/-- C21. A reference that reader `r` obtained stays valid and unchanged while the guard is alive. -/
theorem c21_ref_valid {hp : K → Nat} {s s' : St K V} (hr : Reachable hp s) {r b i : Nat} {k : K} {v : V}
    (hx : (b, i, k, v) ∈ s.refs r) (hs : Steps hp s s') (ha : (s'.rd r).alive = true) :
    s'.cell b i = some (k, v) := by
  have hr' : Reachable hp s' ∧ (b, i, k, v) ∈ s'.refs r := by
    clear ha
    induction hs with
    | refl => exact ⟨hr, hx⟩
    | tail _ h2 ih => exact ⟨.step ih.1 h2, refs_mono h2 ih.2⟩
  exact (((reachable_inv hr'.1).rdOk r).refs ha b i (k, v) hr'.2).1

/-- C21. Every slot `search_data_block` or `next_entry` is about to look into holds an entry. -/
theorem c21_candidate_valid {hp : K → Nat} {s : St K V} (hr : Reachable hp s) {r b : Nat} {k : K} {bm : Nat → Bool}
    (h : s.rd r = .sCell k b bm) {i : Nat} (hi : bm i = true) : ∃ e, s.cell b i = some e := by
  have := ((reachable_inv hr).rdOk r).pc
  rw [h] at this
  obtain ⟨e, he⟩ := this i hi
  exact ⟨e, he.1⟩

/-- C21. The same for an iterator. -/
theorem c21_iter_valid {hp : K → Nat} {s : St K V} (hr : Reachable hp s) {r b c : Nat} {rm : Nat → Bool}
    (h : s.rd r = .iOcc b c rm) {i : Nat} (hi : s.occ b i = true) : ∃ e, s.cell b i = some e :=
  (reachable_inv hr).cellOk b i hi

/-- C21. A slot is written to or dropped only if no living guard has a reference to it. -/
theorem c21_no_recycle {hp : K → Nat} {s s' : St K V} (hr : Reachable hp s) (hs : Step hp s s') {r b i : Nat} {k : K} {v : V}
    (ha : (s.rd r).alive = true) (hx : (b, i, k, v) ∈ s.refs r) : s'.cell b i = s.cell b i := by
  have hi := reachable_inv hr
  have hk := (hi.rdOk r).refs ha b i (k, v) hx
  rw [hk.step hi hs, hk.1]

/-! ## C19: what a reader returns -/

/-- C19. A value that `peek` returns was stored for the key at some moment during the call. -/
theorem c19_some {hp : K → Nat} {r : Nat} {σ} {s : St K V} (h : Call hp r σ s) {k k' : K} {v : V} {b i : Nat}
    (hd : s.rd r = .sDone k (some (b, i, k', v))) : k' = k ∧ ∃ t, t ∈ σ ∧ t.stored k v := by
  have := call_seen h
  rw [hd] at this
  obtain ⟨h1, t, h2, h3, h4⟩ := this
  exact ⟨h1, t, h2, b, i, h3, h4⟩

/-- C19. The same for an entry an iterator yields. -/
theorem c19_iter {hp : K → Nat} {r : Nat} {σ} {s s' : St K V} (h : Call hp r σ s) (hs : Step hp s s') {b i : Nat}
    (hn : s.rd r ≠ .iHeld b i) (hd : s'.rd r = .iHeld b i) :
    ∃ k v, s'.refs r = (b, i, k, v) :: s.refs r ∧ ∃ t, t ∈ σ ∧ t.stored k v := by
  have hi := reachable_inv h.reachable
  have hseen := call_seen h
  have hb := h.busy
  have hm := h.mem
  cases hs with
  | @iYield q b' c rm i' k v g g1 g2 g3 g4 g5 g6 =>
    have hr : r = q := by
      by_cases hr : r = q
      · exact hr
      · exfalso
        apply hn
        simpa [St.setRd, St.addRef, upd1, hr] using hd
    subst hr
    simp only [St.setRd, St.addRef, upd1, if_pos, RPC.iHeld.injEq] at hd
    obtain ⟨rfl, rfl⟩ := hd
    refine ⟨k, v, by simp [St.setRd, St.addRef, upd1], ?_⟩
    rw [g] at hseen
    cases hrem : s.rem b' i' with
    | true =>
      obtain ⟨e, h6, t, h7, h8, h9⟩ := hseen i' g4 hrem g3
      rw [g6] at h6
      injection h6 with h6; subst h6
      exact ⟨t, h7, b', i', h8, h9⟩
    | false => exact ⟨s, hm, b', i', ⟨g3, hrem⟩, g6⟩
  | @sMatch q k b' bm i' v g g1 g2 g3 g4 =>
    exfalso
    by_cases hr : r = q
    · subst hr; simp [St.setRd, St.addRef, upd1] at hd
    · apply hn
      simpa [St.setRd, St.addRef, upd1, hr] using hd
  | _ => first
    | exact absurd hd hn
    | (exfalso
       revert hd
       exact rd_set (fun p => p ≠ .iHeld b i) hn (fun _ h => by cases h))

/-- C19. If `peek` returns nothing, there was a moment during the call when the key was not there (not yet
completely inserted, or removed or moved, or its removal had begun), or another thread was replacing its
value with `update`. -/
theorem c19_none {hp : K → Nat} {r : Nat} {σ} {s : St K V} (h : Call hp r σ s) {k : K}
    (hd : s.rd r = .sDone k none) : ∃ t, t ∈ σ ∧ (k ∉ t.must ∨ Updating t.w k) := by
  apply Classical.byContradiction
  intro hn
  have := call_ahead (k := k) h (fun t ht => by
    constructor
    · exact Classical.byContradiction (fun h => hn ⟨t, ht, .inl h⟩)
    · exact fun h => hn ⟨t, ht, .inr h⟩)
  rw [hd] at this
  exact this rfl

/-- C19 as stated: when writers only insert, remove or relocate. -/
theorem c19_none_no_update {hp : K → Nat} {r : Nat} {σ} {s : St K V} (h : Call hp r σ s) {k : K}
    (hd : s.rd r = .sDone k none) (hu : ∀ t, t ∈ σ → ¬ Updating t.w k) : ∃ t, t ∈ σ ∧ k ∉ t.must := by
  obtain ⟨t, h1, h2⟩ := c19_none h hd
  rcases h2 with h2 | h2
  · exact ⟨t, h1, h2⟩
  · exact absurd h2 (hu t h1)

/-- A key in `must` is stored, and between operations `must` is exactly the set of stored keys. -/
theorem must_stored {hp : K → Nat} {s : St K V} (hr : Reachable hp s) {k : K} (hk : k ∈ s.must) :
    ∃ v, s.stored k v := by
  obtain ⟨b, i, v, h1, _⟩ := (reachable_inv hr).mustSlot k hk
  exact ⟨v, b, i, h1.2.1, h1.2.2.1⟩

theorem stored_must {hp : K → Nat} {s : St K V} (hr : Reachable hp s) (hw : s.w = .idle) {k : K} {v : V}
    (hk : s.stored k v) : k ∈ s.must := by
  obtain ⟨b, i, h1, h2⟩ := hk
  rcases (reachable_inv hr).liveMust k b i v h1 h2 with h3 | h3
  · exact h3
  · rw [hw] at h3; cases h3

/-- Between operations a key is stored at most once. -/
theorem stored_unique {hp : K → Nat} {s : St K V} (hr : Reachable hp s) (hw : s.w = .idle) {k : K} {v v' : V}
    (h : s.stored k v) (h' : s.stored k v') : v = v' := by
  obtain ⟨b, i, h1, h2⟩ := h
  obtain ⟨b', i', h3, h4⟩ := h'
  rcases (reachable_inv hr).uniq k b i v b' i' v' h1 h2 h3 h4 with h5 | h5
  · injection h5 with h5 h6
    subst h5 h6
    rw [h2] at h4
    injection h4 with h4; injection h4
  · rw [hw] at h5; cases h5

/-! ## Executions for witnesses -/

section Witness

theorem setRd_setRd (s : St K V) (r : Nat) (p q : RPC K V) : (s.setRd r p).setRd r q = s.setRd r q := by
  simp only [St.setRd]
  congr 1
  funext x
  simp only [upd1]
  split <;> rfl

/-- A call, with a property of all its states. -/
def CallP (P : St K V → Prop) (hp : K → Nat) (r : Nat) (s : St K V) : Prop :=
  ∃ σ, Call hp r σ s ∧ ∀ t, t ∈ σ → P t

theorem CallP.start {P : St K V → Prop} {hp : K → Nat} {r : Nat} {s s' : St K V} (h1 : Reachable hp s)
    (h2 : Between (s.rd r)) (h3 : Step hp s s') (h4 : ¬ Between (s'.rd r)) (h5 : P s') : CallP P hp r s' :=
  ⟨_, .start h1 h2 h3 h4, fun t ht => by
    rcases List.mem_cons.1 ht with rfl | ht
    · exact h5
    · cases ht⟩

theorem CallP.step {P : St K V → Prop} {hp : K → Nat} {r : Nat} {s s' : St K V} (h1 : CallP P hp r s)
    (h3 : Step hp s s') (h4 : ¬ Between (s'.rd r)) (h5 : P s') : CallP P hp r s' := by
  obtain ⟨σ, h1, h2⟩ := h1
  exact ⟨_, .step h1 h3 h4, fun t ht => by
    rcases List.mem_cons.1 ht with rfl | ht
    · exact h5
    · exact h2 t ht⟩

/-- Reading the partial hashes when there is no candidate. -/
theorem hash_loop {hp : K → Nat} {P : St K V → Prop} {r : Nat} {k : K} {b : Nat} (n : Nat) :
    ∀ (j : Nat) (bm : Nat → Bool) (s : St K V), j + n = blkLen b →
    CallP P hp r (s.setRd r (.sHash k b bm j)) → (∀ i, bm i = false) → (∀ p, P (s.setRd r p)) →
    CallP P hp r (s.setRd r (.sNext k b)) := by
  have self : ∀ (s : St K V) p, (s.setRd r p).rd r = p := fun s p => by simp [St.setRd, upd1]
  induction n with
  | zero =>
    intro j bm s hj hc hb hP
    have c1 := hc.step (.sHashEnd (self _ _) (by omega)) (by rw [self]; exact id) (by rw [setRd_setRd]; exact hP _)
    rw [setRd_setRd] at c1
    have c2 := c1.step (.sNone (self _ _) (fun i _ => hb i)) (by rw [self]; exact id) (by rw [setRd_setRd]; exact hP _)
    rw [setRd_setRd] at c2
    exact c2
  | succ n ih =>
    intro j bm s hj hc hb hP
    have c1 := hc.step (.sHash (self _ _) (by omega)) (by rw [self]; exact id) (by rw [setRd_setRd]; exact hP _)
    rw [setRd_setRd] at c1
    refine ih (j + 1) _ s (by omega) c1 ?_ hP
    intro i
    split
    · exact hb i
    · simp only [upd1]; split
      · rfl
      · exact hb i

/-- Reading the partial hashes when all candidates have the one that is looked for. -/
theorem hash_keep {hp : K → Nat} {P : St K V → Prop} {r : Nat} {k : K} {b : Nat} {bm : Nat → Bool} {s : St K V} (n : Nat) :
    ∀ (j : Nat), j + n = blkLen b →
    CallP P hp r (s.setRd r (.sHash k b bm j)) → (∀ i, bm i = true → s.ph b i = hp k) → (∀ p, P (s.setRd r p)) →
    CallP P hp r (s.setRd r (.sCell k b bm)) := by
  have self : ∀ (s : St K V) p, (s.setRd r p).rd r = p := fun s p => by simp [St.setRd, upd1]
  induction n with
  | zero =>
    intro j hj hc hb hP
    have c1 := hc.step (.sHashEnd (self _ _) (by omega)) (by rw [self]; exact id) (by rw [setRd_setRd]; exact hP _)
    rw [setRd_setRd] at c1
    exact c1
  | succ n ih =>
    intro j hj hc hb hP
    have c1 := hc.step (.sHash (self _ _) (by omega)) (by rw [self]; exact id) (by rw [setRd_setRd]; exact hP _)
    rw [setRd_setRd] at c1
    have : (if (s.setRd r (.sHash k b bm j)).ph b j = hp k then bm else upd1 bm j false) = bm := by
      split
      · rfl
      · rename_i h
        funext i
        simp only [upd1]; split
        · rename_i h2
          subst h2
          cases hbi : bm i with
          | false => rfl
          | true => exact absurd (hb i hbi) h
        · rfl
    rw [this] at c1
    exact ih (j + 1) (by omega) c1 hb hP

theorem Call.all {hp : K → Nat} {r σ} {s : St K V} (h : Call hp r σ s) : ∀ t, t ∈ σ → Reachable hp t := by
  induction h with
  | start h1 _ h2 _ =>
    intro t ht
    rcases List.mem_cons.1 ht with rfl | ht
    · exact .step h1 h2
    · cases ht
  | step h1 h2 _ ih =>
    intro t ht
    rcases List.mem_cons.1 ht with rfl | ht
    · exact .step h1.reachable h2
    · exact ih t ht

/-- A reachable bucket with one entry `(1, 10)` and one guard. -/
def one : St Nat Nat :=
  { (St.init : St Nat Nat) with
    len := 1, occ := upd2 (fun _ _ => false) 0 0 true, ph := upd2 (fun _ _ => 0) 0 0 7,
    cell := upd2 (fun _ _ => none) 0 0 (some (1, 10)), rd := upd1 (fun _ => .new) 0 .free, must := [1] }

theorem one_reachable : Reachable (fun _ => 7) one := by
  have r0 : Reachable (K := Nat) (V := Nat) (fun _ => 7) St.init := .init
  have r1 := r0.step (.guard (r := 0) rfl)
  have r2 := r1.step (.insert (k := 1) (v := 10) (b := 0) (i := 0) rfl rfl
    (fun v ⟨b, i, h, _⟩ => (by simp [St.init, St.live, St.setRd] at h)) (.refl 0) (by decide) rfl)
  have r3 := r2.step (.insHash rfl)
  have r4 := r3.step (.insOcc rfl)
  have r5 := r4.step (.insLen rfl)
  exact r5

theorem not_stored_of {s : St Nat Nat} {k : Nat} (h : ∀ b i v, s.cell b i ≠ some (k, v)) :
    ∀ v, ¬ s.stored k v := fun v ⟨b, i, _, h1⟩ => h b i v h1

end Witness

/-! ## C20: an update can hide a key -/

/-- C20 does not hold: `peek` of a key that is stored from beginning to end returns nothing. The reader has
loaded the bitmap when the update writes the new copy, and reads the partial hash of the old copy after
`mark_removed` has replaced it with the epoch (bucket.rs 230-232, 240-242; 699-708). -/
theorem c20_missed_update : ∃ (σ : List (St Nat Nat)) (s : St Nat Nat), Call (fun _ => 7) 0 σ s ∧
    s.rd 0 = .sDone 1 none ∧ ∀ t, t ∈ σ → ∃ v, t.stored 1 v := by
  have self : ∀ (s : St Nat Nat) p, (s.setRd 0 p).rd 0 = p := fun s p => by simp [St.setRd, upd1]
  have m : (1 : Nat) ∈ [1] := List.mem_cons_self
  have c1 := CallP.start (P := fun t => 1 ∈ t.must) one_reachable (r := 0) (by exact trivial)
    (.sStart (r := 0) 1 rfl) (by exact id) m
  have c2 := c1.step (.sLen (self _ _) (by decide)) (by exact id) m
  have c3 := c2.step (.sRem (self _ _)) (by exact id) m
  have c4 := c3.step (.sOcc (self _ _)) (by exact id) m
  have c5 := c4.step (.update (k := 1) (v := 20) (b := 0) (i := 1) (b' := 0) (i' := 0) (v' := 10) rfl rfl
    ⟨rfl, rfl⟩ rfl (.refl 0) (by decide) rfl) (by exact id) m
  have c6 := c5.step (.insHash rfl) (by exact id) m
  have c7 := c6.step (.insOcc rfl) (by exact id) m
  have c8 := c7.step (.updLen rfl) (by exact id) m
  have c9 := c8.step (.rmLen rfl) (by exact id) m
  have c10 := c9.step (.rmHash 5 rfl) (by exact id) m
  have c11 := c10.step (.sHash (r := 0) rfl (by decide)) (by exact id) m
  have c12 := hash_loop 31 1 _ _ (by decide) c11
    (fun i => by
      by_cases h : i = 0
      · subst h; rfl
      · simp [h, upd1, upd2, one, St.setRd, St.init])
    (fun p => m)
  have c13 := c12.step (.sEnd (self _ _) rfl) (by exact id) m
  obtain ⟨σ, h1, h2⟩ := c13
  exact ⟨σ, _, h1, self _ _, fun t ht => must_stored (h1.all t ht) (h2 t ht)⟩

/-- What holds instead: nothing is returned only if an update of the key (or its insertion, removal or move)
was in progress at some moment during the call. -/
theorem c20_only_update_partial {hp : K → Nat} {r : Nat} {σ} {s : St K V} (h : Call hp r σ s) {k : K}
    (hd : s.rd r = .sDone k none) (hm : ∀ t, t ∈ σ → k ∈ t.must) : ∃ t, t ∈ σ ∧ Updating t.w k := by
  obtain ⟨t, h1, h2⟩ := c19_none h hd
  rcases h2 with h2 | h2
  · exact absurd (hm t h1) h2
  · exact ⟨t, h1, h2⟩

/-- And a value that is returned is the old or the new one: it was stored during the call. -/
theorem c20_old_or_new_partial {hp : K → Nat} {r : Nat} {σ} {s : St K V} (h : Call hp r σ s) {k k' : K} {v : V} {b i : Nat}
    (hd : s.rd r = .sDone k (some (b, i, k', v))) : ∃ t, t ∈ σ ∧ t.stored k v := (c19_some h hd).2

/-! ## C46: a key that was seen can disappear without being removed -/

/-- Key `2` was inserted and removed again while reader 0 was between its load of the length and its load of
the bitmaps; key `1` is being inserted, and only the store of the length is missing. -/
def half : St Nat Nat :=
  { (St.init : St Nat Nat) with
    len := 0, occ := upd2 (upd2 (fun _ _ => false) 0 0 true) 0 1 true, rem := upd2 (fun _ _ => false) 0 0 true,
    ph := upd2 (upd2 (upd2 (fun _ _ => 0) 0 0 7) 0 0 5) 0 1 7,
    cell := upd2 (upd2 (fun _ _ => none) 0 0 (some (2, 20))) 0 1 (some (1, 10)),
    pin := upd2 (fun _ _ _ => false) 0 0
      (fun r => (upd1 (upd1 (upd1 (upd1 (fun _ => .new) 0 .free) 1 .free) 0 (.sLen 1)) 0 (.sRem 1 0) r : RPC Nat Nat).alive)
    rd := upd1 (upd1 (upd1 (upd1 (fun _ => .new) 0 .free) 1 .free) 0 (.sLen 1)) 0 (.sRem 1 0),
    w := .insLen 1 0 1 none }

theorem half_call : CallP (fun _ => True) (fun _ => 7) 0 half := by
  have r0 : Reachable (K := Nat) (V := Nat) (fun _ => 7) St.init := .init
  have r1 := r0.step (.insert (k := 2) (v := 20) (b := 0) (i := 0) rfl rfl
    (fun v ⟨b, i, h, _⟩ => (by simp [St.init, St.live, St.setRd] at h)) (.refl 0) (by decide) rfl)
  have r2 := r1.step (.insHash rfl)
  have r3 := r2.step (.insOcc rfl)
  have r4 := r3.step (.insLen rfl)
  have r5 := r4.step (.guard (r := 0) rfl)
  have r6 := r5.step (.guard (r := 1) rfl)
  have c1 := CallP.start (P := fun t => True) r6 (r := 0) (by exact trivial) (.sStart (r := 0) 1 rfl) (by exact id) trivial
  have c2 := c1.step (.sLen (r := 0) (k := 1) rfl (by decide)) (by exact id) trivial
  have c3 := c2.step (.remove (k := 2) (v := 20) (b := 0) (i := 0) rfl rfl ⟨rfl, rfl⟩ rfl) (by exact id) trivial
  have c4 := c3.step (.rmHash 5 rfl) (by exact id) trivial
  have c5 := c4.step (.rmRem rfl) (by exact id) trivial
  have c6 := c5.step (.insert (k := 1) (v := 10) (b := 0) (i := 1) rfl rfl
    (not_stored_of (fun b i v => by
      simp only [St.setRd, upd2, St.init]
      split <;> simp)) (.refl 0) (by decide) rfl) (by exact id) trivial
  have c7 := c6.step (.insHash rfl) (by exact id) trivial
  have c8 := c7.step (.insOcc rfl) (by exact id) trivial
  exact c8

/-- C46 does not hold: one `peek` returns the value of a key, a `peek` that begins after it returned finds
nothing, and the key is stored all the time and nobody removes it: the insertion that stored it is still
in progress (`insert` makes the entry visible before it stores the length, bucket.rs 456-459, 170; `search_entry`
looks at the length first, 620). -/
theorem c46_inversion : ∃ (σ₁ σ₂ : List (St Nat Nat)) (s₁ s₂ : St Nat Nat),
    Call (fun _ => 7) 0 σ₁ s₁ ∧ s₁.rd 0 = .sDone 1 (some (0, 1, 1, 10)) ∧
    Call (fun _ => 7) 1 σ₂ s₂ ∧ s₂.rd 1 = .sDone 1 none ∧
    ∀ t, t ∈ σ₂ → Steps (fun _ => 7) s₁ t ∧ t.stored 1 10 ∧ t.w = .insLen 1 0 1 none := by
  have self : ∀ (s : St Nat Nat) p, (s.setRd 0 p).rd 0 = p := fun s p => by simp [St.setRd, upd1]
  have c1 := half_call.step (.sRem (r := 0) (k := 1) (b := 0) rfl) (by exact id) trivial
  have c2 := c1.step (.sOcc (r := 0) (self _ _)) (by exact id) trivial
  have c3 := hash_keep 32 0 (by decide) c2 (fun i hi => by
    simp only [half, St.setRd, St.init, upd2, Bool.and_eq_true, Bool.not_eq_true'] at hi
    by_cases h1 : i = 1
    · subst h1; rfl
    · by_cases h0 : i = 0
      · subst h0; simp at hi
      · simp [h0, h1] at hi) (fun _ => trivial)
  have c4 := c3.step (.sMatch (r := 0) (i := 1) (v := 10) (self _ _) rfl (by decide)
    (fun j hj => by
      have : j = 0 := by omega
      subst this; rfl) rfl) (by exact id) trivial
  obtain ⟨σ₁, d1, _⟩ := c4
  have e1 := CallP.start (P := fun t => Steps (fun _ => 7) _ t ∧ t.stored 1 10 ∧ t.w = .insLen 1 0 1 none)
    d1.reachable (r := 1) (by exact trivial) (.sStart (r := 1) 1 rfl) (by exact id)
    ⟨.tail (.refl _) (.sStart (r := 1) 1 rfl), ⟨0, 1, ⟨rfl, rfl⟩, rfl⟩, rfl⟩
  have e2 := e1.step (.sLenZero (r := 1) (k := 1) rfl rfl) (by exact id)
    ⟨.tail (.tail (.refl _) (.sStart (r := 1) 1 rfl)) (.sLenZero (r := 1) (k := 1) rfl rfl),
      ⟨0, 1, ⟨rfl, rfl⟩, rfl⟩, rfl⟩
  obtain ⟨σ₂, d2, d3⟩ := e2
  exact ⟨σ₁, σ₂, _, _, d1, rfl, d2, rfl, d3⟩

/-- Beside `c19_some`: a call that returns a value. -/
example : ∃ (σ : List (St Nat Nat)) (s : St Nat Nat), Call (fun _ => 7) 0 σ s ∧
    s.rd 0 = .sDone 1 (some (0, 1, 1, 10)) :=
  let ⟨σ, _, s, _, h, h', _⟩ := c46_inversion
  ⟨σ, s, h, h'⟩

/-- Beside `c21_ref_valid`: a reader with a reference. -/
example : ∃ (s : St Nat Nat), Reachable (fun _ => 7) s ∧ (s.rd 0).alive = true ∧ (0, 0, 1, 10) ∈ s.refs 0 := by
  have self : ∀ (s : St Nat Nat) p, (s.setRd 0 p).rd 0 = p := fun s p => by simp [St.setRd, upd1]
  have r0 := one_reachable
  have r1 := r0.step (.iStart (r := 0) rfl)
  have r2 := r1.step (.iRem (self _ _))
  have r3 := r2.step (.iYield (i := 0) (k := 1) (v := 10) (self _ _) (Nat.le_refl 0) (by decide) rfl rfl
    (fun j _ h => by omega) rfl)
  exact ⟨_, r3, rfl, List.mem_cons_self⟩

end Scc.Peek
