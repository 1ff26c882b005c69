import Verif.Gc.Safe

/-!
# Executions in which a bucket array is freed while it is in use
-/

namespace Scc.Gc

/-- A generation is three epochs long. -/
def gen (e g : Nat) : Bool := decide (g < e + 3)

theorem gen_generation : Generation gen := by
  intro e g _ h; simp [gen] at h; omega

/-- A generation of two epochs. -/
def shortGen (e g : Nat) : Bool := decide (g < e + 2)

/-- An array was created, found empty and retired by thread 0 in epoch 0, and thread 0 has gone. -/
theorem retired_once (same : Nat → Nat → Bool) (reuse redo : Bool) :
    ∃ s, Reach same reuse redo s ∧ s.epoch = 0 ∧ s.root = none ∧ s.next = 1 ∧ s.chain = some 0 ∧
      s.stamp = some 0 ∧ (∀ i, s.linked i = none) ∧ s.addr 0 = 0 ∧ (∀ t, s.guard t = none) ∧
      (∀ t i, s.holds t i = false) ∧ (∀ t, s.pc t = .idle) ∧ (∀ i, s.rehashed i = false) ∧ s.freed = [] := by
  have r0 := Reach.init (same := same) (reuse := reuse) (redo := redo)
  have r1 := r0.step (.enter 0 rfl)
  have r2 := r1.step (.create 0 0 (by decide) rfl ⟨by intro i h; exact absurd h (Nat.not_lt_zero i),
    by intro _ t k h e; simp [St.init] at e⟩)
  have r3 := r2.step (.clear 0 0 (by decide) rfl rfl rfl)
  have r4 := r3.step (.loadNull 0 (some 0) rfl rfl)
  have r5 := r4.step (.stamp 0 0 0 rfl rfl)
  have r6 := r5.step (.swapNone 0 0 rfl rfl)
  have r7 := r6.step (.leave 0 rfl)
  refine ⟨_, r7, rfl, rfl, rfl, rfl, rfl, ?_, rfl, ?_, ?_, ?_, fun _ => rfl, rfl⟩
  · intro i; by_cases h : i = 0 <;> simp [upd, St.init, h]
  · intro t; by_cases h : t = 0 <;> simp [upd, St.init, h]
  · intro t i; by_cases h : t = 0 <;> simp [upd, St.init, h]
  · intro t; by_cases h : t = 0 <;> simp [upd, St.init, h]

/-- Epochs pass while no thread has a guard. -/
theorem Reach.epochs {same : Nat → Nat → Bool} {reuse redo : Bool} {s : St} (r : Reach same reuse redo s)
    (h : ∀ t, s.guard t = none) : ∀ n, Reach same reuse redo { s with epoch := s.epoch + n }
  | 0 => r
  | n + 1 => (r.epochs h n).step (.advance (fun t g e => by
      have := h t
      simp only [this] at e; cases e))

/-- The hypotheses of the theorems can be met: an array is retired and freed three epochs later, and no
thread is in the middle of anything. -/
example : ∃ s, Reach gen false false s ∧ s.freed = [0] ∧ ∀ t, s.pc t = .idle := by
  obtain ⟨s, r, h1, h2, h3, h4, h5, h6, h7, h8, h9, h10, h11, h12⟩ := retired_once gen false false
  have r1 := (r.epochs h8 3).step (.enter 0 (h8 0))
  have r2 := r1.step (.reclaim 0 (by simp [upd]) (h10 0))
  have r3 := r2.step (.load 0 none 0 (by simp [upd]) h4)
  have r4 := r3.step (.checkGo 0 none 0 3 0 (by simp [upd]) (by simp [upd, h1]) h5 (by decide))
  have r5 := r4.step (.casOk 0 none 0 0 (by simp [upd]) h4 rfl)
  have r6 := r5.step (.free 0 none 0 (by simp [upd]))
  have r7 := r6.step (.freeDone 0 none (by simp [upd, h6]))
  refine ⟨_, r7, by simp [h12], fun t => ?_⟩
  by_cases h : t = 0
  · simp [upd, h, Pc.after]
  · simp [upd, h, h10]

/-- **C23 is violated** when the allocator uses an address again. Array 0 was retired three epochs ago.
Thread 1 loads `garbage_chain` and finds the epoch in the past; before its `compare_exchange`, thread 2
frees array 0, and thread 3 creates array 1 at the same address and retires it. The `compare_exchange` of
thread 1 succeeds, since it compares addresses, and array 1 is freed at once, although thread 4 is reading
it. Epoch-based reclamation would rule this out, since thread 1 has had a guard since before array 0 was
freed; but the arrays on the garbage list are freed without waiting for guards. -/
theorem c23_violated_address : ∃ s, Reach gen true false s ∧ 1 ∈ s.freed ∧ s.holds 4 1 = true ∧
    s.guard 4 ≠ none ∧ ¬ s.Sound := by
  obtain ⟨s, r, h1, h2, h3, h4, h5, h6, h7, h8, h9, h10, h11, h12⟩ := retired_once gen true false
  have r1 := (r.epochs h8 3).step (.enter 1 (h8 1))
  have r2 := r1.step (.reclaim 1 (by simp [upd]) (h10 1))
  have r3 := r2.step (.load 1 none 0 (by simp [upd]) h4)
  have r4 := r3.step (.checkGo 1 none 0 3 0 (by simp [upd]) (by simp [upd, h1]) h5 (by decide))
  -- thread 2 frees array 0
  have r5 := r4.step (.enter 2 (by simp [upd, h8]))
  have r6 := r5.step (.reclaim 2 (by simp [upd]) (by simp [upd, h10]))
  have r7 := r6.step (.load 2 none 0 (by simp [upd]) h4)
  have r8 := r7.step (.checkGo 2 none 0 3 0 (by simp [upd]) (by simp [upd, h1]) h5 (by decide))
  have r9 := r8.step (.casOk 2 none 0 0 (by simp [upd]) h4 rfl)
  have r10 := r9.step (.free 2 none 0 (by simp [upd]))
  have r11 := r10.step (.freeDone 2 none (by simp [upd, h6]))
  -- thread 3 creates array 1, thread 4 reads it, thread 3 retires it
  have r12 := r11.step (.enter 3 (by simp [upd, h8]))
  have r13 := r12.step (.create 3 0 (by simp [upd]) h2 ⟨by
    intro i hi hf
    have : i = 0 := Nat.lt_one_iff.1 (by simpa [h3] using hi)
    subst this; simp at hf, by simp⟩)
  have r14 := r13.step (.enter 4 (by simp [upd, h8]))
  have r15 := r14.step (.see 4 1 (by simp [upd]) (by simp [h3]))
  have r16 := r15.step (.clear 3 1 (by simp [upd]) (by simp [upd, h10]) (by simp [h3]) (by simp [upd, h3]))
  have r17 := r16.step (.loadNull 3 (some 1) (by simp [upd]) rfl)
  have r18 := r17.step (.stamp 3 1 3 (by simp [upd, Pc.after]) (by simp [upd, h1]))
  have r19 := r18.step (.swapNone 3 1 (by simp [upd]) rfl)
  -- thread 1 goes on
  have r20 := r19.step (.casOk 1 none 0 1 (by simp [upd]) rfl (by simp [upd, h3, h7]))
  have r21 := r20.step (.free 1 none 1 (by simp [upd]))
  refine ⟨_, r21, by simp, by simp [upd], by simp [upd], fun q => ?_⟩
  have := (q.2 1 (by simp)).2 4
  simp [upd] at this

/-- **C23 is violated** even if no address is used again. Array 0 was retired when the table was empty.
Thread 1 loads `garbage_chain` and finds the epoch in the past. Thread 0, whose guard is one epoch older and
which therefore does not free anything, creates array 1, which thread 2 starts to read, and retires it;
array 0 is now linked to array 1 on the garbage list. To thread 2 it looks as if array 1 were still to be
filled from array 0: it "finishes" the rehash, unlinks array 0 and retires it again. Array 0 is at the head
of the list again, followed by array 1, and the `compare_exchange` of thread 1 succeeds: it frees both
arrays, while thread 2 is using them. -/
theorem c23_violated_again : ∃ s, Reach gen false true s ∧ 0 ∈ s.freed ∧ 1 ∈ s.freed ∧
    s.holds 2 0 = true ∧ s.holds 2 1 = true ∧ s.guard 2 ≠ none ∧ ¬ s.Sound := by
  obtain ⟨s, r, h1, h2, h3, h4, h5, h6, h7, h8, h9, h10, h11, h12⟩ := retired_once gen false true
  have r1 := (r.epochs h8 2).step (.enter 0 (h8 0))
  have r2 := r1.step (.advance (by
    intro t g e
    by_cases c : t = 0
    · simp [upd, c] at e; exact e.symm
    · simp [upd, c, h8] at e))
  have r3 := r2.step (.enter 1 (by simp [upd, h8]))
  have r4 := r3.step (.reclaim 1 (by simp [upd]) (by simp [h10]))
  have r5 := r4.step (.load 1 none 0 (by simp [upd]) h4)
  have r6 := r5.step (.checkGo 1 none 0 3 0 (by simp [upd]) (by simp [upd, h1]) h5 (by decide))
  -- thread 0 creates array 1, thread 2 reads it, thread 0 retires it
  have r7 := r6.step (.create 0 1 (by simp [upd]) h2 ⟨by
    intro i hi hf
    have : i = 0 := Nat.lt_one_iff.1 (by simpa [h3] using hi)
    subst this; simp [h7], by
    intro _ t k h e
    by_cases c : t = 1
    · simp [upd, c] at e; simp [← e.2, h7]
    · simp [upd, c, h10] at e⟩)
  have r8 := r7.step (.enter 2 (by simp [upd, h8]))
  have r9 := r8.step (.see 2 1 (by simp [upd]) (by simp [h3]))
  have r10 := r9.step (.clear 0 1 (by simp [upd]) (by simp [upd, h10]) (by simp [h3]) (by simp [upd, h3]))
  have r11 := r10.step (.load 0 (some 1) 0 (by simp [upd]) h4)
  have r12 := r11.step (.checkKeep 0 (some 1) 0 2 (by simp [upd]) (by simp [upd, h1])
    (by intro e q; simp [h5] at q; subst q; decide))
  have r13 := r12.step (.stamp 0 1 2 (by simp [upd, Pc.after]) (by simp [upd, h1]))
  have r14 := r13.step (.swap 0 1 0 (by simp [upd]) h4)
  have r15 := r14.step (.link 0 1 0 (by simp [upd]))
  -- thread 2 follows the link and retires array 0 again
  have r16 := r15.step (.follow 2 1 0 (by simp [upd]) (by simp [upd]) (by simp [upd]))
  have r17 := r16.step (.detach 2 1 0 (by simp [upd]) (by simp [upd, h10]) (by simp [upd]) (h11 0)
    (.inr ⟨rfl, by simp [upd]⟩))
  have r18 := r17.step (.load 2 (some 0) 1 (by simp [upd]) rfl)
  have r19 := r18.step (.checkKeep 2 (some 0) 1 3 (by simp [upd]) (by simp [upd, h1])
    (by intro e q; simp at q; subst q; decide))
  have r20 := r19.step (.stamp 2 0 3 (by simp [upd, Pc.after]) (by simp [upd, h1]))
  have r21 := r20.step (.swap 2 0 1 (by simp [upd]) rfl)
  have r22 := r21.step (.link 2 0 1 (by simp [upd]))
  -- thread 1 goes on
  have r23 := r22.step (.casOk 1 none 0 0 (by simp [upd]) rfl rfl)
  have r24 := r23.step (.free 1 none 0 (by simp [upd]))
  have r25 := r24.step (.free 1 none 1 (by simp [upd]))
  refine ⟨_, r25, by simp, by simp, by simp [upd], by simp [upd], by simp [upd], fun q => ?_⟩
  have := (q.2 1 (by simp)).2 2
  simp [upd] at this

/-- The contract of `in_same_generation` is needed: if a generation were two epochs long, an array could be
freed while it is in use even without any comeback. -/
theorem c23_generation_needed : ∃ s, Reach shortGen false false s ∧ ¬ s.Sound := by
  have r0 := Reach.init (same := shortGen) (reuse := false) (redo := false)
  have r1 := r0.step (.enter 0 rfl)
  have r2 := r1.step (.create 0 0 (by decide) rfl ⟨by intro i h; exact absurd h (Nat.not_lt_zero i),
    by intro _ t k h e; simp [St.init] at e⟩)
  have r3 := r2.step (.advance (by
    intro t g e
    by_cases c : t = 0
    · simp [upd, c, St.init] at e; simp [St.init, ← e]
    · simp [upd, c, St.init] at e))
  have r4 := r3.step (.enter 1 (by simp [upd, St.init]))
  have r5 := r4.step (.see 1 0 (by simp [upd]) (by simp [St.init]))
  have r6 := r5.step (.clear 0 0 (by simp [upd]) (by simp [St.init]) (by simp [St.init]) (by simp [upd, St.init]))
  have r7 := r6.step (.loadNull 0 (some 0) (by simp [upd]) rfl)
  have r8 := r7.step (.stamp 0 0 0 (by simp [upd, Pc.after]) (by simp [upd, St.init]))
  have r9 := r8.step (.swapNone 0 0 (by simp [upd]) rfl)
  have r10 := r9.step (.leave 0 (by simp [upd]))
  have r11 := r10.step (.advance (by
    intro t g e
    by_cases c : t = 0
    · simp [upd, c] at e
    · by_cases d : t = 1
      · simp [upd, d, St.init] at e; simp [St.init, ← e]
      · simp [upd, c, d, St.init] at e))
  have r12 := r11.step (.enter 2 (by simp [upd, St.init]))
  have r13 := r12.step (.reclaim 2 (by simp [upd]) (by simp [upd, St.init]))
  have r14 := r13.step (.load 2 none 0 (by simp [upd]) rfl)
  have r15 := r14.step (.checkGo 2 none 0 2 0 (by simp [upd]) (by simp [upd, St.init]) rfl (by decide))
  have r16 := r15.step (.casOk 2 none 0 0 (by simp [upd]) rfl rfl)
  have r17 := r16.step (.free 2 none 0 (by simp [upd]))
  refine ⟨_, r17, fun q => ?_⟩
  have := (q.2 0 (by simp)).2 1
  simp [upd] at this

end Scc.Gc
