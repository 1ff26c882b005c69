import Verif.Async.Props

/-!
# C59: accesses to freed memory and beyond the end of arrays

Three executions the code allows. Arrays are named by their addresses.
-/

namespace Scc.Async

theorem lt2 {P : Nat → Prop} (h0 : P 0) (h1 : P 1) : ∀ j, j < 2 ^ 1 → P j := by
  intro j hj
  match j, hj with
  | 0, _ => exact h0
  | 1, _ => exact h1
  | j + 2, h => exact absurd h (by omega)

theorem lt4 {P : Nat → Prop} (h0 : P 0) (h1 : P 1) (h2 : P 2) (h3 : P 3) : ∀ j, j < 2 ^ 2 → P j := by
  intro j hj
  match j, hj with
  | 0, _ => exact h0
  | 1, _ => exact h1
  | 2, _ => exact h2
  | 3, _ => exact h3
  | j + 4, h => exact absurd h (by omega)

/-- An array of two buckets is being replaced by one of four. A call with a key helps and is suspended, which costs it
its guard; meanwhile both old buckets are killed by others. It unlinks the old array. Now others replace the new array
by a third one, relocate all its buckets, and free it. The call evaluates `current_array.bucket_index(hash)`. Even with
suspension nowhere else, and no address used twice. -/
theorem c59_point_violated : ¬ Safe (.point 0) ⟨true, false, false, false⟩ := by
  intro hs
  have r := Reach.init (kd := .point 0) (m := ⟨true, false, false, false⟩) (i := 0) (prev := 0)
  have r := r.step (.create (q := 0) (lg := 1) rfl rfl (by simp [St.init]) (by decide))
  have r := r.step (.resize (p := 0) (q := 1) (lg := 2) rfl rfl rfl rfl (by simp [St.alloc, St.init]) (by decide))
  have r := r.step (.load rfl rfl rfl)
  have r := r.step (.testSome (o := 0) rfl rfl rfl)
  have r := r.step (.rehSome rfl rfl rfl)
  have r := r.step (.rehStart (j := 0) (e := 2) rfl rfl rfl (by decide))
  have r := r.step (.rehSuspend rfl (by decide) rfl (by decide) rfl rfl)
  have r := r.step (.kill (j := 0) (o := 0) rfl rfl rfl rfl (by decide))
  have r := r.step (.kill (j := 1) (o := 0) rfl rfl rfl rfl (by decide))
  have r := r.step (.rehDead rfl (by decide) rfl (by decide) rfl)
  have r := r.step (.rehFinish rfl (by decide) rfl rfl rfl (lt2 rfl rfl))
  have r := r.step (.resize (p := 1) (q := 2) (lg := 3) rfl rfl rfl rfl (by intro h; cases h) (by decide))
  have r := r.step (.kill (j := 0) (o := 1) rfl rfl rfl rfl (by decide))
  have r := r.step (.kill (j := 1) (o := 1) rfl rfl rfl rfl (by decide))
  have r := r.step (.kill (j := 2) (o := 1) rfl rfl rfl rfl (by decide))
  have r := r.step (.kill (j := 3) (o := 1) rfl rfl rfl rfl (by decide))
  have r := r.step (.retire (p := 2) (o := 1) rfl rfl rfl rfl (lt4 rfl rfl rfl rfl) (by decide))
  have r := r.step (.free (q := 1) rfl rfl rfl)
  have r := r.step (.rehGuard rfl)
  obtain ⟨A, hA, _⟩ := hs _ _ _ r (1, none) (by decide)
  cases hA

/-- A traversal that reads waits for a bucket. Others replace the array, kill the bucket, and free the array. The
traversal evaluates `current_array.len()`. Even with suspension nowhere else, and no address used twice. -/
theorem c59_reader_violated : ¬ Safe .reader ⟨false, false, true, false⟩ := by
  intro hs
  have r := Reach.init (kd := .reader) (m := ⟨false, false, true, false⟩) (i := 0) (prev := 0)
  have r := r.step (.create (q := 0) (lg := 1) rfl rfl (by simp [St.init]) (by decide))
  have r := r.step (.load rfl rfl rfl)
  have r := r.step (.testNone rfl rfl rfl)
  have r := r.step (.lockSuspend rfl rfl (by decide) rfl rfl)
  have r := r.step (.resize (p := 0) (q := 1) (lg := 2) rfl rfl rfl rfl (by intro h; cases h) (by decide))
  have r := r.step (.kill (j := 0) (o := 0) rfl rfl rfl rfl (by decide))
  have r := r.step (.kill (j := 1) (o := 0) rfl rfl rfl rfl (by decide))
  have r := r.step (.retire (p := 1) (o := 0) rfl rfl rfl rfl (lt2 rfl rfl) (by decide))
  have r := r.step (.free (q := 0) rfl rfl rfl)
  obtain ⟨A, hA, _⟩ := hs _ _ _ r (0, none) (by decide)
  cases hA

/-- A traversal that writes is at bucket 2 of an array of four buckets, helps rehashing, and loses its guard. The array
is replaced by one of eight buckets and freed; that one is replaced by one of two buckets, which gets the address of
the freed one. `check_ref` finds the address it expects, and the index of the old array is used with the new one:
bucket 8 of eight. -/
theorem c59_reuse_violated : ¬ Safe .writer ⟨true, false, false, true⟩ := by
  intro hs
  have r := Reach.init (kd := .writer) (m := ⟨true, false, false, true⟩) (i := 0) (prev := 0)
  have r := r.step (.create (q := 0) (lg := 1) rfl rfl (fun _ => rfl) (by decide))
  have r := r.step (.load rfl rfl rfl)
  have r := r.step (.testNone rfl rfl rfl)
  have r := r.step (.locked rfl rfl (by decide) rfl)
  have r := r.step (.useNext rfl rfl rfl (fun h e => by cases e))
  have r := r.step (.testNone rfl rfl rfl)
  have r := r.step (.resize (p := 0) (q := 1) (lg := 2) rfl rfl rfl rfl (fun _ => rfl) (by decide))
  have r := r.step (.kill (j := 1) (o := 0) rfl rfl rfl rfl (by decide))
  have r := r.step (.lockDead rfl rfl (by decide) rfl)
  have r := r.step (.brk (l := 2) rfl rfl)
  have r := r.step (.load rfl rfl rfl)
  have r := r.step (.testSome (o := 0) rfl rfl rfl)
  have r := r.step (.rehSome rfl rfl rfl)
  have r := r.step (.rehStart (j := 0) (e := 2) rfl rfl rfl (by decide))
  have r := r.step (.rehSuspend rfl (by decide) rfl (by decide) rfl rfl)
  have r := r.step (.kill (j := 0) (o := 0) rfl rfl rfl rfl (by decide))
  have r := r.step (.rehDead rfl (by decide) rfl (by decide) rfl)
  have r := r.step (.rehFinish rfl (by decide) rfl rfl rfl (lt2 rfl rfl))
  have r := r.step (.resize (p := 1) (q := 2) (lg := 3) rfl rfl rfl rfl (fun _ => rfl) (by decide))
  have r := r.step (.kill (j := 0) (o := 1) rfl rfl rfl rfl (by decide))
  have r := r.step (.kill (j := 1) (o := 1) rfl rfl rfl rfl (by decide))
  have r := r.step (.kill (j := 2) (o := 1) rfl rfl rfl rfl (by decide))
  have r := r.step (.kill (j := 3) (o := 1) rfl rfl rfl rfl (by decide))
  have r := r.step (.retire (p := 2) (o := 1) rfl rfl rfl rfl (lt4 rfl rfl rfl rfl) (by decide))
  have r := r.step (.free (q := 1) rfl rfl rfl)
  have r := r.step (.resize (p := 2) (q := 1) (lg := 1) rfl rfl rfl rfl (fun _ => rfl) (by decide))
  have r := r.step (.rehGuard rfl)
  have r := r.step (.dedSame rfl rfl)
  have r := r.step (.dedSome rfl rfl rfl)
  have r := r.step (.dedRange rfl rfl rfl)
  obtain ⟨A, hA, hb⟩ := hs _ _ _ r (2, some 8) (by decide)
  cases hA
  exact absurd (hb 8 rfl) (by decide)

/-- **C59 does not hold.** -/
theorem c59_violated : ¬ (∀ kd : Kind, (∀ h, kd = .point h → h < 2 ^ 64) → Safe kd .all) := by
  intro h
  refine c59_reader_violated (fun i prev s r x hx => ?_)
  exact h .reader (fun h e => by cases e) i prev s (mono (by simp [Mode.all]) (by simp [Mode.all]) (by simp [Mode.all])
    (by simp [Mode.all]) r) x hx
where
  mono {kd : Kind} {m m' : Mode} {i prev : Nat} {s : St} (h1 : m.help = true → m'.help = true)
      (h2 : m.dedup = true → m'.dedup = true) (h3 : m.bucket = true → m'.bucket = true)
      (h4 : m.reuse = true → m'.reuse = true) (r : Reach kd m i prev s) : Reach kd m' i prev s := by
    induction r with
    | init => exact .init
    | step r st ih =>
      refine .step ih ?_
      cases st with
      | create a b c d => exact .create a b (fun h => h4 (c h)) d
      | resize a b c d e f => exact .resize a b c d (fun h => h4 (e h)) f
      | kill a b c d e => exact .kill a b c d e
      | retire a b c d e f => exact .retire a b c d e f
      | dropTable a b c d => exact .dropTable a b c d
      | free a b c => exact .free a b c
      | loadNone a b => exact .loadNone a b
      | load a b c => exact .load a b c
      | testNone a b c => exact .testNone a b c
      | testSome a b c => exact .testSome a b c
      | rehNone a b c => exact .rehNone a b c
      | rehSome a b c => exact .rehSome a b c
      | rehBusy a b => exact .rehBusy a b
      | rehStart a b c d => exact .rehStart a b c d
      | rehLocked a b c d e => exact .rehLocked a b c d e
      | rehDead a b c d e => exact .rehDead a b c d e
      | rehSuspend a b c d e f => exact .rehSuspend a b c d e (h1 f)
      | rehWake a b c d => exact .rehWake a b c d
      | rehQuit a b c => exact .rehQuit a b c
      | rehFinish a b c d e f => exact .rehFinish a b c d e f
      | rehGuard a => exact .rehGuard a
      | relEmpty a b c => exact .relEmpty a b c
      | relRange a b c => exact .relRange a b c
      | relLocked a b c d => exact .relLocked a b c d
      | @relSuspend p P i n o j t te k a b c d e =>
        refine .relSuspend a b c d ?_
        cases k with
        | reh _ => exact h1 e
        | ded _ => exact h2 e
      | relWake a b c => exact .relWake a b c
      | relAll a b => exact .relAll a b
      | relMove a b c d => exact .relMove a b c d
      | arg a b c => exact .arg a b c
      | dedOther a b => exact .dedOther a b
      | dedSame a b => exact .dedSame a b
      | dedNone a b c => exact .dedNone a b c
      | dedSome a b c => exact .dedSome a b c
      | dedRange a b c => exact .dedRange a b c
      | dedLocked a b c d => exact .dedLocked a b c d
      | dedDead a b c d e => exact .dedDead a b c d e
      | dedSuspend a b c d e => exact .dedSuspend a b c d (h2 e)
      | dedWake a b c d => exact .dedWake a b c d
      | dedMore a b c d => exact .dedMore a b c d
      | dedTrue a b c => exact .dedTrue a b c
      | pick a b c => exact .pick a b c
      | locked a b c d => exact .locked a b c d
      | lockDead a b c d => exact .lockDead a b c d
      | lockSuspend a b c d e => exact .lockSuspend a b c d (h3 e)
      | lockWake a b c d => exact .lockWake a b c d
      | useDone a b => exact .useDone a b
      | useOther a b c => exact .useOther a b c
      | useNext a b c d => exact .useNext a b c d
      | brk a b => exact .brk a b
      | cancel a => exact .cancel a

/-! ## The theorems about what holds are about something -/

/-- A call with a key, suspended in a relocation of `dedup_bucket_async` and then waiting for its bucket, with an
address used again in between. -/
example : ∃ s, Reach (.point 0) ⟨false, true, true, true⟩ 0 0 s ∧ s.pc = .relWait 1 0 4 0 0 0 2 (.ded 1) := by
  have r := Reach.init (kd := .point 0) (m := ⟨false, true, true, true⟩) (i := 0) (prev := 0)
  have r := r.step (.create (q := 0) (lg := 1) rfl rfl (fun _ => rfl) (by decide))
  have r := r.step (.resize (p := 0) (q := 1) (lg := 2) rfl rfl rfl rfl (fun _ => rfl) (by decide))
  have r := r.step (.load rfl rfl rfl)
  have r := r.step (.testSome (o := 0) rfl rfl rfl)
  have r := r.step (.rehSome rfl rfl rfl)
  have r := r.step (.rehBusy rfl rfl)
  have r := r.step (.arg rfl rfl rfl)
  have r := r.step (.dedSame rfl rfl)
  have r := r.step (.dedSome rfl rfl rfl)
  have r := r.step (.dedRange rfl rfl rfl)
  have r := r.step (.dedSuspend rfl rfl (by decide) rfl rfl)
  have r := r.step (.dedWake rfl rfl (by decide) rfl)
  have r := r.step (.relRange rfl rfl rfl)
  have r := r.step (.relSuspend rfl (by decide) rfl (by decide) rfl)
  exact ⟨_, r, rfl⟩

/-- A traversal that writes, suspended while it helps. -/
example : ∃ s, Reach .writer ⟨true, true, true, false⟩ 0 0 s ∧ s.pc = .rehWait 1 0 4 0 0 2 := by
  have r := Reach.init (kd := .writer) (m := ⟨true, true, true, false⟩) (i := 0) (prev := 0)
  have r := r.step (.create (q := 0) (lg := 1) rfl rfl (by intro h; cases h) (by decide))
  have r := r.step (.resize (p := 0) (q := 1) (lg := 2) rfl rfl rfl rfl (by intro h; cases h) (by decide))
  have r := r.step (.load rfl rfl rfl)
  have r := r.step (.testSome (o := 0) rfl rfl rfl)
  have r := r.step (.rehSome rfl rfl rfl)
  have r := r.step (.rehStart (j := 0) (e := 2) rfl rfl rfl (by decide))
  have r := r.step (.rehSuspend rfl (by decide) rfl (by decide) rfl rfl)
  exact ⟨_, r, rfl⟩

end Scc.Async
