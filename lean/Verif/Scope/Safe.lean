import Verif.Scope.Model

/-!
# C39: scope guards run exactly once
-/

namespace Scc.Scope

/-! ## The specification -/

/-- The life of one variable in a sequence of events: `none` while there is no guard, `some v` while there is
one with captured value `v`. A guard ends with one call of its closure with the value captured last, or with
one `forget`; nothing else is accepted. -/
def life (x : Var) : Option (Option Val) → List Event → Option (Option Val)
  | none, _ => none
  | some c, [] => some c
  | some c, .call _ :: t => life x (some c) t
  | some c, .new y v :: t =>
    if y = x then (match c with | none => life x (some (some v)) t | some _ => none) else life x (some c) t
  | some c, .set y v :: t =>
    if y = x then (match c with | some _ => life x (some (some v)) t | none => none) else life x (some c) t
  | some c, .ran y v :: t =>
    if y = x then (match c with | some w => if v = w then life x (some none) t else none | none => none)
    else life x (some c) t
  | some c, .dropped y :: t =>
    if y = x then (match c with | some _ => life x (some none) t | none => none) else life x (some c) t
  | some c, .bad y :: t => if y = x then none else life x (some c) t

/-- The number of guards of the variable that were made. -/
def made (x : Var) (t : List Event) : Nat := t.countP fun | .new y _ => y == x | _ => false

/-- The number of calls of closures of guards of the variable. -/
def runs (x : Var) (t : List Event) : Nat := t.countP fun | .ran y _ => y == x | .bad y => y == x | _ => false

/-- The number of guards of the variable that were forgotten. -/
def forgets (x : Var) (t : List Event) : Nat := t.countP fun | .dropped y => y == x | _ => false

/-! ## Proofs -/

theorem life_none (x : Var) (t : List Event) : life x none t = none := by cases t <;> rfl

theorem life_append (x : Var) : ∀ (t t' : List Event) (c : Option (Option Val)),
    life x c (t ++ t') = life x (life x c t) t'
  | [], t', c => by cases c <;> simp [life, life_none]
  | e :: t, t', none => by simp [life, life_none]
  | e :: t, t', some c => by
    have ih := life_append x t t'
    cases e <;> simp only [List.cons_append, life] <;> (try split) <;> (try split) <;>
      (try split) <;> simp [ih, life_none]

/-- The memory of a variable follows the events. -/
theorem Exec.life {p : Prog} {m m' : Mem} {t : List Event} {o : Out} (h : Exec false p m t o m') (x : Var) :
    life x (some (m x)) t = some (m' x) := by
  induction h with
  | skip => rfl
  | call f b => rfl
  | callPanic f => rfl
  | await => rfl
  | awaitDrop => rfl
  | ret => rfl
  | seq h h' ih ih' => rw [life_append, ih, ih']
  | seqStop h ho ih => exact ih
  | altL h ih => exact ih
  | altR h ih => exact ih
  | loopEnd => rfl
  | loopStep h h' ih ih' => rw [life_append, ih, ih']
  | loopStop h ho ih => exact ih
  | @guardMoved y v p m m' t o hx h hm ih =>
    by_cases c : y = x
    · subst c; simpa [Scope.life, hx, put] using ih
    · have c' : x ≠ y := fun e => c e.symm
      simpa [Scope.life, c, put, c'] using ih
  | @guardRun y v w p m m' t o hx h hm ih =>
    by_cases c : y = x
    · subst c; simp [put] at ih; simp [Scope.life, hx, life_append, ih, hm, put]
    · have c' : x ≠ y := fun e => c e.symm
      simp [put, c'] at ih; simp [Scope.life, c, life_append, ih, put, c']
  | @guardPanic y v w p m m' t o hx h hm ho ih =>
    by_cases c : y = x
    · subst c; simp [put] at ih; simp [Scope.life, hx, life_append, ih, hm, put]
    · have c' : x ≠ y := fun e => c e.symm
      simp [put, c'] at ih; simp [Scope.life, c, life_append, ih, put, c']
  | @set y v w m hm =>
    by_cases c : y = x
    · subst c; simp [Scope.life, hm, put]
    · have c' : x ≠ y := fun e => c e.symm
      simp [Scope.life, c, put, c']
  | @forget y w m hm =>
    by_cases c : y = x
    · subst c; simp [Scope.life, hm, put]
    · have c' : x ≠ y := fun e => c e.symm
      simp [Scope.life, c, put, c']
  | forgetPanic hm hl => cases hl

/-- The variables that are declared in the program or were there before are all that is there after. -/
theorem Exec.scoped {loud : Bool} {p : Prog} {m m' : Mem} {t : List Event} {o : Out}
    (h : Exec loud p m t o m') (x : Var) : m x = none → m' x = none := by
  induction h with
  | seq h h' ih ih' => exact fun e => ih' (ih e)
  | loopStep h h' ih ih' => exact fun e => ih' (ih e)
  | seqStop h ho ih => exact ih
  | altL h ih => exact ih
  | altR h ih => exact ih
  | loopStop h ho ih => exact ih
  | @guardMoved y v p m m' t o hx h hm ih =>
    intro e
    by_cases c : x = y
    · subst c; exact hm
    · exact ih (by simp [put, c, e])
  | @guardRun y v w p m m' t o hx h hm ih =>
    intro e
    by_cases c : x = y
    · simp [put, c]
    · simp only [put, c, if_false]; exact ih (by simp [put, c, e])
  | @guardPanic y v w p m m' t o hx h hm ho ih =>
    intro e
    by_cases c : x = y
    · simp [put, c]
    · simp only [put, c, if_false]; exact ih (by simp [put, c, e])
  | @set y v w m hm =>
    intro e
    by_cases c : x = y
    · subst c; rw [hm] at e; cases e
    · simp [put, c, e]
  | @forget y w m hm => intro e; by_cases c : x = y <;> simp [put, c, e]
  | @forgetPanic y w m hm hl => intro e; by_cases c : x = y <;> simp [put, c, e]
  | _ => exact id

/-- **C39**: however a program ends, each guard it makes has its closure called exactly once, with the value
captured last, when its scope ends, or was forgotten, and then its closure is never called: the life of
every variable is a sequence of such lives, and is over at the end. -/
theorem c39_once {p : Prog} {m : Mem} {t : List Event} {o : Out} (h : Exec false p (fun _ => none) t o m)
    (x : Var) : life x (some none) t = some none := by
  have := h.life x
  rwa [h.scoped x rfl] at this

theorem life_count (x : Var) : ∀ (t : List Event) (c d : Option Val), life x (some c) t = some d →
    made x t + (if c.isSome then 1 else 0) = runs x t + forgets x t + (if d.isSome then 1 else 0)
  | [], c, d, h => by simp [life] at h; subst h; simp [made, runs, forgets]
  | e :: t, c, d, h => by
    have ih := life_count x t
    cases e with
    | call f =>
      have := ih c d (by simpa [life] using h)
      simpa [made, runs, forgets] using this
    | new y v =>
      by_cases q : y = x
      · subst q
        cases c with
        | none =>
          have := ih (some v) d (by simpa [life] using h)
          simp [made, runs, forgets] at this ⊢; omega
        | some w => simp [life] at h
      · have := ih c d (by simpa [life, q] using h)
        simpa [made, runs, forgets, q] using this
    | set y v =>
      by_cases q : y = x
      · subst q
        cases c with
        | none => simp [life] at h
        | some w =>
          have := ih (some v) d (by simpa [life] using h)
          simpa [made, runs, forgets] using this
      · have := ih c d (by simpa [life, q] using h)
        simpa [made, runs, forgets, q] using this
    | ran y v =>
      by_cases q : y = x
      · subst q
        cases c with
        | none => simp [life] at h
        | some w =>
          by_cases e : v = w
          · have := ih none d (by simpa [life, e] using h)
            simp [made, runs, forgets] at this ⊢; omega
          · simp [life, e] at h
      · have := ih c d (by simpa [life, q] using h)
        simpa [made, runs, forgets, q] using this
    | dropped y =>
      by_cases q : y = x
      · subst q
        cases c with
        | none => simp [life] at h
        | some w =>
          have := ih none d (by simpa [life] using h)
          simp [made, runs, forgets] at this ⊢; omega
      · have := ih c d (by simpa [life, q] using h)
        simpa [made, runs, forgets, q] using this
    | bad y =>
      by_cases q : y = x
      · subst q; simp [life] at h
      · have := ih c d (by simpa [life, q] using h)
        simpa [made, runs, forgets, q] using this

/-- As many closures are called as guards are made and not forgotten. -/
theorem c39_count {p : Prog} {m : Mem} {t : List Event} {o : Out} (h : Exec false p (fun _ => none) t o m)
    (x : Var) : made x t = runs x t + forgets x t := by
  simpa using life_count x t none none (c39_once h x)

/-- The guard is used by at most one `forget` before the variable is declared again: after a `forget` the
closure is not called. -/
theorem c39_not_after_forget {p : Prog} {m : Mem} {t t' t'' : List Event} {o : Out} {x : Var} {v : Val}
    (h : Exec false p (fun _ => none) (t ++ .dropped x :: (t' ++ .ran x v :: t'')) o m) :
    1 ≤ made x t' := by
  have q := c39_once h x
  rw [life_append] at q
  cases a : life x (some none) t with
  | none => simp [a, life_none] at q
  | some c =>
    cases c with
    | none => simp [a, life] at q
    | some w =>
      simp only [a, life, if_true] at q
      rw [life_append] at q
      cases b : life x (some none) t' with
      | none => simp [b, life_none] at q
      | some d =>
        cases d with
        | none => simp [b, life] at q
        | some u =>
          have := life_count x t' none (some u) b
          simp at this; omega

/-- If dropping a captured value could unwind, `forget` would call the closure with the dropped value. The
captured values and closures in the crate are references, numbers and flags, so that this cannot happen. -/
theorem c39_loud : ∃ t m, Exec true (.guard 0 0 (.forget 0)) (fun _ => none) t .unwind m ∧
    life 0 (some none) t = none ∧ runs 0 t = 1 ∧ forgets 0 t = 1 := by
  refine ⟨_, _, .guardMoved rfl (.forgetPanic (w := 0) (by simp [put]) rfl) (by simp [put]), ?_, ?_, ?_⟩ <;>
    decide +kernel

/-! ## The guard of a rehash -/

/-- `end_incremental_rehash` with `success`. -/
def endOk : Nat := 0
/-- `defer_reclaim`. -/
def deferReclaim : Nat := 1
/-- the lock of an old bucket and its relocation -/
def relocate : Nat := 2

/-- The guarded part of `incremental_rehash_async` and `incremental_rehash_sync`
(/repo/src/hash_table.rs 1170-1201 and 1216-1253): the closure calls `end_incremental_rehash` without
`success`. -/
def rehash (deferMayPanic : Bool) : Prog :=
  .guard 0 0 (.seq (.loop (.seq .await (.seq (.call relocate true) (.alt .skip .ret))))
    (.seq (.call endOk false) (.seq (.alt (.call deferReclaim deferMayPanic) .skip) (.forget 0))))

/-- The number of calls of a function. -/
def calls (f : Nat) (t : List Event) : Nat := t.countP fun | .call g => g == f | _ => false

theorem calls_append (f : Nat) (t t' : List Event) : calls f (t ++ t') = calls f t + calls f t' := by
  simp [calls]

theorem runs_append (f : Nat) (t t' : List Event) : runs f (t ++ t') = runs f t + runs f t' := by
  simp [runs]

/-- The loop calls neither `end_incremental_rehash` nor closures, and leaves the guard alone. -/
theorem rehash_loop {m m' : Mem} {t : List Event} {o : Out} {p : Prog} (h : Exec false p m t o m')
    (hp : p = .loop (.seq .await (.seq (.call relocate true) (.alt .skip .ret)))) :
    calls endOk t = 0 ∧ runs 0 t = 0 ∧ m' = m := by
  have body : ∀ {m m' t o}, Exec false (.seq .await (.seq (.call relocate true) (.alt .skip .ret))) m t o m' →
      calls endOk t = 0 ∧ runs 0 t = 0 ∧ m' = m := by
    intro m m' t o h
    cases h with
    | seqStop h ho => cases h <;> exact ⟨rfl, rfl, rfl⟩
    | seq h h' =>
      cases h
      cases h' with
      | seqStop h ho => cases h <;> exact ⟨by decide, by decide, rfl⟩
      | seq h h' =>
        cases h
        cases h' with
        | altL h => cases h; exact ⟨by decide, by decide, rfl⟩
        | altR h => cases h; exact ⟨by decide, by decide, rfl⟩
  induction h with
  | loopEnd => exact ⟨rfl, rfl, rfl⟩
  | loopStep h h' _ ih =>
    cases hp
    obtain ⟨a, b, rfl⟩ := body h
    obtain ⟨c, d, rfl⟩ := ih rfl
    exact ⟨by rw [calls_append, a, c], by rw [runs_append, b, d], rfl⟩
  | loopStop h ho _ => cases hp; exact body h
  | _ => cases hp

/-- In every execution of a rehash, `end_incremental_rehash` is called exactly once: with success if all
buckets were relocated, and without otherwise, whether the function returned because a lock could not be
acquired, unwound, or was dropped at an await. -/
theorem c39_rehash {m : Mem} {t : List Event} {o : Out} (h : Exec false (rehash false) (fun _ => none) t o m) :
    calls endOk t + runs 0 t = 1 ∧ (o = .normal ∧ runs 0 t = 0 → calls endOk t = 1) ∧
    (calls endOk t = 1 → o = .normal) := by
  have key : ∀ {m m' t o}, Exec false (.seq (.loop (.seq .await (.seq (.call relocate true) (.alt .skip .ret))))
      (.seq (.call endOk false) (.seq (.alt (.call deferReclaim false) .skip) (.forget 0)))) m t o m' →
      runs 0 t = 0 ∧ ((o = .normal ∧ calls endOk t = 1 ∧ m' 0 = none) ∨
        (o ≠ .normal ∧ calls endOk t = 0 ∧ m' = m)) := by
    intro m m' t o h
    cases h with
    | seqStop h ho =>
      obtain ⟨a, b, c⟩ := rehash_loop h rfl
      exact ⟨b, .inr ⟨ho, a, c⟩⟩
    | seq h h' =>
      obtain ⟨a, b, c⟩ := rehash_loop h rfl
      rw [runs_append, calls_append, a, b]
      cases h' with
      | seqStop h ho => cases h; exact absurd rfl ho
      | seq h h' =>
        cases h
        cases h' with
        | seqStop h ho =>
          cases h with
          | altL h => cases h; exact absurd rfl ho
          | altR h => cases h; exact absurd rfl ho
        | seq h h' =>
          have fin : ∀ {m m' t o}, Exec false (.forget 0) m t o m' →
              o = .normal ∧ calls endOk t = 0 ∧ runs 0 t = 0 ∧ m' 0 = none := by
            intro m m' t o h
            cases h with
            | forget hm => exact ⟨rfl, rfl, by decide, by simp [put]⟩
            | forgetPanic hm hl => cases hl
          obtain ⟨rfl, a', b', c'⟩ := fin h'
          cases h with
          | altL h =>
            cases h
            simp only [runs_append, calls_append, a', b']
            exact ⟨by decide, .inl ⟨trivial, by decide, c'⟩⟩
          | altR h =>
            cases h
            simp only [runs_append, calls_append, a', b']
            exact ⟨by decide, .inl ⟨trivial, by decide, c'⟩⟩
  have e1 : ∀ (t : List Event), calls endOk (.new 0 0 :: t) = calls endOk t := fun t => by simp [calls]
  have e2 : ∀ (t : List Event), runs 0 (.new 0 0 :: t) = runs 0 t := fun t => by simp [runs]
  cases h with
  | guardMoved hx h hm =>
    obtain ⟨a, ⟨rfl, b, _⟩ | ⟨_, _, c⟩⟩ := key h
    · rw [e1, e2, a, b]; simp
    · rw [c] at hm; simp [put] at hm
  | guardRun hx h hm =>
    obtain ⟨a, ⟨_, _, c⟩ | ⟨ho, b, _⟩⟩ := key h
    · rw [c] at hm; cases hm
    · rw [e1, e2, runs_append, calls_append, a, b]
      refine ⟨by simp [calls, runs], fun q => absurd q.1 ho, fun q => ?_⟩
      simp [calls] at q
  | guardPanic hx h hm ho =>
    obtain ⟨a, ⟨_, _, c⟩ | ⟨_, b, _⟩⟩ := key h
    · rw [c] at hm; cases hm
    · rw [e1, e2, runs_append, calls_append, a, b]
      refine ⟨by simp [calls, runs], fun q => by simp at q, fun q => ?_⟩
      simp [calls] at q

/-- There are such executions: one that succeeds, and one that is dropped in the loop. -/
example : (∃ t m, Exec false (rehash false) (fun _ => none) t .normal m ∧ calls endOk t = 1) ∧
    ∃ t m, Exec false (rehash false) (fun _ => none) t .cancelled m ∧ runs 0 t = 1 := by
  constructor
  · refine ⟨_, _, .guardMoved rfl (.seq .loopEnd (.seq (.call _ _) (.seq (.altL (.call _ _))
      (.forget (w := 0) (by simp [put]))))) (by simp [put]), by decide⟩
  · exact ⟨_, _, .guardRun rfl (.seqStop (.loopStop (.seqStop .awaitDrop (by simp)) (by simp)) (by simp))
      (w := 0) (by simp [put]), by decide⟩

/-- That `defer_reclaim` does not unwind is needed: otherwise `end_incremental_rehash` could be called both
with and without success. -/
theorem c39_rehash_needs : ∃ t m, Exec false (rehash true) (fun _ => none) t .unwind m ∧
    calls endOk t = 1 ∧ runs 0 t = 1 := by
  exact ⟨_, _, .guardRun rfl (.seq .loopEnd (.seq (.call _ _) (.seqStop (.altL (.callPanic _)) (by simp))))
    (w := 0) (by simp [put]), by decide, by decide⟩

end Scc.Scope
