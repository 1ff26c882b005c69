/-!
# Scope guards

`ExitGuard` (/repo/src/exit_guard.rs) is a value with a closure that is called when the value goes out of
scope. The model is a small language in which a program creates guards, changes the captured values, forgets
guards, and leaves scopes in all the ways Rust code can: at the end of a block, by `return`, by unwinding,
and by being dropped at an `.await`. The language is nondeterministic: every branch may be taken, every loop
may run any number of times, every call may unwind unless it is known not to, and every await may be the
last; so its executions include all control-flow paths of the code.
-/

namespace Scc.Scope

/-- A variable that holds an `ExitGuard`. -/
abbrev Var := Nat

/-- A captured value. -/
abbrev Val := Nat

/-- What can be observed of an execution. -/
inductive Event
  /-- a call -/
  | call (f : Nat)
  /-- `ExitGuard::new` (/repo/src/exit_guard.rs 15-19) -/
  | new (x : Var) (v : Val)
  /-- an assignment to the captured value (`DerefMut`, /repo/src/exit_guard.rs 48-53) -/
  | set (x : Var) (v : Val)
  /-- the closure is called with the captured value (`Drop`, /repo/src/exit_guard.rs 31-37) -/
  | ran (x : Var) (v : Val)
  /-- the captured value and the closure are dropped by `forget` (/repo/src/exit_guard.rs 23-28) -/
  | dropped (x : Var)
  /-- the closure is called with a captured value that was dropped before -/
  | bad (x : Var)
  deriving DecidableEq, Repr

/-- Programs. -/
inductive Prog
  | skip
  /-- a call of a function that may unwind or not -/
  | call (f : Nat) (mayPanic : Bool)
  /-- a point at which a future may be dropped -/
  | await
  | ret
  | seq (p q : Prog)
  /-- `if`, `match` and `?` -/
  | alt (p q : Prog)
  | loop (p : Prog)
  /-- `let x = ExitGuard::new(v, ..);` and the rest of the block -/
  | guard (x : Var) (v : Val) (p : Prog)
  | set (x : Var) (v : Val)
  /-- `x.forget()` -/
  | forget (x : Var)
  deriving DecidableEq, Repr

/-- How a program ends. -/
inductive Out
  | normal
  | ret
  | unwind
  | cancelled
  deriving DecidableEq, Repr

/-- The memory of the guards: `none` if there is no such guard, or it was moved; the drop flags of the
compiler. -/
abbrev Mem := Var → Option Val

/-- Update. -/
def put (m : Mem) (x : Var) (v : Option Val) : Mem := fun y => if y = x then v else m y

/-- Executions: the program, the memory before, what happens, how it ends, the memory after. With `loud`,
dropping a captured value may unwind. A closure that unwinds ends the execution by unwinding; if it unwinds
during unwinding the process aborts, which is not an execution here. A variable is not declared again in its
own scope: in Rust a second `let` with the same name makes another variable. -/
inductive Exec (loud : Bool) : Prog → Mem → List Event → Out → Mem → Prop
  | skip {m : Mem} : Exec loud .skip m [] .normal m
  | call {m : Mem} (f : Nat) (b : Bool) : Exec loud (.call f b) m [.call f] .normal m
  | callPanic {m : Mem} (f : Nat) : Exec loud (.call f true) m [.call f] .unwind m
  | await {m : Mem} : Exec loud .await m [] .normal m
  | awaitDrop {m : Mem} : Exec loud .await m [] .cancelled m
  | ret {m : Mem} : Exec loud .ret m [] .ret m
  | seq {p q : Prog} {m m' m'' : Mem} {t t' : List Event} {o : Out} (h : Exec loud p m t .normal m')
    (h' : Exec loud q m' t' o m'') : Exec loud (.seq p q) m (t ++ t') o m''
  | seqStop {p q : Prog} {m m' : Mem} {t : List Event} {o : Out} (h : Exec loud p m t o m')
    (ho : o ≠ .normal) : Exec loud (.seq p q) m t o m'
  | altL {p q : Prog} {m m' : Mem} {t : List Event} {o : Out} (h : Exec loud p m t o m') :
    Exec loud (.alt p q) m t o m'
  | altR {p q : Prog} {m m' : Mem} {t : List Event} {o : Out} (h : Exec loud q m t o m') :
    Exec loud (.alt p q) m t o m'
  | loopEnd {p : Prog} {m : Mem} : Exec loud (.loop p) m [] .normal m
  | loopStep {p : Prog} {m m' m'' : Mem} {t t' : List Event} {o : Out} (h : Exec loud p m t .normal m')
    (h' : Exec loud (.loop p) m' t' o m'') : Exec loud (.loop p) m (t ++ t') o m''
  | loopStop {p : Prog} {m m' : Mem} {t : List Event} {o : Out} (h : Exec loud p m t o m')
    (ho : o ≠ .normal) : Exec loud (.loop p) m t o m'
  /-- the block ends, in whatever way, and the guard was moved: its drop flag is cleared -/
  | guardMoved {x : Var} {v : Val} {p : Prog} {m m' : Mem} {t : List Event} {o : Out}
    (hx : m x = none) (h : Exec loud p (put m x (some v)) t o m') (hm : m' x = none) :
    Exec loud (.guard x v p) m (.new x v :: t) o m'
  /-- the block ends, in whatever way, and the guard is still there: `Drop::drop` takes the captured value
  and the closure out and calls the closure -/
  | guardRun {x : Var} {v w : Val} {p : Prog} {m m' : Mem} {t : List Event} {o : Out}
    (hx : m x = none) (h : Exec loud p (put m x (some v)) t o m') (hm : m' x = some w) :
    Exec loud (.guard x v p) m (.new x v :: (t ++ [.ran x w])) o (put m' x none)
  /-- the closure unwinds -/
  | guardPanic {x : Var} {v w : Val} {p : Prog} {m m' : Mem} {t : List Event} {o : Out}
    (hx : m x = none) (h : Exec loud p (put m x (some v)) t o m') (hm : m' x = some w)
    (ho : o ≠ .unwind) :
    Exec loud (.guard x v p) m (.new x v :: (t ++ [.ran x w])) .unwind (put m' x none)
  | set {x : Var} {v w : Val} {m : Mem} (hm : m x = some w) :
    Exec loud (.set x v) m [.set x v] .normal (put m x (some v))
  /-- `forget` drops the captured value and the closure and then forgets the guard, so that `Drop::drop` is
  not called -/
  | forget {x : Var} {w : Val} {m : Mem} (hm : m x = some w) :
    Exec loud (.forget x) m [.dropped x] .normal (put m x none)
  /-- dropping the captured value unwinds within `forget`: the guard is dropped while unwinding, and the
  closure is called with what was dropped -/
  | forgetPanic {x : Var} {w : Val} {m : Mem} (hm : m x = some w) (hl : loud = true) :
    Exec loud (.forget x) m [.dropped x, .bad x] .unwind (put m x none)

end Scc.Scope
