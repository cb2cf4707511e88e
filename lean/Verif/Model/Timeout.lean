/-!
Model of `timeout` (`src/xputils.rs:187-209`): the main thread, the thread that waits for the deadline, and the mutex `switch`.

Both closures may end normally or with a panic.  A panic of the main thread ends the process with code 101; a panic of the other thread ends only that thread, and poisons the mutex it holds.
`exit` ends the process; until then both threads go on.
-/
set_option autoImplicit false

namespace Verif.Timeout

/-- Where the main thread is: in `action()` (line 206), before the lock (207), before `exit(0)` (208) -/
inductive Main | acting | locking | exiting
deriving DecidableEq, Repr

/-- Where the other thread is: in `sleep` (line 199), before the lock (201), in `kat_exit()` (202), before `exit(1)` (203), ended by a panic -/
inductive Killer | sleeping | locking | calling | exiting | dead
deriving DecidableEq, Repr

/-- What can be seen from outside -/
inductive Event
  | actionDone
  | hookCalled
  | hookDone
  | exit (code : Nat)
deriving DecidableEq, Repr

/-- `src/xputils.rs:192-208`; `running` becomes false when the process ends. -/
structure St where
  main : Main
  killer : Killer
  locked : Bool
  poisoned : Bool
  running : Bool
deriving DecidableEq, Repr

/-- After the thread has been started (line 198) -/
def init : St := ⟨.acting, .sleeping, false, false, true⟩

/-- Steps of the main thread (`src/xputils.rs:206-208`); `panics`: the action may panic -/
def mainSteps (panics : Bool) (s : St) : List (List Event × St) :=
  match s.main with
  | .acting => ([.actionDone], { s with main := .locking }) :: if panics then [([.exit 101], { s with running := false })] else []
  | .locking =>
    if s.locked then []
    else if s.poisoned then [([.exit 101], { s with running := false })]
    else [([], { s with main := .exiting, locked := true })]
  | .exiting => [([.exit 0], { s with running := false })]

/-- Steps of the other thread (`src/xputils.rs:199-203`); `panics`: the hook may panic -/
def killerSteps (panics : Bool) (s : St) : List (List Event × St) :=
  match s.killer with
  | .sleeping => [([], { s with killer := .locking })]
  | .locking =>
    if s.locked then []
    else if s.poisoned then [([], { s with killer := .dead })]
    else [([.hookCalled], { s with killer := .calling, locked := true })]
  | .calling => ([.hookDone], { s with killer := .exiting }) :: if panics then [([], { s with killer := .dead, locked := false, poisoned := true })] else []
  | .exiting => [([.exit 1], { s with running := false })]
  | .dead => []

/-- All steps -/
def steps (pa ph : Bool) (s : St) : List (List Event × St) := if s.running then mainSteps pa s ++ killerSteps ph s else []

end Verif.Timeout
