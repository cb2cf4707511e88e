import Verif.Model.Timeout
/-! What may happen when an action is run with a deadline, as seen from outside. -/
set_option autoImplicit false

namespace Verif.Timeout

/-- `evs` is what is seen on the way from `s` to `t`. -/
inductive Run (pa ph : Bool) : St → List Event → St → Prop
  | nil (s : St) : Run pa ph s [] s
  | cons {s t u : St} {e evs : List Event} (h : (e, t) ∈ steps pa ph s) (hr : Run pa ph t evs u) : Run pa ph s (e ++ evs) u

/-- The histories of a process that has ended when nothing panics: the action is completed, the hook is not called, code 0; or the hook is called and completed, code 1, whether or not the action is completed before, meanwhile or after. -/
def histories : List (List Event) :=
  [[.actionDone, .exit 0], [.hookCalled, .hookDone, .exit 1], [.actionDone, .hookCalled, .hookDone, .exit 1], [.hookCalled, .actionDone, .hookDone, .exit 1], [.hookCalled, .hookDone, .actionDone, .exit 1]]

/-- The others: the action panics before, during or after the hook, or the hook panics and the action is completed; code 101 -/
def panicHistories (pa ph : Bool) : List (List Event) :=
  (if pa then [[.exit 101], [.hookCalled, .exit 101], [.hookCalled, .hookDone, .exit 101]] else []) ++
  (if ph then [[.hookCalled, .actionDone, .exit 101], [.actionDone, .hookCalled, .exit 101]] else [])

end Verif.Timeout
