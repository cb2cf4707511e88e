import Verif.Spec.Timeout
import Mathlib.Data.List.Basic
/-! C97: running an action with a deadline. -/
set_option autoImplicit false

namespace Verif.Timeout

/-- The histories of at most `k` steps that end the process -/
def explore (pa ph : Bool) : Nat → St → List (List Event)
  | 0, _ => []
  | k + 1, s => (steps pa ph s).flatMap fun x => if x.2.running then (explore pa ph k x.2).map (x.1 ++ ·) else [x.1]

/-- How many steps are left at most -/
def left (s : St) : Nat :=
  (if s.running then 1 else 0) + (match s.main with | .acting => 3 | .locking => 2 | .exiting => 1) + match s.killer with | .sleeping => 4 | .locking => 3 | .calling => 2 | .exiting => 1 | .dead => 0

theorem left_steps (pa ph : Bool) (s : St) : ∀ x ∈ steps pa ph s, left x.2 < left s := by
  obtain ⟨m, k, l, p, r⟩ := s
  cases m <;> cases k <;> cases l <;> cases p <;> cases r <;> cases pa <;> cases ph <;> decide

theorem left_step {pa ph : Bool} {s t : St} {e : List Event} (h : (e, t) ∈ steps pa ph s) : left t < left s := left_steps pa ph s _ h

/-- Whoever holds the lock is before an `exit` or in the hook. -/
def held (s : St) : Bool := !s.locked || s.main == .exiting || s.killer == .calling || s.killer == .exiting

theorem held_steps (pa ph : Bool) (s : St) : held s = true → (∀ x ∈ steps pa ph s, held x.2 = true) ∧ (s.running = true → steps pa ph s ≠ []) := by
  obtain ⟨m, k, l, p, r⟩ := s
  cases m <;> cases k <;> cases l <;> cases p <;> cases r <;> cases pa <;> cases ph <;> decide

theorem held_run {pa ph : Bool} {s t : St} {evs : List Event} (h : Run pa ph s evs t) (hs : held s = true) : held t = true := by
  induction h with
  | nil => exact hs
  | cons h _ ih => exact ih ((held_steps pa ph _ hs).1 _ h)

theorem run_ended {pa ph : Bool} {s t : St} {evs : List Event} (h : Run pa ph s evs t) (hs : s.running = false) : evs = [] ∧ t = s := by
  cases h with
  | nil => exact ⟨rfl, rfl⟩
  | cons h _ => simp [steps, hs] at h

theorem explore_of {pa ph : Bool} {s t : St} {evs : List Event} (h : Run pa ph s evs t) (ht : t.running = false) : ∀ k, left s ≤ k → s.running = true → evs ∈ explore pa ph k s := by
  induction h with
  | nil s => intro k _ hr; rw [ht] at hr; cases hr
  | @cons s u t e evs h hr ih =>
    intro k hk hrun
    have hl := left_step h
    cases k with
    | zero => omega
    | succ k =>
      rw [explore, List.mem_flatMap]
      refine ⟨_, h, ?_⟩
      cases hu : u.running with
      | true =>
        simp only [hu, if_true]
        exact List.mem_map.2 ⟨evs, ih ht k (by omega) hu, rfl⟩
      | false =>
        obtain ⟨rfl, _⟩ := run_ended hr hu
        simp [hu]

theorem of_explore {pa ph : Bool} : ∀ {k : Nat} {s : St} {evs : List Event}, evs ∈ explore pa ph k s → ∃ t, Run pa ph s evs t ∧ t.running = false := by
  intro k
  induction k with
  | zero => intro s evs h; simp [explore] at h
  | succ k ih =>
    intro s evs h
    rw [explore, List.mem_flatMap] at h
    obtain ⟨⟨e, u⟩, hu, h⟩ := h
    cases hr : u.running with
    | true =>
      simp only [hr, if_true, List.mem_map] at h
      obtain ⟨evs', h', rfl⟩ := h
      obtain ⟨t, h1, h2⟩ := ih h'
      exact ⟨t, .cons hu h1, h2⟩
    | false =>
      simp [hr] at h
      subst h
      have := Run.cons hu (.nil u)
      rw [List.append_nil] at this
      exact ⟨u, this, hr⟩

theorem explore_init (pa ph : Bool) : (∀ evs ∈ explore pa ph 8 init, evs ∈ histories ++ panicHistories pa ph) ∧ ∀ evs ∈ histories ++ panicHistories pa ph, evs ∈ explore pa ph 8 init := by
  cases pa <;> cases ph <;> decide +kernel

end Verif.Timeout

namespace Verif.Props
open Timeout

/-- **C97.** These are the possible histories, all of them and no others. -/
theorem timeout_histories {pa ph : Bool} {evs : List Event} : (∃ t, Run pa ph Timeout.init evs t ∧ t.running = false) ↔ evs ∈ histories ++ panicHistories pa ph :=
  ⟨fun ⟨_, h, ht⟩ => (explore_init pa ph).1 _ (explore_of h ht 8 (by decide) rfl), fun h => of_explore ((explore_init pa ph).2 _ h)⟩

/-- **C97.** In particular, code 0 means that the action is completed and that the hook has not been called... -/
theorem timeout_zero {pa ph : Bool} {evs : List Event} {t : St} (h : Run pa ph Timeout.init evs t) (ht : t.running = false) (h0 : Event.exit 0 ∈ evs) : Event.actionDone ∈ evs ∧ Event.hookCalled ∉ evs := by
  have h1 : ∀ pa ph : Bool, ∀ evs ∈ histories ++ panicHistories pa ph, Event.exit 0 ∈ evs → Event.actionDone ∈ evs ∧ Event.hookCalled ∉ evs := by decide
  exact h1 pa ph evs (timeout_histories.1 ⟨t, h, ht⟩) h0

/-- **C97.** ...code 1 that the hook is completed, ... -/
theorem timeout_one {pa ph : Bool} {evs : List Event} {t : St} (h : Run pa ph Timeout.init evs t) (ht : t.running = false) (h0 : Event.exit 1 ∈ evs) : Event.hookDone ∈ evs := by
  have h1 : ∀ pa ph : Bool, ∀ evs ∈ histories ++ panicHistories pa ph, Event.exit 1 ∈ evs → Event.hookDone ∈ evs := by decide
  exact h1 pa ph evs (timeout_histories.1 ⟨t, h, ht⟩) h0

/-- **C97.** ...the hook is called at most once, the process ends once, and any other code means that something panicked. -/
theorem timeout_once {pa ph : Bool} {evs : List Event} {t : St} (h : Run pa ph Timeout.init evs t) (ht : t.running = false) :
    evs.count .hookCalled ≤ 1 ∧ ∃ c, evs.getLast? = some (.exit c) ∧ (∀ d, Event.exit d ∈ evs.dropLast → False) ∧ (c = 0 ∨ c = 1 ∨ c = 101 ∧ (pa || ph) = true) := by
  have h1 : ∀ pa ph : Bool, ∀ evs ∈ histories ++ panicHistories pa ph, evs.count .hookCalled ≤ 1 ∧ ∃ c ∈ [0, 1, 101], evs.getLast? = some (.exit c) ∧
      (∀ e ∈ evs.dropLast, e = .actionDone ∨ e = .hookCalled ∨ e = .hookDone) ∧ (c = 0 ∨ c = 1 ∨ c = 101 ∧ (pa || ph) = true) := by decide
  obtain ⟨h2, c, _, h3, h4, h5⟩ := h1 pa ph evs (timeout_histories.1 ⟨t, h, ht⟩)
  exact ⟨h2, c, h3, fun d hd => by simpa using h4 _ hd, h5⟩

/-- **C97.** The process cannot get stuck... -/
theorem timeout_no_deadlock {pa ph : Bool} {evs : List Event} {t : St} (h : Run pa ph Timeout.init evs t) (ht : t.running = true) : steps pa ph t ≠ [] :=
  (held_steps pa ph t (held_run h (by decide))).2 ht

/-- **C97.** ...nor go on forever (the action and the hook are single steps here: it is assumed that they end). -/
theorem timeout_ends (pa ph : Bool) (f : Nat → St) : ¬ ∀ n, ∃ e, (e, f (n + 1)) ∈ steps pa ph (f n) := by
  intro h
  have h1 : ∀ n, left (f n) + n ≤ left (f 0) := by
    intro n
    induction n with
    | zero => exact Nat.le_refl _
    | succ n ih =>
      obtain ⟨e, he⟩ := h n
      have := left_step he
      omega
  have := h1 (left (f 0) + 1)
  omega

/-- The code 1 does not mean that the action was not completed in time: it can be completed before the hook is called. -/
example : ∃ t, Run false false Timeout.init [.actionDone, .hookCalled, .hookDone, .exit 1] t ∧ t.running = false := timeout_histories.2 (by decide)

/-- A hook that panics makes the code 101, even though the action is completed. -/
example : ∃ t, Run false true Timeout.init [.hookCalled, .actionDone, .exit 101] t ∧ t.running = false := timeout_histories.2 (by decide)

example : ¬ ∃ t, Run true true Timeout.init [.hookCalled, .actionDone, .exit 0] t ∧ t.running = false := fun h => absurd (timeout_histories.1 h) (by decide)

end Verif.Props
