import Verif.Proofs.Bar.Session
import Verif.Proofs.Par.Session
import Verif.Examples.Sessions
import Verif.Examples.Follow
import Verif.Props.Parallel
/-!
C83-C85: calling a solver more than once; the smallest values of the options.
-/
set_option autoImplicit false

namespace Verif.Props
open Verif Spec
variable {σ : Type} [DecidableEq σ] [Inhabited σ] {cfg : SolverCfg σ} {S : Layering σ} {B : Int} {stop sharp : Bool}

/-! ### C83: a solver can be called again -/

/-- **C83.** No step of any call panics, and when a call has returned the next one can start. -/
theorem again_never_panics (L : FrontierLaws cfg.fr) (hg : BaseCfg cfg S B) (hn : cfg.nbThreads ≤ cfg.custom) {s : Sys σ cfg.fr.F} (h : Session cfg stop s) :
    (∀ l, ValidLbl l → Par.step cfg s l ≠ .panic) ∧ (Finished s → ∃ s', Par.again cfg s.crit = some s') := by
  have hi := (Par.session_inv L hg hn h).1
  refine ⟨fun l hl => (Par.step_trans (L := L) hg (hi.safe hn) hl).1, fun hf => ?_⟩
  obtain ⟨s', g, _⟩ := Par.again_spec hg hi hf
  exact ⟨s', g⟩

/-- **C83.** The best solution is always a solution, and its value is the best value. -/
theorem again_incumbent_real (L : FrontierLaws cfg.fr) (hg : BaseCfg cfg S B) (hn : cfg.nbThreads ≤ cfg.custom) {s : Sys σ cfg.fr.F} (h : Session cfg stop s) :
    (Par.bestSolution cfg s.crit = none ∧ Par.bestValue cfg s.crit = none) ∨
      ∃ sol v, Par.bestSolution cfg s.crit = some sol ∧ Par.bestValue cfg s.crit = some v ∧ Par.bestLowerBound cfg s.crit = v ∧ IsSolutionOf cfg.p sol v := by
  rcases (Par.session_inv L hg hn h).1.inc with ⟨h1, _⟩ | ⟨sol, h1, h2⟩
  · left; simp [Par.bestSolution, Par.bestValue, h1]
  · right; exact ⟨sol, s.crit.bestLb, h1, by simp [Par.bestValue, h1], rfl, h2⟩

/-- **C83.** The lower bound does not decrease, neither by a step nor by a further call, which keeps the best solution. -/
theorem again_lower_bound_monotone (L : FrontierLaws cfg.fr) (hg : BaseCfg cfg S B) (hn : cfg.nbThreads ≤ cfg.custom) {s s' : Sys σ cfg.fr.F} (h : Session cfg stop s) :
    (∀ l, ValidLbl l → Par.step cfg s l = .ok s' → Par.bestLowerBound cfg s.crit ≤ Par.bestLowerBound cfg s'.crit) ∧
    (Par.again cfg s.crit = some s' → Par.bestLowerBound cfg s'.crit = Par.bestLowerBound cfg s.crit ∧ Par.bestSolution cfg s'.crit = Par.bestSolution cfg s.crit) := by
  have hi := (Par.session_inv L hg hn h).1
  constructor
  · intro l hl hs
    exact Par.trans_lb hg ((Par.step_trans (L := L) hg (hi.safe hn) hl).2 s' hs)
  · intro hs
    unfold Par.again at hs
    split at hs
    · cases hs
    · cases hs; exact ⟨rfl, rfl⟩

/-- **C83.** As long as a call has not returned, some worker can make a step. -/
theorem again_no_deadlock (L : FrontierLaws cfg.fr) (hg : BaseCfg cfg S B) (hn : cfg.nbThreads ≤ cfg.custom) {s : Sys σ cfg.fr.F} (h : Session cfg stop s) (hf : ¬ Finished s) :
    ∃ i, ∀ intr o, o.Valid → ∃ s', Par.step cfg s (.run i intr o) = .ok s' := by
  have hi := (Par.session_inv L hg hn h).1
  obtain ⟨t, ht, hne⟩ : ∃ t ∈ s.threads, t.pc ≠ .done := by
    by_cases h : ∃ t ∈ s.threads, t.pc ≠ .done
    · exact h
    · exact absurd (fun t ht => Classical.not_not.1 fun hne => h ⟨t, ht, hne⟩) hf
  by_cases hw : t.pc = .waiting
  · obtain ⟨i, t', h1, h2⟩ := Par.busy_exists hi (hi.wait t ht hw)
    obtain ⟨k1, k2, _⟩ := Par.busy_active h2
    exact ⟨i, fun intr o ho => Par.enabled hg hn hi h1 k1 k2 intr ho⟩
  · obtain ⟨i, hi'⟩ := List.mem_iff_getElem?.1 ht
    exact ⟨i, fun intr o ho => Par.enabled hg hn hi hi' hw hne intr ho⟩

/-- **C83.** Every call ends: there is no infinite run without spurious wake-ups. -/
theorem again_terminates (L : FrontierLaws cfg.fr) (hg : BaseCfg cfg S B) (hn : cfg.nbThreads ≤ cfg.custom) (st : Nat → Sys σ cfg.fr.F) (ls : Nat → Lbl σ)
    (h : Session cfg stop (st 0)) (hv : ∀ k, ValidLbl (ls k)) (hs : ∀ k, Par.step cfg (st k) (ls k) = .ok (st (k + 1))) : ∃ k i, ls k = .spurious i := by
  apply Classical.byContradiction
  intro hno
  refine Par.no_infinite hg hn st ls (Par.session_inv L hg hn h).1 hv hs ?_
  intro k
  cases hk : ls k with
  | run => rfl
  | spurious i => exact absurd ⟨k, i, hk⟩ hno

/-- **C83.** Whenever a call ends with the status `Proved`, the answer is the optimum, or there is none and the problem is infeasible: whatever happened in earlier calls. -/
theorem again_proved_optimal (L : FrontierLaws cfg.fr) (hg : GoodCfg cfg S B) (hc : CutOK cfg S) (hn : cfg.nbThreads ≤ cfg.custom) (h1 : 1 ≤ cfg.nbThreads)
    {s : Sys σ cfg.fr.F} (h : Session cfg stop s) (hf : Finished s) (hp : Par.proved cfg s.crit = true) :
    Par.bestUpperBound cfg s.crit = Par.bestLowerBound cfg s.crit ∧
    ((∃ v sol, Par.bestValue cfg s.crit = some v ∧ Par.bestSolution cfg s.crit = some sol ∧ IsSolutionOf cfg.p sol v ∧ IsOptimum cfg.p v) ∨
      (Par.bestValue cfg s.crit = none ∧ Par.bestSolution cfg s.crit = none ∧ Infeasible cfg.p)) := by
  obtain ⟨hi, hcov⟩ := Par.session_inv L hg.base hn h
  have hint : s.crit.interrupted = false := by simpa [Par.proved] using hp
  obtain ⟨hub, hall⟩ := Par.finished_covered hi (hcov hg hc) h1 hf hint
  refine ⟨hub, ?_⟩
  rcases hi.inc with ⟨g1, g2⟩ | ⟨sol, g1, g2⟩
  · right
    refine ⟨by simp [Par.bestValue, g1], g1, ?_⟩
    intro ds v hs
    have := hall ds v hs
    have := (Par.solution_bounds hg.wf hs).1
    omega
  · left
    obtain ⟨ds, hp, hs⟩ := g2
    exact ⟨s.crit.bestLb, sol, by simp [Par.bestValue, g1], g1, ⟨ds, hp, hs⟩, ⟨⟨ds, hs⟩, hall⟩⟩

/-- **C83.** With one thread the bounds reported after an interruption enclose every solution, also in later calls. -/
theorem again_interrupted_bounds (L : FrontierLaws cfg.fr) (hg : GoodCfg cfg S B) (hc : CutOK cfg S) (hn : cfg.nbThreads ≤ cfg.custom) (h1 : cfg.nbThreads = 1)
    {s : Sys σ cfg.fr.F} (h : Session cfg stop s) (hp : Par.proved cfg s.crit = false) {ds : List Decision} {v : Int} (hv : Solution cfg.p ds v) :
    v ≤ max (Par.bestLowerBound cfg s.crit) (Par.bestUpperBound cfg s.crit) := by
  have hi := (Par.session_int L hg hc hn h1 h (by simpa [Par.proved] using hp)).2 v (Par.root_through hv)
  simp only [Par.bestLowerBound, Par.bestUpperBound]
  omega

/-- Two calls of a solver on a knapsack, both to the end. -/
example : ∃ s, Session (Inst.kpCfg 1) false s ∧ Finished s ∧ Par.bestValue (Inst.kpCfg 1) s.crit = some 9 ∧ s.crit.explored = 12 := by
  obtain ⟨s, h1, h2⟩ := Inst.session_spec (cfg := Inst.kpCfg 1) (stop := false) (l := List.replicate 31 (0, false)) (ls := [List.replicate 31 (0, false)])
    (f := fun s => Inst.allDone s && (Par.bestValue (Inst.kpCfg 1) s.crit == some 9) && (s.crit.explored == 12)) (fun _ => by decide) (by decide +kernel)
  simp only [Bool.and_eq_true, beq_iff_eq] at h2
  exact ⟨s, h1, Inst.allDone_spec h2.1.1, h2.1.2, h2.2⟩

/-- **C83**, with a barrier: no step of any call panics, and when a call has returned the next one can start. -/
theorem barrier_again_never_panics (L : FrontierLaws cfg.fr) (hg : BaseCfg cfg S B) (hn : cfg.nbThreads ≤ cfg.custom) {s : BSys σ cfg.fr.F}
    (h : BSession cfg stop sharp s) : (∀ l, BValidLbl l → Bar.step cfg s l ≠ .panic) ∧ (BFinished s → ∃ s', Bar.again cfg s.crit s.bars = some s') := by
  have hi := Bar.session_inv L hg hn h
  refine ⟨fun l hl => (Bar.step_trans (L := L) hg (hi.safe hn) hl).1, fun hf => ?_⟩
  obtain ⟨s', g, _⟩ := Bar.again_spec hg hi hf
  exact ⟨s', g⟩

/-- **C83**, with a barrier: the best solution is always a solution, and its value is the best value. -/
theorem barrier_again_incumbent_real (L : FrontierLaws cfg.fr) (hg : BaseCfg cfg S B) (hn : cfg.nbThreads ≤ cfg.custom) {s : BSys σ cfg.fr.F} (h : BSession cfg stop sharp s) :
    (Bar.bestSolution cfg s.crit = none ∧ Bar.bestValue cfg s.crit = none) ∨
      ∃ sol v, Bar.bestSolution cfg s.crit = some sol ∧ Bar.bestValue cfg s.crit = some v ∧ Bar.bestLowerBound cfg s.crit = v ∧ IsSolutionOf cfg.p sol v := by
  rcases (Bar.session_inv L hg hn h).inc with ⟨h1, _⟩ | ⟨sol, h1, h2⟩
  · left; simp [Bar.bestSolution, Bar.bestValue, h1]
  · right; exact ⟨sol, s.crit.bestLb, h1, by simp [Bar.bestValue, h1], rfl, h2⟩

/-- **C83**, with a barrier: the lower bound does not decrease. -/
theorem barrier_again_lower_bound_monotone (L : FrontierLaws cfg.fr) (hg : BaseCfg cfg S B) (hn : cfg.nbThreads ≤ cfg.custom) {s s' : BSys σ cfg.fr.F}
    (h : BSession cfg stop sharp s) :
    (∀ l, BValidLbl l → Bar.step cfg s l = .ok s' → Bar.bestLowerBound cfg s.crit ≤ Bar.bestLowerBound cfg s'.crit) ∧
    (Bar.again cfg s.crit s.bars = some s' → Bar.bestLowerBound cfg s'.crit = Bar.bestLowerBound cfg s.crit ∧ Bar.bestSolution cfg s'.crit = Bar.bestSolution cfg s.crit) := by
  have hi := Bar.session_inv L hg hn h
  constructor
  · intro l hl hs
    exact Bar.trans_lb ((Bar.step_trans (L := L) hg (hi.safe hn) hl).2 s' hs)
  · intro hs
    unfold Bar.again at hs
    split at hs
    · cases hs; exact ⟨rfl, rfl⟩
    · cases hs

/-- **C83**, with a barrier: as long as a call has not returned, some worker can make a step. -/
theorem barrier_again_no_deadlock (L : FrontierLaws cfg.fr) (hg : BaseCfg cfg S B) (hn : cfg.nbThreads ≤ cfg.custom) {s : BSys σ cfg.fr.F} (h : BSession cfg stop sharp s)
    (hf : ¬ BFinished s) : ∃ i, ∀ intr o v, o.Valid → ∃ s', Bar.step cfg s (.run i intr o v) = .ok s' := by
  have hi := Bar.session_inv L hg hn h
  obtain ⟨t, ht, hne⟩ : ∃ t ∈ s.threads, t.pc ≠ .done := by
    by_cases h : ∃ t ∈ s.threads, t.pc ≠ .done
    · exact h
    · exact absurd (fun t ht => Classical.not_not.1 fun hne => h ⟨t, ht, hne⟩) hf
  by_cases hw : t.pc = .waiting
  · obtain ⟨i, t', h1, h2⟩ := Bar.busy_exists hi (hi.wait t ht hw)
    obtain ⟨k1, k2, _⟩ := Bar.busy_active h2
    exact ⟨i, fun intr o v ho => Bar.enabled hg hn hi h1 k1 k2 intr ho v⟩
  · obtain ⟨i, hi'⟩ := List.mem_iff_getElem?.1 ht
    exact ⟨i, fun intr o v ho => Bar.enabled hg hn hi hi' hw hne intr ho v⟩

/-- **C83**, with a barrier: every call ends. -/
theorem barrier_again_terminates (L : FrontierLaws cfg.fr) (hg : BaseCfg cfg S B) (hn : cfg.nbThreads ≤ cfg.custom) (st : Nat → BSys σ cfg.fr.F) (ls : Nat → BLbl σ)
    (h : BSession cfg stop sharp (st 0)) (hv : ∀ k, BValidLbl (ls k)) (hs : ∀ k, Bar.step cfg (st k) (ls k) = .ok (st (k + 1))) : ∃ k i, ls k = .spurious i := by
  apply Classical.byContradiction
  intro hno
  refine Bar.no_infinite hg hn st ls (Bar.session_inv L hg hn h) hv hs ?_
  intro k
  cases hk : ls k with
  | run => rfl
  | spurious i => exact absurd ⟨k, i, hk⟩ hno

/-- **C83**, with a barrier and one thread: whenever a call ends with the status `Proved`, the answer is the optimum, or there is none and the problem is infeasible.  The
thresholds and the lowest active layer that the previous call left behind do no harm. -/
theorem barrier_again_proved_optimal (L : FrontierLaws cfg.fr) (hg : GoodCfg cfg S B) (hc : CutOK cfg S) (h1 : cfg.nbThreads = 1) (hn : cfg.nbThreads ≤ cfg.custom)
    {s : BSys σ cfg.fr.F} (h : BSession cfg stop true s) (hf : BFinished s) (hp : Bar.proved cfg s.crit = true) :
    Bar.bestUpperBound cfg s.crit = Bar.bestLowerBound cfg s.crit ∧
    ((∃ v sol, Bar.bestValue cfg s.crit = some v ∧ Bar.bestSolution cfg s.crit = some sol ∧ IsSolutionOf cfg.p sol v ∧ IsOptimum cfg.p v) ∨
      (Bar.bestValue cfg s.crit = none ∧ Bar.bestSolution cfg s.crit = none ∧ Infeasible cfg.p)) := by
  have hi := Bar.session_inv L hg.base hn h
  have hint : s.crit.interrupted = false := by simpa [Bar.proved] using hp
  have hall : ∀ ds w, Solution cfg.p ds w → w ≤ s.crit.bestLb := by
    rcases Bar.session_phase L hg hc h1 hn h with g | g | g
    · exact (Bar.finished_covered (Bar.reachable_inv L hg.base hn g.reachable) (Bar.reachable_single L hg hc h1 hn g) h1 hf hint).2
    · rw [hint] at g; cases g
    · exact g
  have hlen := hi.thr
  rw [h1] at hlen
  obtain ⟨t, ht⟩ := List.length_eq_one_iff.1 hlen
  have htm : t ∈ s.threads := by rw [ht]; simp
  refine ⟨(hi.done t htm (hf t htm) hint).2.2, ?_⟩
  rcases hi.inc with ⟨g1, g2⟩ | ⟨sol, g1, g2⟩
  · right
    refine ⟨by simp [Bar.bestValue, g1], g1, ?_⟩
    intro ds v hs
    have := hall ds v hs
    have := (Par.solution_bounds hg.wf hs).1
    omega
  · left
    obtain ⟨ds, hp, hs⟩ := g2
    exact ⟨s.crit.bestLb, sol, by simp [Bar.bestValue, g1], g1, ⟨ds, hp, hs⟩, ⟨⟨ds, hs⟩, hall⟩⟩

/-- Two calls of a solver with a barrier on a knapsack, both to the end; the second one explores nodes again. -/
example : ∃ s, BSession (Inst.kpCfg 1) false true s ∧ BFinished s ∧ Bar.bestValue (Inst.kpCfg 1) s.crit = some 9 := by
  obtain ⟨s, h1, h2⟩ := Inst.bsession_spec (cfg := Inst.kpCfg 1) (stop := false) (sharp := true) (l := List.replicate 34 (0, false)) (ls := [List.replicate 34 (0, false)])
    (f := fun s => Inst.bAllDone s && (Bar.bestValue (Inst.kpCfg 1) s.crit == some 9)) (fun _ => by decide) (by decide +kernel)
  simp only [Bool.and_eq_true, beq_iff_eq] at h2
  exact ⟨s, h1, Inst.bAllDone_spec h2.1, h2.2⟩

/-! ### C84: `maximize()` solves the problem, whatever was called before -/

/-- **C84 (partial).** `maximize()` yields the optimum if no earlier call was interrupted.  Missing: earlier calls that were interrupted, after which it is false
(`again_after_interrupt_not_optimal`). -/
theorem again_maximize_optimal_partial (L : FrontierLaws cfg.fr) (hg : GoodCfg cfg S B) (hc : CutOK cfg S) (hn : cfg.nbThreads ≤ cfg.custom) (h1 : 1 ≤ cfg.nbThreads)
    {s : Sys σ cfg.fr.F} (h : Session cfg false s) (hf : Finished s) {v : Int} (hv : IsOptimum cfg.p v) : Par.bestValue cfg s.crit = some v := by
  rcases (again_proved_optimal L hg hc hn h1 h hf (by simp [Par.proved, Par.session_noint L hg.base hn h])).2 with ⟨v', sol, g1, _, _, g4⟩ | ⟨_, _, g3⟩
  · obtain ⟨ds, hs⟩ := hv.1
    obtain ⟨ds', hs'⟩ := g4.1
    have : v' = v := by have := g4.2 ds v hs; have := hv.2 ds' v' hs'; omega
    rw [g1, this]
  · obtain ⟨ds, hs⟩ := hv.1
    exact absurd hs (g3 ds v)

/-- **C84**, with a barrier, one thread (partial): as above. -/
theorem barrier_again_maximize_optimal_partial (L : FrontierLaws cfg.fr) (hg : GoodCfg cfg S B) (hc : CutOK cfg S) (h1 : cfg.nbThreads = 1) (hn : cfg.nbThreads ≤ cfg.custom)
    {s : BSys σ cfg.fr.F} (h : BSession cfg false true s) (hf : BFinished s) {v : Int} (hv : IsOptimum cfg.p v) : Bar.bestValue cfg s.crit = some v := by
  rcases (barrier_again_proved_optimal L hg hc h1 hn h hf (by simp [Bar.proved, Bar.session_noint L hg.base hn h])).2 with ⟨v', sol, g1, _, _, g4⟩ | ⟨_, _, g3⟩
  · obtain ⟨ds, hs⟩ := hv.1
    obtain ⟨ds', hs'⟩ := g4.1
    have : v' = v := by have := g4.2 ds v hs; have := hv.2 ds' v' hs'; omega
    rw [g1, this]
  · obtain ⟨ds, hs⟩ := hv.1
    exact absurd hs (g3 ds v)

/-- **C84.** Once a call has been interrupted, no later call does anything: no node is explored, the answer stays as it is, and the status is `Interrupted`, whatever
`interrupt()` answers.  (The flag `interrupted` is never reset.) -/
theorem again_after_interrupt_idle (L : FrontierLaws cfg.fr) (hg : BaseCfg cfg S B) (hn : cfg.nbThreads ≤ cfg.custom) {s s1 s' : Sys σ cfg.fr.F} (h : Session cfg stop s)
    (hf : Finished s) (hi : Par.proved cfg s.crit = false) (hs : Par.again cfg s.crit = some s1) {ls : List (Lbl σ)} (hr : Par.runs cfg s1 ls = .ok s') :
    Par.bestValue cfg s'.crit = Par.bestValue cfg s.crit ∧ Par.bestSolution cfg s'.crit = Par.bestSolution cfg s.crit ∧
      Par.bestLowerBound cfg s'.crit = Par.bestLowerBound cfg s.crit ∧ Par.bestUpperBound cfg s'.crit = Par.bestUpperBound cfg s.crit ∧
      s'.crit.explored = s.crit.explored ∧ Par.proved cfg s'.crit = false := by
  have hinv := (Par.session_inv L hg hn h).1
  have hint : s.crit.interrupted = true := by simpa [Par.proved] using hi
  obtain ⟨e, hst⟩ := Par.stuck_runs ls s1 s' (Par.again_stuck hg hinv hf hint hs) hr
  obtain ⟨s2, g1, _, _, ⟨f, g4, _⟩, _⟩ := Par.again_spec hg hinv hf
  rw [hs] at g1; cases g1
  simp only [Par.bestValue, Par.bestSolution, Par.bestLowerBound, Par.bestUpperBound, Par.proved, e, g4, hint, true_and]
  rfl

/-- **C84**, with a barrier: as above. -/
theorem barrier_again_after_interrupt_idle (L : FrontierLaws cfg.fr) (hg : BaseCfg cfg S B) (hn : cfg.nbThreads ≤ cfg.custom) {s s1 s' : BSys σ cfg.fr.F}
    (h : BSession cfg stop sharp s) (hf : BFinished s) (hi : Bar.proved cfg s.crit = false) (hs : Bar.again cfg s.crit s.bars = some s1) {ls : List (BLbl σ)}
    (hl : ∀ l ∈ ls, BValidLbl l) (hr : Bar.runs cfg s1 ls = .ok s') :
    Bar.bestValue cfg s'.crit = Bar.bestValue cfg s.crit ∧ Bar.bestSolution cfg s'.crit = Bar.bestSolution cfg s.crit ∧
      Bar.bestLowerBound cfg s'.crit = Bar.bestLowerBound cfg s.crit ∧ Bar.bestUpperBound cfg s'.crit = Bar.bestUpperBound cfg s.crit ∧
      s'.crit.explored = s.crit.explored ∧ Bar.proved cfg s'.crit = false := by
  have hinv := Bar.session_inv L hg hn h
  have hint : s.crit.interrupted = true := by simpa [Bar.proved] using hi
  obtain ⟨s2, g1, g2, ⟨f, ob, g4, _⟩, _⟩ := Bar.again_spec hg hinv hf
  rw [hs] at g1; cases g1
  obtain ⟨e, hst⟩ := Bar.stuck_runs hg hn ls s1 s' g2 (Bar.again_stuck hg hinv hf hint hs) hl hr
  simp only [Bar.bestValue, Bar.bestSolution, Bar.bestLowerBound, Bar.bestUpperBound, Bar.proved, e.lb, e.ub, e.sol, e.int, e.expl, g4, hint, true_and]
  rfl

/-- **C84 is false**: `maximize()` after an interrupted call returns without a solution although there is one (worth 9).  Here `maximize_with_interrupt` was interrupted at once;
then `maximize()` runs to its end. -/
theorem again_after_interrupt_not_optimal : GoodCfg (Inst.kpCfg 1) Knap.layering 18 ∧ ∃ s, Session (Inst.kpCfg 1) true s ∧ Finished s ∧ Par.proved (Inst.kpCfg 1) s.crit = false ∧
    ∃ s1, Par.again (Inst.kpCfg 1) s.crit = some s1 ∧ ∃ s', Par.runs (Inst.kpCfg 1) s1 (Inst.sched [(0, false)]) = .ok s' ∧ Finished s' ∧
      Par.bestValue (Inst.kpCfg 1) s'.crit = none ∧ ∃ ds, Solution (Inst.kpCfg 1).p ds 9 := by
  obtain ⟨s, h1, h2⟩ := Inst.session_spec (cfg := Inst.kpCfg 1) (stop := true) (l := [(0, true)]) (ls := [])
    (f := fun s => Inst.allDone s && !(Par.proved (Inst.kpCfg 1) s.crit) && (match Par.again (Inst.kpCfg 1) s.crit with
      | none => false
      | some s1 => match Par.runs (Inst.kpCfg 1) s1 (Inst.sched [(0, false)]) with
        | .ok s' => Inst.allDone s' && (Par.bestValue (Inst.kpCfg 1) s'.crit == none)
        | _ => false)) (by simp) (by decide +kernel)
  simp only [Bool.and_eq_true, Bool.not_eq_true'] at h2
  obtain ⟨⟨h2, h3⟩, h4⟩ := h2
  refine ⟨Inst.kpCfg_good 1, s, h1, Inst.allDone_spec h2, h3, ?_⟩
  split at h4
  · cases h4
  · rename_i s1 hs1
    split at h4
    · rename_i s' hs'
      simp only [Bool.and_eq_true, beq_iff_eq] at h4
      exact ⟨s1, hs1, s', hs', Inst.allDone_spec h4.1, h4.2, _, Inst.complete_solution (p := Inst.kp) (ds := [⟨0, 0⟩, ⟨1, 1⟩, ⟨2, 1⟩, ⟨3, 0⟩]) (v := 9) (by decide)⟩
    · cases h4

/-! ### C85: the smallest values of the options -/

/-- **C85 (partial).** With at least one worker and a width of at least one (`GoodCfg`), no call panics, and one that is not interrupted ends with the optimum.  Missing: no
worker (`zero_threads_proved_nothing`) and width zero (`zero_width_panics`). -/
theorem options_ok_partial (L : FrontierLaws cfg.fr) (hg : GoodCfg cfg S B) (hc : CutOK cfg S) (hn : cfg.nbThreads ≤ cfg.custom) (h1 : 1 ≤ cfg.nbThreads) :
    (∃ s0, Par.init cfg = some s0 ∧ ∀ ls, (∀ l ∈ ls, ValidLbl l) → Par.runs cfg s0 ls ≠ .panic) ∧
    ∀ s v, ReachableMax cfg s → Finished s → IsOptimum cfg.p v → Par.bestValue cfg s.crit = some v :=
  ⟨never_panics L hg.base hn, fun _ _ hr hf hv => (maximize_optimal L hg hc hn h1 hr hf hv).1⟩

omit [DecidableEq σ] [Inhabited σ] in
/-- **C85 is false**: with no worker at all (`--threads 0`) a call returns at once: no solution, no node explored, and yet the status is `Proved`. -/
theorem zero_threads_proved_nothing (h0 : cfg.nbThreads = 0) {s : Sys σ cfg.fr.F} (h : Par.init cfg = some s) :
    Finished s ∧ Par.proved cfg s.crit = true ∧ Par.bestValue cfg s.crit = none ∧ Par.bestSolution cfg s.crit = none ∧ s.crit.explored = 0 := by
  unfold Par.init at h
  split at h
  · cases h
  · cases h
    refine ⟨?_, rfl, rfl, rfl, rfl⟩
    intro t ht
    simp [h0] at ht

omit [DecidableEq σ] [Inhabited σ] in
/-- **C85 is false**: the same with a barrier. -/
theorem barrier_zero_threads_proved_nothing (h0 : cfg.nbThreads = 0) {s : BSys σ cfg.fr.F} (h : Bar.init cfg = some s) :
    BFinished s ∧ Bar.proved cfg s.crit = true ∧ Bar.bestValue cfg s.crit = none ∧ Bar.bestSolution cfg s.crit = none ∧ s.crit.explored = 0 := by
  unfold Bar.init at h
  split at h
  · cases h
    refine ⟨?_, rfl, rfl, rfl, rfl⟩
    intro t ht
    simp [h0] at ht
  · cases h

/-- A solver without workers exists. -/
example : ∃ s, Par.init (Inst.kpCfg 0) = some s := by
  obtain ⟨s, h, _⟩ := Par.init_spec (Inst.kpLaws 0) (Inst.kpCfg_good 0).base
  exact ⟨s, h⟩

/-- **C85 is false**: with the maximum width 0 (`--width 0`) the first relaxed diagram panics (`max_width - 1`). -/
theorem zero_width_panics : ∃ s, Par.init { Inst.kpCfg 1 with width := fun _ => 0 } = some s ∧
    Par.runs { Inst.kpCfg 1 with width := fun _ => 0 } s (Inst.sched (List.replicate 5 (0, false))) = .panic := by
  have h : (match Par.init { Inst.kpCfg 1 with width := fun _ => 0 } with
    | some s => (match Par.runs { Inst.kpCfg 1 with width := fun _ => 0 } s (Inst.sched (List.replicate 5 (0, false))) with | .panic => true | _ => false)
    | none => false) = true := by decide +kernel
  split at h
  · rename_i s0 h0
    refine ⟨s0, h0, ?_⟩
    split at h
    · assumption
    · cases h
  · cases h

/-- **C85 is false**: the same with a barrier. -/
theorem barrier_zero_width_panics : ∃ s, Bar.init { Inst.kpCfg 1 with width := fun _ => 0 } = some s ∧
    Bar.runs { Inst.kpCfg 1 with width := fun _ => 0 } s (Inst.bsched (List.replicate 5 (0, false))) = .panic := by
  have h : (match Bar.init { Inst.kpCfg 1 with width := fun _ => 0 } with
    | some s => (match Bar.runs { Inst.kpCfg 1 with width := fun _ => 0 } s (Inst.bsched (List.replicate 5 (0, false))) with | .panic => true | _ => false)
    | none => false) = true := by decide +kernel
  split at h
  · rename_i s0 h0
    refine ⟨s0, h0, ?_⟩
    split at h
    · assumption
    · cases h
  · cases h

end Verif.Props
