import Verif.Examples.Instances
import Verif.Props.Frontier
import Verif.Spec.Solver
/-!
Concrete solver configurations and schedules, used in the examples and counterexamples beside the theorems about solvers.
-/
set_option autoImplicit false

namespace Verif.Inst
open Verif Spec

/-- The knapsack with `n` threads, width 2 and a `NoDupFrontier`. -/
def kpCfg (n : Nat) : SolverCfg Knap.St :=
  { p := kp
    r := Knap.relaxation
    rank := kpRank
    width := fun _ => 2
    cutset := .lastExactLayer
    fr := noDupOps kpRank
    custom := n
    nbThreads := n }

/-- A table problem with a `SimpleFrontier`. -/
def tabCfg (T : Table.Tab) (w n : Nat) (c : CutsetType) : SolverCfg Table.St :=
  { p := Table.prob T 40
    r := Table.relaxation
    rank := lpRank
    width := fun _ => w
    cutset := c
    fr := simpleOps lpRank
    custom := n
    nbThreads := n }

theorem kpCfg_good (n : Nat) : GoodCfg (kpCfg n) Knap.layering 18 := ⟨kp_wf, kp_adm, kp_rel, fun _ => Nat.le_succ 1⟩
theorem tabCfg_good {T : Table.Tab} (h : Table.valid T 10 40 = true) {w : Nat} (hw : 1 ≤ w) (n : Nat) (c : CutsetType) : GoodCfg (tabCfg T w n c) Table.layering 10 :=
  ⟨Table.wellFormed h, Table.admissible h, Table.soundRelaxation h, fun _ => hw⟩

instance : Std.TransCmp kpRank :=
  { eq_swap := fun {a b} => Std.OrientedCmp.eq_swap (cmp := (compare : Nat → Nat → Ordering)) (a := a.2) (b := b.2)
    isLE_trans := fun {a b c} h1 h2 => Std.TransCmp.isLE_trans (cmp := (compare : Nat → Nat → Ordering)) (a := a.2) (b := b.2) (c := c.2) h1 h2 }

def kpLaws (n : Nat) : FrontierLaws (kpCfg n).fr := Props.noDup_laws (rank := kpRank)
def tabLaws (T : Table.Tab) (w n : Nat) (c : CutsetType) : FrontierLaws (tabCfg T w n c).fr := Props.simple_laws (rank := lpRank)

/-- A schedule: which thread moves, and what `interrupt()` answers. -/
def sched {σ : Type} (l : List (Nat × Bool)) : List (Lbl σ) := l.map fun x => .run x.1 x.2 orc

theorem sched_valid {σ : Type} (l : List (Nat × Bool)) : ∀ x ∈ (sched l : List (Lbl σ)), ValidLbl x := by
  intro x hx
  obtain ⟨y, _, rfl⟩ := List.mem_map.1 hx
  exact orc_valid

variable {σ : Type} [DecidableEq σ] [Inhabited σ]

/-- Runs a schedule from the start and tests the result. -/
def test (cfg : SolverCfg σ) (l : List (Nat × Bool)) (f : Sys σ cfg.fr.F → Bool) : Bool :=
  match Par.init cfg with
  | none => false
  | some s => match Par.runs cfg s (sched l) with
    | .ok s' => f s'
    | _ => false

def isDone : Pc σ → Bool
  | .done => true
  | _ => false

def isWaiting : Pc σ → Bool
  | .waiting => true
  | _ => false

def allDone {F : Type} (s : Sys σ F) : Bool := s.threads.all fun t => isDone t.pc

omit [DecidableEq σ] [Inhabited σ] in
theorem isDone_spec {pc : Pc σ} (h : isDone pc = true) : pc = .done := by
  cases pc <;> simp [isDone] at h ⊢

omit [DecidableEq σ] [Inhabited σ] in
theorem allDone_spec {F : Type} {s : Sys σ F} (h : allDone s = true) : Finished s := by
  intro t ht
  have := List.all_eq_true.1 h t ht
  exact isDone_spec this

theorem test_spec {cfg : SolverCfg σ} {l : List (Nat × Bool)} {f : Sys σ cfg.fr.F → Bool} (h : test cfg l f = true) : ∃ s, Reachable cfg s ∧ f s = true := by
  unfold test at h
  split at h
  · cases h
  · rename_i s0 h0
    split at h
    · rename_i s' h1
      exact ⟨s', ⟨s0, sched l, h0, sched_valid l, h1⟩, h⟩
    · cases h

theorem test_spec_max {cfg : SolverCfg σ} {l : List (Nat × Bool)} {f : Sys σ cfg.fr.F → Bool} (hl : l.all (fun x => !x.2) = true) (h : test cfg l f = true) :
    ∃ s, ReachableMax cfg s ∧ f s = true := by
  unfold test at h
  split at h
  · cases h
  · rename_i s0 h0
    split at h
    · rename_i s' h1
      refine ⟨s', ⟨s0, sched l, h0, sched_valid l, ?_, h1⟩, h⟩
      intro x hx i intr o e
      obtain ⟨y, hy, rfl⟩ := List.mem_map.1 hx
      cases e
      simpa using List.all_eq_true.1 hl y hy
    · cases h

/-- A run of two threads on the knapsack, alternating where possible, until both stop. -/
def kpRun2 : List (Nat × Bool) :=
  [0, 1, 0, 0, 0, 0, 0, 1, 0, 1, 0, 1, 0, 1, 0, 1, 0, 1, 0, 1, 0, 1, 0, 1, 0, 1, 0, 1, 0, 1, 1, 1, 0, 1].map fun i => (i, false)

/-- The same up to the moment where the second thread waits for the first. -/
def kpPrefix : List (Nat × Bool) := [(0, false), (1, false)]

end Verif.Inst
