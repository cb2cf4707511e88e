import Verif.Examples.Follow
import Verif.Examples.Solvers
import Verif.Proofs.Psp.Bound
import Verif.Proofs.Psp.Plan
/-! Concrete instances of the production planning problem. -/
set_option autoImplicit false

namespace Verif.Psp
open Verif Spec

/-- An instance given by its tables. -/
def mk (q : List (List Nat)) (h : List Nat) (d : List (List Nat)) : Inst :=
  { periods := (d.getD 0 []).length, items := d.length, changeover := fun i j => (q.getD i []).getD j 0, stocking := fun i => h.getD i 0, demand := fun i t => (d.getD i []).getD t 0 }

def triangleB (I : Inst) : Bool :=
  (List.range I.items).all fun i => (List.range I.items).all fun j => (List.range I.items).all fun k => decide (I.changeover i k ≤ I.changeover i j + I.changeover j k)

theorem triangleB_spec {I : Inst} (h : triangleB I = true) : Triangle I := by
  intro i j k hi hj hk
  simp only [triangleB, List.all_eq_true, List.mem_range, decide_eq_true_eq] at h
  exact h i hi j hj k hk

def unitB (I : Inst) : Bool := (List.range I.items).all fun i => (List.range I.periods).all fun t => decide (I.demand i t ≤ 1)

theorem unitB_spec {I : Inst} (h : unitB I = true) : UnitDemand I := by
  intro i t hi ht
  simp only [unitB, List.all_eq_true, List.mem_range, decide_eq_true_eq] at h
  exact h i hi t ht

def boundedB (I : Inst) (B : Nat) : Bool :=
  ((List.range I.items).all fun i => (List.range I.items).all fun j => decide (I.changeover i j + I.stocking i * I.periods ≤ B)) && decide (4 * (I.periods + 2) * B ≤ 2 ^ 63 - 1)

theorem boundedB_spec {I : Inst} {B : Nat} (h : boundedB I B = true) : Bounded I B := by
  simp only [boundedB, Bool.and_eq_true, List.all_eq_true, List.mem_range, decide_eq_true_eq] at h
  exact ⟨fun i j hi hj => h.1 i hi j hj, h.2⟩

def feasibleB (I : Inst) (f : Plan) : Bool :=
  ((List.range I.periods).all fun t => match f t with | some i => decide (i < I.items) | none => true) &&
  ((List.range I.items).all fun i => ((List.range (I.periods + 1)).all fun p => decide (due I i p ≤ made f i p)) && decide (made f i I.periods = due I i I.periods))

theorem feasibleB_spec {I : Inst} {f : Plan} (h : feasibleB I f = true) : Feasible I f := by
  simp only [feasibleB, Bool.and_eq_true, List.all_eq_true, List.mem_range, decide_eq_true_eq] at h
  refine ⟨?_, ?_, ?_⟩
  · intro t ht i hf
    have := h.1 t ht
    rw [hf] at this
    simpa using this
  · intro i hi p hp; exact (h.2 i hi).1 p (by omega)
  · intro i hi; exact (h.2 i hi).2

theorem cmpList_eq : ∀ l m, cmpList l m = List.compareLex compare l m
  | [], [] => rfl
  | [], _ :: _ => rfl
  | _ :: _, [] => rfl
  | a :: l, b :: m => by
    unfold cmpList
    rw [List.compareLex_cons_cons, cmpList_eq]

theorem rank_eq : rank = compareLex (compareLex (compareOn State.time) (compareOn State.k)) (fun a b => List.compareLex compare a.u b.u) := by
  funext a b
  unfold rank
  rw [cmpList_eq]
  rfl

instance : Std.TransCmp (fun a b : State => List.compareLex compare a.u b.u) :=
  { eq_swap := fun {a b} => Std.OrientedCmp.eq_swap (cmp := (List.compareLex compare : List Int → List Int → Ordering)) (a := a.u) (b := b.u)
    isLE_trans := fun {a b c} h1 h2 => Std.TransCmp.isLE_trans (cmp := (List.compareLex compare : List Int → List Int → Ordering)) (a := a.u) (b := b.u) (c := c.u) h1 h2 }

instance : Std.TransCmp (compareOn State.time) :=
  { eq_swap := fun {a b} => Std.OrientedCmp.eq_swap (cmp := (compare : Nat → Nat → Ordering)) (a := a.time) (b := b.time)
    isLE_trans := fun {a b c} h1 h2 => Std.TransCmp.isLE_trans (cmp := (compare : Nat → Nat → Ordering)) (a := a.time) (b := b.time) (c := c.time) h1 h2 }

instance : Std.TransCmp (compareOn State.k) :=
  { eq_swap := fun {a b} => Std.OrientedCmp.eq_swap (cmp := (compare : Int → Int → Ordering)) (a := a.k) (b := b.k)
    isLE_trans := fun {a b c} h1 h2 => Std.TransCmp.isLE_trans (cmp := (compare : Int → Int → Ordering)) (a := a.k) (b := b.k) (c := c.k) h1 h2 }

instance : Std.TransCmp rank := by
  rw [rank_eq]
  infer_instance

/-- The solver as the program `psp` sets it up (`main.rs:28-54`); `factor` is the argument `--width`, 1 if it is not given. -/
def cfgOf (I : Inst) (σ : List Edge → List Edge) (factor threads : Nat) (c : CutsetType) : SolverCfg State :=
  { p := problem I σ
    r := relaxation
    rank := rank
    width := width I.periods factor
    cutset := c
    fr := noDupOps rank
    custom := threads
    nbThreads := threads }

def laws (I : Inst) (σ : List Edge → List Edge) (w n : Nat) (c : CutsetType) : FrontierLaws (cfgOf I σ w n c).fr := Props.noDup_laws (rank := rank)

theorem cfgOf_base {I : Inst} {B : Nat} {σ : List Edge → List Edge} (hn : 1 ≤ I.periods) (hB : Bounded I B) {w : Nat} (hw : I.periods * w % 2 ^ 64 ≠ 0) (n : Nat) (c : CutsetType) :
    BaseCfg (cfgOf I σ w n c) (layering I) B where
  wf := wellFormed hn hB
  lay := layered hn hB
  width := fun _ => Nat.pos_of_ne_zero hw

/-- The program with the sign of the bound changed; this is not what the code does. -/
def negCfg (I : Inst) (σ : List Edge → List Edge) (factor threads : Nat) (c : CutsetType) : SolverCfg State :=
  { cfgOf I σ factor threads c with p := { problem I σ with estimate := fun s => -(problem I σ).estimate s } }

/-- Changing over from 1 to 2 is cheaper by way of 0 or 3. -/
def skip : Inst :=
  mk [[0, 0, 0, 0], [0, 0, 8, 0], [0, 50, 0, 0], [0, 6, 50, 0]] [0, 0, 0, 1] [[0, 0, 0, 0, 1, 0], [0, 1, 0, 0, 0, 1], [0, 0, 1, 0, 0, 1], [0, 0, 0, 0, 0, 1]]

/-- The cheapest plan for `skip`, from the first period to the last -/
def skipPlan : Plan := fun t => [some 1, some 0, some 2, some 2, some 3, some 1].getD t none

/-- Three items, symmetric changeover costs. -/
def tri : Inst := mk [[0, 1, 2], [1, 0, 3], [2, 3, 0]] [1, 2, 1] [[0, 0, 0, 1], [0, 1, 0, 0], [0, 0, 0, 1]]

def triPlan : Plan := fun t => [none, some 1, some 0, some 2].getD t none

/-- Four items with the triangle inequality. -/
def tardy : Inst := mk [[0, 1, 3, 3], [1, 0, 4, 3], [1, 2, 0, 4], [1, 2, 4, 0]] [1, 3, 0, 3] [[0, 0, 0, 1, 1], [0, 0, 0, 0, 1], [0, 0, 0, 1, 0], [0, 0, 1, 0, 0]]

/-- The cheapest plan for `tardy` -/
def tardyPlan : Plan := fun t => [some 2, some 0, some 3, some 0, some 1].getD t none

/-- With the cutset Frontier the parallel solver misses the cheapest plan, in which nothing is produced in the last period. -/
def idleLast : Inst := mk [[0, 9, 7], [2, 0, 4], [2, 3, 0]] [3, 2, 0] [[0, 0, 0, 1, 0], [0, 0, 1, 0, 1], [0, 0, 0, 0, 1]]

/-- The cheapest plan for `idleLast` -/
def idleLastPlan : Plan := fun t => [some 2, some 1, some 1, some 0, none].getD t none

/-- Two units are due at once. -/
def pair : Inst := mk [[0]] [1] [[0, 2]]

/-- Nothing is due in the second period. -/
def early : Inst := mk [[0]] [1] [[1, 0]]

/-- Two units are due after the first period: there is no plan. -/
def both : Inst := mk [[0, 1], [1, 0]] [1, 1] [[1], [1]]

end Verif.Psp
