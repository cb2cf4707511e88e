import Verif.Examples.Follow
import Verif.Examples.Solvers
import Verif.Proofs.Srflp.Edge
import Verif.Proofs.Srflp.Exact
/-! Concrete instances of the layout problem. -/
set_option autoImplicit false

namespace Verif.Srflp
open Verif Spec

/-- An instance given by its tables. -/
def mk (l : List Int) (f : List (List Int)) : Inst :=
  { n := l.length, len := fun i => l.getD i 0, flow := fun i j => (f.getD i []).getD j 0 }

def symmetricB (I : Inst) : Bool := (List.range I.n).all fun i => (List.range I.n).all fun j => decide (I.flow i j = I.flow j i)

theorem symmetricB_spec {I : Inst} (h : symmetricB I = true) : Symmetric I := by
  intro i j hi hj
  simp only [symmetricB, List.all_eq_true, List.mem_range, decide_eq_true_eq] at h
  exact h i hi j hj

def lengthsB (I : Inst) : Bool := (List.range I.n).all fun i => decide (0 ≤ I.len i)

theorem lengthsB_spec {I : Inst} (h : lengthsB I = true) : Lengths I := by
  intro i hi
  simp only [lengthsB, List.all_eq_true, List.mem_range, decide_eq_true_eq] at h
  exact h i hi

def flowsB (I : Inst) : Bool := (List.range I.n).all fun i => (List.range I.n).all fun j => decide (0 ≤ I.flow i j)

theorem flowsB_spec {I : Inst} (h : flowsB I = true) : Flows I := by
  intro i j hi hj
  simp only [flowsB, List.all_eq_true, List.mem_range, decide_eq_true_eq] at h
  exact h i hi j hj

def boundedB (I : Inst) (F L : Nat) : Bool :=
  ((List.range I.n).all fun i => (List.range I.n).all fun j => decide (-(F : Int) ≤ I.flow i j ∧ I.flow i j ≤ F)) &&
  ((List.range I.n).all fun i => decide (-(L : Int) ≤ I.len i ∧ I.len i ≤ L)) && decide (4 * (I.n + 2) * (I.n * I.n * F * (L + 1)) ≤ 2 ^ 63 - 1)

theorem boundedB_spec {I : Inst} {F L : Nat} (h : boundedB I F L = true) : Bounded I F L := by
  simp only [boundedB, Bool.and_eq_true, List.all_eq_true, List.mem_range, decide_eq_true_eq] at h
  exact ⟨fun i j hi hj => h.1.1 i hi j hj, fun i hi => h.1.2 i hi, h.2⟩

instance : Std.TransCmp rank :=
  { eq_swap := fun {a b} => Std.OrientedCmp.eq_swap (cmp := (compare : Nat → Nat → Ordering)) (a := a.depth) (b := b.depth)
    isLE_trans := fun {a b c} h1 h2 => Std.TransCmp.isLE_trans (cmp := (compare : Nat → Nat → Ordering)) (a := a.depth) (b := b.depth) (c := c.depth) h1 h2 }

/-- The solver as the program `srflp` sets it up (`main.rs:34-64`); `factor` is the argument `--width`, 1 if it is not given. -/
def cfgOf (I : Inst) (factor threads : Nat) (c : CutsetType) : SolverCfg State :=
  { p := problem I
    r := relaxation I
    rank := rank
    width := width I.n factor
    cutset := c
    fr := noDupOps rank
    custom := threads
    nbThreads := threads }

def laws (I : Inst) (w n : Nat) (c : CutsetType) : FrontierLaws (cfgOf I w n c).fr := Props.noDup_laws (rank := rank)

theorem cfgOf_base {I : Inst} {F L : Nat} (hB : Bounded I F L) {w : Nat} (hw : I.n * w % 2 ^ 64 ≠ 0) (n : Nat) (c : CutsetType) :
    BaseCfg (cfgOf I w n c) (layering I F) (costMax I F L) where
  wf := wellFormed hB
  lay := layered hB
  width := fun _ => Nat.pos_of_ne_zero hw

/-- Three departments. -/
def three : Inst := mk [1, 2, 3] [[0, 1, 2], [1, 0, 4], [2, 4, 0]]

/-- Four departments. -/
def four : Inst := mk [2, 1, 3, 2] [[0, 1, 2, 3], [1, 0, 2, 0], [2, 2, 0, 1], [3, 0, 1, 0]]

/-- Cuts that single precision does not tell apart. -/
def blur : Inst := mk [2, 2, 1, 3, 2]
  [[0, 134217731, 67108868, 1, 1], [134217731, 0, 67108868, 0, 0], [67108868, 67108868, 0, 0, 0], [1, 0, 0, 0, 0], [1, 0, 0, 0, 0]]

/-- An instance on which the frontier loses all cheapest layouts. -/
def lose : Inst := mk [2, 1, 1, 2, 4, 4] [[0, 0, 2, 7, 0, 0], [0, 0, 0, 7, 1, 1], [2, 0, 0, 2, 0, 0], [7, 7, 2, 0, 1, 0], [0, 1, 0, 1, 0, 0], [0, 1, 0, 0, 0, 0]]

/-- The hash map yields the states whose sets of departments are listed first. -/
def front (t : List Nat) : Oracle State := ⟨fun l => l.filter (fun x => t.contains x.1.must) ++ l.filter (fun x => !t.contains x.1.must), id⟩

theorem front_valid (t : List Nat) : (front t).Valid := ⟨fun l => List.filter_append_perm _ l, fun _ => .refl _⟩

/-- Two hash orders, for the first restricted diagram (step 2) and the first relaxed one (step 4). -/
def loseOrc (k : Nat) : Oracle State := if k = 2 then front [46, 51, 53, 54, 57] else if k = 4 then front [15, 51, 59] else Verif.Inst.orc

theorem loseOrc_valid (k : Nat) : (loseOrc k).Valid := by
  unfold loseOrc
  split
  · exact front_valid _
  · split
    · exact front_valid _
    · exact Verif.Inst.orc_valid

/-- Two cuts of which single precision does not tell that the quotient of the first by its length is greater. -/
def tie : Inst := mk [1, 1, 3] [[0, 16777217, 50331648], [16777217, 0, 0], [50331648, 0, 0]]

/-- A negative length. -/
def negLen : Inst := mk [1, 1, -2] [[0, 2, 0], [2, 0, 1], [0, 1, 0]]

/-- Negative flows. -/
def negFlow : Inst := mk [1, 2, 2] [[0, -1, 1], [-1, 0, -1], [1, -1, 0]]

/-- Flows given in both directions, two of them different. -/
def given : Nat → Nat → Int := fun i j => (([[0, 3, 3], [3, 0, 1], [4, 1, 0]] : List (List Int)).getD i []).getD j 0

end Verif.Srflp
