import Verif.Examples.Follow
import Verif.Examples.Solvers
import Verif.Proofs.Tsptw.Merge
/-! Concrete instances of the travelling salesman problem with time windows. -/
set_option autoImplicit false

namespace Verif.Tsptw
open Verif Spec

/-- An instance given by its matrix and its windows. -/
def mk (D : List (List Nat)) (tw : List (Nat × Nat)) : Inst :=
  ⟨tw.length, fun i j => (D.getD i []).getD j 0, fun i => (tw.getD i (0, 0)).1, fun i => (tw.getD i (0, 0)).2⟩

def triangleB (I : Inst) : Bool :=
  (List.range I.n).all fun i => (List.range I.n).all fun j => (List.range I.n).all fun k => decide (I.dist i k ≤ I.dist i j + I.dist j k)

theorem triangleB_spec {I : Inst} (h : triangleB I = true) : Triangle I := by
  intro i j k hi hj hk
  simp only [triangleB, List.all_eq_true, List.mem_range, decide_eq_true_eq] at h
  exact h i hi j hj k hk

def boundedB (I : Inst) (B : Nat) : Bool :=
  ((List.range I.n).all fun i => (List.range I.n).all fun j => decide (I.dist i j + I.earliest j ≤ B)) && decide (4 * (I.n + 2) * B ≤ 2 ^ 63 - 1)

theorem boundedB_spec {I : Inst} {B : Nat} (h : boundedB I B = true) : Bounded I B := by
  simp only [boundedB, Bool.and_eq_true, List.all_eq_true, List.mem_range, decide_eq_true_eq] at h
  exact ⟨fun i j hi hj => h.1 i hi j hj, h.2⟩

/-- The time at which the last city of the list is left. -/
def drive (I : Inst) : Nat → Nat → List Nat → Option Nat
  | t, _, [] => some t
  | t, i, j :: l => if t + I.dist i j ≤ I.latest j then drive I (leaveTime I t i j) j l else none

theorem drive_spec {I : Inst} : ∀ (l : List Nat) {t i T : Nat}, drive I t i l = some T → Drive I t i l T := by
  intro l
  induction l with
  | nil => intro t i T h; cases h; exact .stop _ _
  | cons j l ih =>
    intro t i T h
    unfold drive at h
    split at h
    · rename_i hc; exact .go hc (ih h)
    · cases h

def tourB (I : Inst) (l : List Nat) (T : Nat) : Bool := l.isPerm (List.range' 1 (I.n - 1)) && drive I 0 0 (l ++ [0]) == some T

theorem tourB_spec {I : Inst} {l : List Nat} {T : Nat} (h : tourB I l T = true) : Tour I l T := by
  simp only [tourB, Bool.and_eq_true, beq_iff_eq] at h
  exact ⟨List.isPerm_iff.1 h.1, drive_spec _ h.2⟩

instance : Std.TransCmp rank :=
  { eq_swap := fun {a b} => Std.OrientedCmp.eq_swap (cmp := (compare : Nat → Nat → Ordering)) (a := a.depth) (b := b.depth)
    isLE_trans := fun {a b c} h1 h2 => Std.TransCmp.isLE_trans (cmp := (compare : Nat → Nat → Ordering)) (a := a.depth) (b := b.depth) (c := c.depth) h1 h2 }

/-- The solver as the program `tsptw` sets it up (`main.rs:41-63`). -/
def cfgOf (I : Inst) (factor threads : Nat) (c : CutsetType) : SolverCfg State :=
  { p := problem I
    r := relaxation I
    rank := rank
    width := width I.n factor
    cutset := c
    fr := noDupOps rank
    custom := threads
    nbThreads := threads }

def laws (I : Inst) (w n : Nat) (c : CutsetType) : FrontierLaws (cfgOf I w n c).fr := Props.noDup_laws (rank := rank)

theorem width_pos {n w : Nat} (hn : 1 ≤ n) (hw : 1 ≤ w) (h : n * w < 2 ^ 48) (s : State) : 1 ≤ width n w s := by
  have h1 : s.depth % 2 ^ 16 + 1 ≤ 2 ^ 16 := Nat.mod_lt _ (by decide)
  have h2 : n * (s.depth % 2 ^ 16 + 1) * w < 2 ^ 64 := by
    calc n * (s.depth % 2 ^ 16 + 1) * w = (n * w) * (s.depth % 2 ^ 16 + 1) := by rw [Nat.mul_assoc, Nat.mul_comm (_ + 1) w, ← Nat.mul_assoc]
      _ ≤ (n * w) * 2 ^ 16 := Nat.mul_le_mul_left _ h1
      _ < 2 ^ 48 * 2 ^ 16 := Nat.mul_lt_mul_of_pos_right h (by decide)
  unfold width
  rw [Nat.mod_eq_of_lt h2]
  exact Nat.mul_pos (Nat.mul_pos hn (Nat.succ_pos _)) hw

theorem cfgOf_base {I : Inst} {B : Nat} (hn : 1 ≤ I.n) {w : Nat} (hw : 1 ≤ w) (hu : I.n * w < 2 ^ 48) (hB : Bounded I B) (n : Nat) (c : CutsetType) : BaseCfg (cfgOf I w n c) (layering I B) B where
  wf := wellFormed hn hB
  lay := layered hn hB
  width := by
    intro s
    exact width_pos hn hw hu s

/-- Without the triangle inequality: going through city 1 is the only way to be in city 2 in time. -/
def shortcut : Inst := mk [[0, 1, 9], [1, 0, 1], [1, 1, 0]] [(0, 100), (0, 100), (0, 5)]

/-- The bound of merged states asks for one city too many. -/
def greedy : Inst := mk [[0, 1, 1, 1], [1, 0, 2, 1], [2, 2, 0, 2], [2, 1, 2, 0]] [(0, 1000), (0, 49), (0, 26), (0, 15)]

/-- Merging makes the salesman arrive early and wait. -/
def waits : Inst := mk [[0, 1, 4, 2], [5, 0, 3, 1], [7, 8, 0, 5], [4, 5, 3, 0]] [(18, 1000), (9, 18), (4, 16), (3, 13)]

/-- Many far cities. -/
def crowd : Inst :=
  { n := 7
    dist := fun i j => if i = j then 0 else if 4 ≤ i ∧ 4 ≤ j then 1 else if 4 ≤ i then 100 else if i = 0 then 2 else if j = 4 ∨ j = 5 then 1 else 2
    earliest := fun _ => 0
    latest := fun i => if 1 ≤ i ∧ i ≤ 3 then 20 else 1000 }

/-- Solver with the bound replaced by 0. -/
def cfg0 (I : Inst) : SolverCfg State := { cfgOf I 1 1 .lastExactLayer with p := { problem I with estimate := fun _ => 0 } }

end Verif.Tsptw
