import Verif.Proofs.Par.Inv
import Mathlib.Data.Multiset.DershowitzManna
/-! A well-founded measure of the states of a run. -/
set_option autoImplicit false

namespace Verif.Par
open Verif Spec
variable {σ : Type} [DecidableEq σ] [Inhabited σ] {cfg : SolverCfg σ} {L : FrontierLaws cfg.fr} {S : Layering σ} {B : Int}

/-- The deeper a node, the lighter. -/
def wt (cfg : SolverCfg σ) (S : Layering σ) (k : Nat) (s : σ) : Nat := (cfg.p.nbVars - S.lvl s) * 10 + k

/-- The weight of the task a thread performs. -/
def Pc.wt (cfg : SolverCfg σ) (S : Layering σ) : Pc σ → List Nat
  | .start n => [Par.wt cfg S 8 n.state]
  | .restr n _ => [Par.wt cfg S 7 n.state]
  | .relb n _ => [Par.wt cfg S 6 n.state]
  | .relx n _ _ => [Par.wt cfg S 5 n.state]
  | .fin _ => [0]
  | _ => []

def Pc.rem : Pc σ → Nat
  | .idle => 2
  | .waiting => 1
  | _ => 0

def fringeWts (cfg : SolverCfg σ) (S : Layering σ) (l : List (SubProblem σ)) : List Nat := l.map fun n => wt cfg S 9 n.state
def threadWts (cfg : SolverCfg σ) (S : Layering σ) (ts : List (Thread σ)) : List Nat := ts.flatMap fun t => Pc.wt cfg S t.pc
def rems (ts : List (Thread σ)) : Nat := (ts.map fun t => Pc.rem t.pc).sum

variable (L S) in
def measure (s : Sys σ cfg.fr.F) : Multiset Nat × Nat :=
  ((fringeWts cfg S (L.holds s.crit.fringe) : Multiset Nat) + (threadWts cfg S s.threads : Multiset Nat), rems s.threads)

def Less : Multiset Nat × Nat → Multiset Nat × Nat → Prop := Prod.Lex Multiset.IsDershowitzMannaLT (· < ·)

theorem less_wf : WellFounded Less := WellFounded.prod_lex Multiset.wellFounded_isDershowitzMannaLT Nat.lt_wfRel.wf

theorem threadWts_split (l1 l2 : List (Thread σ)) (t : Thread σ) :
    (threadWts cfg S (l1 ++ t :: l2) : Multiset Nat) = (threadWts cfg S (l1 ++ l2) : Multiset Nat) + (Pc.wt cfg S t.pc : Multiset Nat) := by
  unfold threadWts
  rw [List.flatMap_append, List.flatMap_cons, List.flatMap_append, Multiset.coe_add]
  apply Quot.sound
  rw [List.append_assoc]
  exact (List.perm_append_comm).append_left _

theorem rems_split (l1 l2 : List (Thread σ)) (t : Thread σ) : rems (l1 ++ t :: l2) = rems (l1 ++ l2) + Pc.rem t.pc := by
  unfold rems; simp; omega

theorem threadWts_wake (l : List (Thread σ)) : threadWts cfg S (l.map wake) = threadWts cfg S l := by
  unfold threadWts
  rw [List.flatMap_map]
  congr 1
  funext t
  simp only [wake]
  obtain ⟨pc, m⟩ := t
  cases pc <;> rfl

theorem dm_sub {X Z : Multiset Nat} (h : Z ≠ 0) : Multiset.IsDershowitzMannaLT X (X + Z) := ⟨X, 0, Z, h, by simp, rfl, by simp⟩

/-- Replacing tasks by lighter ones. -/
theorem dm_replace {X Y Z M N : Multiset Nat} (hM : M = X + Y) (hN : N = X + Z) (h0 : Z ≠ 0) (h : ∀ y ∈ Y, ∃ z ∈ Z, y < z) : Multiset.IsDershowitzMannaLT M N :=
  ⟨X, Y, Z, h0, hM, hN, h⟩

theorem genuine_lvl (hwf : WellFormed cfg.p S B) {n : SubProblem σ} (h : Genuine cfg.p n) : S.lvl n.state = n.path.length ∧ n.path.length ≤ cfg.p.nbVars :=
  ⟨(Genuine.rootOK hwf h).lvl, (Genuine.rootOK hwf h).le⟩

/-- Each step that is not a spurious wake-up decreases the measure. -/
theorem trans_less (hg : BaseCfg cfg S B) {s s' : Sys σ cfg.fr.F} (ht : Trans cfg L true s s') (h : Inv L s) : Less (measure L S s') (measure L S s) := by
  cases ht with
  | @finish c m dd l1 l2 hpos =>
    apply Prod.Lex.left
    simp only [threadWts_wake, threadWts_split, Pc.wt]
    refine ⟨↑(fringeWts cfg S (L.holds c.fringe)) + ↑(threadWts cfg S (l1 ++ l2)), 0, {0}, by simp, by simp [-Multiset.coe_add], by rw [Multiset.coe_singleton]; ac_rfl, by simp⟩
  | @act c c' t t' l1 l2 ha =>
    have hgen := h.gen
    -- replacing the task of the thread by a lighter one
    have task : ∀ a b, c'.fringe = c.fringe → Pc.wt cfg S t.pc = [a] → Pc.wt cfg S t'.pc = [b] → b < a →
        Less (measure L S ⟨c', l1 ++ t' :: l2⟩) (measure L S ⟨c, l1 ++ t :: l2⟩) := by
      intro a b e1 e2 e3 hlt
      apply Prod.Lex.left
      simp only [threadWts_split, e1, e2, e3]
      refine dm_replace (X := ↑(fringeWts cfg S (L.holds c.fringe)) + ↑(threadWts cfg S (l1 ++ l2))) (Y := {b}) (Z := {a}) (by rw [Multiset.coe_singleton]; ac_rfl) (by rw [Multiset.coe_singleton]; ac_rfl) (by simp)
        (by simp [hlt])
    have leave : c'.fringe = c.fringe → Pc.wt cfg S t.pc = [] → Pc.wt cfg S t'.pc = [] → Pc.rem t'.pc < Pc.rem t.pc →
        Less (measure L S ⟨c', l1 ++ t' :: l2⟩) (measure L S ⟨c, l1 ++ t :: l2⟩) := by
      intro e1 e2 e3 hlt
      unfold measure
      simp only [threadWts_split, rems_split, e1, e2, e3]
      exact Prod.Lex.right _ (by omega)
    cases ha with
    | complete h1 h2 => exact leave rfl rfl rfl (by simp [Pc.rem])
    | stop h1 h2 => exact leave rfl rfl rfl (by simp [Pc.rem])
    | wait h1 h2 h3 => exact leave rfl rfl rfl (by simp [Pc.rem])
    | @interrupt m ub f h1 hf h2 h3 =>
      cases hh : L.holds c.fringe with
      | nil =>
        unfold measure
        simp only [threadWts_split, rems_split, h2, hh, Pc.wt]
        exact Prod.Lex.right _ (by simp [Pc.rem])
      | cons a l =>
        apply Prod.Lex.left
        simp only [threadWts_split, h2, hh, Pc.wt]
        refine dm_replace (X := ↑(threadWts cfg S (l1 ++ l2))) (Y := 0) (Z := ↑(fringeWts cfg S (a :: l))) ?_ ?_ ?_ ?_
        · simp [fringeWts]
        · simp [add_comm, -Multiset.coe_add]
        · simp [fringeWts]
        · simp
    | @prune m n f h1 hf h2 h3 h4 h5 =>
      apply Prod.Lex.left
      simp only [threadWts_split, h2, Pc.wt]
      refine dm_replace (X := ↑(threadWts cfg S (l1 ++ l2))) (Y := 0) (Z := ↑(fringeWts cfg S (L.holds c.fringe))) ?_ ?_ ?_ ?_
      · simp [fringeWts]
      · simp [add_comm, -Multiset.coe_add]
      · cases hh : L.holds c.fringe with
        | nil => rw [hh] at h3; cases h3
        | cons a l => simp [fringeWts]
      · simp
    | @take m n f h1 hf h2 h4 h5 =>
      apply Prod.Lex.left
      have e : (fringeWts cfg S (L.holds c.fringe) : Multiset Nat) = ↑(fringeWts cfg S (L.holds f)) + {wt cfg S 9 n.state} := by
        rw [← Multiset.coe_singleton, Multiset.coe_add]
        apply Quot.sound
        refine (h2.map _).trans ?_
        simp only [List.map_cons]
        exact (List.perm_append_comm (l₁ := [_]))
      simp only [threadWts_split, Pc.wt, e]
      refine dm_replace (X := ↑(fringeWts cfg S (L.holds f)) + ↑(threadWts cfg S (l1 ++ l2))) (Y := {wt cfg S 8 n.state}) (Z := {wt cfg S 9 n.state}) ?_ ?_ ?_ ?_
      · rw [Multiset.coe_singleton]; ac_rfl
      · simp only [Multiset.coe_nil, add_zero]; ac_rfl
      · simp
      · simp [wt]
    | @skip m n h1 => exact task _ _ rfl rfl rfl (by simp [wt])
    | @read1 m n h1 => exact task _ _ rfl rfl rfl (by simp [wt])
    | @read2 m n h1 => exact task _ _ rfl rfl rfl (by simp [wt])
    | @restrict m n lb o D ho hD =>
      have e : (maybeUpdateBest cfg c D).fringe = c.fringe := by
        unfold maybeUpdateBest; simp only; split <;> rfl
      by_cases hx : D.exact = true
      · exact task (wt cfg S 7 n.state) 0 e rfl (by simp [hx, Pc.wt]) (by simp [wt])
      · exact task (wt cfg S 7 n.state) (wt cfg S 6 n.state) e rfl (by simp [hx, Pc.wt]) (by simp [wt])
    | @relaxExact m n lb dd o D ho hD hx =>
      have e : (maybeUpdateBest cfg c D).fringe = c.fringe := by
        unfold maybeUpdateBest; simp only; split <;> rfl
      exact task _ _ e rfl rfl (by simp [wt])
    | @relaxCut m n lb dd o D f ho hD hx hf =>
      have hn : Genuine cfg.p n := hgen n (List.mem_append.2 (Or.inr (mem_working.2 (Or.inr rfl))))
      obtain ⟨sub, k1, k2⟩ := hf.wts (wt cfg S 9)
      apply Prod.Lex.left
      have e : (fringeWts cfg S (L.holds f) : Multiset Nat) = ↑(fringeWts cfg S (L.holds c.fringe)) + ↑sub := by
        rw [Multiset.coe_add]
        apply Quot.sound
        exact k2.trans List.perm_append_comm
      simp only [threadWts_split, Pc.wt, e]
      refine dm_replace (X := ↑(fringeWts cfg S (L.holds c.fringe)) + ↑(threadWts cfg S (l1 ++ l2))) (Y := ↑sub + {0}) (Z := {wt cfg S 5 n.state}) ?_ ?_ ?_ ?_
      · rw [Multiset.coe_singleton]; ac_rfl
      · rw [Multiset.coe_singleton]; ac_rfl
      · simp
      · intro y hy
        refine ⟨_, Multiset.mem_singleton_self _, ?_⟩
        rcases Multiset.mem_add.1 hy with hy | hy
        · obtain ⟨q, hq, rfl⟩ := k1 y hy
          obtain ⟨_, q0, hq0, rfl⟩ := mem_toPush.1 hq
          obtain ⟨g1, g2⟩ := dd_genuine hg hn ho hD hq0
          have a1 := genuine_lvl hg.wf g1
          have a2 := genuine_lvl hg.wf hn
          simp only [wt]; omega
        · rw [Multiset.mem_singleton] at hy; subst hy; simp [wt]

end Verif.Par
