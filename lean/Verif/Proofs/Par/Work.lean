import Verif.Spec.Work
import Verif.Proofs.Par.Final
/-!
The counter of the nodes expanded in diagrams.
-/
set_option autoImplicit false

namespace Verif.Par
open Spec
variable {σ : Type} [DecidableEq σ] [Inhabited σ] {cfg : SolverCfg σ}

theorem sum_set {α : Type} (f : α → Nat) : ∀ (l : List α) (i : Nat) (a b : α), l[i]? = some a → ((l.set i b).map f).sum + f a = (l.map f).sum + f b := by
  intro l
  induction l with
  | nil => intro i a b h; cases h
  | cons x l ih =>
    intro i a b h
    cases i with
    | zero =>
      rw [List.getElem?_cons_zero] at h
      cases h
      simp only [List.set_cons_zero, List.map_cons, List.sum_cons]
      omega
    | succ i =>
      rw [List.getElem?_cons_succ] at h
      have := ih i a b h
      simp only [List.set_cons_succ, List.map_cons, List.sum_cons]
      omega

/-- What a worker has counted and not yet reported. -/
def owed (t : Thread σ) : Nat :=
  match t.pc with
  | .relb _ dd => dd
  | .relx _ _ dd => dd
  | .fin dd => dd
  | _ => 0

/-- How many more diagrams a worker may compile for the node it holds. -/
def credit (t : Thread σ) : Nat :=
  match t.pc with
  | .start _ => 2
  | .restr _ _ => 2
  | .relb _ _ => 1
  | .relx _ _ _ => 1
  | _ => 0

theorem wake_owed (t : Thread σ) : owed (wake t) = owed t := by unfold wake owed; cases h : t.pc <;> simp [h]
theorem wake_credit (t : Thread σ) : credit (wake t) = credit t := by unfold wake credit; cases h : t.pc <;> simp [h]

def owedAll {F : Type} (s : Sys σ F) : Nat := (s.threads.map owed).sum
def creditAll {F : Type} (s : Sys σ F) : Nat := (s.threads.map credit).sum

theorem getWorkload_dd {c c' : Crit σ cfg.fr.F} {i : Nat} {b : Bool} {w : WorkLoad σ} (h : getWorkload cfg c i b = some (c', w)) : c'.exploredDd = c.exploredDd := by
  unfold getWorkload at h
  split at h
  · cases h; rfl
  · split at h
    · cases h; rfl
    · split at h
      · split at h
        · cases h; rfl
        · split at h
          · cases h; rfl
          · cases h
      · split at h
        · cases h; rfl
        · split at h
          · split at h
            · cases h; rfl
            · split at h
              · cases h; rfl
              · cases h
          · cases h

theorem maybe_dd (c : Crit σ cfg.fr.F) (D : Dd σ) : (maybeUpdateBest cfg c D).exploredDd = c.exploredDd := by
  unfold maybeUpdateBest
  simp only
  split <;> rfl

theorem enqueue_dd {c c' : Crit σ cfg.fr.F} {D : Dd σ} {ub : Int} (h : enqueueCutset cfg c D ub = some c') : c'.exploredDd = c.exploredDd := by
  unfold enqueueCutset at h
  split at h
  · cases h
  · cases h; rfl

def compilesPc (t : Thread σ) : Bool :=
  match t.pc with
  | .restr _ _ => true
  | .relx _ _ _ => true
  | _ => false

theorem compiles_pc {F : Type} {s : Sys σ F} {i : Nat} {t : Thread σ} (ht : s.threads[i]? = some t) : Compiles s i = compilesPc t := by
  unfold Compiles compilesPc; simp only [ht]; cases t.pc <;> rfl

/-- What a step of worker `i` does to the counters. -/
theorem put_work {s : Sys σ cfg.fr.F} {i : Nat} {t t' : Thread σ} {c : Crit σ cfg.fr.F} (ht : s.threads[i]? = some t)
    (h1 : c.exploredDd + owed t' = s.crit.exploredDd + owed t + (if compilesPc t then t'.mdd.explored else 0))
    (h2 : credit t' + (if compilesPc t then 1 else 0) ≤ credit t + (match t'.pc with | .start _ => 2 | _ => 0)) :
    c.exploredDd + owedAll (⟨c, s.threads.set i t'⟩ : Sys σ cfg.fr.F) =
        s.crit.exploredDd + owedAll s + (if Compiles s i then diagramWork (⟨c, s.threads.set i t'⟩ : Sys σ cfg.fr.F) i else 0) ∧
      creditAll (⟨c, s.threads.set i t'⟩ : Sys σ cfg.fr.F) + (if Compiles s i then 1 else 0) ≤
        creditAll s + (if GotNode (⟨c, s.threads.set i t'⟩ : Sys σ cfg.fr.F) i then 2 else 0) := by
  have ho := sum_set owed _ _ _ t' ht
  have hk := sum_set credit _ _ _ t' ht
  have hd : diagramWork (⟨c, s.threads.set i t'⟩ : Sys σ cfg.fr.F) i = t'.mdd.explored := by
    unfold diagramWork
    simp only [List.getElem?_set_self (List.getElem?_eq_some_iff.1 ht).1]
  have hgn : (if GotNode (⟨c, s.threads.set i t'⟩ : Sys σ cfg.fr.F) i then 2 else 0) = (match t'.pc with | .start _ => 2 | _ => 0) := by
    rw [gotNode_set ht]; cases t'.pc <;> rfl
  rw [compiles_pc ht, hd, hgn]
  unfold owedAll creditAll
  simp only
  omega

theorem step_work {s s' : Sys σ cfg.fr.F} {i : Nat} {b : Bool} {o : Oracle σ} (h : step cfg s (.run i b o) = .ok s') :
    s'.crit.exploredDd + owedAll s' = s.crit.exploredDd + owedAll s + (if Compiles s i then diagramWork s' i else 0) ∧
      creditAll s' + (if Compiles s i then 1 else 0) ≤ creditAll s + (if GotNode s' i then 2 else 0) := by
  simp only [step] at h
  split at h
  · cases h
  · rename_i t ht
    unfold stepThread at h
    simp only at h
    split at h
    · cases h
    · cases h
    · rename_i hpc
      split at h
      · cases h
      all_goals
        rename_i hg
        cases h
        have hd := getWorkload_dd hg
        refine put_work ht ?_ ?_ <;> simp [owed, credit, compilesPc, hpc, hd]
    · rename_i hpc
      split at h <;> (cases h; refine put_work ht ?_ ?_ <;> simp [owed, credit, compilesPc, hpc])
    · rename_i hpc
      split at h
      · cases h
      · rename_i D _
        cases h
        refine put_work ht ?_ ?_
        · rw [maybe_dd]; cases D.exact <;> simp [owed, compilesPc, hpc]
        · cases D.exact <;> simp [credit, compilesPc, hpc]
    · rename_i hpc
      cases h
      refine put_work ht ?_ ?_ <;> simp [owed, credit, compilesPc, hpc]
    · rename_i hpc
      split at h
      · cases h
      · split at h
        · cases h
          refine put_work ht ?_ ?_
          · rw [maybe_dd]; simp [owed, compilesPc, hpc]; omega
          · simp [credit, compilesPc, hpc]
        · split at h
          · cases h
          · rename_i he
            cases h
            refine put_work ht ?_ ?_
            · rw [enqueue_dd he]; simp [owed, compilesPc, hpc]; omega
            · simp [credit, compilesPc, hpc]
    · rename_i dd hpc
      split at h
      · cases h
      · cases h
        have ho := sum_set owed _ _ _ ({ t with pc := .idle } : Thread σ) ht
        have hk := sum_set credit _ _ _ ({ t with pc := .idle } : Thread σ) ht
        have e1 : owed ({ t with pc := .idle } : Thread σ) = 0 := rfl
        have e2 : credit ({ t with pc := .idle } : Thread σ) = 0 := rfl
        have e3 : owed t = dd := by simp only [owed, hpc]
        have e4 : Compiles s i = false := by rw [compiles_pc ht]; simp only [compilesPc, hpc]
        have e5 : ∀ l : List (Thread σ), ((l.map wake).map owed).sum = (l.map owed).sum := fun l => by
          rw [List.map_map]; congr 1; exact List.map_congr_left fun t _ => wake_owed t
        have e6 : ∀ l : List (Thread σ), ((l.map wake).map credit).sum = (l.map credit).sum := fun l => by
          rw [List.map_map]; congr 1; exact List.map_congr_left fun t _ => wake_credit t
        rw [e4]
        unfold owedAll creditAll
        simp only [e5, e6, Bool.false_eq_true, if_false]
        omega

theorem spurious_work {s s' : Sys σ cfg.fr.F} {i : Nat} (h : step cfg s (.spurious i) = .ok s') :
    s'.crit.exploredDd + owedAll s' = s.crit.exploredDd + owedAll s ∧ creditAll s' = creditAll s := by
  simp only [step] at h
  split at h
  · rename_i t ht
    split at h
    · rename_i hpc
      cases h
      have ho := sum_set owed _ _ _ ({ t with pc := .idle } : Thread σ) ht
      have hk := sum_set credit _ _ _ ({ t with pc := .idle } : Thread σ) ht
      simp only [owed, credit, hpc] at ho hk
      unfold owedAll creditAll
      simp only
      refine ⟨?_, ?_⟩
      · have : (List.map owed (s.threads.set i { t with pc := .idle })).sum = (List.map owed s.threads).sum := ho
        omega
      · exact hk
    · cases h
  · cases h

theorem runs_work : ∀ (ls : List (Lbl σ)) (s s' : Sys σ cfg.fr.F), runs cfg s ls = .ok s' →
    s'.crit.exploredDd + owedAll s' = s.crit.exploredDd + owedAll s + totalWork cfg s ls ∧
      creditAll s' + compilations cfg s ls ≤ creditAll s + 2 * handedOut cfg s ls := by
  intro ls
  induction ls with
  | nil => intro s s' h; cases h; simp [totalWork, compilations, handedOut]
  | cons l ls ih =>
    intro s s' h
    unfold runs at h
    split at h
    · rename_i s1 h1
      have h2 := ih s1 s' h
      cases l with
      | spurious i =>
        have := spurious_work h1
        simp only [totalWork, compilations, handedOut, h1]
        omega
      | run i b o =>
        have h3 := step_work h1
        simp only [totalWork, compilations, handedOut, h1]
        refine ⟨by omega, ?_⟩
        have h4 : (if GotNode s1 i then 2 else 0) = 2 * (if GotNode s1 i then 1 else 0) := by cases GotNode s1 i <;> rfl
        omega
    · cases h
    · cases h

theorem init_work {s : Sys σ cfg.fr.F} (h : init cfg = some s) : s.crit.exploredDd = 0 ∧ owedAll s = 0 ∧ creditAll s = 0 := by
  unfold init at h
  split at h
  · cases h
  · cases h
    refine ⟨rfl, ?_, ?_⟩
    · unfold owedAll; simp [owed]
    · unfold creditAll; simp [credit]

theorem finished_owed {F : Type} {s : Sys σ F} (h : Finished s) : owedAll s = 0 := by
  unfold owedAll
  rw [List.sum_eq_zero_iff_forall_eq_nat]
  intro x hx
  obtain ⟨t, ht, rfl⟩ := List.mem_map.1 hx
  simp only [owed, h t ht]

end Verif.Par
