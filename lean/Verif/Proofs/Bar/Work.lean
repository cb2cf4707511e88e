import Verif.Proofs.Par.Work
import Verif.Proofs.Bar.Final
/-!
The counter of the nodes expanded in diagrams, for the solver with a barrier.
-/
set_option autoImplicit false

namespace Verif.Bar
open Spec
variable {σ : Type} [DecidableEq σ] [Inhabited σ] {cfg : SolverCfg σ}

/-- What a worker has counted and not yet reported. -/
def owed (t : BThread σ) : Nat :=
  match t.pc with
  | .relb _ dd => dd
  | .relx _ _ dd => dd
  | .post _ dd => dd
  | .fin _ dd => dd
  | _ => 0

/-- How many more diagrams a worker may compile for the node it holds. -/
def credit (t : BThread σ) : Nat :=
  match t.pc with
  | .start _ => 2
  | .restr _ _ => 2
  | .relb _ _ => 1
  | .relx _ _ _ => 1
  | _ => 0

theorem wake_owed (t : BThread σ) : owed (wake t) = owed t := by unfold wake owed; cases h : t.pc <;> simp [h]
theorem wake_credit (t : BThread σ) : credit (wake t) = credit t := by unfold wake credit; cases h : t.pc <;> simp [h]

def owedAll {F : Type} (s : BSys σ F) : Nat := (s.threads.map owed).sum
def creditAll {F : Type} (s : BSys σ F) : Nat := (s.threads.map credit).sum

theorem cleanup_dd : ∀ (fuel : Nat) (c : BCrit σ cfg.fr.F) (b : Bars σ) (c' : BCrit σ cfg.fr.F) (b' : Bars σ), cleanup cfg fuel c b = some (c', b') →
    c'.exploredDd = c.exploredDd := by
  intro fuel
  induction fuel with
  | zero => intro c b c' b' h; cases h
  | succ fuel ih =>
    intro c b c' b' h
    unfold cleanup at h
    split at h
    · split at h
      · split at h
        · split at h
          · cases h
          · have := ih _ _ _ _ h
            exact this
        · cases h; rfl
      · cases h
    · cases h; rfl

theorem popLoop_dd {i : Nat} {v : Option (View σ)} : ∀ (fuel : Nat) (c : BCrit σ cfg.fr.F) (b : Bars σ) (c' : BCrit σ cfg.fr.F) (b' : Bars σ) (w : WorkLoad σ),
    popLoop cfg i v fuel c b = some (c', b', w) → c'.exploredDd = c.exploredDd := by
  intro fuel
  induction fuel with
  | zero => intro c b c' b' w h; cases h
  | succ fuel ih =>
    intro c b c' b' w h
    unfold popLoop at h
    split at h
    · split at h
      · cases h; rfl
      · split at h
        · split at h
          · cases h
          · split at h
            · split at h
              · split at h
                · cases h; rfl
                · cases h
              · cases h
            · split at h
              · cases h; rfl
              · have := ih _ _ _ _ _ h
                exact this
        · cases h
    · cases h

theorem getWorkload_dd {c c' : BCrit σ cfg.fr.F} {b b' : Bars σ} {i : Nat} {intr : Bool} {v : Option (View σ)} {w : WorkLoad σ}
    (h : getWorkload cfg c b i intr v = some (c', b', w)) : c'.exploredDd = c.exploredDd := by
  unfold getWorkload at h
  split at h
  · cases h
  · rename_i c1 b1 hc
    have hcl := cleanup_dd _ _ _ _ _ hc
    split at h
    · cases h; exact hcl
    · split at h
      · cases h; exact hcl
      · split at h
        · split at h
          · cases h; exact hcl
          · split at h
            · cases h; exact hcl
            · cases h
        · split at h
          · cases h; exact hcl
          · rw [popLoop_dd _ _ _ _ _ _ h, hcl]

theorem maybe_dd (c : BCrit σ cfg.fr.F) (D : Dd σ) : (maybeUpdateBest cfg c D).exploredDd = c.exploredDd := by
  unfold maybeUpdateBest
  simp only
  split <;> rfl

theorem pushCutset_dd {ub : Int} : ∀ (l : List (SubProblem σ)) (c c' : BCrit σ cfg.fr.F), pushCutset cfg ub c l = some c' → c'.exploredDd = c.exploredDd := by
  intro l
  induction l with
  | nil => intro c c' h; cases h; rfl
  | cons n l ih =>
    intro c c' h
    unfold pushCutset at h
    simp only at h
    split at h
    · split at h
      · have := ih _ _ h
        exact this
      · cases h
    · exact ih _ _ h

def compilesPc (t : BThread σ) : Bool :=
  match t.pc with
  | .restr _ _ => true
  | .relx _ _ _ => true
  | _ => false

theorem compiles_pc {F : Type} {s : BSys σ F} {i : Nat} {t : BThread σ} (ht : s.threads[i]? = some t) : bCompiles s i = compilesPc t := by
  unfold bCompiles compilesPc; simp only [ht]; cases t.pc <;> rfl

/-- What a step of worker `i` does to the counters. -/
theorem put_work {s : BSys σ cfg.fr.F} {i : Nat} {t t' : BThread σ} {c : BCrit σ cfg.fr.F} {bs : Bars σ} (ht : s.threads[i]? = some t)
    (h1 : c.exploredDd + owed t' = s.crit.exploredDd + owed t + (if compilesPc t then t'.mdd.explored else 0))
    (h2 : credit t' + (if compilesPc t then 1 else 0) ≤ credit t + (match t'.pc with | .start _ => 2 | _ => 0)) :
    c.exploredDd + owedAll (⟨c, bs, s.threads.set i t'⟩ : BSys σ cfg.fr.F) =
        s.crit.exploredDd + owedAll s + (if bCompiles s i then bDiagramWork (⟨c, bs, s.threads.set i t'⟩ : BSys σ cfg.fr.F) i else 0) ∧
      creditAll (⟨c, bs, s.threads.set i t'⟩ : BSys σ cfg.fr.F) + (if bCompiles s i then 1 else 0) ≤
        creditAll s + (2 * (gotNode (⟨c, bs, s.threads.set i t'⟩ : BSys σ cfg.fr.F) i).toList.length) := by
  have ho := Par.sum_set owed _ _ _ t' ht
  have hk := Par.sum_set credit _ _ _ t' ht
  have hd : bDiagramWork (⟨c, bs, s.threads.set i t'⟩ : BSys σ cfg.fr.F) i = t'.mdd.explored := by
    unfold bDiagramWork
    simp only [List.getElem?_set_self (List.getElem?_eq_some_iff.1 ht).1]
  have hgn : (2 * (gotNode (⟨c, bs, s.threads.set i t'⟩ : BSys σ cfg.fr.F) i).toList.length) = (match t'.pc with | .start _ => 2 | _ => 0) := by
    rw [gotNode_set ht]; cases t'.pc <;> rfl
  rw [compiles_pc ht, hd, hgn]
  unfold owedAll creditAll
  simp only
  omega

theorem step_work {s s' : BSys σ cfg.fr.F} {i : Nat} {b : Bool} {o : Oracle σ} {v : Option (View σ)} (h : step cfg s (.run i b o v) = .ok s') :
    s'.crit.exploredDd + owedAll s' = s.crit.exploredDd + owedAll s + (if bCompiles s i then bDiagramWork s' i else 0) ∧
      creditAll s' + (if bCompiles s i then 1 else 0) ≤ creditAll s + 2 * (gotNode s' i).toList.length := by
  simp only [step] at h
  split at h
  · cases h
  · rename_i t ht
    unfold stepThread at h
    simp only at h
    split at h
    · cases h
    · cases h
    · rename_i hpc
      split at h
      · cases h
      all_goals
        rename_i hg
        cases h
        have hd := getWorkload_dd hg
        refine put_work ht ?_ ?_ <;> simp [owed, credit, compilesPc, hpc, hd]
    · rename_i hpc
      split at h <;> (cases h; refine put_work ht ?_ ?_ <;> simp [owed, credit, compilesPc, hpc])
    · rename_i hpc
      split at h
      · cases h
      · rename_i D _
        split at h
        · cases h
        · cases h
          refine put_work ht ?_ ?_
          · rw [maybe_dd]; cases D.exact <;> simp [owed, compilesPc, hpc]
          · cases D.exact <;> simp [credit, compilesPc, hpc]
    · rename_i hpc
      cases h
      refine put_work ht ?_ ?_ <;> simp [owed, credit, compilesPc, hpc]
    · rename_i hpc
      split at h
      · cases h
      · split at h
        · cases h
        · cases h
          refine put_work ht ?_ ?_
          · simp [owed, compilesPc, hpc]; omega
          · simp [credit, compilesPc, hpc]
    · rename_i hpc
      split at h
      · cases h
        refine put_work ht ?_ ?_
        · rw [maybe_dd]; simp [owed, compilesPc, hpc]
        · simp [credit, compilesPc, hpc]
      · split at h
        · cases h
        · rename_i he
          cases h
          refine put_work ht ?_ ?_
          · rw [pushCutset_dd _ _ _ he]; simp [owed, compilesPc, hpc]
          · simp [credit, compilesPc, hpc]
    · rename_i dd hpc
      split at h
      · cases h
      · split at h
        · cases h
        · cases h
          have ho := Par.sum_set owed _ _ _ ({ t with pc := .idle } : BThread σ) ht
          have hk := Par.sum_set credit _ _ _ ({ t with pc := .idle } : BThread σ) ht
          have e1 : owed ({ t with pc := .idle } : BThread σ) = 0 := rfl
          have e2 : credit ({ t with pc := .idle } : BThread σ) = 0 := rfl
          have e3 : owed t = dd := by simp only [owed, hpc]
          have e4 : bCompiles s i = false := by rw [compiles_pc ht]; simp only [compilesPc, hpc]
          have e5 : ∀ l : List (BThread σ), ((l.map wake).map owed).sum = (l.map owed).sum := fun l => by
            rw [List.map_map]; congr 1; exact List.map_congr_left fun t _ => wake_owed t
          have e6 : ∀ l : List (BThread σ), ((l.map wake).map credit).sum = (l.map credit).sum := fun l => by
            rw [List.map_map]; congr 1; exact List.map_congr_left fun t _ => wake_credit t
          rw [e4]
          unfold owedAll creditAll
          simp only [e5, e6, Bool.false_eq_true, if_false]
          omega

theorem spurious_work {s s' : BSys σ cfg.fr.F} {i : Nat} (h : step cfg s (.spurious i) = .ok s') :
    s'.crit.exploredDd + owedAll s' = s.crit.exploredDd + owedAll s ∧ creditAll s' = creditAll s := by
  simp only [step] at h
  split at h
  · rename_i t ht
    split at h
    · rename_i hpc
      cases h
      have ho := Par.sum_set owed _ _ _ ({ t with pc := .idle } : BThread σ) ht
      have hk := Par.sum_set credit _ _ _ ({ t with pc := .idle } : BThread σ) ht
      simp only [owed, credit, hpc] at ho hk
      unfold owedAll creditAll
      simp only
      refine ⟨?_, ?_⟩
      · have : (List.map owed (s.threads.set i { t with pc := .idle })).sum = (List.map owed s.threads).sum := ho
        omega
      · exact hk
    · cases h
  · cases h

theorem runs_work : ∀ (ls : List (BLbl σ)) (s s' : BSys σ cfg.fr.F), runs cfg s ls = .ok s' →
    s'.crit.exploredDd + owedAll s' = s.crit.exploredDd + owedAll s + bTotalWork cfg s ls ∧
      creditAll s' + bCompilations cfg s ls ≤ creditAll s + 2 * (given cfg s ls).length := by
  intro ls
  induction ls with
  | nil => intro s s' h; cases h; simp [bTotalWork, bCompilations, given]
  | cons l ls ih =>
    intro s s' h
    unfold runs at h
    split at h
    · rename_i s1 h1
      have h2 := ih s1 s' h
      cases l with
      | spurious i =>
        have := spurious_work h1
        simp only [bTotalWork, bCompilations, given, h1]
        omega
      | run i b o v =>
        have h3 := step_work h1
        simp only [bTotalWork, bCompilations, given, h1, List.length_append]
        refine ⟨by omega, ?_⟩
        omega
    · cases h
    · cases h

theorem init_work {s : BSys σ cfg.fr.F} (h : init cfg = some s) : s.crit.exploredDd = 0 ∧ owedAll s = 0 ∧ creditAll s = 0 := by
  unfold init at h
  split at h
  · cases h
    refine ⟨rfl, ?_, ?_⟩
    · unfold owedAll; simp [owed]
    · unfold creditAll; simp [credit]
  · cases h

theorem finished_owed {F : Type} {s : BSys σ F} (h : BFinished s) : owedAll s = 0 := by
  unfold owedAll
  rw [List.sum_eq_zero_iff_forall_eq_nat]
  intro x hx
  obtain ⟨t, ht, rfl⟩ := List.mem_map.1 hx
  simp only [owed, h t ht]

end Verif.Bar
