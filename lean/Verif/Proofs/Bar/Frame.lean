import Verif.Proofs.Bar.Inv
/-! What the steps of the solver with a barrier leave alone. -/
set_option autoImplicit false

namespace Verif.Bar
open Verif Spec
variable {σ : Type} [DecidableEq σ] [Inhabited σ] {cfg : SolverCfg σ} {L : FrontierLaws cfg.fr} {S : Layering σ} {B : Int}

/-! ### What a step leaves alone -/

theorem sharp_view {l : BLbl σ} (h : Sharp l) : lblView l = none := by
  cases l with
  | run i intr o v => exact h
  | spurious i => rfl

theorem cleanup_frame : ∀ (fuel : Nat) (c : BCrit σ cfg.fr.F) (b : Bars σ) (c' : BCrit σ cfg.fr.F) (b' : Bars σ), cleanup cfg fuel c b = some (c', b') →
    c'.interrupted = c.interrupted ∧ c'.explored = c.explored := by
  intro fuel
  induction fuel with
  | zero => intro c b c' b' h; cases h
  | succ fuel ih =>
    intro c b c' b' h
    unfold cleanup at h
    split at h
    · split at h
      · split at h
        · split at h
          · cases h
          · have := ih _ _ _ _ h
            exact this
        · cases h; exact ⟨rfl, rfl⟩
      · cases h
    · cases h; exact ⟨rfl, rfl⟩

/-- How many nodes an answer of `get_workload` hands out. -/
def itemCount : WorkLoad σ → Nat
  | .item _ => 1
  | _ => 0

theorem popLoop_frame {i : Nat} {v : Option (View σ)} : ∀ (fuel : Nat) (c : BCrit σ cfg.fr.F) (b : Bars σ) (c' : BCrit σ cfg.fr.F) (b' : Bars σ) (w : WorkLoad σ),
    popLoop cfg i v fuel c b = some (c', b', w) →
    c'.interrupted = c.interrupted ∧ c'.explored = c.explored + itemCount w := by
  intro fuel
  induction fuel with
  | zero => intro c b c' b' w h; cases h
  | succ fuel ih =>
    intro c b c' b' w h
    unfold popLoop at h
    split at h
    · split at h
      · cases h; exact ⟨rfl, rfl⟩
      · split at h
        · split at h
          · cases h
          · split at h
            · split at h
              · split at h
                · cases h; exact ⟨rfl, rfl⟩
                · cases h
              · cases h
            · split at h
              · cases h; exact ⟨rfl, rfl⟩
              · have := ih _ _ _ _ _ h
                exact this
        · cases h
    · cases h

theorem getWorkload_frame {c c' : BCrit σ cfg.fr.F} {b b' : Bars σ} {i : Nat} {intr : Bool} {v : Option (View σ)} {w : WorkLoad σ}
    (h : getWorkload cfg c b i intr v = some (c', b', w)) :
    (intr = false → c'.interrupted = c.interrupted) ∧ c'.explored = c.explored + itemCount w := by
  unfold getWorkload at h
  split at h
  · cases h
  · rename_i c1 b1 hc
    have hcl := cleanup_frame _ _ _ _ _ hc
    split at h
    · cases h; exact ⟨fun _ => hcl.1, hcl.2⟩
    · split at h
      · cases h; exact ⟨fun _ => hcl.1, hcl.2⟩
      · split at h
        · rename_i hi
          split at h
          · cases h; exact ⟨fun h => absurd hi (by simp [h]), hcl.2⟩
          · split at h
            · cases h; exact ⟨fun h => absurd hi (by simp [h]), hcl.2⟩
            · cases h
        · split at h
          · cases h; exact ⟨fun _ => hcl.1, hcl.2⟩
          · have := popLoop_frame _ _ _ _ _ _ h
            rw [hcl.1, hcl.2] at this
            exact ⟨fun _ => this.1, this.2⟩

theorem maybe_frame (c : BCrit σ cfg.fr.F) (D : Dd σ) :
    (maybeUpdateBest cfg c D).interrupted = c.interrupted ∧ (maybeUpdateBest cfg c D).explored = c.explored ∧ c.bestLb ≤ (maybeUpdateBest cfg c D).bestLb := by
  unfold maybeUpdateBest
  simp only
  split
  · exact ⟨rfl, rfl, by simp only; omega⟩
  · exact ⟨rfl, rfl, Int.le_refl _⟩

theorem pushCutset_frame {ub : Int} : ∀ (l : List (SubProblem σ)) (c c' : BCrit σ cfg.fr.F), pushCutset cfg ub c l = some c' →
    c'.interrupted = c.interrupted ∧ c'.explored = c.explored := by
  intro l
  induction l with
  | nil => intro c c' h; cases h; exact ⟨rfl, rfl⟩
  | cons n l ih =>
    intro c c' h
    unfold pushCutset at h
    simp only at h
    split at h
    · split at h
      · have := ih _ _ h
        exact this
      · cases h
    · exact ih _ _ h

theorem gotNode_set {s : BSys σ cfg.fr.F} {i : Nat} {t t' : BThread σ} {c : BCrit σ cfg.fr.F} {b : Bars σ} (ht : s.threads[i]? = some t) :
    gotNode (⟨c, b, s.threads.set i t'⟩ : BSys σ cfg.fr.F) i = (match t'.pc with | .start n => some n | _ => none) := by
  have hlt := (List.getElem?_eq_some_iff.1 ht).1
  unfold gotNode
  simp only [List.getElem?_set_self hlt]
  cases t'.pc <;> rfl

/-- A step either asks for work or neither interrupts nor hands out a node. -/
theorem step_cases {s s' : BSys σ cfg.fr.F} {i : Nat} {intr : Bool} {o : Oracle σ} {v : Option (View σ)} (h : step cfg s (.run i intr o v) = .ok s') :
    (∃ t w, s.threads[i]? = some t ∧ t.pc = .idle ∧ getWorkload cfg s.crit s.bars i intr v = some (s'.crit, s'.bars, w) ∧
      gotNode s' i = (match w with | .item n => some n | _ => none)) ∨
    (s'.crit.interrupted = s.crit.interrupted ∧ s'.crit.explored = s.crit.explored ∧ gotNode s' i = none) := by
  simp only [step] at h
  split at h
  · cases h
  · rename_i t ht
    unfold stepThread at h
    simp only at h
    split at h
    · cases h
    · cases h
    · rename_i hidle
      left
      split at h
      · cases h
      all_goals
        rename_i hg
        cases h
        refine ⟨t, _, ht, hidle, hg, ?_⟩
        rw [gotNode_set ht]
      simp only [hidle]
    · right
      split at h <;> (cases h; exact ⟨rfl, rfl, by rw [gotNode_set ht]⟩)
    · right
      split at h
      · cases h
      · rename_i D _
        split at h
        · cases h
        · cases h
          refine ⟨(maybe_frame _ _).1, (maybe_frame _ _).2.1, ?_⟩
          rw [gotNode_set ht]
          simp only
          cases D.exact <;> rfl
    · right; cases h; exact ⟨rfl, rfl, by rw [gotNode_set ht]⟩
    · right
      split at h
      · cases h
      · split at h
        · cases h
        · cases h; exact ⟨rfl, rfl, by rw [gotNode_set ht]⟩
    · right
      split at h
      · cases h
        exact ⟨(maybe_frame _ _).1, (maybe_frame _ _).2.1, by rw [gotNode_set ht]⟩
      · split at h
        · cases h
        · rename_i hp
          cases h
          have := pushCutset_frame _ _ _ hp
          exact ⟨this.1, this.2, by rw [gotNode_set ht]⟩
    · right
      split at h
      · cases h
      · split at h
        · cases h
        · cases h
          refine ⟨rfl, rfl, ?_⟩
          have hlt := (List.getElem?_eq_some_iff.1 ht).1
          unfold gotNode
          simp only [List.getElem?_map, List.getElem?_set_self hlt, Option.map_some]
          rfl

theorem step_spurious {s s' : BSys σ cfg.fr.F} {i : Nat} (h : step cfg s (.spurious i) = .ok s') : s'.crit = s.crit ∧ s'.bars = s.bars := by
  simp only [step] at h
  split at h
  · split at h
    · cases h; exact ⟨rfl, rfl⟩
    · cases h
  · cases h

theorem step_noint {s s' : BSys σ cfg.fr.F} {l : BLbl σ} (hl : NoInterrupt l) (h : step cfg s l = .ok s') : s'.crit.interrupted = s.crit.interrupted := by
  cases l with
  | spurious i => rw [(step_spurious h).1]
  | run i intr o v =>
    rcases step_cases h with ⟨t, w, _, _, hg, _⟩ | h
    · exact (getWorkload_frame hg).1 hl
    · exact h.1

theorem runs_noint : ∀ (ls : List (BLbl σ)) (s s' : BSys σ cfg.fr.F), (∀ l ∈ ls, NoInterrupt l) → runs cfg s ls = .ok s' →
    s'.crit.interrupted = s.crit.interrupted := by
  intro ls
  induction ls with
  | nil => intro s s' _ h; cases h; rfl
  | cons l ls ih =>
    intro s s' hl h
    unfold runs at h
    split at h
    · rename_i s1 h1
      rw [ih s1 s' (fun l hl' => hl l (by simp [hl'])) h]
      exact step_noint (hl l (by simp)) h1
    · cases h
    · cases h

theorem init_noint {s : BSys σ cfg.fr.F} (h : init cfg = some s) : s.crit.interrupted = false ∧ s.crit.explored = 0 := by
  unfold init at h
  split at h
  · cases h; exact ⟨rfl, rfl⟩
  · cases h

theorem _root_.Verif.Spec.SharpReachable.reachable {s : BSys σ cfg.fr.F} (h : SharpReachable cfg s) : BReachable cfg s := by
  obtain ⟨s0, ls, h1, h2, h4⟩ := h; exact ⟨s0, ls, h1, fun l hl => (h2 l hl).1, h4⟩

theorem _root_.Verif.Spec.SharpReachableMax.sharp {s : BSys σ cfg.fr.F} (h : SharpReachableMax cfg s) : SharpReachable cfg s := by
  obtain ⟨s0, ls, h1, h2, h4⟩ := h; exact ⟨s0, ls, h1, fun l hl => ⟨(h2 l hl).1, (h2 l hl).2.1⟩, h4⟩

theorem _root_.Verif.Spec.SharpReachableMax.noint {s : BSys σ cfg.fr.F} (h : SharpReachableMax cfg s) : s.crit.interrupted = false := by
  obtain ⟨s0, ls, h1, h3, h4⟩ := h
  rw [runs_noint ls s0 s (fun l hl => (h3 l hl).2.2) h4]; exact (init_noint h1).1

end Verif.Bar
