import Verif.Proofs.Par.Crash
import Verif.Proofs.Bar.Crash
/-! An interruption is known only once a worker has left its loop because of it. -/
set_option autoImplicit false

namespace Verif.Par
open Verif Spec
variable {σ : Type} [DecidableEq σ] [Inhabited σ] {cfg : SolverCfg σ}

/-- Somebody has left the loop if the solver is interrupted. -/
def Left (s : Sys σ cfg.fr.F) : Prop := s.crit.interrupted = true → ∃ t ∈ s.threads, t.pc = .done

theorem done_set {ts : List (Thread σ)} (h : ∃ t ∈ ts, t.pc = .done) {i : Nat} {t : Thread σ} (ht : ts[i]? = some t) (hp : t.pc ≠ .done) (t' : Thread σ) : ∃ u ∈ ts.set i t', u.pc = .done := by
  obtain ⟨u, hu, hd⟩ := h
  obtain ⟨j, hj⟩ := List.getElem?_of_mem hu
  have hne : i ≠ j := by
    rintro rfl
    rw [ht] at hj; cases hj; exact hp hd
  exact ⟨u, List.mem_of_getElem? (by rw [List.getElem?_set_ne hne]; exact hj), hd⟩

theorem done_here {ts : List (Thread σ)} {i : Nat} {t : Thread σ} (ht : ts[i]? = some t) {t' : Thread σ} (hp : t'.pc = .done) : ∃ u ∈ ts.set i t', u.pc = .done := by
  obtain ⟨l1, l2, _, _, h3⟩ := split_at ht
  exact ⟨t', by rw [h3]; simp, hp⟩

theorem left_step {s s' : Sys σ cfg.fr.F} (h : Left s) {l : Lbl σ} (hs : step cfg s l = .ok s') : Left s' := by
  cases l with
  | spurious i =>
    simp only [step] at hs
    split at hs
    · rename_i t ht
      split at hs
      · rename_i hp
        cases hs
        exact fun hi => done_set (h hi) ht (by rw [hp]; simp) _
      · cases hs
    · cases hs
  | run i intr o =>
    simp only [step] at hs
    split at hs
    · cases hs
    rename_i t ht
    simp only [stepThread] at hs
    have keep : ∀ {c : Crit σ cfg.fr.F} (t' : Thread σ), t.pc ≠ .done → c.interrupted = s.crit.interrupted → Left (cfg := cfg) { crit := c, threads := s.threads.set i t' } :=
      fun t' hp e hi => done_set (h (by rw [← e]; exact hi)) ht hp t'
    split at hs
    · cases hs
    · cases hs
    · rename_i hp
      have hp' : t.pc ≠ .done := by rw [hp]; simp
      unfold getWorkload at hs
      by_cases hc : s.crit.ongoing = 0 ∧ cfg.fr.len s.crit.fringe = 0
      · rw [if_pos hc] at hs
        cases hs
        exact fun _ => done_here ht rfl
      · rw [if_neg hc] at hs
        by_cases hi : s.crit.interrupted = true
        · rw [if_pos hi] at hs
          cases hs
          exact fun _ => done_here ht rfl
        · rw [if_neg hi] at hs
          by_cases hq : intr = true
          · rw [if_pos hq] at hs
            by_cases ho : s.crit.ongoing > 0
            · rw [if_pos ho] at hs
              cases hs
              exact fun _ => done_here ht rfl
            · rw [if_neg ho] at hs
              cases hpop : cfg.fr.pop s.crit.fringe with
              | none => rw [hpop] at hs; cases hs
              | some r =>
                obtain ⟨f, nn⟩ := r
                rw [hpop] at hs
                cases nn with
                | none => cases hs
                | some nn => cases hs; exact fun _ => done_here ht rfl
          · rw [if_neg hq] at hs
            by_cases hl : cfg.fr.len s.crit.fringe = 0
            · rw [if_pos hl] at hs
              cases hs
              exact keep _ hp' rfl
            · rw [if_neg hl] at hs
              cases hpop : cfg.fr.pop s.crit.fringe with
              | none => rw [hpop] at hs; cases hs
              | some r =>
                obtain ⟨f, nn⟩ := r
                rw [hpop] at hs
                cases nn with
                | none => cases hs
                | some nn =>
                  simp only at hs
                  by_cases h1 : nn.ub ≤ s.crit.bestLb
                  · rw [if_pos h1] at hs
                    cases hs
                    exact keep _ hp' rfl
                  · rw [if_neg h1] at hs
                    by_cases h2 : i < s.crit.upperBounds.length
                    · rw [if_pos h2] at hs
                      cases hs
                      exact keep _ hp' rfl
                    · rw [if_neg h2] at hs; cases hs
    · rename_i n hp
      split at hs <;> cases hs <;> exact keep _ (by rw [hp]; simp) rfl
    · rename_i n lb hp
      split at hs
      · cases hs
      · cases hs
        refine keep _ (by rw [hp]; simp) ?_
        unfold maybeUpdateBest; simp only; split <;> rfl
    · rename_i n dd hp
      cases hs
      exact keep _ (by rw [hp]; simp) rfl
    · rename_i n lb dd hp
      split at hs
      · cases hs
      · split at hs
        · cases hs
          refine keep _ (by rw [hp]; simp) ?_
          unfold maybeUpdateBest; simp only; split <;> rfl
        · unfold enqueueCutset at hs
          split at hs
          · cases hs
          · rename_i c hc
            cases hs
            split at hc
            · cases hc
            · cases hc
              exact keep _ (by rw [hp]; simp) rfl
    · rename_i dd hp
      split at hs
      · cases hs
      · cases hs
        intro hi
        obtain ⟨u, hu, hd⟩ := done_set (h hi) ht (by rw [hp]; simp) { t with pc := .idle }
        exact ⟨wake u, List.mem_map_of_mem hu, by unfold wake; rw [hd]; exact hd⟩

end Verif.Par

namespace Verif.Bar
open Verif Spec
variable {σ : Type} [DecidableEq σ] [Inhabited σ] {cfg : SolverCfg σ}

/-- Somebody has left the loop if the solver is interrupted. -/
def Left (s : BSys σ cfg.fr.F) : Prop := s.crit.interrupted = true → ∃ t ∈ s.threads, t.pc = .done

theorem done_set {ts : List (BThread σ)} (h : ∃ t ∈ ts, t.pc = .done) {i : Nat} {t : BThread σ} (ht : ts[i]? = some t) (hp : t.pc ≠ .done) (t' : BThread σ) : ∃ u ∈ ts.set i t', u.pc = .done := by
  obtain ⟨u, hu, hd⟩ := h
  obtain ⟨j, hj⟩ := List.getElem?_of_mem hu
  have hne : i ≠ j := by
    rintro rfl
    rw [ht] at hj; cases hj; exact hp hd
  exact ⟨u, List.mem_of_getElem? (by rw [List.getElem?_set_ne hne]; exact hj), hd⟩

theorem done_here {ts : List (BThread σ)} {i : Nat} {t : BThread σ} (ht : ts[i]? = some t) {t' : BThread σ} (hp : t'.pc = .done) : ∃ u ∈ ts.set i t', u.pc = .done := by
  obtain ⟨l1, l2, _, _, h3⟩ := Par.split_at ht
  exact ⟨t', by rw [h3]; simp, hp⟩

theorem left_step {s s' : BSys σ cfg.fr.F} (h : Left s) {l : BLbl σ} (hs : step cfg s l = .ok s') : Left s' := by
  cases l with
  | spurious i =>
    simp only [step] at hs
    split at hs
    · rename_i t ht
      split at hs
      · rename_i hp
        cases hs
        exact fun hi => done_set (h hi) ht (by rw [hp]; simp) _
      · cases hs
    · cases hs
  | run i intr o v =>
    simp only [step] at hs
    split at hs
    · cases hs
    rename_i t ht
    simp only [stepThread] at hs
    have keep : ∀ {c : BCrit σ cfg.fr.F} {b : Bars σ} (t' : BThread σ), t.pc ≠ .done → c.interrupted = s.crit.interrupted →
        Left (cfg := cfg) { crit := c, bars := b, threads := s.threads.set i t' } :=
      fun t' hp e hi => done_set (h (by rw [← e]; exact hi)) ht hp t'
    split at hs
    · cases hs
    · cases hs
    · rename_i hp
      have hp' : t.pc ≠ .done := by rw [hp]; simp
      unfold getWorkload at hs
      cases hcl : cleanup cfg (cfg.p.nbVars + 1) s.crit s.bars with
      | none => rw [hcl] at hs; cases hs
      | some r =>
        obtain ⟨c, b⟩ := r
        rw [hcl] at hs
        obtain ⟨e1, e2, e3⟩ := cleanup_same _ hcl
        simp only at hs
        by_cases hc : c.ongoing = 0 ∧ cfg.fr.len c.fringe = 0
        · rw [if_pos hc] at hs
          cases hs
          exact fun _ => done_here ht rfl
        · rw [if_neg hc] at hs
          by_cases hi : c.interrupted = true
          · rw [if_pos hi] at hs
            cases hs
            exact fun _ => done_here ht rfl
          · rw [if_neg hi] at hs
            by_cases hq : intr = true
            · rw [if_pos hq] at hs
              by_cases ho : c.ongoing > 0
              · rw [if_pos ho] at hs
                cases hs
                exact fun _ => done_here ht rfl
              · rw [if_neg ho] at hs
                cases hpop : cfg.fr.pop c.fringe with
                | none => rw [hpop] at hs; cases hs
                | some r =>
                  obtain ⟨f, nn⟩ := r
                  rw [hpop] at hs
                  cases nn with
                  | none => cases hs
                  | some nn => cases hs; exact fun _ => done_here ht rfl
            · rw [if_neg hq] at hs
              by_cases hl : cfg.fr.len c.fringe = 0
              · rw [if_pos hl] at hs
                cases hs
                exact keep _ hp' e2
              · rw [if_neg hl] at hs
                cases hpop : popLoop cfg i v (cfg.fr.len c.fringe) c b with
                | none => rw [hpop] at hs; cases hs
                | some r =>
                  obtain ⟨c', b', w⟩ := r
                  rw [hpop] at hs
                  obtain ⟨g1, ⟨rfl, g2⟩ | ⟨n, rfl, g2⟩⟩ := popLoop_kind _ _ _ hpop
                  · cases hs
                    exact keep _ hp' (g1.trans e2)
                  · cases hs
                    exact keep _ hp' (g1.trans e2)
    · rename_i n hp
      split at hs <;> cases hs <;> exact keep _ (by rw [hp]; simp) rfl
    · rename_i n lb hp
      split at hs
      · cases hs
      · split at hs
        · cases hs
        · cases hs
          exact keep _ (by rw [hp]; simp) (maybe_same _ _).2
    · rename_i n dd hp
      cases hs
      exact keep _ (by rw [hp]; simp) rfl
    · rename_i n lb dd hp
      split at hs
      · cases hs
      · split at hs
        · cases hs
        · cases hs
          exact keep _ (by rw [hp]; simp) rfl
    · rename_i n dd hp
      split at hs
      · cases hs
        exact keep _ (by rw [hp]; simp) (maybe_same _ _).2
      · split at hs
        · cases hs
        · rename_i c hc
          cases hs
          exact keep _ (by rw [hp]; simp) (pushCutset_same _ _ hc).2
    · rename_i depth dd hp
      split at hs
      · cases hs
      · split at hs
        · cases hs
        · cases hs
          intro hi
          obtain ⟨u, hu, hd⟩ := done_set (h hi) ht (by rw [hp]; simp) { t with pc := .idle }
          exact ⟨wake u, List.mem_map_of_mem hu, by unfold wake; rw [hd]; exact hd⟩

end Verif.Bar
