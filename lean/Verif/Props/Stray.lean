import Verif.Props.Crash
import Verif.Proofs.Par.Stray
import Verif.Proofs.Rest
/-! C111: more workers than cells for their bounds.  (`src/solver/parallel.rs:169-177, 297-351`) -/
set_option autoImplicit false

namespace Verif.Props
open Verif Spec Par
variable {σ : Type} [DecidableEq σ] [Inhabited σ] {cfg : SolverCfg σ} {S : Layering σ} {B : Int}

/-- **C111.** Whatever the number of workers, and whichever of them panic, the shared data but for the bounds are those of a run in which everybody has a cell: an incumbent found is a true one. -/
theorem stray_harmless {s : Torn (Sys σ cfg.fr.F)} (h : FallReachable cfg s) :
    ∃ s' : Sys σ cfg.fr.F, Reachable (roomy cfg) s' ∧ s'.crit.bestLb = s.sys.crit.bestLb ∧ s'.crit.bestSol = s.sys.crit.bestSol ∧ s'.crit.fringe = s.sys.crit.fringe ∧
      s'.crit.ongoing = s.sys.crit.ongoing ∧ s'.crit.explored = s.sys.crit.explored := by
  obtain ⟨s', h1, h2⟩ := fall_torn h
  exact ⟨s'.sys, crash_harmless h1, h2.crit.bestLb, h2.crit.bestSol, h2.crit.fringe, h2.crit.ongoing, h2.crit.explored⟩

/-- **C111.** Once a worker has panicked, no worker of `maximize` ever leaves its loop, whatever the number of cells. -/
theorem stray_never_returns {s : Torn (Sys σ cfg.fr.F)} (h : FallReachableMax cfg s) (hd : s.dead ≠ []) :
    (∀ t ∈ s.sys.threads, t.pc ≠ .done) ∧ (Ended s → ∀ i, i < s.sys.threads.length → i ∈ s.dead) := by
  obtain ⟨s', h1, h2⟩ := fall_torn_max h
  have hn := (crash_never_returns h1 (by rw [h2.dead]; exact hd)).1
  have key : ∀ t ∈ s.sys.threads, t.pc ≠ .done := by
    intro t ht
    obtain ⟨i, hi⟩ := List.getElem?_of_mem ht
    by_cases hm : i ∈ s.dead
    · exact (h2.gone i hm t hi).1
    · exact hn t (List.mem_of_getElem? ((h2.live i hm).trans hi))
  refine ⟨key, fun he i hi => ?_⟩
  rcases he i _ (List.getElem?_eq_getElem hi) with h | h
  · exact h
  · exact absurd h (key _ (List.getElem_mem hi))

theorem fall_of_max {s : Torn (Sys σ cfg.fr.F)} (h : FallReachableMax cfg s) : FallReachable cfg s := by
  obtain ⟨s0, ls, h1, h2, _, h3⟩ := h
  exact ⟨s0, ls, h1, h2, h3⟩

theorem BaseCfg.roomy (hg : BaseCfg cfg S B) : BaseCfg (roomy cfg) S B := by
  obtain ⟨⟩ := hg
  constructor <;> assumption

private theorem fallStep_dead {s s' : Torn (Sys σ cfg.fr.F)} {f : Fate (Lbl σ)} (hs : fallStep cfg s f = some s') :
    (∃ l, f = .step l ∧ l.who ∉ s.dead ∧ step cfg s.sys l = .ok s'.sys ∧ s'.dead = s.dead) ∨ ((∀ l, f ≠ .step l) ∧ s'.dead.length = s.dead.length + 1) := by
  cases f with
  | step l =>
    left
    simp only [fallStep, tornStep] at hs
    split at hs
    · cases hs
    rename_i hl
    split at hs
    · rename_i x hx
      cases hs
      exact ⟨l, rfl, hl, hx, rfl⟩
    · cases hs
  | crash i =>
    right
    refine ⟨by simp, ?_⟩
    simp only [fallStep] at hs
    split at hs
    · rename_i x hx
      cases hs
      simp only [tornStep] at hx
      split at hx
      · cases hx
      split at hx
      · split at hx
        · cases hx; rfl
        · cases hx
      · cases hx
    · unfold strayStep at hs
      split at hs
      · cases hs
      split at hs
      · cases hs
      split at hs
      · simp only at hs
        split at hs
        · cases hs
        split at hs
        · split at hs
          · cases hs
          · cases hs; rfl
        · cases hs
      · cases hs

private theorem fallRuns_append (ls ks : List (Fate (Lbl σ))) : ∀ {s : Torn (Sys σ cfg.fr.F)}, fallRuns cfg s (ls ++ ks) = (fallRuns cfg s ls).bind fun s => fallRuns cfg s ks := by
  induction ls with
  | nil => intro s; rfl
  | cons l ls ih =>
    intro s
    simp only [List.cons_append, fallRuns]
    cases fallStep cfg s l with
    | none => rfl
    | some s1 => simp only [Option.bind_some]; exact ih

/-- **C111.** Whatever the number of workers and whichever of them panic, they come to rest: an infinite run has infinitely many spurious wake-ups. -/
theorem stray_runs_terminate (L : FrontierLaws cfg.fr) (hg : BaseCfg cfg S B) (st : Nat → Torn (Sys σ cfg.fr.F)) (ls : Nat → Fate (Lbl σ)) (hr : FallReachable cfg (st 0))
    (hv : ∀ k l, ls k = .step l → ValidLbl l) (hs : ∀ k, fallStep cfg (st k) (ls k) = some (st (k + 1))) : ∀ k, ∃ j, k ≤ j ∧ ∃ i, ls j = .step (.spurious i) := by
  have hreach : ∀ k, FallReachable cfg (st k) := by
    intro k
    induction k with
    | zero => exact hr
    | succ k ih =>
      obtain ⟨s0, l0, h1, h2, h3⟩ := ih
      refine ⟨s0, l0 ++ [ls k], h1, fun l hl => ?_, ?_⟩
      · rcases List.mem_append.1 hl with hl | hl
        · exact h2 l hl
        · exact hv k l (List.mem_singleton.1 hl).symm
      · rw [fallRuns_append, h3, Option.bind_some]
        simp only [fallRuns, hs k, Option.bind_some]
  obtain ⟨k0, hk0⟩ := counter_stops (d := fun k => (st k).dead.length) (q := fun k => ∃ l, ls k = .step l) (N := cfg.nbThreads) (fun k => by
    rcases fallStep_dead (hs k) with ⟨l, e1, _, _, e⟩ | ⟨hno, e⟩
    · exact Or.inl ⟨⟨l, e1⟩, by rw [e]⟩
    · exact Or.inr ⟨fun ⟨l, hl⟩ => hno l hl, e⟩) (fun k => by
      obtain ⟨s', h1, h2⟩ := fall_torn (hreach k)
      have := (torn_lost h1).length
      rw [h2.dead, h2.len, h2.nb] at this
      exact this)
  intro k
  have hstep : ∀ j, ∃ l, ls (k0 + k + j) = .step l ∧ l.who ∉ (st (k0 + k + j)).dead ∧ step cfg (st (k0 + k + j)).sys l = .ok (st (k0 + k + j + 1)).sys ∧
      (st (k0 + k + j + 1)).dead = (st (k0 + k + j)).dead := by
    intro j
    obtain ⟨l, hl⟩ := hk0 (k0 + k + j) (by omega)
    rcases fallStep_dead (hs (k0 + k + j)) with ⟨l', e1, e2, e3, e4⟩ | ⟨h, _⟩
    · exact ⟨l', e1, e2, e3, e4⟩
    · exact absurd hl (h l)
  obtain ⟨x0, g1, g2⟩ := fall_torn (hreach (k0 + k))
  -- the run in which everybody has a cell
  have hnext : ∀ j (x : {x : Torn (Sys σ cfg.fr.F) // SameT (st (k0 + k + j)) x}), ∃ y : {y : Torn (Sys σ cfg.fr.F) // SameT (st (k0 + k + (j + 1))) y},
      step (roomy cfg) x.1.sys (hstep j).choose = .ok y.1.sys := by
    intro j x
    obtain ⟨_, e2, e3, e4⟩ := (hstep j).choose_spec
    obtain ⟨x', h1, h2⟩ := stray_step x.2 e2 e3
    refine ⟨⟨⟨x', x.1.dead⟩, ?_⟩, h1⟩
    have : st (k0 + k + (j + 1)) = ⟨(st (k0 + k + j + 1)).sys, (st (k0 + k + j)).dead⟩ := by rw [← e4]; rfl
    rw [this]; exact h2
  let run : (j : Nat) → {x : Torn (Sys σ cfg.fr.F) // SameT (st (k0 + k + j)) x} := fun j => Nat.rec ⟨x0, g2⟩ (fun j x => (hnext j x).choose) j
  obtain ⟨j, hj, i, hi⟩ := runs_terminate (cfg := roomy cfg) L (BaseCfg.roomy hg) (Nat.le_add_left _ _) (fun j => (run j).1.sys) (fun j => (hstep j).choose) (crash_harmless g1)
    (fun j => hv _ _ (hstep j).choose_spec.1) (fun j => (hnext j (run j)).choose_spec) 0
  exact ⟨k0 + k + j, by omega, i, by rw [(hstep j).choose_spec.1, hi]⟩

/-- **C111.** When no worker that goes on can do anything, not even panic for want of a cell, each of them is parked or has left its loop.  The number of workers is arbitrary. -/
theorem stray_parked (L : FrontierLaws cfg.fr) (hg : BaseCfg cfg S B) {s : Torn (Sys σ cfg.fr.F)} (h : FallReachable cfg s)
    (hmax : ∀ i intr o, o.Valid → fallStep cfg s (.step (.run i intr o)) = none) (hno : ∀ i, strayStep cfg s i = none) {i : Nat} {t : Thread σ} (ht : s.sys.threads[i]? = some t) (hl : i ∉ s.dead) :
    t.pc = .waiting ∨ t.pc = .done := by
  apply Classical.byContradiction
  intro hc
  obtain ⟨s', h1, h2⟩ := fall_torn h
  have hr : cfg.nbThreads ≤ cfg.custom + cfg.nbThreads := Nat.le_add_left _ _
  have hi := (reachable_inv (cfg := roomy cfg) L (BaseCfg.roomy hg) hr (crash_harmless h1)).1
  obtain ⟨x', hx'⟩ := enabled (cfg := roomy cfg) (BaseCfg.roomy hg) hr hi ((h2.live i hl).trans ht) (fun h => hc (Or.inl h)) (fun h => hc (Or.inr h)) false Inst.orc_valid
  rcases step_back h2 hl hx' with ⟨x, hx⟩ | ⟨x, hx⟩
  · have := hmax i false Inst.orc Inst.orc_valid
    simp only [fallStep, tornStep, hx, Lbl.who] at this
    split at this
    · exact hl (by assumption)
    · cases this
  · rw [hno i] at hx; cases hx

/-- A state in which every worker is gone, parked, or has left its loop does not change but for spurious wakeups. -/
theorem stray_stuck {s : Torn (Sys σ cfg.fr.F)} (h : ∀ (i : Nat) (t : Thread σ), s.sys.threads[i]? = some t → i ∈ s.dead ∨ t.pc = .waiting ∨ t.pc = .done) (f : Fate (Lbl σ))
    (hf : ∀ i, f ≠ .step (.spurious i)) : fallStep cfg s f = none := by
  have h1 := crash_stuck h f hf
  cases f with
  | step l => exact h1
  | crash i =>
    simp only [fallStep, h1]
    unfold strayStep
    split
    · rfl
    · rename_i hl
      split
      · rfl
      · rename_i t ht
        rcases h i t ht with h | h | h
        · exact absurd h hl
        · simp only [h]
        · simp only [h]

/-- **C111.** Once a worker of `maximize` has panicked, for want of a cell or otherwise, and the others have come to rest, they are parked, nobody ever wakes them, and the call does not return. -/
theorem stray_hangs (L : FrontierLaws cfg.fr) (hg : BaseCfg cfg S B) {s : Torn (Sys σ cfg.fr.F)} (h : FallReachableMax cfg s) (hd : s.dead ≠ [])
    (hmax : ∀ i intr o, o.Valid → fallStep cfg s (.step (.run i intr o)) = none) (hno : ∀ i, strayStep cfg s i = none) {i : Nat} {t : Thread σ} (ht : s.sys.threads[i]? = some t) (hl : i ∉ s.dead) :
    t.pc = .waiting ∧ ¬ Ended s ∧ ∀ f, (∀ j, f ≠ .step (.spurious j)) → fallStep cfg s f = none := by
  have hnd := (stray_never_returns h hd).1
  have key : ∀ (j : Nat) (u : Thread σ), s.sys.threads[j]? = some u → j ∉ s.dead → u.pc = .waiting := by
    intro j u hu hj
    rcases stray_parked L hg (fall_of_max h) hmax hno hu hj with h | h
    · exact h
    · exact absurd h (hnd u (List.mem_of_getElem? hu))
  refine ⟨key i t ht hl, fun he => ?_, stray_stuck fun j u hu => ?_⟩
  · rcases he i t ht with h | h
    · exact hl h
    · exact hnd t (List.mem_of_getElem? ht) h
  · by_cases hj : j ∈ s.dead
    · exact Or.inl hj
    · exact Or.inr (Or.inl (key j u hu hj))

/-- **C111.** As long as nothing interrupts, a worker that goes on panics outside of the compilations just if it takes a node and has no cell: this is the only panic that `with_nb_threads` can cause. -/
theorem stray_exact (L : FrontierLaws cfg.fr) (hg : BaseCfg cfg S B) {s : Torn (Sys σ cfg.fr.F)} (h : FallReachable cfg s) {i : Nat} (hl : i ∉ s.dead) {o : Oracle σ} (ho : o.Valid) :
    step cfg s.sys (.run i false o) = .panic ↔ ∃ x, strayStep cfg s i = some x := by
  constructor
  · intro hp
    obtain ⟨s', h1, h2⟩ := fall_torn h
    have hr : cfg.nbThreads ≤ cfg.custom + cfg.nbThreads := Nat.le_add_left _ _
    have hi := (reachable_inv (cfg := roomy cfg) L (BaseCfg.roomy hg) hr (crash_harmless h1)).1
    cases ht : s.sys.threads[i]? with
    | none => simp only [step, ht] at hp; cases hp
    | some t =>
      by_cases hw : t.pc = .waiting
      · simp only [step, ht, stepThread, hw] at hp; cases hp
      by_cases hd : t.pc = .done
      · simp only [step, ht, stepThread, hd] at hp; cases hp
      obtain ⟨x', hx'⟩ := enabled (cfg := roomy cfg) (BaseCfg.roomy hg) hr hi ((h2.live i hl).trans ht) hw hd false ho
      rcases step_back h2 hl hx' with ⟨x, hx⟩ | hx
      · rw [hp] at hx; cases hx
      · exact hx
  · rintro ⟨x, hx⟩
    unfold strayStep at hx
    rw [if_neg hl] at hx
    split at hx
    · cases hx
    rename_i t ht
    split at hx
    · rename_i hp
      simp only at hx
      split at hx
      · cases hx
      rename_i hno
      simp only [not_or] at hno
      obtain ⟨n1, n2, n3, n4⟩ := hno
      split at hx
      · rename_i f nn hpop
        split at hx
        · cases hx
        rename_i hub
        have hgw : getWorkload cfg s.sys.crit i false = none := by
          unfold getWorkload
          rw [if_neg n1, if_neg n2, if_neg (by simp), if_neg n3, hpop]
          simp only [hub, n4, if_false]
        simp only [step, ht, stepThread, hp, hgw]
      · cases hx
    · cases hx

/-- **C111.** Whatever the number of workers and whichever of them panic, the incumbent is at every moment a feasible solution with the recorded value, or there is none yet. -/
theorem stray_incumbent (L : FrontierLaws cfg.fr) (hg : BaseCfg cfg S B) {s : Torn (Sys σ cfg.fr.F)} (h : FallReachable cfg s) :
    (bestSolution cfg s.sys.crit = none ∧ bestValue cfg s.sys.crit = none) ∨
      ∃ sol v, bestSolution cfg s.sys.crit = some sol ∧ bestValue cfg s.sys.crit = some v ∧ bestLowerBound cfg s.sys.crit = v ∧ IsSolutionOf cfg.p sol v := by
  obtain ⟨s', h1, h2, h3, _⟩ := stray_harmless h
  have key := incumbent_real (cfg := roomy cfg) L (BaseCfg.roomy hg) (Nat.le_add_left _ _) h1
  simp only [bestSolution, bestValue, bestLowerBound, h2, h3] at key ⊢
  exact key

/-- **C111.** If `maximize` returns in spite of there being more workers than cells, its answer is right: the best value is the optimum, and the best solution attains it. -/
theorem surplus_optimal (L : FrontierLaws cfg.fr) (hg : GoodCfg cfg S B) (hc : CutOK cfg S) (h1 : 1 ≤ cfg.nbThreads) {s : Torn (Sys σ cfg.fr.F)} (h : FallReachableMax cfg s)
    (hf : Finished s.sys) {v : Int} (hv : IsOptimum cfg.p v) :
    bestValue cfg s.sys.crit = some v ∧ ∃ sol, bestSolution cfg s.sys.crit = some sol ∧ IsSolutionOf cfg.p sol v := by
  obtain ⟨s', g1, g2⟩ := fall_torn_max h
  have hd : s.dead = [] := by
    apply Classical.byContradiction
    intro hd
    have hlt : 0 < s.sys.threads.length := by rw [g2.nb]; exact h1
    exact (stray_never_returns h hd).1 _ (List.getElem_mem hlt) (hf _ (List.getElem_mem hlt))
  have hf' : Finished s'.sys := by
    intro t ht
    obtain ⟨i, hi⟩ := List.getElem?_of_mem ht
    rw [g2.live i (by rw [hd]; simp)] at hi
    exact hf t (List.mem_of_getElem? hi)
  have hr : ReachableMax (roomy cfg) s'.sys := by
    obtain ⟨s0, ls, k1, k2, k3, k4⟩ := g1
    obtain ⟨ks, e1, e2⟩ := torn_sub ls k4
    exact ⟨s0, ks, k1, fun l hl => k2 l (e1 l hl), fun l hl i intr o e => k3 i intr o (e ▸ e1 l hl), e2⟩
  have key := maximize_optimal (cfg := roomy cfg) (S := S) (B := B) L ⟨hg.wf, hg.adm, hg.rel, hg.width⟩ hc (Nat.le_add_left _ _) h1 hr hf' hv
  simp only [bestSolution, bestValue, g2.crit.bestLb, g2.crit.bestSol] at key ⊢
  exact key

theorem falls_reach {s0 : Sys σ cfg.fr.F} {s : Torn (Sys σ cfg.fr.F)} (l : List (Nat × Bool)) (h0 : Par.init cfg = some s0) (h : fallRuns cfg ⟨s0, []⟩ (fates l) = some s) : FallReachableMax cfg s := by
  have key : ∀ k : Lbl σ, Fate.step k ∈ (fates l : List (Fate (Lbl σ))) → ∃ i, k = .run i false Inst.orc := by
    intro k hk
    obtain ⟨x, _, hx⟩ := List.mem_map.1 hk
    split at hx
    · cases hx
    · cases hx; exact ⟨_, rfl⟩
  refine ⟨s0, fates l, h0, fun k hk => ?_, fun i intr o hk => ?_, h⟩
  · obtain ⟨i, rfl⟩ := key k hk
    exact Inst.orc_valid
  · obtain ⟨j, hj⟩ := key _ hk
    cases hj; rfl

/-- **C111.** `custom(…, 1).with_nb_threads(2)` in a build that unwinds: if the worker without a cell comes first, it takes the root with it, the other is parked for ever, and no solution is ever found. -/
theorem stray_loses_all : ∃ s, FallReachableMax { Inst.kpCfg 1 with nbThreads := 2 } s ∧ s.dead = [1] ∧ s.sys.crit.bestSol = none ∧ s.sys.crit.explored = 1 ∧ ¬ Ended s ∧
    ∀ f, (∀ j, f ≠ .step (.spurious j)) → Par.fallStep { Inst.kpCfg 1 with nbThreads := 2 } s f = none := by
  have h : (match Par.init { Inst.kpCfg 1 with nbThreads := 2 } with
    | some s0 =>
      (match Par.fallRuns { Inst.kpCfg 1 with nbThreads := 2 } ⟨s0, []⟩ (fates [(1, true), (0, false)]) with
        | some s =>
          decide (s.dead = [1]) && decide (s.sys.crit.bestSol = none) && decide (s.sys.crit.explored = 1) &&
            decide (s.sys.threads.length = 2) && (match s.sys.threads[0]? with | some t => (match t.pc with | .waiting => true | _ => false) | none => false)
        | none => false)
    | none => false) = true := by decide +kernel
  split at h
  · rename_i s0 h0
    split at h
    · rename_i s hs
      simp only [Bool.and_eq_true, decide_eq_true_eq] at h
      obtain ⟨⟨⟨⟨h1, h2⟩, h6⟩, h3⟩, h4⟩ := h
      have h5 : ∃ t, s.sys.threads[0]? = some t ∧ t.pc = .waiting := by
        split at h4
        · rename_i t ht
          refine ⟨t, ht, ?_⟩
          split at h4
          · assumption
          · cases h4
        · cases h4
      obtain ⟨t, ht, hp⟩ := h5
      have hr := falls_reach _ h0 hs
      refine ⟨s, hr, h1, h2, h6, ?_, stray_stuck ?_⟩
      · intro he
        have := (stray_never_returns hr (by rw [h1]; simp)).2 he 0 (by omega)
        rw [h1] at this; simp at this
      · intro i u hu
        have hi := (List.getElem?_eq_some_iff.1 hu).1
        rw [h3] at hi
        match i, hi with
        | 1, _ => exact Or.inl (by rw [h1]; simp)
        | 0, _ => rw [ht] at hu; cases hu; exact Or.inr (Or.inl hp)
    · cases h
  · cases h

/-- The hypotheses of `stray_hangs` can be met. -/
example : ∃ s, FallReachableMax { Inst.kpCfg 1 with nbThreads := 2 } s ∧ s.dead ≠ [] ∧
    (∀ i intr o, o.Valid → Par.fallStep { Inst.kpCfg 1 with nbThreads := 2 } s (.step (.run i intr o)) = none) ∧ (∀ i, Par.strayStep { Inst.kpCfg 1 with nbThreads := 2 } s i = none) ∧
    ∃ (i : Nat) (t : Thread _), s.sys.threads[i]? = some t ∧ i ∉ s.dead := by
  obtain ⟨s, h1, h2, _, _, h4, h3⟩ := stray_loses_all
  refine ⟨s, h1, by rw [h2]; simp, fun i intr o _ => h3 _ (by simp), fun i => ?_, ?_⟩
  · have := h3 (.crash i) (by simp)
    simp only [Par.fallStep] at this
    split at this
    · cases this
    · exact this
  · apply Classical.byContradiction
    intro hc
    exact h4 fun i t ht => Classical.byContradiction fun hn => hc ⟨i, t, ht, fun hd => hn (Or.inl hd)⟩

/-- The hypotheses of `surplus_optimal` can be met: the worker with a cell does everything, and the other comes when all is done. -/
example : ∃ s, FallReachableMax { Inst.kpCfg 1 with nbThreads := 2 } s ∧ Finished s.sys ∧ s.sys.crit.bestLb = 9 := by
  have h : (match Par.init { Inst.kpCfg 1 with nbThreads := 2 } with
    | some s0 =>
      (match Par.fallRuns { Inst.kpCfg 1 with nbThreads := 2 } ⟨s0, []⟩ (fates (List.replicate 31 (0, false) ++ [(1, false)])) with
        | some s => decide (s.sys.crit.bestLb = 9) && s.sys.threads.all fun t => match t.pc with | .done => true | _ => false
        | none => false)
    | none => false) = true := by decide +kernel
  split at h
  · rename_i s0 h0
    split at h
    · rename_i s hs
      simp only [Bool.and_eq_true, decide_eq_true_eq, List.all_eq_true] at h
      refine ⟨s, falls_reach _ h0 hs, fun t ht => ?_, h.1⟩
      have := h.2 t ht
      split at this
      · assumption
      · cases this
    · cases h
  · cases h

end Verif.Props
