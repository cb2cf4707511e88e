import Verif.Props.BarrierAsk
/-! C115: panics in `interrupt()` and in compilations, in one run, with a barrier.  (`src/solver/barrier.rs:236-265, 320-406`) -/
set_option autoImplicit false

namespace Verif.Props
open Verif Spec Bar
variable {σ : Type} [DecidableEq σ] [Inhabited σ] {cfg : SolverCfg σ} {S : Layering σ} {B : Int}

private theorem barrier_mix_dead {s s' : Torn (BSys σ cfg.fr.F)} {f : Fate (BLbl σ)} (hs : mixStep cfg s f = some s') :
    (∃ l, f = .step l ∧ l.who ∉ s.dead ∧ step cfg s.sys l = .ok s'.sys ∧ s'.dead = s.dead) ∨
      ((∀ l, f ≠ .step l) ∧ ∃ i t, s'.dead = i :: s.dead ∧ i ∉ s.dead ∧ s.sys.threads[i]? = some t ∧ s'.sys.threads = s.sys.threads ∧
        ((compiling t = true ∧ s'.sys = s.sys) ∨ (t.pc = .idle ∧ askStep cfg s (.crash i) = some s'))) := by
  cases f with
  | step l =>
    rcases barrier_ask_runs_dead (f := .step l) hs with h | ⟨h, _⟩
    · exact Or.inl h
    · exact absurd rfl (h l)
  | crash i =>
    right
    refine ⟨by simp, ?_⟩
    simp only [mixStep] at hs
    split at hs
    · rename_i x hx
      cases hs
      simp only [tornStep] at hx
      split at hx
      · cases hx
      rename_i hl
      split at hx
      · rename_i t ht
        split at hx
        · rename_i hc
          cases hx
          exact ⟨i, t, rfl, hl, ht, rfl, Or.inl ⟨hc, rfl⟩⟩
        · cases hx
      · cases hx
    · have hs' : askStep cfg s (.crash i) = some s' := hs
      rcases barrier_ask_runs_dead hs' with ⟨l, e, _⟩ | ⟨_, j, t, e, hj, ht, hp, hts⟩
      · cases e
      · have : j = i := by
          have hd : s'.dead = i :: s.dead := by
            unfold askPanic at hs
            split at hs
            · cases hs
            split at hs
            · cases hs
            split at hs
            · split at hs
              · cases hs
              split at hs
              · cases hs
              cases hs; rfl
            · cases hs
          rw [hd] at e; exact (List.cons.inj e).1.symm
        subst this
        exact ⟨j, t, e, hj, ht, hts, Or.inr ⟨hp, hs'⟩⟩

/-- What holds in every state of a run in which workers may panic in both ways. -/
private structure BMixInv (L : FrontierLaws cfg.fr) (s : Torn (BSys σ cfg.fr.F)) : Prop where
  inv : Inv L s.sys
  nodup : s.dead.Nodup
  kind : ∀ i ∈ s.dead, ∃ t, s.sys.threads[i]? = some t ∧ (compiling t = true ∨ t.pc = .idle)

private theorem barrier_mix_step (L : FrontierLaws cfg.fr) (hg : BaseCfg cfg S B) (hn : cfg.nbThreads ≤ cfg.custom) {s s' : Torn (BSys σ cfg.fr.F)} (h : BMixInv L s) {f : Fate (BLbl σ)}
    (hf : ∀ l, f = .step l → BValidLbl l) (hs : mixStep cfg s f = some s') : BMixInv L s' := by
  rcases barrier_mix_dead hs with ⟨l, e, hl, hx, hd⟩ | ⟨_, i, t, hd, hi, ht, hts, hk⟩
  · subst e
    refine ⟨barrier_ask_sys L hg hn h.inv (f := .step l) hf hs, by rw [hd]; exact h.nodup, fun j hj => ?_⟩
    rw [hd] at hj
    obtain ⟨t, ht, hp⟩ := h.kind j hj
    refine ⟨t, step_keeps hx (fun e => hl (e ▸ hj)) ht ?_, hp⟩
    unfold wake; split
    · rename_i hw
      rcases hp with hp | hp
      · simp [compiling, hw] at hp
      · rw [hw] at hp; cases hp
    · rfl
  · refine ⟨?_, by rw [hd]; exact List.nodup_cons.2 ⟨hi, h.nodup⟩, fun j hj => ?_⟩
    · rcases hk with ⟨_, e⟩ | ⟨_, e⟩
      · rw [e]; exact h.inv
      · exact barrier_ask_sys L hg hn h.inv (by simp) e
    · rw [hd] at hj
      rw [hts]
      rcases List.mem_cons.1 hj with rfl | hj
      · exact ⟨t, ht, hk.imp And.left And.left⟩
      · exact h.kind j hj

private theorem barrier_mix_inv (L : FrontierLaws cfg.fr) (hg : BaseCfg cfg S B) (hn : cfg.nbThreads ≤ cfg.custom) {s : Torn (BSys σ cfg.fr.F)} (h : BMixReachable cfg s) : BMixInv L s := by
  obtain ⟨s0, ls, h1, h2, h3⟩ := h
  have key : ∀ (ls : List (Fate (BLbl σ))) {s s' : Torn (BSys σ cfg.fr.F)}, BMixInv L s → (∀ l, Fate.step l ∈ ls → BValidLbl l) → mixRuns cfg s ls = some s' → BMixInv L s' := by
    intro ls
    induction ls with
    | nil => intro s s' h _ hs; cases hs; exact h
    | cons f ls ih =>
      intro s s' h hQ hs
      unfold mixRuns at hs
      obtain ⟨s1, h1, h2⟩ := Option.bind_eq_some_iff.1 hs
      exact ih (barrier_mix_step L hg hn h (fun l e => hQ l (by simp [e])) h1) (fun l hl => hQ l (by simp [hl])) h2
  refine key ls (s := ⟨s0, []⟩) ⟨?_, List.nodup_nil, by simp⟩ h2 h3
  exact reachable_inv L hg hn ⟨s0, [], h1, by simp, rfl⟩

private theorem barrier_compiling_iff {t : BThread σ} : compiling t = true ↔ (∃ n lb, t.pc = .restr n lb) ∨ ∃ n lb dd, t.pc = .relx n lb dd := by
  obtain ⟨pc, m⟩ := t
  cases pc <;> simp [compiling]

/-- **C115.** With a barrier: When no worker that goes on can do anything, each of them is parked or has left its loop, and if one is parked then a worker has panicked that holds a node. -/
theorem barrier_mix_rest (L : FrontierLaws cfg.fr) (hg : BaseCfg cfg S B) (hn : cfg.nbThreads ≤ cfg.custom) {s : Torn (BSys σ cfg.fr.F)} (h : BMixReachable cfg s)
    (hmax : ∀ i intr o v, o.Valid → mixStep cfg s (.step (.run i intr o v)) = none) {i : Nat} {t : BThread σ} (ht : s.sys.threads[i]? = some t) (hl : i ∉ s.dead) :
    t.pc = .done ∨ (t.pc = .waiting ∧ BHolds s) := by
  have ha := barrier_mix_inv L hg hn h
  have key : ∀ (j : Nat) (u : BThread σ), s.sys.threads[j]? = some u → j ∉ s.dead → u.pc ≠ .waiting → u.pc ≠ .done → False := by
    intro j u hu hj h1 h2
    obtain ⟨x, hx⟩ := enabled hg hn ha.inv hu h1 h2 false Inst.orc_valid none
    have := hmax j false Inst.orc none Inst.orc_valid
    simp only [mixStep, tornStep, BLbl.who, if_neg hj, hx] at this
    cases this
  by_cases hd : t.pc = .done
  · exact Or.inl hd
  by_cases hw : t.pc = .waiting
  · refine Or.inr ⟨hw, ?_⟩
    obtain ⟨j, u, hu, hb⟩ := busy_exists ha.inv (ha.inv.wait t (List.mem_of_getElem? ht) hw)
    obtain ⟨b1, b2, b3⟩ := busy_active hb
    by_cases hj : j ∈ s.dead
    · obtain ⟨u', hu', hp⟩ := ha.kind j hj
      rw [hu] at hu'; cases hu'
      rcases hp with hp | hp
      · exact ⟨j, hj, u, hu, barrier_compiling_iff.1 hp⟩
      · exact absurd hp b3
    · exact absurd (key j u hu hj b1 b2) id
  · exact absurd (key i t ht hl hw hd) id

/-- **C115.** With a barrier: As long as nothing interrupts the search, nobody leaves its loop after a worker has panicked that holds a node. -/
theorem barrier_mix_never_leaves (L : FrontierLaws cfg.fr) (hg : BaseCfg cfg S B) (hn : cfg.nbThreads ≤ cfg.custom) {s : Torn (BSys σ cfg.fr.F)} (h : BMixReachable cfg s)
    (hi : s.sys.crit.interrupted = false) (hh : BHolds s) {t : BThread σ} (ht : t ∈ s.sys.threads) : t.pc ≠ .done := by
  intro hd
  have ha := barrier_mix_inv L hg hn h
  obtain ⟨j, _, u, hu, hc⟩ := hh
  have h1 := (ha.inv.done t ht hd hi).2.1
  have h2 := busyCount_pos (List.mem_of_getElem? hu) (compiling_busy (barrier_compiling_iff.2 hc))
  have h3 := ha.inv.ong
  omega

/-- **C115.** With a barrier: When the workers have come to rest and nothing has interrupted the search, the call has ended (with a panic, if there was one) just if no worker has panicked that holds a node, or all have
panicked. -/
theorem barrier_mix_ends_iff (L : FrontierLaws cfg.fr) (hg : BaseCfg cfg S B) (hn : cfg.nbThreads ≤ cfg.custom) {s : Torn (BSys σ cfg.fr.F)} (h : BMixReachable cfg s)
    (hmax : ∀ i intr o v, o.Valid → mixStep cfg s (.step (.run i intr o v)) = none) (hi : s.sys.crit.interrupted = false) :
    BEnded s ↔ ¬ BHolds s ∨ ∀ i, i < s.sys.threads.length → i ∈ s.dead := by
  constructor
  · intro he
    by_cases hh : BHolds s
    · refine Or.inr fun i hl => ?_
      rcases he i _ (List.getElem?_eq_getElem hl) with h1 | h1
      · exact h1
      · exact absurd h1 (barrier_mix_never_leaves L hg hn h hi hh (List.getElem_mem hl))
    · exact Or.inl hh
  · intro hh i t ht
    by_cases hl : i ∈ s.dead
    · exact Or.inl hl
    rcases hh with hh | hh
    · rcases barrier_mix_rest L hg hn h hmax ht hl with h1 | ⟨_, h1⟩
      · exact Or.inr h1
      · exact absurd h1 hh
    · exact Or.inl (hh i (List.getElem?_eq_some_iff.1 ht).1)

/-- **C115.** With a barrier: The workers that go on do come to rest: an infinite run has infinitely many spurious wake-ups. -/
theorem barrier_mix_runs_terminate (L : FrontierLaws cfg.fr) (hg : BaseCfg cfg S B) (hn : cfg.nbThreads ≤ cfg.custom) (st : Nat → Torn (BSys σ cfg.fr.F)) (ls : Nat → Fate (BLbl σ))
    (hr : BMixReachable cfg (st 0)) (hv : ∀ k l, ls k = .step l → BValidLbl l) (hs : ∀ k, mixStep cfg (st k) (ls k) = some (st (k + 1))) :
    ∀ k, ∃ j, k ≤ j ∧ ∃ i, ls j = .step (.spurious i) := by
  have hinv : ∀ k, BMixInv L (st k) := by
    intro k
    induction k with
    | zero => exact barrier_mix_inv L hg hn hr
    | succ k ih => exact barrier_mix_step L hg hn ih (hv k) (hs k)
  obtain ⟨k0, hk0⟩ := counter_stops (d := fun k => (st k).dead.length) (q := fun k => ∃ l, ls k = .step l) (N := cfg.nbThreads) (fun k => by
    rcases barrier_mix_dead (hs k) with ⟨l, e1, _, _, e⟩ | ⟨hno, i, t, e, _⟩
    · exact Or.inl ⟨⟨l, e1⟩, by rw [e]⟩
    · exact Or.inr ⟨fun ⟨l, hl⟩ => hno l hl, by rw [e]; rfl⟩) (fun k => by
      refine length_le_of_lt (hinv k).nodup fun i hi => ?_
      obtain ⟨t, ht, _⟩ := (hinv k).kind i hi
      rw [← (hinv k).inv.thr]
      exact (List.getElem?_eq_some_iff.1 ht).1)
  intro k
  apply Classical.byContradiction
  intro hno
  have hstep : ∀ j, ∃ l, ls (k0 + k + j) = .step l ∧ step cfg (st (k0 + k + j)).sys l = .ok (st (k0 + k + j + 1)).sys := by
    intro j
    obtain ⟨l, hl⟩ := hk0 (k0 + k + j) (by omega)
    rcases barrier_mix_dead (hs (k0 + k + j)) with ⟨l', e1, _, e2, _⟩ | ⟨h, _⟩
    · exact ⟨l', e1, e2⟩
    · exact absurd hl (h l)
  refine no_infinite (L := L) hg hn (fun j => (st (k0 + k + j)).sys) (fun j => (hstep j).choose) (hinv (k0 + k)).inv (fun j => hv _ _ (hstep j).choose_spec.1) (fun j => (hstep j).choose_spec.2) (fun j => ?_)
  cases hl : (hstep j).choose with
  | run => rfl
  | spurious i => exact absurd ⟨k0 + k + j, by omega, i, by rw [(hstep j).choose_spec.1, hl]⟩ hno

/-- **C115.** With a barrier: The incumbent is a solution with its true value, and not better than the optimum, whoever has panicked. -/
theorem barrier_mix_incumbent (L : FrontierLaws cfg.fr) (hg : BaseCfg cfg S B) (hn : cfg.nbThreads ≤ cfg.custom) {s : Torn (BSys σ cfg.fr.F)} (h : BMixReachable cfg s) :
    (∀ sol, bestSolution cfg s.sys.crit = some sol → ∃ v, bestValue cfg s.sys.crit = some v ∧ IsSolutionOf cfg.p sol v) ∧ ∀ v, IsOptimum cfg.p v → bestLowerBound cfg s.sys.crit ≤ v := by
  have hi := (barrier_mix_inv L hg hn h).inv
  rcases hi.inc with ⟨g1, g2⟩ | ⟨sol, g1, ds, g2, g3⟩
  · refine ⟨fun sol hs => by simp [bestSolution, g1] at hs, fun v hv => ?_⟩
    obtain ⟨ds, hs⟩ := hv.1
    have := (Par.solution_bounds hg.wf hs).1
    simp only [bestLowerBound, g2]; omega
  · refine ⟨fun sol' hs => ?_, fun v hv => hv.2 ds _ g3⟩
    simp only [bestSolution, g1, Option.some.injEq] at hs
    subst hs
    exact ⟨s.sys.crit.bestLb, by simp [bestValue, g1], ds, g2, g3⟩

/-- Both kinds of panics in one run of three workers: `interrupt()` panics in the first, the second panics while it compiles its first diagram, and the third is parked. -/
example : ∃ s, BMixReachable (Inst.kpCfg 3) s ∧ s.dead = [1, 0] ∧ s.sys.crit.interrupted = false ∧ BHolds s ∧ ¬ BEnded s := by
  have h : (match Bar.init (Inst.kpCfg 3) with
    | some s0 =>
      (match Bar.mixRuns (Inst.kpCfg 3) ⟨s0, []⟩ [.crash 0, .step (.run 1 false Inst.orc none), .step (.run 1 false Inst.orc none), .crash 1, .step (.run 2 false Inst.orc none)] with
        | some s => decide (s.dead = [1, 0]) && decide (s.sys.crit.interrupted = false) && (match s.sys.threads[1]? with | some t => Bar.compiling t | none => false) &&
          (match s.sys.threads[2]? with | some t => (match t.pc with | .waiting => true | _ => false) | none => false)
        | none => false)
    | none => false) = true := by decide +kernel
  split at h
  · rename_i s0 h0
    split at h
    · rename_i s hs
      simp only [Bool.and_eq_true, decide_eq_true_eq] at h
      obtain ⟨⟨⟨h1, h3⟩, h4⟩, h5⟩ := h
      refine ⟨s, ⟨s0, _, h0, fun l hl => ?_, hs⟩, h1, h3, ?_, fun he => ?_⟩
      · simp only [List.mem_cons, reduceCtorEq, Fate.step.injEq, List.not_mem_nil, or_false, false_or] at hl
        rcases hl with rfl | rfl | rfl <;> exact Inst.orc_valid
      · split at h4
        · rename_i t ht
          exact ⟨1, by rw [h1]; simp, t, ht, barrier_compiling_iff.1 h4⟩
        · cases h4
      · split at h5
        · rename_i t ht
          split at h5
          · rename_i hw
            rcases he 2 t ht with e | e
            · rw [h1] at e; simp at e
            · rw [hw] at e; cases e
          · cases h5
        · cases h5
    · cases h
  · cases h

end Verif.Props
