import Verif.Props.Ask
/-! C115: panics in `interrupt()` and in compilations, in one run.  (`src/solver/parallel.rs:217-249, 297-355`) -/
set_option autoImplicit false

namespace Verif.Props
open Verif Spec Par
variable {σ : Type} [DecidableEq σ] [Inhabited σ] {cfg : SolverCfg σ} {S : Layering σ} {B : Int}

private theorem mix_dead {s s' : Torn (Sys σ cfg.fr.F)} {f : Fate (Lbl σ)} (hs : mixStep cfg s f = some s') :
    (∃ l, f = .step l ∧ l.who ∉ s.dead ∧ step cfg s.sys l = .ok s'.sys ∧ s'.dead = s.dead) ∨
      ((∀ l, f ≠ .step l) ∧ ∃ i t, s'.dead = i :: s.dead ∧ i ∉ s.dead ∧ s.sys.threads[i]? = some t ∧ s'.sys.threads = s.sys.threads ∧
        ((compiling t = true ∧ s'.sys = s.sys) ∨ (t.pc = .idle ∧ askStep cfg s (.crash i) = some s'))) := by
  cases f with
  | step l =>
    rcases ask_runs_dead (f := .step l) hs with h | ⟨h, _⟩
    · exact Or.inl h
    · exact absurd rfl (h l)
  | crash i =>
    right
    refine ⟨by simp, ?_⟩
    simp only [mixStep] at hs
    split at hs
    · rename_i x hx
      cases hs
      simp only [tornStep] at hx
      split at hx
      · cases hx
      rename_i hl
      split at hx
      · rename_i t ht
        split at hx
        · rename_i hc
          cases hx
          exact ⟨i, t, rfl, hl, ht, rfl, Or.inl ⟨hc, rfl⟩⟩
        · cases hx
      · cases hx
    · have hs' : askStep cfg s (.crash i) = some s' := hs
      rcases ask_runs_dead hs' with ⟨l, e, _⟩ | ⟨_, j, t, e, hj, ht, hp, hts⟩
      · cases e
      · have : j = i := by
          have hd : s'.dead = i :: s.dead := by
            unfold askPanic at hs
            split at hs
            · cases hs
            split at hs
            · cases hs
            split at hs
            · split at hs
              · cases hs
              cases hs; rfl
            · cases hs
          rw [hd] at e; exact (List.cons.inj e).1.symm
        subst this
        exact ⟨j, t, e, hj, ht, hts, Or.inr ⟨hp, hs'⟩⟩

/-- What holds in every state of a run in which workers may panic in both ways. -/
private structure MixInv (L : FrontierLaws cfg.fr) (s : Torn (Sys σ cfg.fr.F)) : Prop where
  inv : Inv L s.sys
  nodup : s.dead.Nodup
  kind : ∀ i ∈ s.dead, ∃ t, s.sys.threads[i]? = some t ∧ (compiling t = true ∨ t.pc = .idle)

private theorem mix_step (L : FrontierLaws cfg.fr) (hg : BaseCfg cfg S B) (hn : cfg.nbThreads ≤ cfg.custom) {s s' : Torn (Sys σ cfg.fr.F)} (h : MixInv L s) {f : Fate (Lbl σ)}
    (hf : ∀ l, f = .step l → ValidLbl l) (hs : mixStep cfg s f = some s') : MixInv L s' := by
  rcases mix_dead hs with ⟨l, e, hl, hx, hd⟩ | ⟨_, i, t, hd, hi, ht, hts, hk⟩
  · subst e
    refine ⟨ask_sys L hg hn h.inv (f := .step l) hf hs, by rw [hd]; exact h.nodup, fun j hj => ?_⟩
    rw [hd] at hj
    obtain ⟨t, ht, hp⟩ := h.kind j hj
    refine ⟨t, step_keeps hx (fun e => hl (e ▸ hj)) ht ?_, hp⟩
    unfold wake; split
    · rename_i hw
      rcases hp with hp | hp
      · simp [compiling, hw] at hp
      · rw [hw] at hp; cases hp
    · rfl
  · refine ⟨?_, by rw [hd]; exact List.nodup_cons.2 ⟨hi, h.nodup⟩, fun j hj => ?_⟩
    · rcases hk with ⟨_, e⟩ | ⟨_, e⟩
      · rw [e]; exact h.inv
      · exact ask_sys L hg hn h.inv (by simp) e
    · rw [hd] at hj
      rw [hts]
      rcases List.mem_cons.1 hj with rfl | hj
      · exact ⟨t, ht, hk.imp And.left And.left⟩
      · exact h.kind j hj

private theorem mix_inv (L : FrontierLaws cfg.fr) (hg : BaseCfg cfg S B) (hn : cfg.nbThreads ≤ cfg.custom) {s : Torn (Sys σ cfg.fr.F)} (h : MixReachable cfg s) : MixInv L s := by
  obtain ⟨s0, ls, h1, h2, h3⟩ := h
  have key : ∀ (ls : List (Fate (Lbl σ))) {s s' : Torn (Sys σ cfg.fr.F)}, MixInv L s → (∀ l, Fate.step l ∈ ls → ValidLbl l) → mixRuns cfg s ls = some s' → MixInv L s' := by
    intro ls
    induction ls with
    | nil => intro s s' h _ hs; cases hs; exact h
    | cons f ls ih =>
      intro s s' h hQ hs
      unfold mixRuns at hs
      obtain ⟨s1, h1, h2⟩ := Option.bind_eq_some_iff.1 hs
      exact ih (mix_step L hg hn h (fun l e => hQ l (by simp [e])) h1) (fun l hl => hQ l (by simp [hl])) h2
  refine key ls (s := ⟨s0, []⟩) ⟨?_, List.nodup_nil, by simp⟩ h2 h3
  exact reachable_inv L hg hn ⟨s0, [], h1, by simp, rfl⟩ |>.1

private theorem compiling_iff {t : Thread σ} : compiling t = true ↔ (∃ n lb, t.pc = .restr n lb) ∨ ∃ n lb dd, t.pc = .relx n lb dd := by
  obtain ⟨pc, m⟩ := t
  cases pc <;> simp [compiling]

/-- **C115.** When no worker that goes on can do anything, each of them is parked or has left its loop, and if one is parked then a worker has panicked that holds a node. -/
theorem mix_rest (L : FrontierLaws cfg.fr) (hg : BaseCfg cfg S B) (hn : cfg.nbThreads ≤ cfg.custom) {s : Torn (Sys σ cfg.fr.F)} (h : MixReachable cfg s)
    (hmax : ∀ i intr o, o.Valid → mixStep cfg s (.step (.run i intr o)) = none) {i : Nat} {t : Thread σ} (ht : s.sys.threads[i]? = some t) (hl : i ∉ s.dead) :
    t.pc = .done ∨ (t.pc = .waiting ∧ Holds s) := by
  have ha := mix_inv L hg hn h
  have key : ∀ (j : Nat) (u : Thread σ), s.sys.threads[j]? = some u → j ∉ s.dead → u.pc ≠ .waiting → u.pc ≠ .done → False := by
    intro j u hu hj h1 h2
    obtain ⟨x, hx⟩ := enabled hg hn ha.inv hu h1 h2 false Inst.orc_valid
    have := hmax j false Inst.orc Inst.orc_valid
    simp only [mixStep, tornStep, Lbl.who, if_neg hj, hx] at this
    cases this
  by_cases hd : t.pc = .done
  · exact Or.inl hd
  by_cases hw : t.pc = .waiting
  · refine Or.inr ⟨hw, ?_⟩
    obtain ⟨j, u, hu, hb⟩ := busy_exists ha.inv (ha.inv.wait t (List.mem_of_getElem? ht) hw)
    obtain ⟨b1, b2, b3⟩ := busy_active hb
    by_cases hj : j ∈ s.dead
    · obtain ⟨u', hu', hp⟩ := ha.kind j hj
      rw [hu] at hu'; cases hu'
      rcases hp with hp | hp
      · exact ⟨j, hj, u, hu, compiling_iff.1 hp⟩
      · exact absurd hp b3
    · exact absurd (key j u hu hj b1 b2) id
  · exact absurd (key i t ht hl hw hd) id

/-- **C115.** As long as nothing interrupts the search, nobody leaves its loop after a worker has panicked that holds a node. -/
theorem mix_never_leaves (L : FrontierLaws cfg.fr) (hg : BaseCfg cfg S B) (hn : cfg.nbThreads ≤ cfg.custom) {s : Torn (Sys σ cfg.fr.F)} (h : MixReachable cfg s)
    (hi : s.sys.crit.interrupted = false) (hh : Holds s) {t : Thread σ} (ht : t ∈ s.sys.threads) : t.pc ≠ .done := by
  intro hd
  have ha := mix_inv L hg hn h
  obtain ⟨j, _, u, hu, hc⟩ := hh
  have h1 := (ha.inv.done t ht hd hi).2.1
  have h2 := busyCount_pos (List.mem_of_getElem? hu) (compiling_busy (compiling_iff.2 hc))
  have h3 := ha.inv.ong
  omega

/-- **C115.** When the workers have come to rest and nothing has interrupted the search, the call has ended (with a panic, if there was one) just if no worker has panicked that holds a node, or all have
panicked. -/
theorem mix_ends_iff (L : FrontierLaws cfg.fr) (hg : BaseCfg cfg S B) (hn : cfg.nbThreads ≤ cfg.custom) {s : Torn (Sys σ cfg.fr.F)} (h : MixReachable cfg s)
    (hmax : ∀ i intr o, o.Valid → mixStep cfg s (.step (.run i intr o)) = none) (hi : s.sys.crit.interrupted = false) :
    Ended s ↔ ¬ Holds s ∨ ∀ i, i < s.sys.threads.length → i ∈ s.dead := by
  constructor
  · intro he
    by_cases hh : Holds s
    · refine Or.inr fun i hl => ?_
      rcases he i _ (List.getElem?_eq_getElem hl) with h1 | h1
      · exact h1
      · exact absurd h1 (mix_never_leaves L hg hn h hi hh (List.getElem_mem hl))
    · exact Or.inl hh
  · intro hh i t ht
    by_cases hl : i ∈ s.dead
    · exact Or.inl hl
    rcases hh with hh | hh
    · rcases mix_rest L hg hn h hmax ht hl with h1 | ⟨_, h1⟩
      · exact Or.inr h1
      · exact absurd h1 hh
    · exact Or.inl (hh i (List.getElem?_eq_some_iff.1 ht).1)

/-- **C115.** The workers that go on do come to rest: an infinite run has infinitely many spurious wake-ups. -/
theorem mix_runs_terminate (L : FrontierLaws cfg.fr) (hg : BaseCfg cfg S B) (hn : cfg.nbThreads ≤ cfg.custom) (st : Nat → Torn (Sys σ cfg.fr.F)) (ls : Nat → Fate (Lbl σ))
    (hr : MixReachable cfg (st 0)) (hv : ∀ k l, ls k = .step l → ValidLbl l) (hs : ∀ k, mixStep cfg (st k) (ls k) = some (st (k + 1))) :
    ∀ k, ∃ j, k ≤ j ∧ ∃ i, ls j = .step (.spurious i) := by
  have hinv : ∀ k, MixInv L (st k) := by
    intro k
    induction k with
    | zero => exact mix_inv L hg hn hr
    | succ k ih => exact mix_step L hg hn ih (hv k) (hs k)
  obtain ⟨k0, hk0⟩ := counter_stops (d := fun k => (st k).dead.length) (q := fun k => ∃ l, ls k = .step l) (N := cfg.nbThreads) (fun k => by
    rcases mix_dead (hs k) with ⟨l, e1, _, _, e⟩ | ⟨hno, i, t, e, _⟩
    · exact Or.inl ⟨⟨l, e1⟩, by rw [e]⟩
    · exact Or.inr ⟨fun ⟨l, hl⟩ => hno l hl, by rw [e]; rfl⟩) (fun k => by
      refine length_le_of_lt (hinv k).nodup fun i hi => ?_
      obtain ⟨t, ht, _⟩ := (hinv k).kind i hi
      rw [← (hinv k).inv.thr]
      exact (List.getElem?_eq_some_iff.1 ht).1)
  intro k
  apply Classical.byContradiction
  intro hno
  have hstep : ∀ j, ∃ l, ls (k0 + k + j) = .step l ∧ step cfg (st (k0 + k + j)).sys l = .ok (st (k0 + k + j + 1)).sys := by
    intro j
    obtain ⟨l, hl⟩ := hk0 (k0 + k + j) (by omega)
    rcases mix_dead (hs (k0 + k + j)) with ⟨l', e1, _, e2, _⟩ | ⟨h, _⟩
    · exact ⟨l', e1, e2⟩
    · exact absurd hl (h l)
  refine no_infinite (L := L) hg hn (fun j => (st (k0 + k + j)).sys) (fun j => (hstep j).choose) (hinv (k0 + k)).inv (fun j => hv _ _ (hstep j).choose_spec.1) (fun j => (hstep j).choose_spec.2) (fun j => ?_)
  cases hl : (hstep j).choose with
  | run => rfl
  | spurious i => exact absurd ⟨k0 + k + j, by omega, i, by rw [(hstep j).choose_spec.1, hl]⟩ hno

/-- **C115.** The incumbent is a solution with its true value, and not better than the optimum, whoever has panicked. -/
theorem mix_incumbent (L : FrontierLaws cfg.fr) (hg : BaseCfg cfg S B) (hn : cfg.nbThreads ≤ cfg.custom) {s : Torn (Sys σ cfg.fr.F)} (h : MixReachable cfg s) :
    (∀ sol, bestSolution cfg s.sys.crit = some sol → ∃ v, bestValue cfg s.sys.crit = some v ∧ IsSolutionOf cfg.p sol v) ∧ ∀ v, IsOptimum cfg.p v → bestLowerBound cfg s.sys.crit ≤ v := by
  have hi := (mix_inv L hg hn h).inv
  rcases hi.inc with ⟨g1, g2⟩ | ⟨sol, g1, ds, g2, g3⟩
  · refine ⟨fun sol hs => by simp [bestSolution, g1] at hs, fun v hv => ?_⟩
    obtain ⟨ds, hs⟩ := hv.1
    have := (Par.solution_bounds hg.wf hs).1
    simp only [bestLowerBound, g2]; omega
  · refine ⟨fun sol' hs => ?_, fun v hv => hv.2 ds _ g3⟩
    simp only [bestSolution, g1, Option.some.injEq] at hs
    subst hs
    exact ⟨s.sys.crit.bestLb, by simp [bestValue, g1], ds, g2, g3⟩

/-- Both kinds of panics in one run of three workers: `interrupt()` panics in the first, the second panics while it compiles its first diagram, and the third is parked. -/
example : ∃ s, MixReachable (Inst.kpCfg 3) s ∧ s.dead = [1, 0] ∧ s.sys.crit.interrupted = false ∧ Holds s ∧ ¬ Ended s := by
  have h : (match Par.init (Inst.kpCfg 3) with
    | some s0 =>
      (match Par.mixRuns (Inst.kpCfg 3) ⟨s0, []⟩ [.crash 0, .step (.run 1 false Inst.orc), .step (.run 1 false Inst.orc), .crash 1, .step (.run 2 false Inst.orc)] with
        | some s => decide (s.dead = [1, 0]) && decide (s.sys.crit.interrupted = false) && (match s.sys.threads[1]? with | some t => Par.compiling t | none => false) &&
          (match s.sys.threads[2]? with | some t => (match t.pc with | .waiting => true | _ => false) | none => false)
        | none => false)
    | none => false) = true := by decide +kernel
  split at h
  · rename_i s0 h0
    split at h
    · rename_i s hs
      simp only [Bool.and_eq_true, decide_eq_true_eq] at h
      obtain ⟨⟨⟨h1, h3⟩, h4⟩, h5⟩ := h
      refine ⟨s, ⟨s0, _, h0, fun l hl => ?_, hs⟩, h1, h3, ?_, fun he => ?_⟩
      · simp only [List.mem_cons, reduceCtorEq, Fate.step.injEq, List.not_mem_nil, or_false, false_or] at hl
        rcases hl with rfl | rfl | rfl <;> exact Inst.orc_valid
      · split at h4
        · rename_i t ht
          exact ⟨1, by rw [h1]; simp, t, ht, compiling_iff.1 h4⟩
        · cases h4
      · split at h5
        · rename_i t ht
          split at h5
          · rename_i hw
            rcases he 2 t ht with e | e
            · rw [h1] at e; simp at e
            · rw [hw] at e; cases e
          · cases h5
        · cases h5
    · cases h
  · cases h

/-- **C115.** Panics change nothing of the shared data: whatever is reached in a run with panics is reached in a run in which these workers are merely not scheduled any more. -/
theorem mix_harmless {s : Torn (Sys σ cfg.fr.F)} (h : MixReachable cfg s) : Reachable cfg s.sys := by
  obtain ⟨s0, ls, h1, h2, h3⟩ := h
  have key : ∀ (ls : List (Fate (Lbl σ))) {s s' : Torn (Sys σ cfg.fr.F)}, mixRuns cfg s ls = some s' → ∃ ks, (∀ l ∈ ks, Fate.step l ∈ ls) ∧ runs cfg s.sys ks = .ok s'.sys := by
    intro ls
    induction ls with
    | nil => intro s s' h; cases h; exact ⟨[], by simp, rfl⟩
    | cons f ls ih =>
      intro s s' h
      unfold mixRuns at h
      obtain ⟨s1, h1, h2⟩ := Option.bind_eq_some_iff.1 h
      obtain ⟨ks, g1, g2⟩ := ih h2
      rcases mix_dead h1 with ⟨l, e, _, hx, _⟩ | ⟨_, i, t, _, _, _, _, hk⟩
      · subst e
        refine ⟨l :: ks, fun x hx => ?_, ?_⟩
        · rcases List.mem_cons.1 hx with rfl | hx
          · simp
          · exact List.mem_cons_of_mem _ (g1 x hx)
        · simp only [runs, hx]; exact g2
      · refine ⟨ks, fun x hx => List.mem_cons_of_mem _ (g1 x hx), ?_⟩
        rcases hk with ⟨_, e⟩ | ⟨_, e⟩
        · rw [← e]; exact g2
        · rw [← ask_same e]; exact g2
  obtain ⟨ks, g1, g2⟩ := key ls h3
  exact ⟨s0, ks, h1, fun l hl => h2 l (g1 l hl), g2⟩

/-- **C115.** If one worker has left its loop and nothing has interrupted the search, the answer is the optimum, whoever has panicked. -/
theorem mix_optimal (L : FrontierLaws cfg.fr) (hg : GoodCfg cfg S B) (hc : CutOK cfg S) (hn : cfg.nbThreads ≤ cfg.custom) {s : Torn (Sys σ cfg.fr.F)} (h : MixReachable cfg s) {t : Thread σ}
    (ht : t ∈ s.sys.threads) (hd : t.pc = .done) (hp : proved cfg s.sys.crit = true) :
    bestUpperBound cfg s.sys.crit = bestLowerBound cfg s.sys.crit ∧
    ((∃ v sol, bestValue cfg s.sys.crit = some v ∧ bestSolution cfg s.sys.crit = some sol ∧ IsSolutionOf cfg.p sol v ∧ IsOptimum cfg.p v) ∨
      (bestValue cfg s.sys.crit = none ∧ bestSolution cfg s.sys.crit = none ∧ Infeasible cfg.p)) :=
  left_optimal L hg hc hn (mix_harmless h) ht hd hp

end Verif.Props
