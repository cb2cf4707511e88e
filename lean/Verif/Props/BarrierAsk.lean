import Verif.Examples.Race
import Verif.Proofs.Bar.Stray
import Verif.Proofs.Rest
import Verif.Spec.Ask
import Verif.Props.Barrier
/-! C114: what a panic of `interrupt()` does, with a barrier.  (`src/solver/barrier.rs:325-346`) -/
set_option autoImplicit false

namespace Verif.Props
open Verif Spec Bar
variable {σ : Type} [DecidableEq σ] [Inhabited σ] {cfg : SolverCfg σ} {S : Layering σ} {B : Int}

theorem barrier_ask_runs_dead {s s' : Torn (BSys σ cfg.fr.F)} {f : Fate (BLbl σ)} (hs : askStep cfg s f = some s') :
    (∃ l, f = .step l ∧ l.who ∉ s.dead ∧ step cfg s.sys l = .ok s'.sys ∧ s'.dead = s.dead) ∨
      ((∀ l, f ≠ .step l) ∧ ∃ i t, s'.dead = i :: s.dead ∧ i ∉ s.dead ∧ s.sys.threads[i]? = some t ∧ t.pc = .idle ∧ s'.sys.threads = s.sys.threads) := by
  cases f with
  | step l =>
    simp only [askStep, tornStep] at hs
    split at hs
    · cases hs
    rename_i hl
    split at hs
    · rename_i x hx
      cases hs
      exact Or.inl ⟨l, rfl, hl, hx, rfl⟩
    · cases hs
  | crash i =>
    right
    refine ⟨by simp, i, ?_⟩
    simp only [askStep] at hs
    unfold askPanic at hs
    split at hs
    · cases hs
    rename_i hl
    split at hs
    · cases hs
    rename_i t ht
    split at hs
    · rename_i hp
      split at hs
      · cases hs
      split at hs
      · cases hs
      cases hs
      exact ⟨t, rfl, hl, ht, hp, rfl⟩
    · cases hs

/-- What holds in every state of a run in which `interrupt()` may panic. -/
private structure BAskInv (L : FrontierLaws cfg.fr) (s : Torn (BSys σ cfg.fr.F)) : Prop where
  inv : Inv L s.sys
  nodup : s.dead.Nodup
  idle : ∀ i ∈ s.dead, ∃ t, s.sys.threads[i]? = some t ∧ t.pc = .idle

theorem barrier_ask_sys (L : FrontierLaws cfg.fr) (hg : BaseCfg cfg S B) (_hn : cfg.nbThreads ≤ cfg.custom) {s s' : Torn (BSys σ cfg.fr.F)} (h : Inv L s.sys) {f : Fate (BLbl σ)}
    (hf : ∀ l, f = .step l → BValidLbl l) (hs : askStep cfg s f = some s') : Inv L s'.sys := by
  cases f with
  | step l =>
    rcases barrier_ask_runs_dead hs with ⟨l', e1, _, hx, _⟩ | ⟨hno, _⟩
    · cases e1
      exact ok_inv hg h (hf l rfl) hx
    · exact absurd rfl (hno l)
  | crash i =>
    simp only [askStep] at hs
    unfold askPanic at hs
    split at hs
    · cases hs
    split at hs
    · cases hs
    split at hs
    · split at hs
      · cases hs
      rename_i c1 b1 hcl
      split at hs
      · cases hs
      cases hs
      obtain ⟨⟨c, b, ts⟩, dead⟩ := s
      have hsc : SafeC (L := L) c b := ⟨h.inv, h.genF, h.len, h.cntO, h.low⟩
      obtain ⟨c2, b2, e1, hm, _⟩ := cleanup_spec (L := L) none (cfg.p.nbVars + 1) c b hsc (by omega)
      simp only at hcl
      rw [e1] at hcl; cases hcl
      exact mics_inv hm h
    · cases hs

private theorem barrier_ask_step (L : FrontierLaws cfg.fr) (hg : BaseCfg cfg S B) (hn : cfg.nbThreads ≤ cfg.custom) {s s' : Torn (BSys σ cfg.fr.F)} (h : BAskInv L s) {f : Fate (BLbl σ)}
    (hf : ∀ l, f = .step l → BValidLbl l) (hs : askStep cfg s f = some s') : BAskInv L s' := by
  refine ⟨barrier_ask_sys L hg hn h.inv hf hs, ?_, ?_⟩
  · rcases barrier_ask_runs_dead hs with ⟨l, _, _, _, e⟩ | ⟨_, i, t, e, hi, _⟩
    · rw [e]; exact h.nodup
    · rw [e]; exact List.nodup_cons.2 ⟨hi, h.nodup⟩
  · intro j hj
    rcases barrier_ask_runs_dead hs with ⟨l, _, hl, hx, e⟩ | ⟨_, i, t, e, hi, ht, hp, hts⟩
    · rw [e] at hj
      obtain ⟨t, ht, hp⟩ := h.idle j hj
      refine ⟨t, step_keeps hx (fun e => hl (e ▸ hj)) ht ?_, hp⟩
      unfold wake; rw [hp]
    · rw [e] at hj
      rw [hts]
      rcases List.mem_cons.1 hj with rfl | hj
      · exact ⟨t, ht, hp⟩
      · exact h.idle j hj

private theorem barrier_ask_runs (L : FrontierLaws cfg.fr) (hg : BaseCfg cfg S B) (hn : cfg.nbThreads ≤ cfg.custom) (ls : List (Fate (BLbl σ))) : ∀ {s s' : Torn (BSys σ cfg.fr.F)}, BAskInv L s →
    (∀ l, Fate.step l ∈ ls → BValidLbl l) → askRuns cfg s ls = some s' → BAskInv L s' := by
  induction ls with
  | nil => intro s s' h _ hs; cases hs; exact h
  | cons f ls ih =>
    intro s s' h hQ hs
    unfold askRuns at hs
    obtain ⟨s1, h1, h2⟩ := Option.bind_eq_some_iff.1 hs
    exact ih (barrier_ask_step L hg hn h (fun l e => hQ l (by simp [e])) h1) (fun l hl => hQ l (by simp [hl])) h2

private theorem barrier_ask_inv (L : FrontierLaws cfg.fr) (hg : BaseCfg cfg S B) (hn : cfg.nbThreads ≤ cfg.custom) {s : Torn (BSys σ cfg.fr.F)} (h : BAskReachable cfg s) : BAskInv L s := by
  obtain ⟨s0, ls, h1, h2, h3⟩ := h
  refine barrier_ask_runs L hg hn ls (s := ⟨s0, []⟩) ⟨?_, List.nodup_nil, by simp⟩ h2 h3
  exact reachable_inv L hg hn ⟨s0, [], h1, by simp, rfl⟩

/-- **C114.** With a barrier: Whatever `interrupt()` does, when no worker that goes on can do anything all of them have left their loops: nobody waits for a worker in which `interrupt()` has panicked, and the call ends
(with that panic), unlike after a panic during a compilation (C109). -/
theorem barrier_ask_returns (L : FrontierLaws cfg.fr) (hg : BaseCfg cfg S B) (hn : cfg.nbThreads ≤ cfg.custom) {s : Torn (BSys σ cfg.fr.F)} (h : BAskReachable cfg s)
    (hmax : ∀ i intr o v, o.Valid → askStep cfg s (.step (.run i intr o v)) = none) : BEnded s := by
  intro i t ht
  apply Classical.byContradiction
  intro hc
  simp only [not_or] at hc
  have ha := barrier_ask_inv L hg hn h
  have key : ∀ (j : Nat) (u : BThread σ), s.sys.threads[j]? = some u → j ∉ s.dead → u.pc ≠ .waiting → u.pc ≠ .done → False := by
    intro j u hu hj h1 h2
    obtain ⟨x, hx⟩ := enabled hg hn ha.inv hu h1 h2 false Inst.orc_valid none
    have := hmax j false Inst.orc none Inst.orc_valid
    simp only [askStep, tornStep, BLbl.who, if_neg hj, hx] at this
    cases this
  by_cases hw : t.pc = .waiting
  · obtain ⟨j, u, hu, hb⟩ := busy_exists ha.inv (ha.inv.wait t (List.mem_of_getElem? ht) hw)
    obtain ⟨b1, b2, b3⟩ := busy_active hb
    refine key j u hu (fun hj => ?_) b1 b2
    obtain ⟨u', hu', hp⟩ := ha.idle j hj
    rw [hu] at hu'; cases hu'
    exact b3 hp
  · exact key i t ht hc.1 hw hc.2

/-- **C114.** With a barrier: The workers that go on do come to rest: an infinite run has infinitely many spurious wake-ups. -/
theorem barrier_ask_runs_terminate (L : FrontierLaws cfg.fr) (hg : BaseCfg cfg S B) (hn : cfg.nbThreads ≤ cfg.custom) (st : Nat → Torn (BSys σ cfg.fr.F)) (ls : Nat → Fate (BLbl σ))
    (hr : BAskReachable cfg (st 0)) (hv : ∀ k l, ls k = .step l → BValidLbl l) (hs : ∀ k, askStep cfg (st k) (ls k) = some (st (k + 1))) :
    ∀ k, ∃ j, k ≤ j ∧ ∃ i, ls j = .step (.spurious i) := by
  have hinv : ∀ k, BAskInv L (st k) := by
    intro k
    induction k with
    | zero => exact barrier_ask_inv L hg hn hr
    | succ k ih => exact barrier_ask_step L hg hn ih (hv k) (hs k)
  obtain ⟨k0, hk0⟩ := counter_stops (d := fun k => (st k).dead.length) (q := fun k => ∃ l, ls k = .step l) (N := cfg.nbThreads) (fun k => by
    rcases barrier_ask_runs_dead (hs k) with ⟨l, e1, _, _, e⟩ | ⟨hno, i, t, e, _⟩
    · exact Or.inl ⟨⟨l, e1⟩, by rw [e]⟩
    · exact Or.inr ⟨fun ⟨l, hl⟩ => hno l hl, by rw [e]; rfl⟩) (fun k => by
      refine length_le_of_lt (hinv k).nodup fun i hi => ?_
      obtain ⟨t, ht, _⟩ := (hinv k).idle i hi
      rw [← (hinv k).inv.thr]
      exact (List.getElem?_eq_some_iff.1 ht).1)
  intro k
  apply Classical.byContradiction
  intro hno
  have hstep : ∀ j, ∃ l, ls (k0 + k + j) = .step l ∧ step cfg (st (k0 + k + j)).sys l = .ok (st (k0 + k + j + 1)).sys := by
    intro j
    obtain ⟨l, hl⟩ := hk0 (k0 + k + j) (by omega)
    rcases barrier_ask_runs_dead (hs (k0 + k + j)) with ⟨l', e1, _, e2, _⟩ | ⟨h, _⟩
    · exact ⟨l', e1, e2⟩
    · exact absurd hl (h l)
  refine no_infinite (L := L) hg hn (fun j => (st (k0 + k + j)).sys) (fun j => (hstep j).choose) (hinv (k0 + k)).inv (fun j => hv _ _ (hstep j).choose_spec.1) (fun j => (hstep j).choose_spec.2) (fun j => ?_)
  cases hl : (hstep j).choose with
  | run => rfl
  | spurious i => exact absurd ⟨k0 + k + j, by omega, i, by rw [(hstep j).choose_spec.1, hl]⟩ hno

private theorem cleanup_effect (fuel : Nat) : ∀ {c c' : BCrit σ cfg.fr.F} {b b' : Bars σ}, cleanup cfg fuel c b = some (c', b') →
    c' = { c with lowest := c'.lowest } ∧ c.lowest ≤ c'.lowest ∧
      ∀ d, b'[d]? = b[d]? ∨ (c.lowest ≤ d ∧ d < c'.lowest ∧ c.openBy[d]? = some 0 ∧ c.ongoingBy[d]? = some 0 ∧ b'[d]? = some []) := by
  induction fuel with
  | zero => intro c c' b b' h; cases h
  | succ fuel ih =>
    intro c c' b b' h
    unfold cleanup at h
    split at h
    · split at h
      · rename_i x y hx hy
        split at h
        · rename_i h0
          split at h
          · cases h
          · rename_i b1 hb1
            obtain ⟨g1, g2, g3⟩ := ih h
            simp only at g1 g2 g3
            refine ⟨g1, by omega, fun d => ?_⟩
            have hcl : b1[d]? = b[d]? ∨ (d = c.lowest ∧ b1[d]? = some []) := by
              unfold Bars.clear at hb1
              split at hb1
              · rename_i hl
                cases hb1
                by_cases hd : d = c.lowest
                · exact Or.inr ⟨hd, by rw [hd, List.getElem?_set_self hl]⟩
                · exact Or.inl (List.getElem?_set_ne (Ne.symm hd))
              · cases hb1
            rcases g3 d with e | ⟨e1, e2, e3, e4, e5⟩
            · rcases hcl with k | ⟨k1, k2⟩
              · exact Or.inl (e.trans k)
              · refine Or.inr ⟨by omega, by omega, ?_, ?_, e.trans k2⟩
                · rw [k1, hx]; congr 1; omega
                · rw [k1, hy]; congr 1; omega
            · exact Or.inr ⟨by omega, e2, e3, e4, e5⟩
        · cases h; exact ⟨rfl, Nat.le_refl _, fun d => Or.inl rfl⟩
      · cases h
    · cases h; exact ⟨rfl, Nat.le_refl _, fun d => Or.inl rfl⟩

/-- **C114.** With a barrier: a panic of `interrupt()` changes nothing of the shared data, except that the layers which neither have a node in the frontier nor a worker at work on one are emptied, as they are
whenever a worker asks for work. -/
theorem barrier_ask_effect {s s' : Torn (BSys σ cfg.fr.F)} {i : Nat} (hs : askStep cfg s (.crash i) = some s') :
    s'.dead = i :: s.dead ∧ s'.sys.threads = s.sys.threads ∧ s'.sys.crit = { s.sys.crit with lowest := s'.sys.crit.lowest } ∧ s.sys.crit.lowest ≤ s'.sys.crit.lowest ∧
      ∀ d, s'.sys.bars[d]? = s.sys.bars[d]? ∨
        (s.sys.crit.lowest ≤ d ∧ d < s'.sys.crit.lowest ∧ s.sys.crit.openBy[d]? = some 0 ∧ s.sys.crit.ongoingBy[d]? = some 0 ∧ s'.sys.bars[d]? = some []) := by
  simp only [askStep] at hs
  unfold askPanic at hs
  split at hs
  · cases hs
  split at hs
  · cases hs
  split at hs
  · split at hs
    · cases hs
    rename_i c b hcl
    split at hs
    · cases hs
    cases hs
    obtain ⟨g1, g2, g3⟩ := cleanup_effect _ hcl
    exact ⟨rfl, rfl, g1, g2, g3⟩
  · cases hs

/-- **C114.** With a barrier: `interrupt()` can panic in a worker just if this worker asks for work and the search is neither complete nor interrupted. -/
theorem barrier_ask_when (L : FrontierLaws cfg.fr) (hg : BaseCfg cfg S B) (hn : cfg.nbThreads ≤ cfg.custom) {s : Torn (BSys σ cfg.fr.F)} (h : BAskReachable cfg s) {i : Nat} :
    (∃ s', askStep cfg s (.crash i) = some s') ↔
      i ∉ s.dead ∧ (∃ t, s.sys.threads[i]? = some t ∧ t.pc = .idle) ∧ s.sys.crit.interrupted = false ∧ (0 < s.sys.crit.ongoing ∨ 0 < cfg.fr.len s.sys.crit.fringe) := by
  constructor
  · rintro ⟨s', hs⟩
    simp only [askStep] at hs
    unfold askPanic at hs
    split at hs
    · cases hs
    rename_i hl
    split at hs
    · cases hs
    rename_i t ht
    split at hs
    · rename_i hp
      split at hs
      · cases hs
      rename_i c b hcl
      obtain ⟨e1, e2, e3⟩ := cleanup_same _ hcl
      split at hs
      · cases hs
      rename_i hno
      rw [e1, e2, e3] at hno
      simp only [not_or] at hno
      refine ⟨hl, ⟨t, ht, hp⟩, by simpa using hno.2, ?_⟩
      have := hno.1
      omega
    · cases hs
  · rintro ⟨hl, ⟨t, ht, hp⟩, hi, ho⟩
    have hv := (barrier_ask_inv L hg hn h).inv
    have hsc : SafeC (L := L) s.sys.crit s.sys.bars := ⟨hv.inv, hv.genF, hv.len, hv.cntO, hv.low⟩
    obtain ⟨c, b, hcl, _⟩ := cleanup_spec (L := L) none (cfg.p.nbVars + 1) s.sys.crit s.sys.bars hsc (by omega)
    obtain ⟨e1, e2, e3⟩ := cleanup_same _ hcl
    simp only [askStep]
    unfold askPanic
    rw [if_neg hl, ht]
    simp only [hp, hcl, e1, e2, e3, hi]
    rw [if_neg]
    · exact ⟨_, rfl⟩
    · simp only [Bool.false_eq_true, or_false]
      omega

/-- **C114.** With a barrier: the incumbent is a solution with its true value, and not better than the optimum, in whichever workers `interrupt()` has panicked. -/
theorem barrier_ask_incumbent (L : FrontierLaws cfg.fr) (hg : BaseCfg cfg S B) (hn : cfg.nbThreads ≤ cfg.custom) {s : Torn (BSys σ cfg.fr.F)} (h : BAskReachable cfg s) :
    (∀ sol, bestSolution cfg s.sys.crit = some sol → ∃ v, bestValue cfg s.sys.crit = some v ∧ IsSolutionOf cfg.p sol v) ∧ ∀ v, IsOptimum cfg.p v → bestLowerBound cfg s.sys.crit ≤ v := by
  have hi := (barrier_ask_inv L hg hn h).inv
  rcases hi.inc with ⟨g1, g2⟩ | ⟨sol, g1, ds, g2, g3⟩
  · refine ⟨fun sol hs => by simp [bestSolution, g1] at hs, fun v hv => ?_⟩
    obtain ⟨ds, hs⟩ := hv.1
    have := (Par.solution_bounds hg.wf hs).1
    simp only [bestLowerBound, g2]; omega
  · refine ⟨fun sol' hs => ?_, fun v hv => hv.2 ds _ g3⟩
    simp only [bestSolution, g1, Option.some.injEq] at hs
    subst hs
    exact ⟨s.sys.crit.bestLb, by simp [bestValue, g1], ds, g2, g3⟩

/-- `interrupt()` panics in the first worker; the second one solves the problem, and the call ends. -/
example : ∃ s, BAskReachable (Inst.kpCfg 2) s ∧ s.dead = [0] ∧ BEnded s ∧ bestValue (Inst.kpCfg 2) s.sys.crit = some 9 := by
  have h : (match Bar.init (Inst.kpCfg 2) with
    | some s0 =>
      (match Bar.askRuns (Inst.kpCfg 2) ⟨s0, []⟩ (.crash 0 :: List.replicate 34 (.step (.run 1 false Inst.orc none))) with
        | some s => decide (s.dead = [0]) && decide (s.sys.threads.length = 2) && (match s.sys.threads[1]? with | some t => (match t.pc with | .done => true | _ => false) | none => false) &&
          decide (bestValue (Inst.kpCfg 2) s.sys.crit = some 9)
        | none => false)
    | none => false) = true := by decide +kernel
  split at h
  · rename_i s0 h0
    split at h
    · rename_i s hs
      simp only [Bool.and_eq_true, decide_eq_true_eq] at h
      obtain ⟨⟨⟨h1, h3⟩, h4⟩, h5⟩ := h
      refine ⟨s, ⟨s0, _, h0, fun l hl => ?_, hs⟩, h1, fun i u hu => ?_, h5⟩
      · rcases List.mem_cons.1 hl with e | e
        · cases e
        · cases List.eq_of_mem_replicate e
          exact Inst.orc_valid
      · have hi := (List.getElem?_eq_some_iff.1 hu).1
        rw [h3] at hi
        match i, hi with
        | 0, _ => exact Or.inl (by rw [h1]; simp)
        | 1, _ =>
          right
          rw [hu] at h4
          simp only at h4
          split at h4
          · assumption
          · cases h4
    · cases h
  · cases h

end Verif.Props
