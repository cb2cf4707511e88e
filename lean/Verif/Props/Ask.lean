import Verif.Examples.Race
import Verif.Proofs.Par.Crash
import Verif.Props.Parallel
import Verif.Proofs.Rest
import Verif.Spec.Ask
/-! C114: what a panic of `interrupt()` does.  (`src/solver/parallel.rs:297-311`) -/
set_option autoImplicit false

namespace Verif.Props
open Verif Spec Par
variable {σ : Type} [DecidableEq σ] [Inhabited σ] {cfg : SolverCfg σ} {S : Layering σ} {B : Int}

theorem ask_runs_dead {s s' : Torn (Sys σ cfg.fr.F)} {f : Fate (Lbl σ)} (hs : askStep cfg s f = some s') :
    (∃ l, f = .step l ∧ l.who ∉ s.dead ∧ step cfg s.sys l = .ok s'.sys ∧ s'.dead = s.dead) ∨
      ((∀ l, f ≠ .step l) ∧ ∃ i t, s'.dead = i :: s.dead ∧ i ∉ s.dead ∧ s.sys.threads[i]? = some t ∧ t.pc = .idle ∧ s'.sys.threads = s.sys.threads) := by
  cases f with
  | step l =>
    simp only [askStep, tornStep] at hs
    split at hs
    · cases hs
    rename_i hl
    split at hs
    · rename_i x hx
      cases hs
      exact Or.inl ⟨l, rfl, hl, hx, rfl⟩
    · cases hs
  | crash i =>
    right
    refine ⟨by simp, i, ?_⟩
    simp only [askStep] at hs
    unfold askPanic at hs
    split at hs
    · cases hs
    rename_i hl
    split at hs
    · cases hs
    rename_i t ht
    split at hs
    · rename_i hp
      split at hs
      · cases hs
      cases hs
      exact ⟨t, rfl, hl, ht, hp, rfl⟩
    · cases hs

theorem ask_same {s s' : Torn (Sys σ cfg.fr.F)} {i : Nat} (hs : askStep cfg s (.crash i) = some s') : s'.sys = s.sys := by
  simp only [askStep] at hs
  unfold askPanic at hs
  split at hs
  · cases hs
  split at hs
  · cases hs
  split at hs
  · split at hs
    · cases hs
    cases hs
    rfl
  · cases hs

/-- **C114.** `interrupt()` can panic in a worker just if this worker asks for work and the search is neither complete nor interrupted; nothing of the shared data changes. -/
theorem ask_when {s s' : Torn (Sys σ cfg.fr.F)} {i : Nat} : askStep cfg s (.crash i) = some s' ↔
    i ∉ s.dead ∧ s' = ⟨s.sys, i :: s.dead⟩ ∧ (∃ t, s.sys.threads[i]? = some t ∧ t.pc = .idle) ∧ s.sys.crit.interrupted = false ∧ (0 < s.sys.crit.ongoing ∨ 0 < cfg.fr.len s.sys.crit.fringe) := by
  constructor
  · intro h
    simp only [askStep] at h
    unfold askPanic at h
    split at h
    · cases h
    rename_i hl
    split at h
    · cases h
    rename_i t ht
    split at h
    · rename_i hp
      split at h
      · cases h
      rename_i hno
      cases h
      simp only [not_or] at hno
      refine ⟨hl, rfl, ⟨t, ht, hp⟩, by simpa using hno.2, ?_⟩
      have := hno.1
      omega
    · cases h
  · rintro ⟨hl, rfl, ⟨t, ht, hp⟩, hi, ho⟩
    simp only [askStep]
    unfold askPanic
    rw [if_neg hl, ht]
    simp only [hp, hi]
    rw [if_neg]
    simp only [Bool.false_eq_true, or_false]
    omega

/-- **C114.** A panic of `interrupt()` changes nothing of the shared data: whatever is reached in a run with such panics is reached in a run in which these workers are merely not scheduled any more. -/
theorem ask_harmless {s : Torn (Sys σ cfg.fr.F)} (h : AskReachable cfg s) : Reachable cfg s.sys := by
  obtain ⟨s0, ls, h1, h2, h3⟩ := h
  have key : ∀ (ls : List (Fate (Lbl σ))) {s s' : Torn (Sys σ cfg.fr.F)}, askRuns cfg s ls = some s' → ∃ ks, (∀ l ∈ ks, Fate.step l ∈ ls) ∧ runs cfg s.sys ks = .ok s'.sys := by
    intro ls
    induction ls with
    | nil => intro s s' h; cases h; exact ⟨[], by simp, rfl⟩
    | cons f ls ih =>
      intro s s' h
      unfold askRuns at h
      obtain ⟨s1, h1, h2⟩ := Option.bind_eq_some_iff.1 h
      obtain ⟨ks, g1, g2⟩ := ih h2
      cases f with
      | step l =>
        rcases ask_runs_dead h1 with ⟨l', e, _, hx, _⟩ | ⟨hno, _⟩
        · cases e
          refine ⟨l :: ks, fun x hx => ?_, ?_⟩
          · rcases List.mem_cons.1 hx with rfl | hx
            · simp
            · exact List.mem_cons_of_mem _ (g1 x hx)
          · simp only [runs, hx]; exact g2
        · exact absurd rfl (hno l)
      | crash i =>
        refine ⟨ks, fun x hx => List.mem_cons_of_mem _ (g1 x hx), ?_⟩
        rw [← ask_same h1]; exact g2
  obtain ⟨ks, g1, g2⟩ := key ls h3
  exact ⟨s0, ks, h1, fun l hl => h2 l (g1 l hl), g2⟩

/-- What holds in every state of a run in which `interrupt()` may panic. -/
private structure AskInv (L : FrontierLaws cfg.fr) (s : Torn (Sys σ cfg.fr.F)) : Prop where
  inv : Inv L s.sys
  nodup : s.dead.Nodup
  idle : ∀ i ∈ s.dead, ∃ t, s.sys.threads[i]? = some t ∧ t.pc = .idle

theorem ask_sys (L : FrontierLaws cfg.fr) (hg : BaseCfg cfg S B) (hn : cfg.nbThreads ≤ cfg.custom) {s s' : Torn (Sys σ cfg.fr.F)} (h : Inv L s.sys) {f : Fate (Lbl σ)}
    (hf : ∀ l, f = .step l → ValidLbl l) (hs : askStep cfg s f = some s') : Inv L s'.sys := by
  cases f with
  | step l =>
    rcases ask_runs_dead hs with ⟨l', e1, _, hx, _⟩ | ⟨hno, _⟩
    · cases e1
      exact trans_inv hg ((step_trans (L := L) hg (h.safe hn) (hf l rfl)).2 _ hx) h
    · exact absurd rfl (hno l)
  | crash i => rw [ask_same hs]; exact h

private theorem ask_step (L : FrontierLaws cfg.fr) (hg : BaseCfg cfg S B) (hn : cfg.nbThreads ≤ cfg.custom) {s s' : Torn (Sys σ cfg.fr.F)} (h : AskInv L s) {f : Fate (Lbl σ)}
    (hf : ∀ l, f = .step l → ValidLbl l) (hs : askStep cfg s f = some s') : AskInv L s' := by
  refine ⟨ask_sys L hg hn h.inv hf hs, ?_, ?_⟩
  · rcases ask_runs_dead hs with ⟨l, _, _, _, e⟩ | ⟨_, i, t, e, hi, _⟩
    · rw [e]; exact h.nodup
    · rw [e]; exact List.nodup_cons.2 ⟨hi, h.nodup⟩
  · intro j hj
    rcases ask_runs_dead hs with ⟨l, _, hl, hx, e⟩ | ⟨_, i, t, e, hi, ht, hp, hts⟩
    · rw [e] at hj
      obtain ⟨t, ht, hp⟩ := h.idle j hj
      refine ⟨t, step_keeps hx (fun e => hl (e ▸ hj)) ht ?_, hp⟩
      unfold wake; rw [hp]
    · rw [e] at hj
      rw [hts]
      rcases List.mem_cons.1 hj with rfl | hj
      · exact ⟨t, ht, hp⟩
      · exact h.idle j hj

private theorem ask_runs (L : FrontierLaws cfg.fr) (hg : BaseCfg cfg S B) (hn : cfg.nbThreads ≤ cfg.custom) (ls : List (Fate (Lbl σ))) : ∀ {s s' : Torn (Sys σ cfg.fr.F)}, AskInv L s →
    (∀ l, Fate.step l ∈ ls → ValidLbl l) → askRuns cfg s ls = some s' → AskInv L s' := by
  induction ls with
  | nil => intro s s' h _ hs; cases hs; exact h
  | cons f ls ih =>
    intro s s' h hQ hs
    unfold askRuns at hs
    obtain ⟨s1, h1, h2⟩ := Option.bind_eq_some_iff.1 hs
    exact ih (ask_step L hg hn h (fun l e => hQ l (by simp [e])) h1) (fun l hl => hQ l (by simp [hl])) h2

private theorem ask_inv (L : FrontierLaws cfg.fr) (hg : BaseCfg cfg S B) (hn : cfg.nbThreads ≤ cfg.custom) {s : Torn (Sys σ cfg.fr.F)} (h : AskReachable cfg s) : AskInv L s := by
  obtain ⟨s0, ls, h1, h2, h3⟩ := h
  refine ask_runs L hg hn ls (s := ⟨s0, []⟩) ⟨?_, List.nodup_nil, by simp⟩ h2 h3
  exact reachable_inv L hg hn ⟨s0, [], h1, by simp, rfl⟩ |>.1

/-- **C114.** Whatever `interrupt()` does, when no worker that goes on can do anything all of them have left their loops: nobody waits for a worker in which `interrupt()` has panicked, and the call ends
(with that panic), unlike after a panic during a compilation (C109). -/
theorem ask_returns (L : FrontierLaws cfg.fr) (hg : BaseCfg cfg S B) (hn : cfg.nbThreads ≤ cfg.custom) {s : Torn (Sys σ cfg.fr.F)} (h : AskReachable cfg s)
    (hmax : ∀ i intr o, o.Valid → askStep cfg s (.step (.run i intr o)) = none) : Ended s := by
  intro i t ht
  apply Classical.byContradiction
  intro hc
  simp only [not_or] at hc
  have ha := ask_inv L hg hn h
  have key : ∀ (j : Nat) (u : Thread σ), s.sys.threads[j]? = some u → j ∉ s.dead → u.pc ≠ .waiting → u.pc ≠ .done → False := by
    intro j u hu hj h1 h2
    obtain ⟨x, hx⟩ := enabled hg hn ha.inv hu h1 h2 false Inst.orc_valid
    have := hmax j false Inst.orc Inst.orc_valid
    simp only [askStep, tornStep, Lbl.who, if_neg hj, hx] at this
    cases this
  by_cases hw : t.pc = .waiting
  · obtain ⟨j, u, hu, hb⟩ := busy_exists ha.inv (ha.inv.wait t (List.mem_of_getElem? ht) hw)
    obtain ⟨b1, b2, b3⟩ := busy_active hb
    refine key j u hu (fun hj => ?_) b1 b2
    obtain ⟨u', hu', hp⟩ := ha.idle j hj
    rw [hu] at hu'; cases hu'
    exact b3 hp
  · exact key i t ht hc.1 hw hc.2

/-- **C114.** The workers that go on do come to rest: an infinite run has infinitely many spurious wake-ups. -/
theorem ask_runs_terminate (L : FrontierLaws cfg.fr) (hg : BaseCfg cfg S B) (hn : cfg.nbThreads ≤ cfg.custom) (st : Nat → Torn (Sys σ cfg.fr.F)) (ls : Nat → Fate (Lbl σ))
    (hr : AskReachable cfg (st 0)) (hv : ∀ k l, ls k = .step l → ValidLbl l) (hs : ∀ k, askStep cfg (st k) (ls k) = some (st (k + 1))) :
    ∀ k, ∃ j, k ≤ j ∧ ∃ i, ls j = .step (.spurious i) := by
  have hinv : ∀ k, AskInv L (st k) := by
    intro k
    induction k with
    | zero => exact ask_inv L hg hn hr
    | succ k ih => exact ask_step L hg hn ih (hv k) (hs k)
  obtain ⟨k0, hk0⟩ := counter_stops (d := fun k => (st k).dead.length) (q := fun k => ∃ l, ls k = .step l) (N := cfg.nbThreads) (fun k => by
    rcases ask_runs_dead (hs k) with ⟨l, e1, _, _, e⟩ | ⟨hno, i, t, e, _⟩
    · exact Or.inl ⟨⟨l, e1⟩, by rw [e]⟩
    · exact Or.inr ⟨fun ⟨l, hl⟩ => hno l hl, by rw [e]; rfl⟩) (fun k => by
      refine length_le_of_lt (hinv k).nodup fun i hi => ?_
      obtain ⟨t, ht, _⟩ := (hinv k).idle i hi
      rw [← (hinv k).inv.thr]
      exact (List.getElem?_eq_some_iff.1 ht).1)
  intro k
  apply Classical.byContradiction
  intro hno
  have hstep : ∀ j, ∃ l, ls (k0 + k + j) = .step l ∧ step cfg (st (k0 + k + j)).sys l = .ok (st (k0 + k + j + 1)).sys := by
    intro j
    obtain ⟨l, hl⟩ := hk0 (k0 + k + j) (by omega)
    rcases ask_runs_dead (hs (k0 + k + j)) with ⟨l', e1, _, e2, _⟩ | ⟨h, _⟩
    · exact ⟨l', e1, e2⟩
    · exact absurd hl (h l)
  refine no_infinite (L := L) hg hn (fun j => (st (k0 + k + j)).sys) (fun j => (hstep j).choose) (hinv (k0 + k)).inv (fun j => hv _ _ (hstep j).choose_spec.1) (fun j => (hstep j).choose_spec.2) (fun j => ?_)
  cases hl : (hstep j).choose with
  | run => rfl
  | spurious i => exact absurd ⟨k0 + k + j, by omega, i, by rw [(hstep j).choose_spec.1, hl]⟩ hno

/-- If one worker has left its loop and nothing has interrupted the search, the answer is the optimum, whatever the others do. -/
theorem left_optimal (L : FrontierLaws cfg.fr) (hg : GoodCfg cfg S B) (hc : CutOK cfg S) (hn : cfg.nbThreads ≤ cfg.custom) {s : Sys σ cfg.fr.F} (h : Reachable cfg s) {t : Thread σ}
    (ht : t ∈ s.threads) (hd : t.pc = .done) (hp : proved cfg s.crit = true) :
    bestUpperBound cfg s.crit = bestLowerBound cfg s.crit ∧
    ((∃ v sol, bestValue cfg s.crit = some v ∧ bestSolution cfg s.crit = some sol ∧ IsSolutionOf cfg.p sol v ∧ IsOptimum cfg.p v) ∨
      (bestValue cfg s.crit = none ∧ bestSolution cfg s.crit = none ∧ Infeasible cfg.p)) := by
  obtain ⟨hi, hcov⟩ := reachable_inv L hg.base hn h
  have hint : s.crit.interrupted = false := by simpa [proved] using hp
  obtain ⟨h1, h2, h3⟩ := hi.done t ht hd hint
  refine ⟨h3, ?_⟩
  have hall : ∀ ds w, Solution cfg.p ds w → w ≤ s.crit.bestLb := by
    intro ds w hw
    by_cases hlt : s.crit.bestLb < w
    · exfalso
      obtain ⟨n, hn, _⟩ := hcov hg hc hint w (root_through hw) hlt
      rw [h1, List.nil_append] at hn
      simp only [working, List.mem_filterMap] at hn
      obtain ⟨x, hx, hpc⟩ := hn
      have hz := hi.ong
      rw [h2, eq_comm] at hz
      have := List.countP_eq_zero.1 hz x hx
      obtain ⟨pc, m⟩ := x
      cases pc <;> simp [Pc.node, Pc.busy] at hpc this
    · omega
  rcases hi.inc with ⟨g1, g2⟩ | ⟨sol, g1, g2⟩
  · right
    refine ⟨by simp [bestValue, g1], g1, ?_⟩
    intro ds v hs
    have := hall ds v hs
    have := (solution_bounds hg.wf hs).1
    omega
  · left
    obtain ⟨ds, hp, hs⟩ := g2
    exact ⟨s.crit.bestLb, sol, by simp [bestValue, g1], g1, ⟨ds, hp, hs⟩, ⟨⟨ds, hs⟩, hall⟩⟩

/-- **C114.** If one worker has left its loop and nothing has interrupted the search, the answer is the optimum, in whichever workers `interrupt()` has panicked. -/
theorem ask_optimal (L : FrontierLaws cfg.fr) (hg : GoodCfg cfg S B) (hc : CutOK cfg S) (hn : cfg.nbThreads ≤ cfg.custom) {s : Torn (Sys σ cfg.fr.F)} (h : AskReachable cfg s) {t : Thread σ}
    (ht : t ∈ s.sys.threads) (hd : t.pc = .done) (hp : proved cfg s.sys.crit = true) :
    bestUpperBound cfg s.sys.crit = bestLowerBound cfg s.sys.crit ∧
    ((∃ v sol, bestValue cfg s.sys.crit = some v ∧ bestSolution cfg s.sys.crit = some sol ∧ IsSolutionOf cfg.p sol v ∧ IsOptimum cfg.p v) ∨
      (bestValue cfg s.sys.crit = none ∧ bestSolution cfg s.sys.crit = none ∧ Infeasible cfg.p)) :=
  left_optimal L hg hc hn (ask_harmless h) ht hd hp

private theorem ask_example (ls : List (Nat × Bool)) (f : Torn (Sys _ (Inst.kpCfg 2).fr.F) → Bool)
    (h : (match Par.init (Inst.kpCfg 2) with
      | some s0 =>
        (match Par.askRuns (Inst.kpCfg 2) ⟨s0, []⟩ (ls.map fun x => if x.2 then .crash x.1 else .step (.run x.1 false Inst.orc)) with
          | some s => f s
          | none => false)
      | none => false) = true) : ∃ s, AskReachable (Inst.kpCfg 2) s ∧ f s = true := by
  split at h
  · rename_i s0 h0
    split at h
    · rename_i s hs
      refine ⟨s, ⟨s0, _, h0, fun l hl => ?_, hs⟩, h⟩
      obtain ⟨x, _, e⟩ := List.mem_map.1 hl
      split at e
      · cases e
      · cases e; exact Inst.orc_valid
    · cases h
  · cases h

/-- `interrupt()` panics in the first worker; the second one solves the problem. -/
theorem ask_one_panics : ∃ s, AskReachable (Inst.kpCfg 2) s ∧ s.dead = [0] ∧ (∃ t ∈ s.sys.threads, t.pc = .done) ∧ proved (Inst.kpCfg 2) s.sys.crit = true ∧ bestValue (Inst.kpCfg 2) s.sys.crit = some 9 := by
  obtain ⟨s, h1, h2⟩ := ask_example ((0, true) :: List.replicate 31 (1, false))
    (fun s => decide (s.dead = [0]) && s.sys.threads.any (fun t => match t.pc with | .done => true | _ => false) && proved (Inst.kpCfg 2) s.sys.crit && decide (bestValue (Inst.kpCfg 2) s.sys.crit = some 9))
    (by decide +kernel)
  simp only [Bool.and_eq_true, decide_eq_true_eq, List.any_eq_true] at h2
  obtain ⟨⟨⟨h2, t, ht, h3⟩, h4⟩, h5⟩ := h2
  refine ⟨s, h1, h2, ⟨t, ht, ?_⟩, h4, h5⟩
  split at h3
  · assumption
  · cases h3

/-- **C114.** If `interrupt()` panics in all workers the call ends as well, here with the root still in the frontier, so that no value is found although there is a solution. -/
theorem ask_all_panic : ∃ s, AskReachable (Inst.kpCfg 2) s ∧ Ended s ∧ 0 < (Inst.kpCfg 2).fr.len s.sys.crit.fringe ∧ bestValue (Inst.kpCfg 2) s.sys.crit = none ∧
    ∃ ds v, Solution (Inst.kpCfg 2).p ds v := by
  obtain ⟨s, h1, h2⟩ := ask_example [(0, true), (1, true)]
    (fun s => decide (s.dead = [1, 0]) && decide (s.sys.threads.length = 2) && decide (0 < (Inst.kpCfg 2).fr.len s.sys.crit.fringe) && decide (bestValue (Inst.kpCfg 2) s.sys.crit = none))
    (by decide +kernel)
  simp only [Bool.and_eq_true, decide_eq_true_eq] at h2
  obtain ⟨⟨⟨h2, h3⟩, h4⟩, h5⟩ := h2
  refine ⟨s, h1, fun i t ht => ?_, h4, h5, ?_⟩
  · have hi := (List.getElem?_eq_some_iff.1 ht).1
    rw [h3] at hi
    left
    rw [h2]
    simp only [List.mem_cons, List.not_mem_nil, or_false]
    omega
  · obtain ⟨s, g1, _, ⟨t, ht, hd⟩, g2, g3⟩ := ask_one_panics
    rcases (ask_optimal (Inst.kpLaws 2) (Inst.kpCfg_good 2) (Or.inl rfl) (Nat.le_refl _) g1 ht hd g2).2 with ⟨v, _, _, _, _, ⟨ds, hs⟩, _⟩ | ⟨e, _⟩
    · exact ⟨ds, v, hs⟩
    · rw [g3] at e; cases e


end Verif.Props
