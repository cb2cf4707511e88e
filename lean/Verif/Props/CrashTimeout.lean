import Verif.Props.Crash
import Verif.Props.BarrierCrash
import Verif.Proofs.Left
/-! C113: a time limit after the panic of a worker.  (`src/solver/parallel.rs:297-339, 423-460`, `src/solver/barrier.rs:320-369, 481-518`) -/
set_option autoImplicit false

namespace Verif.Props
open Verif Spec
variable {σ : Type} [DecidableEq σ] [Inhabited σ] {cfg : SolverCfg σ} {S : Layering σ} {B : Int}

section
open Par

/-- **C113.** Once a worker has panicked, another one leaves its loop only because of an interruption: the solver never claims that its answer is proved. -/
theorem crash_left_unproved (L : FrontierLaws cfg.fr) (hg : BaseCfg cfg S B) (hn : cfg.nbThreads ≤ cfg.custom) {s : Torn (Sys σ cfg.fr.F)} (h : TornReachable cfg s) (hd : s.dead ≠ [])
    {t : Thread σ} (ht : t ∈ s.sys.threads) (hp : t.pc = .done) : proved cfg s.sys.crit = false := by
  have hi := (reachable_inv L hg hn (crash_harmless h)).1
  obtain ⟨i, hm⟩ := List.exists_mem_of_ne_nil _ hd
  obtain ⟨u, hu, hc⟩ := (torn_lost h).held i hm
  have h1 := busyCount_pos (List.mem_of_getElem? hu) (compiling_busy hc)
  have h2 := hi.ong
  cases hq : s.sys.crit.interrupted with
  | true => simp [proved, hq]
  | false => have := (hi.done t ht hp hq).2.1; omega

private theorem torn_left {s : Torn (Sys σ cfg.fr.F)} (h : TornReachable cfg s) : Left s.sys := by
  obtain ⟨s0, ls, h1, _, h3⟩ := h
  refine torn_runs (P := fun s => Left s.sys) (Q := fun _ => True) ?_ ls ?_ (fun _ _ => trivial) h3
  · intro s f s' hb _ hs
    cases f with
    | step l =>
      simp only [tornStep] at hs
      split at hs
      · cases hs
      · split at hs
        · rename_i x hx
          cases hs
          exact left_step hb hx
        · cases hs
    | crash i =>
      simp only [tornStep] at hs
      split at hs
      · cases hs
      · split at hs
        · split at hs
          · cases hs; exact hb
          · cases hs
        · cases hs
  · intro hi
    simp only at hi
    rw [(init_bal h1).int] at hi; cases hi

/-- **C113.** That the time is up is only known once a worker has noticed it and left its loop. -/
theorem crash_timeout_left {s : Torn (Sys σ cfg.fr.F)} (h : TornReachable cfg s) (hp : proved cfg s.sys.crit = false) : ∃ i t, s.sys.threads[i]? = some t ∧ i ∉ s.dead ∧ t.pc = .done := by
  obtain ⟨t, ht, hd⟩ := torn_left h (by simpa [proved] using hp)
  obtain ⟨i, hi⟩ := List.getElem?_of_mem ht
  refine ⟨i, t, hi, fun hm => ?_, hd⟩
  obtain ⟨u, hu, hc⟩ := (torn_lost h).held i hm
  rw [hi] at hu; cases hu
  have := compiling_busy hc
  rw [hd] at this; cases this

/-- **C113.** Of two workers one of which has panicked, the other ends the call as soon as it notices that the time is up. -/
theorem crash_timeout_two (L : FrontierLaws cfg.fr) (hg : BaseCfg cfg S B) (hn : cfg.nbThreads ≤ cfg.custom) (h2 : cfg.nbThreads = 2) {s : Torn (Sys σ cfg.fr.F)} (h : TornReachable cfg s)
    (hd : s.dead ≠ []) (hp : proved cfg s.sys.crit = false) : Ended s := by
  obtain ⟨j, t, hj, hl, hdone⟩ := crash_timeout_left h hp
  obtain ⟨k, hk⟩ := List.exists_mem_of_ne_nil _ hd
  obtain ⟨u, hu, _⟩ := (torn_lost h).held k hk
  have hlen := (reachable_inv L hg hn (crash_harmless h)).1.thr
  intro i x hx
  have a1 := (List.getElem?_eq_some_iff.1 hj).1
  have a2 := (List.getElem?_eq_some_iff.1 hu).1
  have a3 := (List.getElem?_eq_some_iff.1 hx).1
  have hne : j ≠ k := fun e => hl (e ▸ hk)
  rcases (show i = j ∨ i = k by omega) with rfl | rfl
  · rw [hj] at hx; cases hx; exact Or.inr hdone
  · exact Or.inl hk

/-- **C113.** With three workers the call may never return, although one of them has noticed that the time is up: the first takes the root, the second is parked, the first panics, the third sees that the
time is up and leaves; it wakes nobody. -/
theorem crash_timeout_hangs : ∃ s, TornReachable (Inst.kpCfg 3) s ∧ s.dead = [0] ∧ proved (Inst.kpCfg 3) s.sys.crit = false ∧ (∃ t, s.sys.threads[1]? = some t ∧ t.pc = .waiting) ∧
    (∃ t, s.sys.threads[2]? = some t ∧ t.pc = .done) ∧ ¬ Ended s ∧ ∀ f, (∀ j, f ≠ .step (.spurious j)) → Par.tornStep (Inst.kpCfg 3) s f = none := by
  have h : (match Par.init (Inst.kpCfg 3) with
    | some s0 =>
      (match Par.tornRuns (Inst.kpCfg 3) ⟨s0, []⟩ [.step (.run 0 false Inst.orc), .step (.run 0 false Inst.orc), .step (.run 1 false Inst.orc), .crash 0, .step (.run 2 true Inst.orc)] with
        | some s =>
          decide (s.dead = [0]) && decide (proved (Inst.kpCfg 3) s.sys.crit = false) && decide (s.sys.threads.length = 3) &&
            (match s.sys.threads[1]? with | some t => (match t.pc with | .waiting => true | _ => false) | none => false) &&
            (match s.sys.threads[2]? with | some t => (match t.pc with | .done => true | _ => false) | none => false)
        | none => false)
    | none => false) = true := by decide +kernel
  split at h
  · rename_i s0 h0
    split at h
    · rename_i s hs
      simp only [Bool.and_eq_true, decide_eq_true_eq] at h
      obtain ⟨⟨⟨⟨h1, h2⟩, h3⟩, h4⟩, h5⟩ := h
      have h4 : ∃ t, s.sys.threads[1]? = some t ∧ t.pc = .waiting := by
        split at h4
        · rename_i t ht
          refine ⟨t, ht, ?_⟩
          split at h4
          · assumption
          · cases h4
        · cases h4
      have h5 : ∃ t, s.sys.threads[2]? = some t ∧ t.pc = .done := by
        split at h5
        · rename_i t ht
          refine ⟨t, ht, ?_⟩
          split at h5
          · assumption
          · cases h5
        · cases h5
      obtain ⟨t, ht, hp⟩ := h4
      obtain ⟨u, hu, hq⟩ := h5
      have hr : TornReachable (Inst.kpCfg 3) s := by
        refine ⟨s0, _, h0, fun l hl => ?_, hs⟩
        simp only [List.mem_cons, reduceCtorEq, Fate.step.injEq, List.not_mem_nil, or_false, false_or] at hl
        rcases hl with rfl | rfl | rfl | rfl <;> exact Inst.orc_valid
      refine ⟨s, hr, h1, h2, ⟨t, ht, hp⟩, ⟨u, hu, hq⟩, fun he => ?_, crash_stuck fun i x hx => ?_⟩
      · rcases he 1 t ht with h | h
        · rw [h1] at h; simp at h
        · rw [hp] at h; cases h
      · have hi := (List.getElem?_eq_some_iff.1 hx).1
        rw [h3] at hi
        match i, hi with
        | 0, _ => exact Or.inl (by rw [h1]; simp)
        | 1, _ => rw [ht] at hx; cases hx; exact Or.inr (Or.inl hp)
        | 2, _ => rw [hu] at hx; cases hx; exact Or.inr (Or.inr hq)
    · cases h
  · cases h

/-- The hypotheses of `crash_timeout_two` are met: of two workers the first takes the root and panics, the second sees that the time is up. -/
example : ∃ s, TornReachable (Inst.kpCfg 2) s ∧ s.dead ≠ [] ∧ proved (Inst.kpCfg 2) s.sys.crit = false := by
  have h : (match Par.init (Inst.kpCfg 2) with
    | some s0 =>
      (match Par.tornRuns (Inst.kpCfg 2) ⟨s0, []⟩ [.step (.run 0 false Inst.orc), .step (.run 0 false Inst.orc), .crash 0, .step (.run 1 true Inst.orc)] with
        | some s => decide (s.dead ≠ []) && decide (proved (Inst.kpCfg 2) s.sys.crit = false)
        | none => false)
    | none => false) = true := by decide +kernel
  split at h
  · rename_i s0 h0
    split at h
    · rename_i s hs
      simp only [Bool.and_eq_true, decide_eq_true_eq] at h
      refine ⟨s, ⟨s0, _, h0, fun l hl => ?_, hs⟩, h.1, h.2⟩
      simp only [List.mem_cons, reduceCtorEq, Fate.step.injEq, List.not_mem_nil, or_false, false_or] at hl
      rcases hl with rfl | rfl | rfl <;> exact Inst.orc_valid
    · cases h
  · cases h

end

section
open Bar

/-- **C113.** With a barrier: Once a worker has panicked, another one leaves its loop only because of an interruption: the solver never claims that its answer is proved. -/
theorem barrier_crash_left_unproved (L : FrontierLaws cfg.fr) (hg : BaseCfg cfg S B) (hn : cfg.nbThreads ≤ cfg.custom) {s : Torn (BSys σ cfg.fr.F)} (h : BTornReachable cfg s) (hd : s.dead ≠ [])
    {t : BThread σ} (ht : t ∈ s.sys.threads) (hp : t.pc = .done) : proved cfg s.sys.crit = false := by
  have hi := (reachable_inv L hg hn (barrier_crash_harmless h))
  obtain ⟨i, hm⟩ := List.exists_mem_of_ne_nil _ hd
  obtain ⟨u, hu, hc⟩ := (barrier_torn_lost h).held i hm
  have h1 := busyCount_pos (List.mem_of_getElem? hu) (compiling_busy hc)
  have h2 := hi.ong
  cases hq : s.sys.crit.interrupted with
  | true => simp [proved, hq]
  | false => have := (hi.done t ht hp hq).2.1; omega

private theorem barrier_torn_left {s : Torn (BSys σ cfg.fr.F)} (h : BTornReachable cfg s) : Left s.sys := by
  obtain ⟨s0, ls, h1, _, h3⟩ := h
  refine torn_runs (P := fun s => Left s.sys) (Q := fun _ => True) ?_ ls ?_ (fun _ _ => trivial) h3
  · intro s f s' hb _ hs
    cases f with
    | step l =>
      simp only [tornStep] at hs
      split at hs
      · cases hs
      · split at hs
        · rename_i x hx
          cases hs
          exact left_step hb hx
        · cases hs
    | crash i =>
      simp only [tornStep] at hs
      split at hs
      · cases hs
      · split at hs
        · split at hs
          · cases hs; exact hb
          · cases hs
        · cases hs
  · intro hi
    simp only at hi
    rw [(init_bal h1).int] at hi; cases hi

/-- **C113.** With a barrier: That the time is up is only known once a worker has noticed it and left its loop. -/
theorem barrier_crash_timeout_left {s : Torn (BSys σ cfg.fr.F)} (h : BTornReachable cfg s) (hp : proved cfg s.sys.crit = false) : ∃ i t, s.sys.threads[i]? = some t ∧ i ∉ s.dead ∧ t.pc = .done := by
  obtain ⟨t, ht, hd⟩ := barrier_torn_left h (by simpa [proved] using hp)
  obtain ⟨i, hi⟩ := List.getElem?_of_mem ht
  refine ⟨i, t, hi, fun hm => ?_, hd⟩
  obtain ⟨u, hu, hc⟩ := (barrier_torn_lost h).held i hm
  rw [hi] at hu; cases hu
  have := compiling_busy hc
  unfold heldDepth at this; rw [hd] at this; cases this

/-- **C113.** With a barrier: Of two workers one of which has panicked, the other ends the call as soon as it notices that the time is up. -/
theorem barrier_crash_timeout_two (L : FrontierLaws cfg.fr) (hg : BaseCfg cfg S B) (hn : cfg.nbThreads ≤ cfg.custom) (h2 : cfg.nbThreads = 2) {s : Torn (BSys σ cfg.fr.F)} (h : BTornReachable cfg s)
    (hd : s.dead ≠ []) (hp : proved cfg s.sys.crit = false) : BEnded s := by
  obtain ⟨j, t, hj, hl, hdone⟩ := barrier_crash_timeout_left h hp
  obtain ⟨k, hk⟩ := List.exists_mem_of_ne_nil _ hd
  obtain ⟨u, hu, _⟩ := (barrier_torn_lost h).held k hk
  have hlen := (reachable_inv L hg hn (barrier_crash_harmless h)).thr
  intro i x hx
  have a1 := (List.getElem?_eq_some_iff.1 hj).1
  have a2 := (List.getElem?_eq_some_iff.1 hu).1
  have a3 := (List.getElem?_eq_some_iff.1 hx).1
  have hne : j ≠ k := fun e => hl (e ▸ hk)
  rcases (show i = j ∨ i = k by omega) with rfl | rfl
  · rw [hj] at hx; cases hx; exact Or.inr hdone
  · exact Or.inl hk

/-- **C113.** With a barrier: With three workers the call may never return, although one of them has noticed that the time is up: the first takes the root, the second is parked, the first panics, the third sees that the
time is up and leaves; it wakes nobody. -/
theorem barrier_crash_timeout_hangs : ∃ s, BTornReachable (Inst.kpCfg 3) s ∧ s.dead = [0] ∧ proved (Inst.kpCfg 3) s.sys.crit = false ∧ (∃ t, s.sys.threads[1]? = some t ∧ t.pc = .waiting) ∧
    (∃ t, s.sys.threads[2]? = some t ∧ t.pc = .done) ∧ ¬ BEnded s ∧ ∀ f, (∀ j, f ≠ .step (.spurious j)) → Bar.tornStep (Inst.kpCfg 3) s f = none := by
  have h : (match Bar.init (Inst.kpCfg 3) with
    | some s0 =>
      (match Bar.tornRuns (Inst.kpCfg 3) ⟨s0, []⟩ [.step (.run 0 false Inst.orc none), .step (.run 0 false Inst.orc none), .step (.run 1 false Inst.orc none), .crash 0, .step (.run 2 true Inst.orc none)] with
        | some s =>
          decide (s.dead = [0]) && decide (proved (Inst.kpCfg 3) s.sys.crit = false) && decide (s.sys.threads.length = 3) &&
            (match s.sys.threads[1]? with | some t => (match t.pc with | .waiting => true | _ => false) | none => false) &&
            (match s.sys.threads[2]? with | some t => (match t.pc with | .done => true | _ => false) | none => false)
        | none => false)
    | none => false) = true := by decide +kernel
  split at h
  · rename_i s0 h0
    split at h
    · rename_i s hs
      simp only [Bool.and_eq_true, decide_eq_true_eq] at h
      obtain ⟨⟨⟨⟨h1, h2⟩, h3⟩, h4⟩, h5⟩ := h
      have h4 : ∃ t, s.sys.threads[1]? = some t ∧ t.pc = .waiting := by
        split at h4
        · rename_i t ht
          refine ⟨t, ht, ?_⟩
          split at h4
          · assumption
          · cases h4
        · cases h4
      have h5 : ∃ t, s.sys.threads[2]? = some t ∧ t.pc = .done := by
        split at h5
        · rename_i t ht
          refine ⟨t, ht, ?_⟩
          split at h5
          · assumption
          · cases h5
        · cases h5
      obtain ⟨t, ht, hp⟩ := h4
      obtain ⟨u, hu, hq⟩ := h5
      have hr : BTornReachable (Inst.kpCfg 3) s := by
        refine ⟨s0, _, h0, fun l hl => ?_, hs⟩
        simp only [List.mem_cons, reduceCtorEq, Fate.step.injEq, List.not_mem_nil, or_false, false_or] at hl
        rcases hl with rfl | rfl | rfl | rfl <;> exact Inst.orc_valid
      refine ⟨s, hr, h1, h2, ⟨t, ht, hp⟩, ⟨u, hu, hq⟩, fun he => ?_, barrier_crash_stuck fun i x hx => ?_⟩
      · rcases he 1 t ht with h | h
        · rw [h1] at h; simp at h
        · rw [hp] at h; cases h
      · have hi := (List.getElem?_eq_some_iff.1 hx).1
        rw [h3] at hi
        match i, hi with
        | 0, _ => exact Or.inl (by rw [h1]; simp)
        | 1, _ => rw [ht] at hx; cases hx; exact Or.inr (Or.inl hp)
        | 2, _ => rw [hu] at hx; cases hx; exact Or.inr (Or.inr hq)
    · cases h
  · cases h

/-- The hypotheses of `barrier_crash_timeout_two` are met: of two workers the first takes the root and panics, the second sees that the time is up. -/
example : ∃ s, BTornReachable (Inst.kpCfg 2) s ∧ s.dead ≠ [] ∧ proved (Inst.kpCfg 2) s.sys.crit = false := by
  have h : (match Bar.init (Inst.kpCfg 2) with
    | some s0 =>
      (match Bar.tornRuns (Inst.kpCfg 2) ⟨s0, []⟩ [.step (.run 0 false Inst.orc none), .step (.run 0 false Inst.orc none), .crash 0, .step (.run 1 true Inst.orc none)] with
        | some s => decide (s.dead ≠ []) && decide (proved (Inst.kpCfg 2) s.sys.crit = false)
        | none => false)
    | none => false) = true := by decide +kernel
  split at h
  · rename_i s0 h0
    split at h
    · rename_i s hs
      simp only [Bool.and_eq_true, decide_eq_true_eq] at h
      refine ⟨s, ⟨s0, _, h0, fun l hl => ?_, hs⟩, h.1, h.2⟩
      simp only [List.mem_cons, reduceCtorEq, Fate.step.injEq, List.not_mem_nil, or_false, false_or] at hl
      rcases hl with rfl | rfl | rfl <;> exact Inst.orc_valid
    · cases h
  · cases h

end

end Verif.Props
