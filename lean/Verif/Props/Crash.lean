import Verif.Examples.Race
import Verif.Proofs.Par.Crash
import Verif.Props.Parallel
/-! C109: what the panic of a worker does. -/
set_option autoImplicit false

namespace Verif.Props
open Verif Spec Par
variable {σ : Type} [DecidableEq σ] [Inhabited σ] {cfg : SolverCfg σ} {S : Layering σ} {B : Int}

/-- **C109.** A panic changes nothing of the shared data: whatever is reached in a run with panics is reached in a run in which these workers are merely not scheduled any more, so that all that holds in every
state of a run (real incumbent, bounds) still holds. -/
theorem crash_harmless {s : Torn (Sys σ cfg.fr.F)} (h : TornReachable cfg s) : Reachable cfg s.sys := by
  obtain ⟨s0, ls, h1, h2, h3⟩ := h
  obtain ⟨ks, g1, g2⟩ := torn_sub ls h3
  exact ⟨s0, ks, h1, fun l hl => h2 l (g1 l hl), g2⟩

theorem torn_lost {s : Torn (Sys σ cfg.fr.F)} (h : TornReachable cfg s) : Lost s := by
  obtain ⟨s0, ls, h1, h2, h3⟩ := h
  exact torn_runs (P := Lost) (Q := fun _ => True) (fun _ _ _ h _ hs => lost_step h hs) ls ⟨List.nodup_nil, by simp⟩ (fun _ _ => trivial) h3

theorem torn_of_max {s : Torn (Sys σ cfg.fr.F)} (h : TornReachableMax cfg s) : TornReachable cfg s := by
  obtain ⟨s0, ls, h1, h2, _, h3⟩ := h
  exact ⟨s0, ls, h1, h2, h3⟩

/-- **C109.** A worker may panic just while it compiles a restricted or a relaxed diagram; nothing of the shared data changes. -/
theorem crash_when {s s' : Torn (Sys σ cfg.fr.F)} {i : Nat} : tornStep cfg s (.crash i) = some s' ↔
    i ∉ s.dead ∧ s' = ⟨s.sys, i :: s.dead⟩ ∧ ∃ t, s.sys.threads[i]? = some t ∧ ((∃ n lb, t.pc = .restr n lb) ∨ ∃ n lb dd, t.pc = .relx n lb dd) := by
  constructor
  · intro h
    simp only [tornStep] at h
    split at h
    · cases h
    rename_i hl
    split at h
    · rename_i t ht
      split at h
      · rename_i hc
        cases h
        refine ⟨hl, rfl, t, ht, ?_⟩
        unfold compiling at hc
        split at hc
        · rename_i e; exact Or.inl ⟨_, _, e⟩
        · rename_i e; exact Or.inr ⟨_, _, _, e⟩
        · cases hc
      · cases h
    · cases h
  · rintro ⟨hl, rfl, t, ht, h⟩
    simp only [tornStep]
    rw [if_neg hl, ht]
    have hc : compiling t = true := by
      unfold compiling
      rcases h with ⟨n, lb, e⟩ | ⟨n, lb, dd, e⟩ <;> rw [e]
    simp only [hc, if_true]

/-- **C109.** Once a worker has panicked, no worker of `maximize` ever leaves its loop: the call ends (with a panic) only if all workers panic, in particular if there is only one. -/
theorem crash_never_returns {s : Torn (Sys σ cfg.fr.F)} (h : TornReachableMax cfg s) (hd : s.dead ≠ []) :
    (∀ t ∈ s.sys.threads, t.pc ≠ .done) ∧ (Ended s → ∀ i, i < s.sys.threads.length → i ∈ s.dead) := by
  have hl := torn_lost (torn_of_max h)
  obtain ⟨s0, ls, h1, _, h2, h3⟩ := h
  have hb : Bal s.sys := by
    refine torn_runs (P := fun s => Bal s.sys) (Q := fun f => ∀ i intr o, f = .step (.run i intr o) → intr = false) ?_ ls (init_bal h1) ?_ h3
    · intro s f s' hb hf hs
      cases f with
      | step l =>
        simp only [tornStep] at hs
        split at hs
        · cases hs
        · split at hs
          · rename_i x hx
            cases hs
            exact bal_step hb (fun i intr o e => hf i intr o (by rw [e])) hx
          · cases hs
      | crash i =>
        simp only [tornStep] at hs
        split at hs
        · cases hs
        · split at hs
          · split at hs
            · cases hs; exact hb
            · cases hs
          · cases hs
    · intro f hf i intr o e
      exact h2 i intr o (e ▸ hf)
  have hnd : ∀ t ∈ s.sys.threads, t.pc ≠ .done := by
    intro t ht hp
    obtain ⟨i, hi⟩ := List.exists_mem_of_ne_nil _ hd
    obtain ⟨u, hu, hc⟩ := hl.held i hi
    have := busyCount_pos (List.mem_of_getElem? hu) (compiling_busy hc)
    have := (hb.done ⟨t, ht, hp⟩).1
    have := hb.ong
    omega
  refine ⟨hnd, fun he i hi => ?_⟩
  rcases he i _ (List.getElem?_eq_getElem hi) with h | h
  · exact h
  · exact absurd h (hnd _ (List.getElem_mem hi))

/-- **C109.** Runs with panics end, too: an infinite one has infinitely many spurious wake-ups. -/
theorem crash_runs_terminate (L : FrontierLaws cfg.fr) (hg : BaseCfg cfg S B) (hn : cfg.nbThreads ≤ cfg.custom) (st : Nat → Torn (Sys σ cfg.fr.F)) (ls : Nat → Fate (Lbl σ))
    (hr : TornReachable cfg (st 0)) (hv : ∀ k l, ls k = .step l → ValidLbl l) (hs : ∀ k, tornStep cfg (st k) (ls k) = some (st (k + 1))) : ∀ k, ∃ j, k ≤ j ∧ ∃ i, ls j = .step (.spurious i) := by
  have hreach : ∀ k, TornReachable cfg (st k) := by
    intro k
    induction k with
    | zero => exact hr
    | succ k ih =>
      obtain ⟨s0, l0, h1, h2, h3⟩ := ih
      refine ⟨s0, l0 ++ [ls k], h1, ?_, ?_⟩
      · intro l hl
        rcases List.mem_append.1 hl with hl | hl
        · exact h2 l hl
        · exact hv k l (List.mem_singleton.1 hl).symm
      · have app : ∀ (a : List (Fate (Lbl σ))) {x y : Torn (Sys σ cfg.fr.F)}, tornRuns cfg x a = some y → tornRuns cfg x (a ++ [ls k]) = tornStep cfg y (ls k) := by
          intro a
          induction a with
          | nil =>
            intro x y h
            cases h
            simp only [List.nil_append, tornRuns]
            cases tornStep cfg x (ls k) <;> rfl
          | cons f a ih =>
            intro x y h
            unfold tornRuns at h
            obtain ⟨z, h1, h2⟩ := Option.bind_eq_some_iff.1 h
            rw [List.cons_append]
            conv => lhs; unfold tornRuns
            rw [h1]
            exact ih h2
        rw [app l0 h3]; exact hs k
  -- the number of panics is bounded by the number of workers
  have hthreads : ∀ k, (st k).dead.length ≤ (st k).sys.threads.length ∧ (st k).sys.threads.length = cfg.nbThreads := by
    intro k
    refine ⟨(torn_lost (hreach k)).length, ?_⟩
    exact (reachable_inv L hg hn (crash_harmless (hreach k))).1.thr
  have hdead : ∀ k, (st (k + 1)).dead.length = (st k).dead.length + (match ls k with | .crash _ => 1 | .step _ => 0) := by
    intro k
    have h := hs k
    cases hl : ls k with
    | step l =>
      rw [hl] at h
      simp only [tornStep] at h
      split at h
      · cases h
      · split at h
        · cases h' : st (k + 1); rw [h'] at h; cases h; rfl
        · cases h
    | crash i =>
      rw [hl] at h
      simp only [tornStep] at h
      split at h
      · cases h
      · split at h
        · split at h
          · cases h' : st (k + 1); rw [h'] at h; cases h; rfl
          · cases h
        · cases h
  have hmono : ∀ k j, (st k).dead.length ≤ (st (k + j)).dead.length := by
    intro k j
    induction j with
    | zero => exact Nat.le_refl _
    | succ j ih => have := hdead (k + j); rw [← Nat.add_assoc]; omega
  obtain ⟨k0, hk0⟩ : ∃ k0, ∀ j, k0 ≤ j → ∃ l, ls j = .step l := by
    apply Classical.byContradiction
    intro hno
    have hmany : ∀ m, ∃ k, m ≤ (st k).dead.length := by
      intro m
      induction m with
      | zero => exact ⟨0, Nat.zero_le _⟩
      | succ m ih =>
        obtain ⟨k, hk⟩ := ih
        apply Classical.byContradiction
        intro hn2
        refine hno ⟨k, fun j hj => ?_⟩
        cases hl : ls j with
        | step l => exact ⟨l, rfl⟩
        | crash i =>
          exfalso
          refine hn2 ⟨j + 1, ?_⟩
          have h1 := hdead j
          rw [hl] at h1
          have h2 := hmono k (j - k)
          rw [show k + (j - k) = j by omega] at h2
          simp only at h1
          omega
    obtain ⟨k, hk⟩ := hmany (cfg.nbThreads + 1)
    have := hthreads k
    omega
  intro k
  have hstep : ∀ j, ∃ l, ls (k0 + k + j) = .step l ∧ step cfg (st (k0 + k + j)).sys l = .ok (st (k0 + k + j + 1)).sys := by
    intro j
    obtain ⟨l, hl⟩ := hk0 (k0 + k + j) (by omega)
    refine ⟨l, hl, ?_⟩
    have h := hs (k0 + k + j)
    rw [hl] at h
    simp only [tornStep] at h
    split at h
    · cases h
    · split at h
      · rename_i x hx
        rw [hx]
        cases h' : st (k0 + k + j + 1); rw [h'] at h; cases h; rfl
      · cases h
  obtain ⟨j, hj, i, hi⟩ := runs_terminate L hg hn (fun j => (st (k0 + k + j)).sys) (fun j => (hstep j).choose) (crash_harmless (hreach _))
    (fun j => hv _ _ (hstep j).choose_spec.1) (fun j => (hstep j).choose_spec.2) 0
  exact ⟨k0 + k + j, by omega, i, by rw [(hstep j).choose_spec.1, hi]⟩

/-- **C109.** When no worker can make a step any more, all those that have not panicked are parked, or have left their loop because of an interruption... -/
theorem crash_parked (L : FrontierLaws cfg.fr) (hg : BaseCfg cfg S B) (hn : cfg.nbThreads ≤ cfg.custom) {s : Torn (Sys σ cfg.fr.F)} (h : TornReachable cfg s)
    (hmax : ∀ i intr o, o.Valid → tornStep cfg s (.step (.run i intr o)) = none) {i : Nat} {t : Thread σ} (ht : s.sys.threads[i]? = some t) (hl : i ∉ s.dead) :
    t.pc = .waiting ∨ t.pc = .done := by
  apply Classical.byContradiction
  intro hno
  have hi := (reachable_inv L hg hn (crash_harmless h)).1
  obtain ⟨s', hs'⟩ := enabled hg hn hi ht (fun h => hno (Or.inl h)) (fun h => hno (Or.inr h)) false Inst.orc_valid
  have := hmax i false Inst.orc Inst.orc_valid
  simp only [tornStep, Lbl.who, if_neg hl, hs'] at this
  cases this

/-- **C109.** ...and then nothing wakes them up, whatever `interrupt()` would answer: nobody asks it. -/
theorem crash_stuck {s : Torn (Sys σ cfg.fr.F)} (h : ∀ (i : Nat) (t : Thread σ), s.sys.threads[i]? = some t → i ∈ s.dead ∨ t.pc = .waiting ∨ t.pc = .done) (f : Fate (Lbl σ))
    (hf : ∀ i, f ≠ .step (.spurious i)) : tornStep cfg s f = none := by
  cases f with
  | step l =>
    cases l with
    | spurious i => exact absurd rfl (hf i)
    | run i intr o =>
      simp only [tornStep]
      split
      · rfl
      · rename_i hi
        cases ht : s.sys.threads[i]? with
        | none => simp [step, ht]
        | some t =>
          rcases h i t ht with h | h | h
          · exact absurd h hi
          · simp [step, ht, stepThread, h]
          · simp [step, ht, stepThread, h]
  | crash i =>
    simp only [tornStep]
    split
    · rfl
    · rename_i hi
      cases ht : s.sys.threads[i]? with
      | none => rfl
      | some t =>
        rcases h i t ht with h | h | h
        · exact absurd h hi
        · simp [compiling, h]
        · simp [compiling, h]

/-- **C109.** A run of `maximize` in which some worker has panicked, and another has not, gets into a state in which all the others are parked for ever: when nothing but a spurious wake-up is left, each
of them is parked, and the call does not return. -/
theorem crash_hangs (L : FrontierLaws cfg.fr) (hg : BaseCfg cfg S B) (hn : cfg.nbThreads ≤ cfg.custom) {s : Torn (Sys σ cfg.fr.F)} (h : TornReachableMax cfg s) (hd : s.dead ≠ [])
    (hmax : ∀ i intr o, o.Valid → tornStep cfg s (.step (.run i intr o)) = none) {i : Nat} {t : Thread σ} (ht : s.sys.threads[i]? = some t) (hl : i ∉ s.dead) :
    t.pc = .waiting ∧ ¬ Ended s ∧ ∀ f, (∀ j, f ≠ .step (.spurious j)) → tornStep cfg s f = none := by
  have hnd := (crash_never_returns h hd).1
  have key : ∀ (j : Nat) (u : Thread σ), s.sys.threads[j]? = some u → j ∉ s.dead → u.pc = .waiting := by
    intro j u hu hj
    rcases crash_parked L hg hn (torn_of_max h) hmax hu hj with h | h
    · exact h
    · exact absurd h (hnd u (List.mem_of_getElem? hu))
  refine ⟨key i t ht hl, fun he => ?_, crash_stuck fun j u hu => ?_⟩
  · exact hl ((crash_never_returns h hd).2 he i (List.getElem?_eq_some_iff.1 ht).1)
  · by_cases hj : j ∈ s.dead
    · exact Or.inl hj
    · exact Or.inr (Or.inl (key j u hu hj))

/-- The steps of a schedule; the worker `i` panics at the entry `(i, true)`. -/
def fates {σ : Type} (l : List (Nat × Bool)) : List (Fate (Lbl σ)) := l.map fun x => if x.2 then .crash x.1 else .step (.run x.1 false Inst.orc)

theorem fates_reach {s0 : Sys σ cfg.fr.F} {s : Torn (Sys σ cfg.fr.F)} (l : List (Nat × Bool)) (h0 : Par.init cfg = some s0) (h : tornRuns cfg ⟨s0, []⟩ (fates l) = some s) : TornReachableMax cfg s := by
  have key : ∀ k : Lbl σ, Fate.step k ∈ (fates l : List (Fate (Lbl σ))) → ∃ i, k = .run i false Inst.orc := by
    intro k hk
    obtain ⟨x, _, hx⟩ := List.mem_map.1 hk
    split at hx
    · cases hx
    · cases hx; exact ⟨_, rfl⟩
  refine ⟨s0, fates l, h0, fun k hk => ?_, fun i intr o hk => ?_, h⟩
  · obtain ⟨i, rfl⟩ := key k hk
    exact Inst.orc_valid
  · obtain ⟨j, hj⟩ := key _ hk
    cases hj; rfl

/-- **C109.** `--width 0` with two workers in a build that unwinds: the first worker panics in its first relaxed diagram, the second is parked, and the program runs for ever. -/
theorem zero_width_hangs : ∃ s, TornReachableMax { Inst.kpCfg 2 with width := fun _ => 0 } s ∧ s.dead = [0] ∧
    Par.step { Inst.kpCfg 2 with width := fun _ => 0 } s.sys (.run 0 false Inst.orc) = .panic ∧ ¬ Ended s ∧
    ∀ f, (∀ j, f ≠ .step (.spurious j)) → Par.tornStep { Inst.kpCfg 2 with width := fun _ => 0 } s f = none := by
  have h : (match Par.init { Inst.kpCfg 2 with width := fun _ => 0 } with
    | some s0 =>
      (match Par.tornRuns { Inst.kpCfg 2 with width := fun _ => 0 } ⟨s0, []⟩ (fates [(0, false), (0, false), (0, false), (0, false), (1, false), (0, true)]) with
        | some s =>
          decide (s.dead = [0]) && (match Par.step { Inst.kpCfg 2 with width := fun _ => 0 } s.sys (.run 0 false Inst.orc) with | .panic => true | _ => false) &&
            decide (s.sys.threads.length = 2) && (match s.sys.threads[1]? with | some t => (match t.pc with | .waiting => true | _ => false) | none => false)
        | none => false)
    | none => false) = true := by decide +kernel
  split at h
  · rename_i s0 h0
    split at h
    · rename_i s hs
      simp only [Bool.and_eq_true, decide_eq_true_eq] at h
      obtain ⟨⟨⟨h1, h2⟩, h3⟩, h4⟩ := h
      have h5 : ∃ t, s.sys.threads[1]? = some t ∧ t.pc = .waiting := by
        split at h4
        · rename_i t ht
          refine ⟨t, ht, ?_⟩
          split at h4
          · assumption
          · cases h4
        · cases h4
      obtain ⟨t, ht, hp⟩ := h5
      have hr := fates_reach _ h0 hs
      refine ⟨s, hr, h1, ?_, ?_, crash_stuck ?_⟩
      · split at h2
        · assumption
        · cases h2
      · intro he
        have := (crash_never_returns hr (by rw [h1]; simp)).2 he 1 (by omega)
        rw [h1] at this; simp at this
      · intro i u hu
        have hi := (List.getElem?_eq_some_iff.1 hu).1
        rw [h3] at hi
        match i, hi with
        | 0, _ => exact Or.inl (by rw [h1]; simp)
        | 1, _ => rw [ht] at hu; cases hu; exact Or.inr (Or.inl hp)
    · cases h
  · cases h

/-- The hypotheses of `crash_hangs` can be met: one of two workers panics while it compiles its first diagram. -/
example : ∃ s, TornReachableMax (Inst.kpCfg 2) s ∧ s.dead ≠ [] ∧ (∀ i intr o, o.Valid → Par.tornStep (Inst.kpCfg 2) s (.step (.run i intr o)) = none) ∧
    ∃ t, s.sys.threads[1]? = some t ∧ t.pc = .waiting ∧ 1 ∉ s.dead := by
  have h : (match Par.init (Inst.kpCfg 2) with
    | some s0 =>
      (match Par.tornRuns (Inst.kpCfg 2) ⟨s0, []⟩ (fates [(0, false), (0, false), (1, false), (0, true)]) with
        | some s =>
          decide (s.dead = [0]) && decide (s.sys.threads.length = 2) && (match s.sys.threads[1]? with | some t => (match t.pc with | .waiting => true | _ => false) | none => false)
        | none => false)
    | none => false) = true := by decide +kernel
  split at h
  · rename_i s0 h0
    split at h
    · rename_i s hs
      simp only [Bool.and_eq_true, decide_eq_true_eq] at h
      obtain ⟨⟨h1, h3⟩, h4⟩ := h
      have h5 : ∃ t, s.sys.threads[1]? = some t ∧ t.pc = .waiting := by
        split at h4
        · rename_i t ht
          refine ⟨t, ht, ?_⟩
          split at h4
          · assumption
          · cases h4
        · cases h4
      obtain ⟨t, ht, hp⟩ := h5
      refine ⟨s, fates_reach _ h0 hs, by rw [h1]; simp, fun i intr o _ => crash_stuck ?_ _ (by simp), t, ht, hp, by rw [h1]; simp⟩
      intro i u hu
      have hi := (List.getElem?_eq_some_iff.1 hu).1
      rw [h3] at hi
      match i, hi with
      | 0, _ => exact Or.inl (by rw [h1]; simp)
      | 1, _ => rw [ht] at hu; cases hu; exact Or.inr (Or.inl hp)
    · cases h
  · cases h

end Verif.Props
