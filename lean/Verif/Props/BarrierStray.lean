import Verif.Props.BarrierCrash
import Verif.Spec.Stray
import Verif.Proofs.Bar.Stray
/-! C111: more workers than cells for their bounds, with a barrier.  (`src/solver/barrier.rs:190-194, 320-406`) -/
set_option autoImplicit false

namespace Verif.Props
open Verif Spec Bar
variable {σ : Type} [DecidableEq σ] [Inhabited σ] {cfg : SolverCfg σ} {S : Layering σ} {B : Int}

/-- What every state of `maximize` satisfies: the counter is right but for the nodes that were lost, and a worker that panicked holds a node or has lost one. -/
private def Torn2 (s : Torn (BSys σ cfg.fr.F)) : Prop :=
  ∃ k, Bal k s.sys ∧ ∀ i ∈ s.dead, (∃ t, s.sys.threads[i]? = some t ∧ compiling t = true) ∨ 0 < k

private theorem strayLoop_kind (i : Nat) (v : Option (View σ)) (fuel : Nat) : ∀ {c c' : BCrit σ cfg.fr.F} {b b' : Bars σ}, strayLoop cfg i v fuel c b = some (c', b') →
    c'.interrupted = c.interrupted ∧ c'.ongoing = c.ongoing + 1 := by
  induction fuel with
  | zero => intro c c' b b' h; cases h
  | succ fuel ih =>
    intro c c' b b' h
    unfold strayLoop at h
    split at h
    · split at h
      · cases h
      · split at h
        · split at h
          · split at h
            · split at h
              · cases h
              · cases h; exact ⟨rfl, rfl⟩
            · cases h
          · split at h
            · cases h
            · split at h
              · cases h
              · have := ih h; exact this
        · cases h
    · cases h

private theorem torn2_stray {s s' : Torn (BSys σ cfg.fr.F)} (h : Torn2 s) {i : Nat} {v : Option (View σ)} (hs : strayStep cfg s i v = some s') : Torn2 s' := by
  obtain ⟨k, hb, _⟩ := h
  unfold strayStep at hs
  split at hs
  · cases hs
  split at hs
  · cases hs
  split at hs
  · split at hs
    · cases hs
    rename_i c b hcl
    split at hs
    · cases hs
    rename_i hno
    simp only [not_or] at hno
    obtain ⟨r, hr, rfl⟩ := Option.map_eq_some_iff.1 hs
    obtain ⟨e1, e2, e3⟩ := cleanup_same _ hcl
    obtain ⟨g1, g2⟩ := strayLoop_kind _ _ _ hr
    refine ⟨k + 1, ⟨?_, g1.trans (e2.trans hb.int), ?_⟩, fun j _ => Or.inr (Nat.succ_pos k)⟩
    · show r.1.ongoing = busyCount s.sys.threads + (k + 1)
      rw [g2, e1, hb.ong]; omega
    · intro hd
      have := hb.done hd
      rw [← e1, ← e3] at this
      exact absurd this hno.1
  · cases hs

private theorem torn2_step {s s' : Torn (BSys σ cfg.fr.F)} (h : Torn2 s) {f : Fall σ} (hf : ∀ i intr o v, f = .torn (.step (.run i intr o v)) → intr = false) (hs : fallStep cfg s f = some s') : Torn2 s' := by
  cases f with
  | stray i v => exact torn2_stray h hs
  | torn f =>
    obtain ⟨k, hb, hd⟩ := h
    cases f with
    | step l =>
      simp only [fallStep, tornStep] at hs
      split at hs
      · cases hs
      rename_i hw
      split at hs
      · rename_i x hx
        cases hs
        refine ⟨k, bal_step hb (fun i intr o v e => hf i intr o v (by rw [e])) hx, fun i hi => ?_⟩
        rcases hd i hi with ⟨t, h1, h2⟩ | h1
        · exact Or.inl ⟨t, step_other hx (fun e => hw (e ▸ hi)) h1 h2, h2⟩
        · exact Or.inr h1
      · cases hs
    | crash i =>
      simp only [fallStep, tornStep] at hs
      split at hs
      · cases hs
      split at hs
      · rename_i t ht
        split at hs
        · rename_i hc
          cases hs
          refine ⟨k, hb, fun j hj => ?_⟩
          rcases List.mem_cons.1 hj with rfl | hj
          · exact Or.inl ⟨t, ht, hc⟩
          · exact hd j hj
        · cases hs
      · cases hs

private theorem torn2_runs (ls : List (Fall σ)) : ∀ {s s' : Torn (BSys σ cfg.fr.F)}, Torn2 s → (∀ i intr o v, Fall.torn (.step (.run i intr o v)) ∈ ls → intr = false) → fallRuns cfg s ls = some s' → Torn2 s' := by
  induction ls with
  | nil => intro s s' h _ hs; cases hs; exact h
  | cons f ls ih =>
    intro s s' h hQ hs
    unfold fallRuns at hs
    obtain ⟨s1, h1, h2⟩ := Option.bind_eq_some_iff.1 hs
    exact ih (torn2_step h (fun i intr o v e => hQ i intr o v (by simp [e])) h1) (fun i intr o v hg => hQ i intr o v (by simp [hg])) h2

/-- **C111.** With a barrier, too: once a worker has panicked, for want of a cell or otherwise, no worker of `maximize` ever leaves its loop. -/
theorem barrier_stray_never_returns {s : Torn (BSys σ cfg.fr.F)} (h : BFallReachableMax cfg s) (hd : s.dead ≠ []) :
    (∀ t ∈ s.sys.threads, t.pc ≠ .done) ∧ (BEnded s → ∀ i, i < s.sys.threads.length → i ∈ s.dead) := by
  obtain ⟨s0, ls, h1, _, h2, h3⟩ := h
  obtain ⟨k, hb, hk⟩ := torn2_runs ls (s := ⟨s0, []⟩) ⟨0, init_bal h1, by simp⟩ h2 h3
  have hnd : ∀ t ∈ s.sys.threads, t.pc ≠ .done := by
    intro t ht hp
    have h4 := (hb.done ⟨t, ht, hp⟩).1
    have h5 := hb.ong
    obtain ⟨i, hi⟩ := List.exists_mem_of_ne_nil _ hd
    rcases hk i hi with ⟨u, hu, hc⟩ | h6
    · have := busyCount_pos (List.mem_of_getElem? hu) (compiling_busy hc)
      omega
    · omega
  refine ⟨hnd, fun he i hi => ?_⟩
  rcases he i _ (List.getElem?_eq_getElem hi) with h | h
  · exact h
  · exact absurd h (hnd _ (List.getElem_mem hi))

private theorem strayLoop_panics (i : Nat) (v : Option (View σ)) (fuel : Nat) : ∀ {c : BCrit σ cfg.fr.F} {b : Bars σ} {r : BCrit σ cfg.fr.F × Bars σ}, strayLoop cfg i v fuel c b = some r →
    popLoop cfg i v fuel c b = none := by
  induction fuel with
  | zero => intro c b r h; cases h
  | succ fuel ih =>
    intro c b r h
    unfold strayLoop at h
    unfold popLoop
    split at h
    · rename_i f nn hpop
      rw [hpop]
      simp only
      split at h
      · cases h
      rename_i hub
      rw [if_neg hub]
      split at h
      · rename_i hlen
        rw [if_pos hlen]
        split at h
        · rename_i hm
          split at h
          · rename_i b' hins
            split at h
            · cases h
            rename_i hi
            cases decAt c.openBy nn.path.length with
            | none => rfl
            | some ob =>
              simp only [hm, if_true, hins]
              cases incAt c.ongoingBy nn.path.length with
              | none => rfl
              | some gb => simp only [hi, if_false]
          · cases h
        · rename_i hm
          split at h
          · cases h
          · rename_i ob hob
            split at h
            · cases h
            rename_i hl
            simp only [hob, hm, hl, if_false, Bool.false_eq_true]
            exact ih h
      · cases h
    · cases h

/-- **C111.** With a barrier: what is called the panic of a worker without a cell is a panic of that worker. -/
theorem barrier_stray_panics {s s' : Torn (BSys σ cfg.fr.F)} {i : Nat} {v : Option (View σ)} (hs : strayStep cfg s i v = some s') (o : Oracle σ) : step cfg s.sys (.run i false o v) = .panic := by
  unfold strayStep at hs
  split at hs
  · cases hs
  split at hs
  · cases hs
  rename_i t ht
  split at hs
  · rename_i hp
    split at hs
    · cases hs
    rename_i c b hcl
    split at hs
    · cases hs
    rename_i hno
    simp only [not_or] at hno
    obtain ⟨r, hr, rfl⟩ := Option.map_eq_some_iff.1 hs
    have hg : getWorkload cfg s.sys.crit s.sys.bars i false v = none := by
      unfold getWorkload
      rw [hcl]
      simp only
      rw [if_neg hno.1, if_neg hno.2.1, if_neg (by simp), if_neg hno.2.2]
      exact strayLoop_panics _ _ _ hr
    simp only [step, ht, stepThread, hp, hg]
  · cases hs

private theorem cleanup_room (u : List Int) (fuel : Nat) : ∀ {c c' : BCrit σ cfg.fr.F} {b b' : Bars σ}, cleanup cfg fuel { c with upperBounds := u } b = some (c', b') →
    ∃ c1, cleanup cfg fuel c b = some (c1, b') ∧ c' = { c1 with upperBounds := u } ∧ c1.upperBounds = c.upperBounds := by
  induction fuel with
  | zero => intro c c' b b' h; cases h
  | succ fuel ih =>
    intro c c' b b' h
    unfold cleanup at h ⊢
    simp only at h
    split at h
    · rename_i hlow
      rw [if_pos hlow]
      split at h
      · rename_i o g ho hg
        split at h
        · rename_i h0
          rw [if_pos h0]
          split at h
          · cases h
          · rename_i b1 hb1
            exact ih (c := { c with lowest := c.lowest + 1 }) h
        · rename_i h0
          rw [if_neg h0]
          cases h; exact ⟨c, rfl, rfl, rfl⟩
      · cases h
    · rename_i hlow
      rw [if_neg hlow]
      cases h; exact ⟨c, rfl, rfl, rfl⟩

private theorem strayLoop_room (i : Nat) (v : Option (View σ)) (u : List Int) (fuel : Nat) : ∀ {c c2 : BCrit σ cfg.fr.F} {b b2 : Bars σ} {nn : SubProblem σ}, ¬ i < c.upperBounds.length →
    popLoop cfg i v fuel { c with upperBounds := u } b = some (c2, b2, .item nn) →
    ∃ c1, strayLoop cfg i v fuel c b = some (c1, b2) ∧ c1.upperBounds = c.upperBounds ∧ decAt c1.openBy nn.path.length = some c2.openBy ∧ incAt c1.ongoingBy nn.path.length = some c2.ongoingBy ∧
      c2 = { c1 with upperBounds := c2.upperBounds, openBy := c2.openBy, ongoingBy := c2.ongoingBy } := by
  induction fuel with
  | zero => intro c c2 b b2 nn _ h; cases h
  | succ fuel ih =>
    intro c c2 b b2 nn hi h
    unfold popLoop at h
    unfold strayLoop
    simp only at h
    split at h
    · rename_i f n hpop
      rw [hpop]
      simp only
      split at h
      · cases h
      rename_i hub
      rw [if_neg hub]
      split at h
      · rename_i hlen
        rw [if_pos hlen]
        split at h
        · cases h
        rename_i ob hob
        split at h
        · rename_i hm
          rw [if_pos hm]
          split at h
          · rename_i b' gb hins hgb
            rw [hins]
            simp only
            rw [if_neg hi]
            split at h
            · cases h
              exact ⟨_, rfl, rfl, hob, hgb, rfl⟩
            · cases h
          · cases h
        · rename_i hm
          rw [if_neg hm, hob]
          simp only
          split at h
          · cases h
          rename_i hl
          rw [if_neg hl]
          exact ih (c := { c with fringe := f, openBy := ob }) hi h
      · cases h
    · cases h

/-- **C111.** With a barrier: a worker without a cell takes the node that it would take if it had one, enters it into the barrier, and counts it as in process and as explored; its bounds and the numbers
of nodes of the layer are left as they were. -/
theorem barrier_stray_takes {s : Torn (BSys σ cfg.fr.F)} {i : Nat} {t : BThread σ} (ht : s.sys.threads[i]? = some t) (hp : t.pc = .idle) (hl : i ∉ s.dead) (hi : s.sys.crit.upperBounds.length ≤ i)
    {v : Option (View σ)} {u : List Int} {c : BCrit σ cfg.fr.F} {b : Bars σ} {nn : SubProblem σ} (hg : getWorkload cfg { s.sys.crit with upperBounds := u } s.sys.bars i false v = some (c, b, .item nn)) :
    ∃ s', strayStep cfg s i v = some s' ∧ s'.dead = i :: s.dead ∧ s'.sys.threads = s.sys.threads ∧ s'.sys.bars = b ∧ s'.sys.crit.upperBounds = s.sys.crit.upperBounds ∧
      decAt s'.sys.crit.openBy nn.path.length = some c.openBy ∧ incAt s'.sys.crit.ongoingBy nn.path.length = some c.ongoingBy ∧
      c = { s'.sys.crit with upperBounds := c.upperBounds, openBy := c.openBy, ongoingBy := c.ongoingBy } := by
  unfold getWorkload at hg
  split at hg
  · cases hg
  rename_i c0 b0 hcl
  obtain ⟨c1, h1, rfl, h3⟩ := cleanup_room _ _ hcl
  simp only at hg
  split at hg
  · cases hg
  rename_i n1
  split at hg
  · cases hg
  rename_i n2
  simp only [Bool.false_eq_true, if_false] at hg
  split at hg
  · cases hg
  rename_i n3
  obtain ⟨c2, g1, g2, g3, g4, g5⟩ := strayLoop_room i v u _ (c := c1) (by rw [h3]; omega) hg
  refine ⟨{ sys := { s.sys with crit := c2, bars := b }, dead := i :: s.dead }, ?_, rfl, rfl, rfl, g2.trans h3, g3, g4, g5⟩
  unfold strayStep
  rw [if_neg hl]
  simp only [ht, hp, h1]
  rw [if_neg (by simp only [not_or]; exact ⟨n1, n2, n3⟩), g1]
  rfl

/-- The hypotheses hold for the first node. -/
example : (match Bar.init { Inst.kpCfg 1 with nbThreads := 2 } with
    | some s0 =>
      decide (s0.crit.upperBounds.length ≤ 1) && (match s0.threads[1]? with | some t => (match t.pc with | .idle => true | _ => false) | none => false) &&
        (match getWorkload { Inst.kpCfg 1 with nbThreads := 2 } { s0.crit with upperBounds := [0, 0] } s0.bars 1 false none with
          | some (c, _, .item nn) => decide (nn.path.length = 0 ∧ c.openBy[0]? = some 0 ∧ c.ongoingBy[0]? = some 1)
          | _ => false)
    | none => false) = true := by decide +kernel

/-- **C111.** With a barrier: a state in which every worker is gone, parked, or has left its loop does not change but for spurious wakeups. -/
theorem barrier_stray_stuck {s : Torn (BSys σ cfg.fr.F)} (h : ∀ (i : Nat) (t : BThread σ), s.sys.threads[i]? = some t → i ∈ s.dead ∨ t.pc = .waiting ∨ t.pc = .done) (f : Fall σ)
    (hf : ∀ i, f ≠ .torn (.step (.spurious i))) : fallStep cfg s f = none := by
  cases f with
  | torn f => exact barrier_crash_stuck h f fun i e => hf i (by rw [e])
  | stray i v =>
    simp only [fallStep]
    unfold strayStep
    split
    · rfl
    · rename_i hl
      split
      · rfl
      · rename_i t ht
        rcases h i t ht with h | h | h
        · exact absurd h hl
        · simp only [h]
        · simp only [h]

private theorem fall_inv (L : FrontierLaws cfg.fr) (hg : BaseCfg cfg S B) {s : Torn (BSys σ cfg.fr.F)} (h : BFallReachable cfg s) : ∃ k, Inv L s.sys true k ∧ NoCell s.sys := by
  obtain ⟨s0, ls, h1, h2, h3⟩ := h
  obtain ⟨s1, g1, g2, _⟩ := init_spec (cfg := cfg) L
  rw [h1] at g1; cases g1
  exact fallRuns_inv hg ls (s := ⟨s0, []⟩) ⟨0, g2, init_noCell h1⟩ h2 h3

private theorem fall_of_bmax {s : Torn (BSys σ cfg.fr.F)} (h : BFallReachableMax cfg s) : BFallReachable cfg s := by
  obtain ⟨s0, ls, h1, h2, _, h3⟩ := h
  exact ⟨s0, ls, h1, h2, h3⟩

/-- **C111.** With a barrier, too: at every moment, whichever workers have panicked, there is no incumbent, or it is a solution of the problem and the lower bound is its value. -/
theorem barrier_stray_incumbent (L : FrontierLaws cfg.fr) (hg : BaseCfg cfg S B) {s : Torn (BSys σ cfg.fr.F)} (h : BFallReachable cfg s) :
    (bestSolution cfg s.sys.crit = none ∧ bestValue cfg s.sys.crit = none) ∨
      ∃ sol v, bestSolution cfg s.sys.crit = some sol ∧ bestValue cfg s.sys.crit = some v ∧ bestLowerBound cfg s.sys.crit = v ∧ IsSolutionOf cfg.p sol v := by
  obtain ⟨k, hi, _⟩ := fall_inv L hg h
  rcases hi.inc with ⟨h1, _⟩ | ⟨sol, h1, h2⟩
  · left; simp [bestSolution, bestValue, h1]
  · right; exact ⟨sol, s.sys.crit.bestLb, h1, by simp [bestValue, h1], rfl, h2⟩

/-- **C111.** With a barrier: as long as nothing interrupts, a worker that goes on panics outside of the compilations just if it takes a node and has no cell. -/
theorem barrier_stray_exact (L : FrontierLaws cfg.fr) (hg : BaseCfg cfg S B) {s : Torn (BSys σ cfg.fr.F)} (h : BFallReachable cfg s) {i : Nat} (hl : i ∉ s.dead) {o : Oracle σ} (ho : o.Valid)
    {v : Option (View σ)} : step cfg s.sys (.run i false o v) = .panic ↔ ∃ x, strayStep cfg s i v = some x := by
  obtain ⟨k, hi, hn⟩ := fall_inv L hg h
  exact ⟨panic_stray hg hi hn hl ho, fun ⟨x, hx⟩ => barrier_stray_panics hx o⟩

/-- **C111.** With a barrier: whatever the number of workers and whichever of them panic, they come to rest: an infinite run has infinitely many spurious wake-ups. -/
theorem barrier_stray_runs_terminate (L : FrontierLaws cfg.fr) (hg : BaseCfg cfg S B) (st : Nat → Torn (BSys σ cfg.fr.F)) (ls : Nat → Fall σ) (hr : BFallReachable cfg (st 0))
    (hv : ∀ k l, ls k = .torn (.step l) → BValidLbl l) (hs : ∀ k, fallStep cfg (st k) (ls k) = some (st (k + 1))) : ∀ k, ∃ j, k ≤ j ∧ ∃ i, ls j = .torn (.step (.spurious i)) := by
  have hinv : ∀ k, (∃ m, Inv L (st k).sys true m ∧ NoCell (st k).sys) ∧ (st k).dead.Nodup ∧ ∀ i ∈ (st k).dead, i < cfg.nbThreads := by
    intro k
    induction k with
    | zero =>
      have h := fall_inv L hg hr
      obtain ⟨s0, l0, h1, h2, h3⟩ := hr
      refine ⟨h, fallRuns_dead l0 (s := ⟨s0, []⟩) List.nodup_nil h3, ?_⟩
      have key : ∀ (l : List (Fall σ)) {s s' : Torn (BSys σ cfg.fr.F)}, (∃ m, Inv L s.sys true m ∧ NoCell s.sys) → (∀ i ∈ s.dead, i < cfg.nbThreads) → (∀ x, Fall.torn (.step x) ∈ l → BValidLbl x) →
          fallRuns cfg s l = some s' → ∀ i ∈ s'.dead, i < cfg.nbThreads := by
        intro l
        induction l with
        | nil => intro s s' _ h _ hs; cases hs; exact h
        | cons f l ih =>
          intro s s' hi h hQ hs
          unfold fallRuns at hs
          obtain ⟨s1, g1, g2⟩ := Option.bind_eq_some_iff.1 hs
          refine ih (fallStep_inv hg hi (fun l e => hQ l (by simp [e])) g1) ?_ (fun l hl => hQ l (by simp [hl])) g2
          rcases fallStep_dead g1 with ⟨_, _, _, e⟩ | ⟨_, i, e, _, hlt⟩
          · rw [e]; exact h
          · rw [e]
            obtain ⟨m, hm, _⟩ := hi
            rw [hm.thr] at hlt
            intro j hj
            rcases List.mem_cons.1 hj with rfl | hj
            · exact hlt
            · exact h j hj
      obtain ⟨s1, g1, g2, _⟩ := init_spec (cfg := cfg) L
      rw [h1] at g1; cases g1
      exact key l0 (s := ⟨s0, []⟩) ⟨0, g2, init_noCell h1⟩ (by simp) h2 h3
    | succ k ih =>
      obtain ⟨hi, hnd, hlt⟩ := ih
      refine ⟨fallStep_inv hg hi (hv k) (hs k), ?_⟩
      rcases fallStep_dead (hs k) with ⟨_, _, _, e⟩ | ⟨_, i, e, hni, hl⟩
      · rw [e]; exact ⟨hnd, hlt⟩
      · rw [e]
        obtain ⟨m, hm, _⟩ := hi
        rw [hm.thr] at hl
        refine ⟨List.nodup_cons.2 ⟨hni, hnd⟩, fun j hj => ?_⟩
        rcases List.mem_cons.1 hj with rfl | hj
        · exact hl
        · exact hlt j hj
  obtain ⟨k0, hk0⟩ := counter_stops (d := fun k => (st k).dead.length) (q := fun k => ∃ l, ls k = .torn (.step l)) (N := cfg.nbThreads) (fun k => by
    rcases fallStep_dead (hs k) with ⟨l, e1, _, e⟩ | ⟨hno, i, e, _, _⟩
    · exact Or.inl ⟨⟨l, e1⟩, by rw [e]⟩
    · exact Or.inr ⟨fun ⟨l, hl⟩ => hno l hl, by rw [e]; rfl⟩) (fun k => length_le_of_lt (hinv k).2.1 (hinv k).2.2)
  intro k
  apply Classical.byContradiction
  intro hno
  have hstep : ∀ j, ∃ l, ls (k0 + k + j) = .torn (.step l) ∧ step cfg (st (k0 + k + j)).sys l = .ok (st (k0 + k + j + 1)).sys := by
    intro j
    obtain ⟨l, hl⟩ := hk0 (k0 + k + j) (by omega)
    rcases fallStep_dead (hs (k0 + k + j)) with ⟨l', e1, e2, _⟩ | ⟨h, _⟩
    · exact ⟨l', e1, e2⟩
    · exact absurd hl (h l)
  obtain ⟨m, hm, _⟩ := (hinv (k0 + k)).1
  refine no_infinite_ok (L := L) hg (fun j => (st (k0 + k + j)).sys) (fun j => (hstep j).choose) hm (fun j => hv _ _ (hstep j).choose_spec.1) (fun j => (hstep j).choose_spec.2) (fun j => ?_)
  cases hl : (hstep j).choose with
  | run => rfl
  | spurious i => exact absurd ⟨k0 + k + j, by omega, i, by rw [(hstep j).choose_spec.1, hl]⟩ hno

/-- **C111.** With a barrier: when no worker that goes on can do anything, not even panic for want of a cell, each of them is parked or has left its loop. -/
theorem barrier_stray_parked (L : FrontierLaws cfg.fr) (hg : BaseCfg cfg S B) {s : Torn (BSys σ cfg.fr.F)} (h : BFallReachable cfg s)
    (hmax : ∀ i intr o v, o.Valid → fallStep cfg s (.torn (.step (.run i intr o v))) = none) (hno : ∀ i v, strayStep cfg s i v = none) {i : Nat} {t : BThread σ} (ht : s.sys.threads[i]? = some t)
    (hl : i ∉ s.dead) : t.pc = .waiting ∨ t.pc = .done := by
  apply Classical.byContradiction
  intro hc
  have hb := not_blocked (cfg := cfg) (intr := false) (o := Inst.orc) (v := none) ht (fun h => hc (Or.inl h)) (fun h => hc (Or.inr h))
  cases hs : step cfg s.sys (.run i false Inst.orc none) with
  | ok x =>
    have := hmax i false Inst.orc none Inst.orc_valid
    simp only [fallStep, tornStep, BLbl.who, if_neg hl, hs] at this
    cases this
  | panic =>
    obtain ⟨x, hx⟩ := (barrier_stray_exact L hg h hl Inst.orc_valid).1 hs
    rw [hno] at hx; cases hx
  | blocked => exact hb hs

/-- **C111.** With a barrier: once a worker of `maximize` has panicked, for want of a cell or otherwise, and the others have come to rest, they are parked, nobody ever wakes them, and the call does not
return. -/
theorem barrier_stray_hangs (L : FrontierLaws cfg.fr) (hg : BaseCfg cfg S B) {s : Torn (BSys σ cfg.fr.F)} (h : BFallReachableMax cfg s) (hd : s.dead ≠ [])
    (hmax : ∀ i intr o v, o.Valid → fallStep cfg s (.torn (.step (.run i intr o v))) = none) (hno : ∀ i v, strayStep cfg s i v = none) {i : Nat} {t : BThread σ} (ht : s.sys.threads[i]? = some t)
    (hl : i ∉ s.dead) : t.pc = .waiting ∧ ¬ BEnded s ∧ ∀ f, (∀ j, f ≠ .torn (.step (.spurious j))) → fallStep cfg s f = none := by
  have hnd := (barrier_stray_never_returns h hd).1
  have key : ∀ (j : Nat) (u : BThread σ), s.sys.threads[j]? = some u → j ∉ s.dead → u.pc = .waiting := by
    intro j u hu hj
    rcases barrier_stray_parked L hg (fall_of_bmax h) hmax hno hu hj with h | h
    · exact h
    · exact absurd h (hnd u (List.mem_of_getElem? hu))
  refine ⟨key i t ht hl, fun he => ?_, barrier_stray_stuck fun j u hu => ?_⟩
  · exact hl ((barrier_stray_never_returns h hd).2 he i (List.getElem?_eq_some_iff.1 ht).1)
  · by_cases hj : j ∈ s.dead
    · exact Or.inl hj
    · exact Or.inr (Or.inl (key j u hu hj))

/-- **C111.** `custom(…, 1).with_nb_threads(2)` with a barrier, in a build that unwinds: if the worker without a cell comes first, it takes the root with it, the other is parked for ever, and no solution is
ever found.  The root is still counted as open. -/
theorem barrier_stray_loses_all : ∃ s, BFallReachableMax { Inst.kpCfg 1 with nbThreads := 2 } s ∧ s.dead = [1] ∧ s.sys.crit.bestSol = none ∧ s.sys.crit.explored = 1 ∧ s.sys.crit.openBy[0]? = some 1 ∧
    ¬ BEnded s ∧ ∀ f, (∀ j, f ≠ .torn (.step (.spurious j))) → Bar.fallStep { Inst.kpCfg 1 with nbThreads := 2 } s f = none := by
  have h : (match Bar.init { Inst.kpCfg 1 with nbThreads := 2 } with
    | some s0 =>
      (match Bar.fallRuns { Inst.kpCfg 1 with nbThreads := 2 } ⟨s0, []⟩ [.stray 1 none, .torn (.step (.run 0 false Inst.orc none))] with
        | some s =>
          decide (s.dead = [1]) && decide (s.sys.crit.bestSol = none) && decide (s.sys.crit.explored = 1) && decide (s.sys.crit.openBy[0]? = some 1) &&
            decide (s.sys.threads.length = 2) && (match s.sys.threads[0]? with | some t => (match t.pc with | .waiting => true | _ => false) | none => false)
        | none => false)
    | none => false) = true := by decide +kernel
  split at h
  · rename_i s0 h0
    split at h
    · rename_i s hs
      simp only [Bool.and_eq_true, decide_eq_true_eq] at h
      obtain ⟨⟨⟨⟨⟨h1, h2⟩, h6⟩, h7⟩, h3⟩, h4⟩ := h
      have h5 : ∃ t, s.sys.threads[0]? = some t ∧ t.pc = .waiting := by
        split at h4
        · rename_i t ht
          refine ⟨t, ht, ?_⟩
          split at h4
          · assumption
          · cases h4
        · cases h4
      obtain ⟨t, ht, hp⟩ := h5
      have hr : BFallReachableMax { Inst.kpCfg 1 with nbThreads := 2 } s := by
        refine ⟨s0, _, h0, fun l hl => ?_, fun i intr o v hl => ?_, hs⟩
        · simp only [List.mem_cons, reduceCtorEq, Fall.torn.injEq, Fate.step.injEq, List.not_mem_nil, or_false, false_or] at hl
          rw [hl]; exact Inst.orc_valid
        · simp only [List.mem_cons, reduceCtorEq, Fall.torn.injEq, Fate.step.injEq, BLbl.run.injEq, List.not_mem_nil, or_false, false_or] at hl
          exact hl.2.1
      refine ⟨s, hr, h1, h2, h6, h7, ?_, barrier_stray_stuck ?_⟩
      · intro he
        have := (barrier_stray_never_returns hr (by rw [h1]; simp)).2 he 0 (by omega)
        rw [h1] at this; simp at this
      · intro i u hu
        have hi := (List.getElem?_eq_some_iff.1 hu).1
        rw [h3] at hi
        match i, hi with
        | 1, _ => exact Or.inl (by rw [h1]; simp)
        | 0, _ => rw [ht] at hu; cases hu; exact Or.inr (Or.inl hp)
    · cases h
  · cases h

/-- The hypotheses of `barrier_stray_hangs` are met there. -/
example : ∃ s, BFallReachableMax { Inst.kpCfg 1 with nbThreads := 2 } s ∧ s.dead ≠ [] ∧
    (∀ i intr o v, o.Valid → Bar.fallStep { Inst.kpCfg 1 with nbThreads := 2 } s (.torn (.step (.run i intr o v))) = none) ∧ (∀ i v, Bar.strayStep { Inst.kpCfg 1 with nbThreads := 2 } s i v = none) ∧
    ∃ i t, s.sys.threads[i]? = some t ∧ i ∉ s.dead := by
  obtain ⟨s, h1, h2, _, _, _, h3, h4⟩ := barrier_stray_loses_all
  refine ⟨s, h1, by rw [h2]; simp, fun i intr o v _ => h4 _ (by simp), fun i v => h4 (.stray i v) (by simp), ?_⟩
  apply Classical.byContradiction
  intro hc
  exact h3 fun i t ht => Or.inl (Classical.byContradiction fun hn => hc ⟨i, t, ht, hn⟩)

end Verif.Props
