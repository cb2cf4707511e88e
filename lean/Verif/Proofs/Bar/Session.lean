import Verif.Proofs.Bar.Final
import Verif.Proofs.Par.Session
/-! Several calls of the solver with a barrier. -/
set_option autoImplicit false

namespace Verif.Bar
open Verif Spec
open Verif.Par (rootNode root_genuine push_nonempty root_through mem_split mem_toPush)
variable {σ : Type} [DecidableEq σ] [Inhabited σ] {cfg : SolverCfg σ} {S : Layering σ} {B : Int} {L : FrontierLaws cfg.fr}

theorem Inv.stale {s : BSys σ cfg.fr.F} {e : Bool} (h : Inv L s e) : Inv L s false :=
  ⟨h.inv, h.ong, h.thr, h.ubs, h.genF, h.genW, h.len, h.cntO, h.low, h.cntG, h.post, h.lbs, h.min, h.inc, h.wait, h.done, h.mdd, by simp, by simp⟩

theorem finished_idle {s : BSys σ cfg.fr.F} {e : Bool} (h : Inv L s e) (hf : BFinished s) : s.crit.ongoing = 0 ∧ ∀ d, s.crit.ongoingBy.getD d 0 = 0 := by
  constructor
  · rw [h.ong, Nat.add_zero]
    unfold busyCount
    rw [List.countP_eq_zero]
    intro t ht
    simp [heldDepth, hf t ht]
  · intro d
    rw [h.cntG]
    unfold heldAt
    rw [List.countP_eq_zero]
    intro t ht
    simp [heldDepth, hf t ht]

/-- A further call starts from a good state. -/
theorem again_spec (hg : BaseCfg cfg S B) {s : BSys σ cfg.fr.F} {e : Bool} (h : Inv L s e) (hf : BFinished s) :
    ∃ s', again cfg s.crit s.bars = some s' ∧ Inv L s' false ∧ (∃ f ob, s'.crit = { s.crit with fringe := f, openBy := ob } ∧ L.holds f ≠ []) ∧ s'.bars = s.bars ∧
      ∀ t ∈ s'.threads, t.pc = .idle := by
  obtain ⟨f, ob, h1, h2⟩ := push_list (cfg := cfg) (L := L) hg.wf isizeMax [rootNode cfg] { s.crit with bestLb := isizeMin } h.inv
    (by intro n hn; rw [List.mem_singleton.1 hn]; exact root_genuine) h.genF h.len.1
  have hgt : isizeMax > isizeMin := by decide
  have hroot : ({ rootNode cfg with ub := min isizeMax (rootNode cfg).ub } : SubProblem σ) = rootNode cfg := by
    simp [rootNode]
  simp only [pushCutset, hroot] at h1
  rw [if_pos (show min isizeMax (rootNode cfg).ub > isizeMin by simpa [rootNode] using hgt)] at h1
  have hpush : cfg.fr.push s.crit.fringe (rootNode cfg) = some f ∧ incAt s.crit.openBy 0 = some ob := by
    cases hp : cfg.fr.push s.crit.fringe (rootNode cfg) with
    | none => simp only [hp] at h1; cases h1
    | some f' =>
      cases ho : incAt s.crit.openBy (rootNode cfg).path.length with
      | none => simp only [hp, ho] at h1; cases h1
      | some ob' =>
        simp only [hp, ho, Option.some.injEq, BCrit.mk.injEq, true_and, and_true] at h1
        obtain ⟨rfl, rfl⟩ := h1
        exact ⟨rfl, ho⟩
  have hidle : ∀ t ∈ List.replicate cfg.nbThreads (⟨.idle, Dd.new cfg.cutset⟩ : BThread σ), t = ⟨.idle, Dd.new cfg.cutset⟩ := fun t ht => (List.mem_replicate.1 ht).2
  obtain ⟨k1, k2⟩ := finished_idle h hf
  unfold again
  rw [hpush.1, hpush.2]
  refine ⟨_, rfl, ⟨h2.inv, ?_, by simp, h.ubs, ?_, ?_, ⟨h2.len.trans h.len.1, h.len.2.1, h.len.2.2⟩, h2.cnt h.cntO, h.low, ?_, ?_, ?_, h.min, h.inc, ?_, ?_, ?_, by simp, by simp⟩,
    ⟨f, ob, rfl, push_nonempty h.inv hpush.1⟩, rfl, fun t ht => by rw [hidle t ht]⟩
  · simp only [k1]
    unfold busyCount
    symm; rw [Nat.add_zero, List.countP_eq_zero]
    intro t ht; rw [hidle t ht]; simp [heldDepth]
  · intro q hq
    obtain ⟨q', a1, a2, a3, a4, _⟩ := h2.ref.src q hq
    have hgq : Genuine cfg.p q' := by
      rcases List.mem_append.1 a1 with a1 | a1
      · obtain ⟨_, a, ha, rfl⟩ := mem_toPush.1 a1
        rw [List.mem_singleton.1 ha]
        simp only [hroot]; exact root_genuine
      · exact h.genF q' a1
    obtain ⟨ds, e1, e2⟩ := hgq
    rw [a4] at e1
    rw [a2, a3] at e2
    exact ⟨ds, e1, e2⟩
  · intro n hn
    unfold working at hn
    obtain ⟨t, ht, h⟩ := List.mem_filterMap.1 hn
    rw [hidle t ht] at h; simp [Pc.node] at h
  · intro d
    simp only
    rw [k2 d]
    unfold heldAt
    symm; rw [List.countP_eq_zero]
    intro t ht; rw [hidle t ht]; simp [heldDepth]
  · intro t ht n dd h; rw [hidle t ht] at h; cases h
  · intro t ht lb h; rw [hidle t ht] at h; simp [Pc.lb] at h
  · intro t ht h; rw [hidle t ht] at h; cases h
  · intro t ht h; rw [hidle t ht] at h; cases h
  · intro t ht; rw [hidle t ht]; rfl

theorem session_inv (L : FrontierLaws cfg.fr) (hg : BaseCfg cfg S B) (hn : cfg.nbThreads ≤ cfg.custom) {stop sharp : Bool} {s : BSys σ cfg.fr.F}
    (h : BSession cfg stop sharp s) : Inv L s false := by
  induction h with
  | first h =>
    obtain ⟨s1, g1, g2, _⟩ := init_spec (cfg := cfg) L
    rw [h] at g1; cases g1
    exact g2.stale
  | step _ hv _ _ hs ih => exact trans_inv hg ((step_trans (L := L) hg (ih.safe hn) hv).2 _ hs) ih
  | again _ hf hs ih =>
    obtain ⟨s', g1, g2, _⟩ := again_spec hg ih hf
    rw [hs] at g1; cases g1
    exact g2

/-- An interruption is never forgotten. -/
theorem trans_int {v : Option (View σ)} {r : Bool} {s s' : BSys σ cfg.fr.F} (ht : Trans cfg L v r s s') (h : s.crit.interrupted = true) : s'.crit.interrupted = true := by
  cases ht with
  | act hm _ ha =>
    have h1 := (mics_keep hm).1.trans h
    cases ha with
    | restrict ho hD => exact (maybe_frame _ _).1.trans h1
    | postExact hx => exact (maybe_frame _ _).1.trans h1
    | interrupt => rfl
    | _ => exact h1
  | finish _ => exact h
  | spurious => exact h

omit [Inhabited σ] in
theorem mics_clean {v : Option (View σ)} {c c' : BCrit σ cfg.fr.F} {b b' : Bars σ} (hm : Mics cfg L v c b c' b') (h : c.interrupted = true) : c'.fringe = c.fringe := by
  induction hm with
  | nil => rfl
  | cons h1 _ ih =>
    cases h1 with
    | clean => exact ih h
    | skip h2 => rw [h] at h2; cases h2

/-- Nothing can happen any more: the search was interrupted in an earlier call, and the threads have only to notice it. -/
structure Stuck (L : FrontierLaws cfg.fr) (s : BSys σ cfg.fr.F) : Prop where
  int : s.crit.interrupted = true
  some : L.holds s.crit.fringe ≠ []
  pcs : ∀ t ∈ s.threads, t.pc = .idle ∨ t.pc = .done

/-- What the user can ask a solver. -/
structure SameAnswer (s s' : BSys σ cfg.fr.F) : Prop where
  lb : s'.crit.bestLb = s.crit.bestLb
  ub : s'.crit.bestUb = s.crit.bestUb
  sol : s'.crit.bestSol = s.crit.bestSol
  int : s'.crit.interrupted = s.crit.interrupted
  expl : s'.crit.explored = s.crit.explored
  fr : s'.crit.fringe = s.crit.fringe

theorem stuck_trans {v : Option (View σ)} {r : Bool} {s s' : BSys σ cfg.fr.F} (ht : Trans cfg L v r s s') (h : Stuck L s) : SameAnswer s s' ∧ Stuck L s' := by
  cases ht with
  | @act c b c1 b1 c' b' t t' l1 l2 hm _ ha =>
    have h0 : c.interrupted = true := h.int
    have h1 := (mics_keep hm).1.trans h0
    have h2 := mics_clean hm h0
    have hp := h.pcs t (mem_split.2 (Or.inr rfl))
    obtain ⟨k1, k2, k3, k4, k5, k6⟩ := mics_keep hm
    cases ha with
    | complete _ g => exact absurd (by rw [h2] at g; exact g) h.some
    | stop _ =>
      refine ⟨⟨k2, k3, k5, k1, k6, h2⟩, h1, by simp only [h2]; exact h.some, ?_⟩
      intro x hx
      rcases mem_split.1 hx with hx | rfl
      · exact h.pcs x (mem_split.2 (Or.inl hx))
      · exact Or.inr rfl
    | interrupt g => rw [h1] at g; cases g
    | wait g => rw [h1] at g; cases g
    | prune g => rw [h1] at g; cases g
    | drop g => rw [h1] at g; cases g
    | take g => rw [h1] at g; cases g
    | _ => rcases hp with hp | hp <;> cases hp
  | finish _ => rcases h.pcs _ (mem_split.2 (Or.inr rfl)) with hp | hp <;> cases hp
  | spurious => rcases h.pcs _ (mem_split.2 (Or.inr rfl)) with hp | hp <;> cases hp

theorem stuck_runs (hg : BaseCfg cfg S B) (hn : cfg.nbThreads ≤ cfg.custom) {e : Bool} : ∀ (ls : List (BLbl σ)) (s s' : BSys σ cfg.fr.F), Inv L s e → Stuck L s →
    (∀ l ∈ ls, BValidLbl l) → runs cfg s ls = .ok s' → SameAnswer s s' ∧ Stuck L s' := by
  intro ls
  induction ls with
  | nil => intro s s' _ h _ hs; cases hs; exact ⟨⟨rfl, rfl, rfl, rfl, rfl, rfl⟩, h⟩
  | cons l ls ih =>
    intro s s' hi h hv hs
    unfold runs at hs
    split at hs
    · rename_i s1 h1
      have ht := (step_trans (L := L) hg (hi.safe hn) (hv l (by simp))).2 s1 h1
      obtain ⟨g1, g2⟩ := stuck_trans ht h
      obtain ⟨k1, k2⟩ := ih s1 s' (trans_inv hg ht hi) g2 (fun l hl' => hv l (by simp [hl'])) hs
      exact ⟨⟨k1.lb.trans g1.lb, k1.ub.trans g1.ub, k1.sol.trans g1.sol, k1.int.trans g1.int, k1.expl.trans g1.expl, k1.fr.trans g1.fr⟩, k2⟩
    · cases hs
    · cases hs

theorem again_stuck (hg : BaseCfg cfg S B) {s s' : BSys σ cfg.fr.F} {e : Bool} (h : Inv L s e) (hf : BFinished s) (hi : s.crit.interrupted = true)
    (hs : again cfg s.crit s.bars = some s') : Stuck L s' := by
  obtain ⟨s1, g1, g2, ⟨f, ob, g4, g5⟩, _, g6⟩ := again_spec hg h hf
  rw [hs] at g1; cases g1
  have e : s'.crit.fringe = f := by rw [g4]
  exact ⟨by rw [g4]; exact hi, by rw [e]; exact g5, fun t ht => Or.inl (g6 t ht)⟩

theorem runs_snoc (ls : List (BLbl σ)) (l : BLbl σ) : ∀ (s s1 s2 : BSys σ cfg.fr.F), runs cfg s ls = .ok s1 → step cfg s1 l = .ok s2 → runs cfg s (ls ++ [l]) = .ok s2 := by
  induction ls with
  | nil => intro s s1 s2 h1 h2; cases h1; simp only [List.nil_append, runs, h2]
  | cons x ls ih =>
    intro s s1 s2 h1 h2
    unfold runs at h1
    simp only [List.cons_append]
    unfold runs
    cases hx : step cfg s x with
    | ok s' => rw [hx] at h1; simp only at h1 ⊢; exact ih s' s1 s2 h1 h2
    | panic => rw [hx] at h1; cases h1
    | blocked => rw [hx] at h1; cases h1

/-- With one thread: a session is in its first call, was interrupted, or has the optimum. -/
theorem session_phase (L : FrontierLaws cfg.fr) (hg : GoodCfg cfg S B) (hc : CutOK cfg S) (h1 : cfg.nbThreads = 1) (hn : cfg.nbThreads ≤ cfg.custom) {stop : Bool}
    {s : BSys σ cfg.fr.F} (h : BSession cfg stop true s) :
    SharpReachable cfg s ∨ s.crit.interrupted = true ∨ ∀ ds w, Solution cfg.p ds w → w ≤ s.crit.bestLb := by
  induction h with
  | first h => exact Or.inl ⟨_, [], h, by simp, rfl⟩
  | @step s s' l h hv _ hp hs ih =>
    have ht := (step_trans (L := L) hg.base ((session_inv L hg.base hn h).safe hn) hv).2 _ hs
    rcases ih with ⟨s0, ls, g1, g2, g3⟩ | ih | ih
    · refine Or.inl ⟨s0, ls ++ [l], g1, ?_, runs_snoc ls l s0 s s' g3 hs⟩
      intro x hx
      rcases List.mem_append.1 hx with hx | hx
      · exact g2 x hx
      · rw [List.mem_singleton.1 hx]; exact ⟨hv, hp rfl⟩
    · exact Or.inr (Or.inl (trans_int ht ih))
    · exact Or.inr (Or.inr fun ds w hw => Int.le_trans (ih ds w hw) (trans_lb ht))
  | @again s s' h hf hs ih =>
    obtain ⟨s1, g1, _, ⟨f, ob, g4, _⟩, _⟩ := again_spec hg.base (session_inv L hg.base hn h) hf
    rw [hs] at g1; cases g1
    rw [g4]
    right
    by_cases hi : s.crit.interrupted = true
    · exact Or.inl hi
    · refine Or.inr ?_
      rcases ih with ih | ih | ih
      · exact (finished_covered (reachable_inv L hg.base hn ih.reachable) (reachable_single L hg hc h1 hn ih) h1 hf (by simpa using hi)).2
      · exact absurd ih hi
      · exact ih

theorem session_noint (L : FrontierLaws cfg.fr) (hg : BaseCfg cfg S B) (hn : cfg.nbThreads ≤ cfg.custom) {sharp : Bool} {s : BSys σ cfg.fr.F}
    (h : BSession cfg false sharp s) : s.crit.interrupted = false := by
  induction h with
  | first h => exact (init_noint h).1
  | step h hv hl _ hs ih => exact (step_noint (hl rfl) hs).trans ih
  | again h hf hs ih =>
    obtain ⟨s1, g1, _, ⟨f, ob, g4, _⟩, _⟩ := again_spec hg (session_inv L hg hn h) hf
    rw [hs] at g1; cases g1
    rw [g4]; exact ih

end Verif.Bar
