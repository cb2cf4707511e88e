import Verif.Proofs.Bar.Once
import Verif.Props.Once
import Verif.Props.BarrierFine
import Verif.Props.NoRepeat
/-!
C101: with the last exact layer as cutset, the solver with a barrier does not expand a partial assignment twice either, whatever its threads see of the thresholds.
-/
set_option autoImplicit false

namespace Verif.Props
open Verif Spec Bar
open Verif.Par (rootNode push_one combine_path not_perm Disagree.symm)
variable {σ : Type} [DecidableEq σ] [Inhabited σ] {cfg : SolverCfg σ} {S : Layering σ} {B : Int} {s : BSys σ cfg.fr.F}

/-- **C101.** With the last exact layer as cutset, a node given to a worker and one given later are incompatible, or the later one extends the earlier one by further decisions. -/
theorem barrier_expanded_tree (L : FrontierLaws cfg.fr) (hg : BaseCfg cfg S B) (hdom : DomainVar cfg.p) (hc : cfg.cutset = .lastExactLayer) (hn : cfg.nbThreads ≤ cfg.custom)
    {s0 : BSys σ cfg.fr.F} (h0 : Bar.init cfg = some s0) {ls : List (BLbl σ)} (hl : ∀ l ∈ ls, BValidLbl l) (h : runs cfg s0 ls = .ok s) :
    (given cfg s0 ls).Pairwise fun a b => Disagree a.path b.path ∨ Extends a.path b.path := by
  obtain ⟨s1, g1, g2, _⟩ := init_spec (cfg := cfg) L
  rw [h0] at g1; cases g1
  refine runs_once (L := L) hg hdom hc hn ls s0 s [] g2 ⟨?_, by simp, by simp⟩ .nil hl h
  unfold Bar.init at h0
  obtain ⟨f', h1, h2⟩ := push_one L L.new_inv (rootNode cfg)
  rw [h1] at h0
  obtain ⟨ob, h3, _⟩ := incAt_spec (l := List.replicate (cfg.p.nbVars + 1) 0) (d := 0) (by simp)
  rw [h3] at h0
  cases h0
  have hw : held (List.replicate cfg.nbThreads (⟨.idle, Dd.new cfg.cutset⟩ : BThread σ)) = [] := by
    unfold held; rw [List.filterMap_eq_nil_iff]
    intro x hx; rw [(List.mem_replicate.1 hx).2]; rfl
  simp only [hw, List.append_nil]
  refine h2.pw _ (fun a b h => Disagree.symm h) ?_ ?_
  · intro a b q h1 h2
    rcases combine_path a b with e | e <;> rw [e] <;> assumption
  · rw [L.new_holds]; exact List.pairwise_singleton _ _

theorem given_genuine (L : FrontierLaws cfg.fr) (hg : BaseCfg cfg S B) (hn : cfg.nbThreads ≤ cfg.custom) {s0 : BSys σ cfg.fr.F} (h0 : Bar.init cfg = some s0)
    {ls : List (BLbl σ)} (hl : ∀ l ∈ ls, BValidLbl l) (h : runs cfg s0 ls = .ok s) : ∀ n ∈ given cfg s0 ls, Genuine cfg.p n := by
  obtain ⟨s1, g1, g2, _⟩ := init_spec (cfg := cfg) L
  rw [h0] at g1; cases g1
  exact Bar.given_genuine (L := L) hg hn ls s0 s g2 hl h

/-- **C101.** If no variable occurs twice, the same decisions are never expanded twice, in whatever order they were taken. -/
theorem barrier_expanded_once (L : FrontierLaws cfg.fr) (hg : BaseCfg cfg S B) (hdom : DomainVar cfg.p)
    (hinj : ∀ i j, i < cfg.p.nbVars → j < cfg.p.nbVars → S.var i = S.var j → i = j) (hc : cfg.cutset = .lastExactLayer) (hn : cfg.nbThreads ≤ cfg.custom)
    {s0 : BSys σ cfg.fr.F} (h0 : Bar.init cfg = some s0) {ls : List (BLbl σ)} (hl : ∀ l ∈ ls, BValidLbl l) (h : runs cfg s0 ls = .ok s) :
    (given cfg s0 ls).Pairwise fun a b => ¬ a.path.Perm b.path := by
  refine (barrier_expanded_tree L hg hdom hc hn h0 hl h).imp_of_mem ?_
  intro a b ha _ hab
  exact not_perm hg.wf hdom hinj (given_genuine L hg hn h0 hl h a ha) hab

/-- **C101.** The explored counter is at most the number of partial assignments: of the sequences of legal decisions from the initial state. -/
theorem barrier_explored_le_partial_assignments (L : FrontierLaws cfg.fr) (hg : BaseCfg cfg S B) (hdom : DomainVar cfg.p)
    (hinj : ∀ i j, i < cfg.p.nbVars → j < cfg.p.nbVars → S.var i = S.var j → i = j) (hc : cfg.cutset = .lastExactLayer) (hn : cfg.nbThreads ≤ cfg.custom)
    (hr : BReachable cfg s) {A : List (List Decision)} (hA : ∀ ds t v, Reach cfg.p t ds v → ds ∈ A) : getExplored cfg s.crit ≤ A.length := by
  obtain ⟨s0, ls, h0, hl, h⟩ := hr
  rw [barrier_explored_counts h0 h]
  exact length_le_assignments (barrier_expanded_once L hg hdom hinj hc hn h0 hl h) (given_genuine L hg hn h0 hl h) hA

/-- **C101.** With the frontier as cutset too, the same decisions are never expanded twice if no access to the barrier by another thread falls within a step; with one thread this is
always so. -/
theorem barrier_expanded_once_sharp (L : FrontierLaws cfg.fr) (hg : BaseCfg cfg S B) (hdom : DomainVar cfg.p)
    (hinj : ∀ i j, i < cfg.p.nbVars → j < cfg.p.nbVars → S.var i = S.var j → i = j) (hn : cfg.nbThreads ≤ cfg.custom)
    {s0 : BSys σ cfg.fr.F} (h0 : Bar.init cfg = some s0) {ls : List (BLbl σ)} (hl : ∀ l ∈ ls, BValidLbl l ∧ Sharp l) (h : runs cfg s0 ls = .ok s) :
    (given cfg s0 ls).Pairwise fun a b => ¬ a.path.Perm b.path := by
  have hgen := given_genuine L hg hn h0 (fun l h => (hl l h).1) h
  refine (barrier_no_repeated_work L hg hn h0 hl h).imp_of_mem ?_
  intro a b ha hb hab hp
  obtain ⟨h1, h2⟩ := genuine_same hg.wf hdom hinj (hgen a ha) (hgen b hb) hp
  have := hab h1
  omega

/-- **C101.** So with one thread the explored counter is at most the number of partial assignments whatever the cutset. -/
theorem barrier_explored_le_sharp (L : FrontierLaws cfg.fr) (hg : BaseCfg cfg S B) (hdom : DomainVar cfg.p)
    (hinj : ∀ i j, i < cfg.p.nbVars → j < cfg.p.nbVars → S.var i = S.var j → i = j) (hn : cfg.nbThreads ≤ cfg.custom)
    {s0 : BSys σ cfg.fr.F} (h0 : Bar.init cfg = some s0) {ls : List (BLbl σ)} (hl : ∀ l ∈ ls, BValidLbl l ∧ Sharp l) (h : runs cfg s0 ls = .ok s)
    {A : List (List Decision)} (hA : ∀ ds t v, Reach cfg.p t ds v → ds ∈ A) : getExplored cfg s.crit ≤ A.length := by
  rw [barrier_explored_counts h0 h]
  exact length_le_assignments (barrier_expanded_once_sharp L hg hdom hinj hn h0 hl h) (given_genuine L hg hn h0 (fun l h => (hl l h).1) h) hA

/-- **C101.** The same when the threads interleave at every single access to the barrier, whenever nobody is within a critical section. -/
theorem lock_explored_le_partial_assignments (L : FrontierLaws cfg.fr) (hg : BaseCfg cfg S B) (hdom : DomainVar cfg.p)
    (hinj : ∀ i j, i < cfg.p.nbVars → j < cfg.p.nbVars → S.var i = S.var j → i = j) (hc : cfg.cutset = .lastExactLayer) (hn : cfg.nbThreads ≤ cfg.custom)
    {s : FSys σ cfg.fr.F} (hr : FReachable cfg s) (hh : s.holder = none) {A : List (List Decision)} (hA : ∀ ds t v, Reach cfg.p t ds v → ds ∈ A) :
    getExplored cfg s.sys.crit ≤ A.length := by
  obtain ⟨b, h⟩ := lock_state_of_views L hg hn hr hh
  exact barrier_explored_le_partial_assignments L hg hdom hinj hc hn h hA

/-- Run of one thread on the knapsack: six nodes, each a new partial assignment. -/
example : (Bar.init (Inst.kpCfg 1)).map (fun s0 => (given (Inst.kpCfg 1) s0 (Inst.bsched (List.replicate 34 (0, false)))).map (·.path)) =
    some [[], [⟨0, 1⟩], [⟨0, 1⟩, ⟨1, 1⟩], [⟨0, 0⟩], [⟨0, 0⟩, ⟨1, 0⟩], [⟨0, 0⟩, ⟨1, 1⟩]] := by decide +kernel

/-- The hypotheses hold for the knapsack. -/
example {s : BSys Knap.St (Inst.kpCfg 2).fr.F} (hr : BReachable (Inst.kpCfg 2) s) {A : List (List Decision)} (hA : ∀ ds t v, Reach Inst.kp t ds v → ds ∈ A) :
    getExplored (Inst.kpCfg 2) s.crit ≤ A.length :=
  barrier_explored_le_partial_assignments (Inst.kpLaws 2) (Inst.kpCfg_good 2).base kp_domainVar (fun _ _ _ _ h => h) rfl (Nat.le_refl _) hr hA

/-- With the frontier as cutset and two threads the solver without a barrier expands the two decisions of `expanded_twice_frontier` twice; with a barrier they are expanded once. -/
example : (Bar.init kpFrontier).map (fun s0 => (given kpFrontier s0
    (Inst.bsched ([0, 0, 0, 1, 0, 0, 0, 0, 1, 0, 1, 0, 1, 1, 0, 1, 0, 1, 0, 1, 0, 1, 0, 1].map fun i => (i, false)))).map (·.path)) =
    some [[], [⟨0, 1⟩], [⟨1, 1⟩, ⟨0, 1⟩], [⟨0, 0⟩]] := by decide +kernel

end Verif.Props
