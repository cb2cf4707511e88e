import Verif.Proofs.Par.Once
import Verif.Proofs.Par.Final
import Verif.Examples.Solvers
import Batteries.Data.List.Perm
/-!
C98: with the last exact layer as cutset, no partial assignment is expanded twice.
-/
set_option autoImplicit false

namespace Verif.Props
open Verif Spec Par
variable {σ : Type} [DecidableEq σ] [Inhabited σ] {cfg : SolverCfg σ} {S : Layering σ} {B : Int} {s : Sys σ cfg.fr.F}

/-- **C98.** With the last exact layer as cutset, a node given to a worker and one given later are incompatible, or the later one extends the earlier one by further decisions. -/
theorem expanded_tree (L : FrontierLaws cfg.fr) (hg : BaseCfg cfg S B) (hdom : DomainVar cfg.p) (hc : cfg.cutset = .lastExactLayer) (hn : cfg.nbThreads ≤ cfg.custom)
    {s0 : Sys σ cfg.fr.F} (h0 : Par.init cfg = some s0) {ls : List (Lbl σ)} (hl : ∀ l ∈ ls, ValidLbl l) (h : runs cfg s0 ls = .ok s) :
    (givenOut cfg s0 ls).Pairwise fun a b => Disagree a.path b.path ∨ Extends a.path b.path := by
  obtain ⟨s1, g1, g2, _⟩ := init_spec (cfg := cfg) L hg
  rw [h0] at g1; cases g1
  refine runs_once (L := L) hg hdom hc hn ls s0 s [] g2 ⟨?_, by simp, by simp⟩ .nil hl h
  unfold Par.init at h0
  obtain ⟨f', h1, h2⟩ := push_one L L.new_inv (rootNode cfg)
  rw [h1] at h0
  cases h0
  have hw : working (List.replicate cfg.nbThreads (⟨.idle, Dd.new cfg.cutset⟩ : Thread σ)) = [] := by
    unfold working; rw [List.filterMap_eq_nil_iff]
    intro x hx; rw [(List.mem_replicate.1 hx).2]; rfl
  simp only [hw, List.append_nil]
  refine h2.pw _ (fun a b h => Disagree.symm h) ?_ ?_
  · intro a b q h1 h2
    rcases combine_path a b with e | e <;> rw [e] <;> assumption
  · rw [L.new_holds]; exact List.pairwise_singleton _ _

/-- **C98.** If no variable occurs twice, the same decisions are never expanded twice, in whatever order they were taken. -/
theorem expanded_once (L : FrontierLaws cfg.fr) (hg : BaseCfg cfg S B) (hdom : DomainVar cfg.p) (hinj : ∀ i j, i < cfg.p.nbVars → j < cfg.p.nbVars → S.var i = S.var j → i = j)
    (hc : cfg.cutset = .lastExactLayer) (hn : cfg.nbThreads ≤ cfg.custom) {s0 : Sys σ cfg.fr.F} (h0 : Par.init cfg = some s0) {ls : List (Lbl σ)} (hl : ∀ l ∈ ls, ValidLbl l)
    (h : runs cfg s0 ls = .ok s) : (givenOut cfg s0 ls).Pairwise fun a b => ¬ a.path.Perm b.path := by
  obtain ⟨s1, g1, g2, _⟩ := init_spec (cfg := cfg) L hg
  rw [h0] at g1; cases g1
  have hgen := (runs_given (L := L) hg hn ls s0 s g2 hl h).2
  refine (expanded_tree L hg hdom hc hn h0 hl h).imp_of_mem ?_
  intro a b ha _ hab
  exact not_perm hg.wf hdom hinj (hgen a ha) hab

/-- **C98.** The explored counter is at most the number of partial assignments: of the sequences of legal decisions from the initial state. -/
theorem explored_le_partial_assignments (L : FrontierLaws cfg.fr) (hg : BaseCfg cfg S B) (hdom : DomainVar cfg.p)
    (hinj : ∀ i j, i < cfg.p.nbVars → j < cfg.p.nbVars → S.var i = S.var j → i = j) (hc : cfg.cutset = .lastExactLayer) (hn : cfg.nbThreads ≤ cfg.custom)
    (hr : Reachable cfg s) {A : List (List Decision)} (hA : ∀ ds t v, Reach cfg.p t ds v → ds ∈ A) : getExplored cfg s.crit ≤ A.length := by
  obtain ⟨s0, ls, h0, hl, h⟩ := hr
  have hpw := expanded_once L hg hdom hinj hc hn h0 hl h
  obtain ⟨s1, g1, g2, _⟩ := init_spec (cfg := cfg) L hg
  rw [h0] at g1; cases g1
  obtain ⟨hlen, hgen⟩ := runs_given (L := L) hg hn ls s0 s g2 hl h
  have hex : getExplored cfg s.crit = handedOut cfg s0 ls := by
    have := runs_explored ls s0 s h
    rw [(init_noint h0).2] at this
    simpa [getExplored] using this
  rw [hex, ← hlen]
  have hch : ∀ n : SubProblem σ, ∃ ds, Genuine cfg.p n → n.path.Perm ds ∧ ds ∈ A := by
    intro n
    by_cases hn : Genuine cfg.p n
    · obtain ⟨ds, h1, h2⟩ := hn
      exact ⟨ds, fun _ => ⟨h1, hA ds _ _ h2⟩⟩
    · exact ⟨[], fun h => absurd h hn⟩
  choose f hf using hch
  have hnd : ((givenOut cfg s0 ls).map f).Nodup := by
    rw [List.Nodup, List.pairwise_map]
    refine hpw.imp_of_mem ?_
    intro a b ha hb hab he
    have h1 := (hf a (hgen a ha)).1
    rw [he] at h1
    exact hab (h1.trans (hf b (hgen b hb)).1.symm)
  have hsub : (givenOut cfg s0 ls).map f ⊆ A := by
    intro x hx
    obtain ⟨n, hn, rfl⟩ := List.mem_map.1 hx
    exact (hf n (hgen n hn)).2
  simpa using (List.subperm_of_subset hnd hsub).length_le

theorem kp_domainVar : DomainVar Verif.Inst.kp := by
  intro x s d hd
  exact (Knap.mem_dom hd).1

/-- Run of two threads on the knapsack: six nodes, each a new partial assignment. -/
example : (Par.init (Verif.Inst.kpCfg 2)).map (fun s0 => (givenOut (Verif.Inst.kpCfg 2) s0 (Verif.Inst.sched Verif.Inst.kpRun2)).map (·.path)) =
    some [[], [⟨0, 1⟩], [⟨0, 0⟩], [⟨0, 1⟩, ⟨1, 1⟩], [⟨0, 0⟩, ⟨1, 0⟩], [⟨0, 0⟩, ⟨1, 1⟩]] := by decide +kernel

/-- The hypotheses hold for the knapsack. -/
example {s : Sys Knap.St (Verif.Inst.kpCfg 2).fr.F} (hr : Reachable (Verif.Inst.kpCfg 2) s) {A : List (List Decision)} (hA : ∀ ds t v, Reach Verif.Inst.kp t ds v → ds ∈ A) :
    getExplored (Verif.Inst.kpCfg 2) s.crit ≤ A.length :=
  explored_le_partial_assignments (Verif.Inst.kpLaws 2) (Verif.Inst.kpCfg_good 2).base kp_domainVar (fun _ _ _ _ h => h) rfl (Nat.le_refl _) hr hA

/-- The knapsack with the frontier as cutset. -/
def kpFrontier : SolverCfg Knap.St := { Verif.Inst.kpCfg 2 with cutset := .frontier }

/-- **C98 is false with the frontier as cutset**: the same two decisions are expanded twice. -/
theorem expanded_twice_frontier : ∃ s0 s ls, Par.init kpFrontier = some s0 ∧ (∀ l ∈ ls, ValidLbl l) ∧ runs kpFrontier s0 ls = .ok s ∧
    (givenOut kpFrontier s0 ls).map (·.path) = [[], [⟨0, 1⟩], [⟨1, 1⟩, ⟨0, 1⟩], [⟨0, 1⟩, ⟨1, 1⟩]] := by
  have h : (match Par.init kpFrontier with
      | none => false
      | some s0 =>
        let ls := Verif.Inst.sched ([0, 0, 0, 1, 0, 0, 0, 1, 0, 1, 0, 1, 1, 0, 1, 0, 1, 0].map fun i => (i, false))
        (match runs kpFrontier s0 ls with | .ok _ => true | _ => false) &&
          ((givenOut kpFrontier s0 ls).map (·.path) == [[], [⟨0, 1⟩], [⟨1, 1⟩, ⟨0, 1⟩], [⟨0, 1⟩, ⟨1, 1⟩]])) = true := by decide +kernel
  split at h
  · cases h
  · rename_i s0 h0
    simp only [Bool.and_eq_true, beq_iff_eq] at h
    obtain ⟨h1, h2⟩ := h
    split at h1
    · rename_i s1 h3
      exact ⟨s0, s1, _, h0, Verif.Inst.sched_valid _, h3, h2⟩
    · cases h1

end Verif.Props
