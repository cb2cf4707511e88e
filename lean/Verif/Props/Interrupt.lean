import Verif.Proofs.Par.Slots
import Verif.Proofs.Bar.Slots
import Verif.Props.Parallel
import Verif.Props.Barrier
import Verif.Examples.Follow
/-!
C58: the bounds the workers register and what is reported when the search is interrupted.
-/
set_option autoImplicit false

namespace Verif.Props
open Verif Spec Par
variable {σ : Type} [DecidableEq σ] [Inhabited σ] {cfg : SolverCfg σ} {S : Layering σ} {B : Int}

/-- The node a worker is processing. -/
def inHand (t : Thread σ) : Option (SubProblem σ) :=
  match t.pc with
  | .start n => some n
  | .restr n _ => some n
  | .relb n _ => some n
  | .relx n _ _ => some n
  | _ => none

/-- The worker has no node. -/
def atRest (t : Thread σ) : Prop := t.pc = .idle ∨ t.pc = .waiting ∨ t.pc = .done

/-- **C58.** At every moment the slot of a worker in `upper_bounds` contains the bound of the node it is processing, and `isize::MAX` if it has none. -/
theorem bounds_registered (L : FrontierLaws cfg.fr) (hg : BaseCfg cfg S B) (hn : cfg.nbThreads ≤ cfg.custom) {s : Sys σ cfg.fr.F} (hr : Reachable cfg s)
    {i : Nat} {t : Thread σ} (ht : s.threads[i]? = some t) :
    (∀ n, inHand t = some n → s.crit.upperBounds[i]? = some n.ub) ∧ (atRest t → s.crit.upperBounds[i]? = some isizeMax) := by
  have hi := (reachable_inv L hg hn hr).1
  have hlt : i < s.crit.upperBounds.length := by
    have := (List.getElem?_eq_some_iff.1 ht).1
    rw [hi.thr] at this; rw [hi.ubs]; omega
  have hs := reachable_slots L hg hn hr i
  rw [List.getD_eq_getElem?_getD, List.getElem?_eq_getElem hlt, Option.getD_some] at hs
  simp only [pcAt, ht, Option.map_some, Option.getD_some] at hs
  rw [List.getElem?_eq_getElem hlt]
  obtain ⟨pc, m⟩ := t
  constructor
  · intro n hn
    cases pc <;> simp only [inHand] at hn <;> first | (cases hn; exact congrArg some hs) | cases hn
  · rintro (h | h | h) <;> (simp only at h; subst h; exact congrArg some hs)

/-- **C58.** When an interruption is noticed while nodes are being processed, the reported upper bound is at least the bound of each of these nodes (that of the root, which is
`isize::MAX`, excepted); and it is the bound in some slot or `isize::MAX`.  When no node is being processed it is the largest bound of an open node. -/
theorem interrupt_records (L : FrontierLaws cfg.fr) (hg : BaseCfg cfg S B) (hn : cfg.nbThreads ≤ cfg.custom) {s s' : Sys σ cfg.fr.F} (hr : Reachable cfg s)
    {l : Lbl σ} (hl : ValidLbl l) (hs : step cfg s l = .ok s') (h0 : s.crit.interrupted = false) (h1 : s'.crit.interrupted = true) :
    (0 < holders s → (∀ t ∈ s.threads, ∀ n, inHand t = some n → n.ub ≠ isizeMax → n.ub ≤ s'.crit.bestUb) ∧
        (s'.crit.bestUb = isizeMax ∨ s'.crit.bestUb ∈ s.crit.upperBounds)) ∧
    (holders s = 0 → ∃ n ∈ L.holds s.crit.fringe, s'.crit.bestUb = n.ub ∧ ∀ q ∈ L.holds s.crit.fringe, q.ub ≤ n.ub) := by
  have hi := (reachable_inv L hg hn hr).1
  have hong := ongoing_counts L hg hn hr
  obtain ⟨u1, u2⟩ := ongoingUb_spec s.crit.upperBounds
  have hreg : ∀ t ∈ s.threads, ∀ n, inHand t = some n → n.ub ∈ s.crit.upperBounds := by
    intro t ht n hn'
    obtain ⟨i, hi'⟩ := List.getElem?_of_mem ht
    exact List.mem_of_getElem? ((bounds_registered L hg hn hr hi').1 n hn')
  have ht := (step_trans (L := L) hg (hi.safe hn) hl).2 s' hs
  generalize isRun l = b at ht
  clear hs
  cases ht with
  | act ha =>
    cases ha with
    | interrupt _ _ _ h3 =>
      simp only at h3 hong hreg ⊢
      rw [← hong]
      rcases h3 with ⟨hp, rfl⟩ | ⟨hz, n, g3, rfl, g4⟩
      · refine ⟨fun _ => ⟨fun t ht n hn' hne => u1 _ (hreg t ht n hn') hne, ?_⟩, fun h => by omega⟩
        rcases u2 with g | g
        · exact Or.inl g.1
        · exact Or.inr g.1
      · exact ⟨fun h => by omega, fun _ => ⟨n, g3, rfl, g4⟩⟩
    | complete => simp only at h0 h1; rw [h0] at h1; cases h1
    | stop h => simp only at h0 h; rw [h] at h0; cases h0
    | wait => simp only at h0 h1; rw [h0] at h1; cases h1
    | prune => simp only at h0 h1; rw [h0] at h1; cases h1
    | take => simp only at h0 h1; rw [h0] at h1; cases h1
    | skip => simp only at h0 h1; rw [h0] at h1; cases h1
    | read1 => simp only at h0 h1; rw [h0] at h1; cases h1
    | restrict =>
      simp only [maybeUpdateBest] at h0 h1
      split at h1 <;> (rw [h0] at h1; cases h1)
    | read2 => simp only at h0 h1; rw [h0] at h1; cases h1
    | relaxExact =>
      simp only [maybeUpdateBest] at h0 h1
      split at h1 <;> (rw [h0] at h1; cases h1)
    | relaxCut => simp only at h0 h1; rw [h0] at h1; cases h1
  | finish => simp only at h0 h1; rw [h0] at h1; cases h1
  | spurious => simp only at h0 h1; rw [h0] at h1; cases h1

/-- **C58.** At the moment of the interruption every solution is at most the larger of the two reported bounds, or at most the bound of an open node (all of which are dropped). -/
theorem interrupt_covers (L : FrontierLaws cfg.fr) (hg : GoodCfg cfg S B) (hc : CutOK cfg S) (hn : cfg.nbThreads ≤ cfg.custom) {s s' : Sys σ cfg.fr.F} (hr : Reachable cfg s)
    {l : Lbl σ} (hl : ValidLbl l) (hs : step cfg s l = .ok s') (h0 : s.crit.interrupted = false) (h1 : s'.crit.interrupted = true) {ds : List Decision} {v : Int}
    (hv : Solution cfg.p ds v) :
    v ≤ bestLowerBound cfg s.crit ∨ v ≤ bestUpperBound cfg s'.crit ∨ (∃ q ∈ L.holds s.crit.fringe, v ≤ q.ub) ∨
      ∃ t ∈ s.threads, ∃ n, inHand t = some n ∧ n.ub = isizeMax := by
  have hrec := interrupt_records L hg.base hn hr hl hs h0 h1
  by_cases hlb : v ≤ bestLowerBound cfg s.crit
  · exact Or.inl hlb
  · obtain ⟨n, hm, hu, _⟩ := (reachable_inv L hg.base hn hr).2 hg hc h0 v (root_through hv) (by simp only [bestLowerBound] at hlb; omega)
    rcases List.mem_append.1 hm with hm | hm
    · exact Or.inr (Or.inr (Or.inl ⟨n, hm, hu⟩))
    · obtain ⟨t, ht, hnode⟩ := List.mem_filterMap.1 hm
      have hin : inHand t = some n := by
        obtain ⟨pc, m⟩ := t
        cases pc <;> exact hnode
      by_cases hmax : n.ub = isizeMax
      · exact Or.inr (Or.inr (Or.inr ⟨t, ht, n, hin, hmax⟩))
      · have hpos : 0 < holders s := by
          unfold holders
          refine List.countP_pos_iff.2 ⟨t, ht, ?_⟩
          obtain ⟨pc, m⟩ := t
          cases pc <;> first | rfl | cases hin
        have := (hrec.1 hpos).1 t ht n hin hmax
        simp only [bestUpperBound]
        exact Or.inr (Or.inl (by omega))

/-- A table for which the next theorem holds. -/
def openTab : Table.Tab :=
  [(6, [[(2, 6), (1, 5), (1, 2)]]),
   (7, [[(2, 5), (1, 3)], [(1, 1), (3, 4), (2, 7)]]),
   (7, [[(4, 3)], [(4, 6), (1, 7), (3, 7)], [(3, 7), (3, 6)], [(1, 5), (2, 4), (3, 4)]]),
   (7, [[(4, 7), (4, 0), (4, 1)], [(3, 4)], [(4, 3), (1, 0)], [(1, 6)]]),
   (7, [[(1, 1), (1, 7)], [(1, 5), (1, 2), (1, 4)], [(1, 4)], [(1, 3), (1, 2)]])]

/-- **C29 is false** for two threads for yet another reason: open nodes do not count as long as some node is being processed.  Here the bounds are 30 and 31 after the
interruption, while there is a solution worth 32. -/
theorem interrupted_ub_ignores_open : GoodCfg (Inst.tabCfg openTab 2 2 .lastExactLayer) Table.layering 8 ∧ ∃ s, Reachable (Inst.tabCfg openTab 2 2 .lastExactLayer) s ∧ Finished s ∧
    bestLowerBound (Inst.tabCfg openTab 2 2 .lastExactLayer) s.crit = 30 ∧ bestUpperBound (Inst.tabCfg openTab 2 2 .lastExactLayer) s.crit = 31 ∧
    ∃ ds, Solution (Inst.tabCfg openTab 2 2 .lastExactLayer).p ds 32 := by
  have hval : Table.valid openTab 8 40 = true := by decide
  obtain ⟨s, h1, h2⟩ := Inst.test_spec (cfg := Inst.tabCfg openTab 2 2 .lastExactLayer)
    (l := [(1, false), (0, false), (1, false), (1, false), (1, false), (1, false), (1, false), (1, false), (0, false), (1, false), (0, true), (0, true), (0, true), (1, true),
      (1, true), (1, true), (1, true), (1, true), (0, true), (0, true), (0, true)])
    (f := fun s => Inst.allDone s && (s.crit.bestLb == 30) && (s.crit.bestUb == 31)) (by decide +kernel)
  simp only [Bool.and_eq_true, beq_iff_eq] at h2
  exact ⟨⟨Table.wellFormed hval, Table.admissible hval, Table.soundRelaxation hval, fun _ => Nat.le_succ 1⟩, s, h1, Inst.allDone_spec h2.1.1, h2.1.2, h2.2, _,
    Inst.complete_solution (p := Table.prob openTab 40) (ds := [⟨0, 0⟩, ⟨1, 2⟩, ⟨2, 0⟩, ⟨3, 0⟩, ⟨4, 1⟩]) (v := 32) (by decide)⟩

/-! ### With a barrier -/

/-- The node a worker is processing. -/
def bInHand (t : BThread σ) : Option (SubProblem σ) :=
  match t.pc with
  | .start n => some n
  | .restr n _ => some n
  | .relb n _ => some n
  | .relx n _ _ => some n
  | .post n _ => some n
  | _ => none

/-- The worker has no node. -/
def bAtRest (t : BThread σ) : Prop := t.pc = .idle ∨ t.pc = .waiting ∨ t.pc = .done

/-- **C58.** The same for the solver with a barrier. -/
theorem barrier_bounds_registered (L : FrontierLaws cfg.fr) (hg : BaseCfg cfg S B) (hn : cfg.nbThreads ≤ cfg.custom) {s : BSys σ cfg.fr.F} (hr : BReachable cfg s)
    {i : Nat} {t : BThread σ} (ht : s.threads[i]? = some t) :
    (∀ n, bInHand t = some n → s.crit.upperBounds[i]? = some n.ub) ∧ (bAtRest t → s.crit.upperBounds[i]? = some isizeMax) := by
  have hi := Bar.reachable_inv L hg hn hr
  have hlt : i < s.crit.upperBounds.length := by
    have := (List.getElem?_eq_some_iff.1 ht).1
    rw [hi.thr] at this; rw [hi.ubs]; omega
  have hs := Bar.reachable_slots L hg hn hr i
  rw [List.getD_eq_getElem?_getD, List.getElem?_eq_getElem hlt, Option.getD_some] at hs
  simp only [Bar.pcAt, ht, Option.map_some, Option.getD_some] at hs
  rw [List.getElem?_eq_getElem hlt]
  obtain ⟨pc, m⟩ := t
  constructor
  · intro n hn
    cases pc <;> simp only [bInHand] at hn <;> first | (cases hn; exact congrArg some hs) | cases hn
  · rintro (h | h | h) <;> (simp only at h; subst h; exact congrArg some hs)

/-- **C58.** The same for the solver with a barrier. -/
theorem barrier_interrupt_records (L : FrontierLaws cfg.fr) (hg : BaseCfg cfg S B) (hn : cfg.nbThreads ≤ cfg.custom) {s s' : BSys σ cfg.fr.F} (hr : BReachable cfg s)
    {l : BLbl σ} (hl : BValidLbl l) (hs : Bar.step cfg s l = .ok s') (h0 : s.crit.interrupted = false) (h1 : s'.crit.interrupted = true) :
    (0 < bholders s → (∀ t ∈ s.threads, ∀ n, bInHand t = some n → n.ub ≠ isizeMax → n.ub ≤ s'.crit.bestUb) ∧
        (s'.crit.bestUb = isizeMax ∨ s'.crit.bestUb ∈ s.crit.upperBounds)) ∧
    (bholders s = 0 → ∃ n, s'.crit.bestUb = n.ub ∧ Genuine cfg.p n) := by
  have hi := Bar.reachable_inv L hg hn hr
  have hong := barrier_ongoing_counts L hg hn hr
  obtain ⟨u1, u2⟩ := ongoingUb_spec s.crit.upperBounds
  have hreg : ∀ t ∈ s.threads, ∀ n, bInHand t = some n → n.ub ∈ s.crit.upperBounds := by
    intro t ht n hn'
    obtain ⟨i, hi'⟩ := List.getElem?_of_mem ht
    exact List.mem_of_getElem? ((barrier_bounds_registered L hg hn hr hi').1 n hn')
  have ht := (Bar.step_trans (L := L) hg (hi.safe hn) hl).2 s' hs
  generalize Bar.isRun l = b at ht
  generalize Bar.lblView l = v at ht
  clear hs
  cases ht with
  | act hm _ ha =>
    have hmi := Bar.mics_inv hm hi
    obtain ⟨e1, e2, e3, _, _⟩ := Bar.mics_ubs hm
    simp only at h0
    rw [← e3] at h0
    cases ha with
    | interrupt _ _ _ h3 =>
      simp only at h3 hong hreg ⊢
      rw [← hong]
      rw [e1, e2] at h3
      rcases h3 with ⟨hp, rfl⟩ | ⟨hz, n, g3, rfl, g4⟩
      · refine ⟨fun _ => ⟨fun t ht n hn' hne => u1 _ (hreg t ht n hn') hne, ?_⟩, fun h => by omega⟩
        rcases u2 with g | g
        · exact Or.inl g.1
        · exact Or.inr g.1
      · exact ⟨fun h => by omega, fun _ => ⟨n, rfl, hmi.genF n g3⟩⟩
    | complete => simp only at h0 h1; rw [h0] at h1; cases h1
    | stop h => rw [h] at h0; cases h0
    | wait => rw [h0] at h1; cases h1
    | prune => simp only at h0 h1; rw [h0] at h1; cases h1
    | drop => simp only at h0 h1; rw [h0] at h1; cases h1
    | take => simp only at h0 h1; rw [h0] at h1; cases h1
    | early => simp only at h0 h1; rw [h0] at h1; cases h1
    | read1 => simp only at h0 h1; rw [h0] at h1; cases h1
    | restrict =>
      simp only [Bar.maybeUpdateBest] at h0 h1
      split at h1 <;> (rw [h0] at h1; cases h1)
    | read2 => simp only at h0 h1; rw [h0] at h1; cases h1
    | relax => simp only at h0 h1; rw [h0] at h1; cases h1
    | postExact =>
      simp only [Bar.maybeUpdateBest] at h0 h1
      split at h1 <;> (rw [h0] at h1; cases h1)
    | postCut => simp only at h0 h1; rw [h0] at h1; cases h1
  | finish => simp only at h0 h1; rw [h0] at h1; cases h1
  | spurious => simp only at h0 h1; rw [h0] at h1; cases h1

/-- Two workers: one is processing a node of bound 13 when the other notices the interruption, and 13 is recorded. -/
example : Inst.test (Inst.kpCfg 2) (List.replicate 7 (0, false) ++ [(1, true)]) (fun s => s.crit.interrupted && (s.crit.bestUb == 13) && (s.crit.upperBounds == [13, isizeMax])) = true := by
  decide +kernel

example : Inst.btest (Inst.kpCfg 2) (List.replicate 8 (0, false) ++ [(1, true)]) (fun s => s.crit.interrupted && (s.crit.bestUb == 13) && (s.crit.upperBounds == [13, isizeMax])) = true := by
  decide +kernel

end Verif.Props
