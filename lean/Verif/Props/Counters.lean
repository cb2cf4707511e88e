import Verif.Props.Barrier
/-! C37: what the counters of the layers would do with a node that is too deep. -/
set_option autoImplicit false

namespace Verif.Props
open Verif Spec Bar
variable {σ : Type} [DecidableEq σ] [Inhabited σ] {cfg : SolverCfg σ}

/-- **C37.** Counting a node adds one to the counter of its layer and changes no other, and panics if there is no such counter. -/
theorem counter_range (l : List Nat) (d : Nat) :
    (d < l.length → ∃ l', incAt l d = some l' ∧ l'.length = l.length ∧ l'.getD d 0 = l.getD d 0 + 1 ∧ ∀ e, e ≠ d → l'.getD e 0 = l.getD e 0) ∧ (l.length ≤ d → incAt l d = none) := by
  unfold incAt
  refine ⟨fun h => ?_, fun h => ?_⟩
  · rw [List.getElem?_eq_getElem h]
    refine ⟨_, rfl, by simp, by simp [List.getD, h], fun e he => ?_⟩
    simp [List.getD, List.getElem?_set, he.symm]
  · rw [List.getElem?_eq_none h]

/-- **C37.** So a cutset with a node that is deeper than there are variables, and whose bound is better than the incumbent, makes the worker panic, whatever comes before and after it.
(`barrier_never_panics` says that this does not happen if the problem is well-formed.) -/
theorem deep_cutset_panics {ub : Int} {n : SubProblem σ} {rest : List (SubProblem σ)} (l : List (SubProblem σ)) :
    ∀ (c : BCrit σ cfg.fr.F), c.openBy.length ≤ n.path.length → min ub n.ub > c.bestLb → pushCutset cfg ub c (l ++ n :: rest) = none := by
  induction l with
  | nil =>
    intro c hd hb
    rw [List.nil_append, pushCutset]
    simp only [hb, if_true, (counter_range c.openBy n.path.length).2 hd]
    cases cfg.fr.push c.fringe { n with ub := min ub n.ub } <;> rfl
  | cons m l ih =>
    intro c hd hb
    rw [List.cons_append, pushCutset]
    split
    · split
      · rename_i f ob hf ho
        refine ih _ ?_ hb
        rcases Nat.lt_or_ge m.path.length c.openBy.length with h | h
        · obtain ⟨l', h1, h2, _⟩ := (counter_range c.openBy m.path.length).1 h
          have : ob = l' := Option.some.inj (ho.symm.trans h1)
          subst this
          show ob.length ≤ _
          omega
        · rw [(counter_range c.openBy m.path.length).2 h] at ho
          cases ho
      · rfl
    · exact ih c hd hb

/-- Seven variables, and a node with eight decisions. -/
example : ∃ s, Bar.init (Inst.raceCfg 2) = some s ∧ pushCutset (Inst.raceCfg 2) 5 s.crit [{ Par.rootNode (Inst.raceCfg 2) with path := List.replicate 8 ⟨0, 0⟩, ub := 5 }] = none :=
  ⟨_, rfl, deep_cutset_panics (cfg := Inst.raceCfg 2) (rest := []) [] _ (by decide) (by decide +kernel)⟩

example : incAt [0, 3, 0] 1 = some [0, 4, 0] ∧ incAt [0, 3, 0] 3 = none := by decide

end Verif.Props
