import Verif.Spec.Widths
/-! The width is not used for subproblems without free variables. -/
set_option autoImplicit false

namespace Verif
open Verif Spec
variable {σ : Type} [DecidableEq σ] [Inhabited σ]

theorem start_nextL (m : Dd σ) (inp : Input σ) : (m.start inp).nextL = [(inp.residual.state, 0)] := rfl

theorem compile_width {v : Variant} {o : Oracle σ} (ho : o.Valid) {p : Problem σ} {r : Relaxation σ} {rank : σ → σ → Ordering} {rd : Reads σ} {m : Dd σ} {inp : Input σ}
    (h : p.nextVar [inp.residual.state] = none) (w : Nat) : m.compile v o p r rank rd { inp with maxWidth := w } = m.compile v o p r rank rd inp := by
  have e : o.hashOrd [(inp.residual.state, 0)] = [(inp.residual.state, 0)] := List.perm_singleton.1 (ho.hash _)
  have e1 : ∀ w, Dd.loop v o p r rank rd { inp with maxWidth := w } inp.residual.path.length (p.nbVars + 2) inp.residual.path.length (m.start inp) [] = some (m.start inp, .finished) := by
    intro w
    unfold Dd.loop
    simp only [start_nextL, e, List.map_cons, List.map_nil, h]
  unfold Dd.compile
  show (match Dd.loop v o p r rank rd { inp with maxWidth := w } inp.residual.path.length (p.nbVars + 2) inp.residual.path.length (m.start inp) [] with
    | none => none
    | some (m, .emptyLayer) => some m
    | some (m, .finished) => some (m.finish v o inp)) =
    match Dd.loop v o p r rank rd { inp with maxWidth := inp.maxWidth } inp.residual.path.length (p.nbVars + 2) inp.residual.path.length (m.start inp) [] with
    | none => none
    | some (m, .emptyLayer) => some m
    | some (m, .finished) => some (m.finish v o inp)
  rw [e1 w, e1 inp.maxWidth]

variable {cfg : SolverCfg σ} {f : σ → Nat}

theorem compile_same (h : SameWidth cfg f) {v : Variant} {o : Oracle σ} (ho : o.Valid) {rd : Reads σ} {m : Dd σ} {t : CompilationType} {n : SubProblem σ} {lb : Int} :
    m.compile v o cfg.p cfg.r cfg.rank rd (Par.input { cfg with width := f } t n lb) = m.compile v o cfg.p cfg.r cfg.rank rd (Par.input cfg t n lb) := by
  by_cases hn : cfg.p.nextVar [n.state] = none
  · exact compile_width (inp := Par.input cfg t n lb) ho hn (f n.state)
  · unfold Par.input
    simp only [h n.state hn]

set_option smartUnfolding false in
theorem Par.step_same (h : SameWidth cfg f) (s : Sys σ cfg.fr.F) {l : Lbl σ} (hl : ValidLbl l) : Par.step { cfg with width := f } s l = Par.step cfg s l := by
  cases l with
  | spurious i => rfl
  | run i intr o =>
    unfold Par.step
    dsimp only
    split
    · rfl
    · rename_i t _
      unfold Par.stepThread
      simp only [compile_same h hl]
      rfl

theorem Par.runs_same (h : SameWidth cfg f) : ∀ (ls : List (Lbl σ)) (s : Sys σ cfg.fr.F), (∀ l ∈ ls, ValidLbl l) → Par.runs { cfg with width := f } s ls = Par.runs cfg s ls
  | [], _, _ => rfl
  | l :: ls, s, hv => by
    unfold Par.runs
    rw [Par.step_same h s (hv l (by simp))]
    cases hs : Par.step cfg s l with
    | ok s' => exact Par.runs_same h ls s' fun l hl => hv l (by simp [hl])
    | panic => rfl
    | blocked => rfl

set_option smartUnfolding false in
theorem Bar.step_same (h : SameWidth cfg f) (s : BSys σ cfg.fr.F) {l : BLbl σ} (hl : BValidLbl l) : Bar.step { cfg with width := f } s l = Bar.step cfg s l := by
  cases l with
  | spurious i => rfl
  | run i intr o v =>
    unfold Bar.step
    dsimp only
    split
    · rfl
    · rename_i t _
      unfold Bar.stepThread
      simp only [compile_same h hl]
      rfl

theorem Bar.runs_same (h : SameWidth cfg f) : ∀ (ls : List (BLbl σ)) (s : BSys σ cfg.fr.F), (∀ l ∈ ls, BValidLbl l) → Bar.runs { cfg with width := f } s ls = Bar.runs cfg s ls
  | [], _, _ => rfl
  | l :: ls, s, hv => by
    unfold Bar.runs
    rw [Bar.step_same h s (hv l (by simp))]
    cases hs : Bar.step cfg s l with
    | ok s' => exact Bar.runs_same h ls s' fun l hl => hv l (by simp [hl])
    | panic => rfl
    | blocked => rfl

set_option smartUnfolding false in
omit [DecidableEq σ] [Inhabited σ] in
theorem Par.init_same : Par.init { cfg with width := f } = Par.init cfg := rfl

set_option smartUnfolding false in
omit [DecidableEq σ] [Inhabited σ] in
theorem Bar.init_same : Bar.init { cfg with width := f } = Bar.init cfg := rfl

end Verif
