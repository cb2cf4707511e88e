import Verif.Model.Report
import Verif.Proofs.F32
import Verif.Props.Barrier
import Verif.Props.Interrupt
import Verif.Props.Psp
/-! C74: single precision.  C75: the gap that is printed at the end of a run. -/
set_option autoImplicit false

namespace Verif.Props
open Verif Spec F32

/-! ### C74 -/

/-- **C74.** `x as f32` is the single precision number nearest to `x`, ties to even. -/
theorem single_of_nat (x : Nat) : IsNearest x (f32 x) := f32_nearest x

/-- **C74.** The quotient in single precision is the number nearest to the exact quotient, ties to even. -/
theorem single_quotient {a b : Nat} (ha : 0 < a) (hb : 0 < b) (hb' : b ≤ 2 ^ 104) : IsNearest ((a : ℚ) / b) (value (f32Div a b)) := f32Div_nearest hb (range ha hb')

/-- **C74.** There is only one such number. -/
theorem single_unique {x q q' : ℚ} (hx : 0 < x) (h : IsNearest x q) (h' : IsNearest x q') : q = q' := nearest_unique hx h h'

/-- **C74.** Quotients compare as their representations do. -/
theorem single_compare {a b c d : Nat} (ha : 0 < a) (hb : 0 < b) (hb' : b ≤ 2 ^ 104) (hc : 0 < c) (hd : 0 < d) (hd' : d ≤ 2 ^ 104) :
    f32Div a b < f32Div c d ↔ value (f32Div a b) < value (f32Div c d) := f32Div_compare ha hb hb' hc hd hd'

/-- **C74.** With signs, a quotient has the magnitude of the quotient of the magnitudes, and is positive exactly if the exact quotient is; it is zero only if the numerator is. -/
theorem single_sign {c l : Int} (hl : l ≠ 0) (hl' : l.natAbs < 2 ^ 64) :
    (ratio c l).1 = 1 ∧ ((ratio c l).2 = 0 ↔ c = 0) ∧ (0 < (ratio c l).2 ↔ (0 : ℚ) < c / l) ∧ (c ≠ 0 → (ratio c l).2.natAbs = f32Div (f32 c.natAbs) (f32 l.natAbs)) := by
  unfold ratio
  rw [if_neg hl]
  by_cases hc : c = 0
  · subst hc; simp
  · rw [if_neg hc]
    have hp : 0 < f32Div (f32 c.natAbs) (f32 l.natAbs) := Nat.lt_of_lt_of_le (Nat.two_pow_pos 23)
      (f32Div_ge (f32_pos (Int.natAbs_pos.2 hl)) (range (f32_pos (Int.natAbs_pos.2 hc)) (f32_le_pow hl')))
    clear hl'
    generalize f32Div (f32 c.natAbs) (f32 l.natAbs) = z at hp ⊢
    have hq : (0 : ℚ) < c / l ↔ (0 < c) = (0 < l) := by
      rcases lt_or_gt_of_ne hc with h1 | h1 <;> rcases lt_or_gt_of_ne hl with h2 | h2
      · have h1' : (c : ℚ) < 0 := by exact_mod_cast h1
        have h2' : (l : ℚ) < 0 := by exact_mod_cast h2
        have := div_pos_of_neg_of_neg h1' h2'
        simp [this, show ¬ 0 < c by omega, show ¬ 0 < l by omega]
      · have h1' : (c : ℚ) < 0 := by exact_mod_cast h1
        have h2' : (0 : ℚ) < l := by exact_mod_cast h2
        have := div_neg_of_neg_of_pos h1' h2'
        simp [show ¬ (0 : ℚ) < c / l from not_lt.2 this.le, show ¬ 0 < c by omega, h2]
      · have h1' : (0 : ℚ) < c := by exact_mod_cast h1
        have h2' : (l : ℚ) < 0 := by exact_mod_cast h2
        have := div_neg_of_pos_of_neg h1' h2'
        simp [show ¬ (0 : ℚ) < c / l from not_lt.2 this.le, show ¬ 0 < l by omega, h1]
      · have h1' : (0 : ℚ) < c := by exact_mod_cast h1
        have h2' : (0 : ℚ) < l := by exact_mod_cast h2
        have := div_pos h1' h2'
        simp [this, h1, h2]
    rw [hq]
    clear hq
    have hz : (z : Int) ≠ 0 := by omega
    by_cases h : (0 < c) = (0 < l)
    · rw [if_pos h]
      exact ⟨rfl, ⟨fun h' => absurd h' hz, fun h' => absurd h' hc⟩, ⟨fun _ => h, fun _ => by show 0 < (z : Int); omega⟩, fun _ => Int.natAbs_natCast z⟩
    · rw [if_neg h]
      exact ⟨rfl, ⟨fun h' => absurd (Int.neg_eq_zero.1 h') hz, fun h' => absurd h' hc⟩, ⟨fun h' => by have h' : 0 < -(z : Int) := h'; omega, fun h' => absurd h' h⟩,
        fun _ => by show (-(z : Int)).natAbs = z; rw [Int.natAbs_neg, Int.natAbs_natCast]⟩

/-- **C74.** A number over zero is infinite, with the sign of the number; zero over zero is not a number. -/
theorem single_over_zero (c : Int) : ratio c 0 = if c = 0 then (3, 0) else if 0 < c then (2, 0) else (0, 0) := by
  simp [ratio]

-- 2 ^ 24 + 1 lies between two numbers, the even one is taken; 2 ^ 24 + 3 too
example : f32 (2 ^ 24 + 1) = 2 ^ 24 ∧ f32 (2 ^ 24 + 3) = 2 ^ 24 + 4 ∧ f32 (2 ^ 25 + 1) = 2 ^ 25 ∧ f32 (2 ^ 24 - 1) = 2 ^ 24 - 1 := by decide +kernel
-- minus one third, twice, and one third
example : ratio (-1) 3 = ratio 1 (-3) ∧ ratio (-1) (-3) = ratio 1 3 ∧ ratio 1 3 ≠ ratio 1 (-3) := by decide +kernel
-- one third: 11184811 / 2 ^ 25
example : scaled (f32Div 1 3) = 11184811 * 2 ^ 103 := by decide +kernel

/-! ### C75 -/

/-- The number a result of `gap` stands for, if it is one (not NaN, not infinite) -/
def gapValue (g : Nat × Int) : Option ℚ := if g.1 = 1 then some (if g.2 = 0 then 0 else value g.2.natAbs) else none

theorem gap_eq {lb ub : Int} (h1 : lb ≠ isizeMin) (h2 : ub ≠ isizeMin) :
    gap lb ub = some (ratio ((max ub.natAbs lb.natAbs - min ub.natAbs lb.natAbs : Nat) : Int) ((max ub.natAbs lb.natAbs : Nat) : Int)) := by
  unfold gap
  rw [if_neg (by rintro (h | h); exacts [h2 h, h1 h])]
  simp only
  congr 2
  · omega
  · omega

theorem ratio_pos {c l : Nat} (hc : 0 < c) (hl : 0 < l) : ratio c l = (1, (f32Div (f32 c) (f32 l) : Int)) := by
  unfold ratio
  rw [if_neg (by omega), if_neg (by omega), if_pos (by simp [hc, hl]), Int.natAbs_natCast, Int.natAbs_natCast]

/-- **C75.** The gap is a number between 0 and 1, unless both bounds are 0; it is 0 exactly if the bounds have the same absolute value; and it differs from the exact gap
`1 - min / max` by at most `2 ^ (-22)`. -/
theorem gap_number {lb ub : Int} (h1 : InISize lb) (h2 : InISize ub) (h1' : lb ≠ isizeMin) (h2' : ub ≠ isizeMin) (h0 : ¬ (lb = 0 ∧ ub = 0)) :
    ∃ g q, gap lb ub = some g ∧ gapValue g = some q ∧ 0 ≤ q ∧ q ≤ 1 ∧ (q = 0 ↔ lb.natAbs = ub.natAbs) ∧
      |q - (1 - (min ub.natAbs lb.natAbs : Nat) / (max ub.natAbs lb.natAbs : Nat))| ≤ 1 / 2 ^ 22 := by
  rw [gap_eq h1' h2']
  simp only [InISize, isizeMin, isizeMax] at h1 h2
  have hu : 0 < max ub.natAbs lb.natAbs := by omega
  have hub : max ub.natAbs lb.natAbs < 2 ^ 64 := by omega
  have hlu : min ub.natAbs lb.natAbs ≤ max ub.natAbs lb.natAbs := by omega
  have hiff : min ub.natAbs lb.natAbs = max ub.natAbs lb.natAbs ↔ lb.natAbs = ub.natAbs := by omega
  generalize max ub.natAbs lb.natAbs = u at *
  generalize min ub.natAbs lb.natAbs = l at *
  rw [← hiff]
  have hu' : (0 : ℚ) < u := by exact_mod_cast hu
  refine ⟨ratio ((u - l : Nat) : Int) (u : Int), ?_⟩
  rcases Nat.eq_or_lt_of_le hlu with he | hlt
  · subst he
    refine ⟨0, rfl, ?_, le_refl _, by norm_num, by simp, ?_⟩
    · unfold ratio; rw [if_neg (by omega), if_pos (by simp)]; simp [gapValue]
    · rw [div_self hu'.ne']; norm_num
  · have hc : 0 < u - l := by omega
    have hf := f32_pos hc
    have hg := f32_pos hu
    have hg' : f32 u ≤ 2 ^ 104 := f32_le_pow hub
    have hge := f32Div_ge hg (range hf hg')
    refine ⟨value (f32Div (f32 (u - l)) (f32 u)), rfl, ?_, ?_, ?_, ?_, ?_⟩
    · rw [ratio_pos hc hu]
      simp only [gapValue]
      rw [if_pos trivial, if_neg (by omega), Int.natAbs_natCast]
    · exact (value_pos _).le
    · have hmono : f32 (u - l) ≤ f32 u := f32_mono (by omega)
      exact quotient_le_one hf hg hg' hmono
    · constructor
      · intro h; exact absurd h (value_pos _).ne'
      · intro h; omega
    · exact gap_error hlt hub

/-- **C75.** With both bounds 0 the gap is printed as NaN. -/
theorem gap_zero : gap 0 0 = some (3, 0) ∧ gapValue (3, 0) = none := ⟨by decide, rfl⟩

/-- **C75.** If one of the bounds is `isize::MIN` then `gap` overflows. -/
theorem gap_overflow (lb ub : Int) : gap lb ub = none ↔ (lb = isizeMin ∨ ub = isizeMin) := by
  unfold gap
  split
  · rename_i h; exact ⟨fun _ => h.symm, fun _ => rfl⟩
  · rename_i h; exact ⟨fun h => by simp at h, fun g => absurd g.symm h⟩

/-- **C75 is false** for bounds of different sign: a gap of 0 does not mean that the bounds agree. -/
theorem gap_opposite : ∃ g, gap (-5) 5 = some g ∧ gapValue g = some 0 := ⟨(1, 0), by decide, by simp [gapValue]⟩

variable {σ : Type} [DecidableEq σ] [Inhabited σ] {cfg : SolverCfg σ} {S : Layering σ} {B : Int}

/-- **C75 (partial).** At the end of a run that was not interrupted, the line that is printed gives the optimum as best value and as both bounds, and the gap 0.
Missing: an optimum of 0 (NaN is printed) and infeasible problems (see `report_none_panics`). -/
theorem report_optimum_partial (L : FrontierLaws cfg.fr) (hg : GoodCfg cfg S B) (hc : CutOK cfg S) (hn : cfg.nbThreads ≤ cfg.custom) (h1 : 1 ≤ cfg.nbThreads)
    {s : Sys σ cfg.fr.F} (hr : ReachableMax cfg s) (hf : Finished s) {v : Int} (hv : IsOptimum cfg.p v) :
    ∃ r, Par.report cfg s = some r ∧ r.proved = true ∧ r.best = some v ∧ r.lb = v ∧ r.ub = v ∧ (v ≠ 0 → gapValue r.gap = some 0) := by
  have hp : Par.proved cfg s.crit = true := by simp [Par.proved, hr.noint]
  obtain ⟨h2, h3, _⟩ := proved_means_proved L hg hc hn h1 hr.reachable hf hp
  obtain ⟨h4, h5⟩ := h3 v hv
  have hlb : Par.bestLowerBound cfg s.crit = v := by rw [← h2]; exact h5
  have hb : InISize v ∧ v ≠ isizeMin := by
    obtain ⟨ds, hs⟩ := hv.1
    have := Par.solution_bounds hg.wf hs
    exact ⟨⟨by omega, this.2⟩, by omega⟩
  obtain ⟨g, hgap⟩ : ∃ g, gap v v = some g := by
    rw [gap_eq hb.2 hb.2]; exact ⟨_, rfl⟩
  refine ⟨_, by rw [Par.report, hlb, h5, hgap]; rfl, hp, h4, rfl, rfl, ?_⟩
  intro h0
  obtain ⟨g', q, e1, e2, _, _, e3, _⟩ := gap_number hb.1 hb.1 hb.2 hb.2 (by omega)
  rw [hgap] at e1
  cases e1
  rw [e2, e3.2 rfl]

/-- **C75 is false** for a run that has found no solution, because the problem is infeasible or because of an interruption: `gap` is called with `isize::MIN` and overflows. -/
theorem report_none_panics (L : FrontierLaws cfg.fr) (hg : BaseCfg cfg S B) (hn : cfg.nbThreads ≤ cfg.custom) {s : Sys σ cfg.fr.F} (hr : Reachable cfg s)
    (h : Par.bestValue cfg s.crit = none) : Par.report cfg s = none := by
  rcases (Par.reachable_inv L hg hn hr).1.inc with ⟨_, h2⟩ | ⟨sol, h1, _⟩
  · rw [Par.report, (gap_overflow (Par.bestLowerBound cfg s.crit) _).2 (Or.inl h2)]; rfl
  · simp [Par.bestValue, h1] at h

/-- In particular at the end of every complete run on an infeasible problem. -/
theorem report_infeasible_panics (L : FrontierLaws cfg.fr) (hg : GoodCfg cfg S B) (hc : CutOK cfg S) (hn : cfg.nbThreads ≤ cfg.custom) (h1 : 1 ≤ cfg.nbThreads)
    {s : Sys σ cfg.fr.F} (hr : ReachableMax cfg s) (hf : Finished s) (hi : Infeasible cfg.p) : Par.report cfg s = none :=
  report_none_panics L hg.base hn hr.reachable ((none_iff_infeasible L hg hc hn h1 hr hf).1.2 hi)

/-- **C75 (partial).** The same for the barrier solver with one thread. -/
theorem barrier_report_optimum_partial (L : FrontierLaws cfg.fr) (hg : GoodCfg cfg S B) (hco : CutOK cfg S) (h1 : cfg.nbThreads = 1)
    (hn : cfg.nbThreads ≤ cfg.custom) {s : BSys σ cfg.fr.F} (hr : SharpReachable cfg s) (hf : BFinished s) (hp : Bar.proved cfg s.crit = true) {v : Int} (hv : IsOptimum cfg.p v) :
    ∃ r, Bar.report cfg s = some r ∧ r.proved = true ∧ r.best = some v ∧ r.lb = v ∧ r.ub = v ∧ (v ≠ 0 → gapValue r.gap = some 0) := by
  obtain ⟨h2, h3, _⟩ := barrier_proved_means_proved L hg hco h1 hn hr hf hp
  obtain ⟨h4, h5⟩ := h3 v hv
  have hlb : Bar.bestLowerBound cfg s.crit = v := by rw [← h2]; exact h5
  have hb : InISize v ∧ v ≠ isizeMin := by
    obtain ⟨ds, hs⟩ := hv.1
    have := Par.solution_bounds hg.wf hs
    exact ⟨⟨by omega, this.2⟩, by omega⟩
  obtain ⟨g, hgap⟩ : ∃ g, gap v v = some g := by
    rw [gap_eq hb.2 hb.2]; exact ⟨_, rfl⟩
  refine ⟨_, by rw [Bar.report, hlb, h5, hgap]; rfl, hp, h4, rfl, rfl, ?_⟩
  intro h0
  obtain ⟨g', q, e1, e2, _, _, e3, _⟩ := gap_number hb.1 hb.1 hb.2 hb.2 (by omega)
  rw [hgap] at e1
  cases e1
  rw [e2, e3.2 rfl]

/-- Two threads on a knapsack: the line says 9, 9, 9 and a gap of 0. -/
example : ∃ s, ReachableMax (Inst.kpCfg 2) s ∧ Finished s ∧ ∃ r, Par.report (Inst.kpCfg 2) s = some r ∧ r.best = some 9 ∧ r.lb = 9 ∧ r.ub = 9 ∧ r.gap = (1, 0) := by
  obtain ⟨s, h1, h2⟩ := Inst.test_spec_max (cfg := Inst.kpCfg 2) (l := Inst.kpRun2)
    (f := fun s => Inst.allDone s && (match Par.report (Inst.kpCfg 2) s with
      | some r => r.best == some 9 && r.lb == 9 && r.ub == 9 && r.gap == (1, 0)
      | none => false)) (by decide) (by decide +kernel)
  rw [Bool.and_eq_true] at h2
  refine ⟨s, h1, Inst.allDone_spec h2.1, ?_⟩
  have h3 := h2.2
  split at h3
  · rename_i r hr
    simp only [Bool.and_eq_true, beq_iff_eq] at h3
    exact ⟨r, hr, h3.1.1.1, h3.1.1.2, h3.1.2, h3.2⟩
  · cases h3

/-- The production plan that does not exist: the program panics when it prints the result. -/
example : ∃ s, ReachableMax (Psp.cfgOf Psp.both id 1 1 .lastExactLayer) s ∧ Finished s ∧ Infeasible (Psp.problem Psp.both id) ∧
    Par.report (Psp.cfgOf Psp.both id 1 1 .lastExactLayer) s = none := by
  obtain ⟨s, h1, h2⟩ := Inst.test_spec_max (cfg := Psp.cfgOf Psp.both id 1 1 .lastExactLayer) (l := List.replicate 5 (0, false))
    (f := fun s => Inst.allDone s && Par.bestValue (Psp.cfgOf Psp.both id 1 1 .lastExactLayer) s.crit == none) (by decide) (by decide +kernel)
  simp only [Bool.and_eq_true, beq_iff_eq] at h2
  have hB : Psp.Bounded Psp.both 20 := Psp.boundedB_spec (by decide)
  have hf := Inst.allDone_spec h2.1
  have hi := (none_iff_infeasible (cfg := Psp.cfgOf Psp.both id 1 1 .lastExactLayer) (Psp.laws Psp.both id 1 1 .lastExactLayer)
    ⟨Psp.wellFormed (by decide) hB, psp_admissible, Psp.sound (by decide) hB (Psp.triangleB_spec (by decide)), (Psp.cfgOf_base (σ := id) (by decide) hB (by decide) 1 .lastExactLayer).width⟩
    (Or.inl rfl) (Nat.le_refl _) (by decide) h1 hf).1.1 h2.2
  exact ⟨s, h1, hf, hi, report_none_panics (Psp.laws Psp.both id 1 1 .lastExactLayer) (Psp.cfgOf_base (by decide) hB (by decide) 1 .lastExactLayer) (Nat.le_refl _) h1.reachable h2.2⟩

end Verif.Props
