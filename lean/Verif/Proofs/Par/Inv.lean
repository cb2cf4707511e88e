import Verif.Proofs.Par.Trans
/-! The invariant of a run. -/
set_option autoImplicit false

namespace Verif.Par
open Verif Spec
variable {σ : Type} [DecidableEq σ] [Inhabited σ] {cfg : SolverCfg σ} {L : FrontierLaws cfg.fr} {S : Layering σ} {B : Int}

/-! ### What the diagrams provide -/

theorem compile_cutsetType {v : Variant} {o : Oracle σ} {p : Problem σ} {r : Relaxation σ} {rank : σ → σ → Ordering} {rd : Reads σ} {inp : Input σ}
    (ho : o.Valid) (hwf : WellFormed p S B) (hr : inp.compType = .relaxed → LayeredRelaxation p r S B)
    (hw : inp.compType = .relaxed → 1 ≤ inp.maxWidth) (hg : Genuine p inp.residual) {m D : Dd σ}
    (hD : m.compile v o p r rank rd inp = some D) : D.cutsetType = m.cutsetType := by
  have hroot := Genuine.rootOK hwf hg
  obtain ⟨m', k, jx, P, L, h, hd⟩ := Dd.compile_done (v := v) (o := o) (rank := rank) (rd := rd) ho hwf hr hw hroot m
  rw [h] at hD; cases hD
  have hsk := hd.skelAny hwf ho hroot (o := o)
  rw [hsk.cutsetType]
  exact hd.head.core.misc.2.2.2

section mdd
variable {o : Oracle σ} {n : SubProblem σ} {lb : Int} {m D : Dd σ} {t : CompilationType}

theorem inp_rel (hg : BaseCfg cfg S B) : (input cfg t n lb).compType = .relaxed → LayeredRelaxation cfg.p cfg.r S B := fun _ => hg.lay
theorem inp_width (hg : BaseCfg cfg S B) : (input cfg t n lb).compType = .relaxed → 1 ≤ (input cfg t n lb).maxWidth := fun _ => hg.width _

theorem dd_type (hg : BaseCfg cfg S B) (hn : Genuine cfg.p n) (ho : o.Valid)
    (hD : m.compile .all o cfg.p cfg.r cfg.rank Reads.none (input cfg t n lb) = some D) : D.cutsetType = m.cutsetType :=
  compile_cutsetType ho hg.wf (inp_rel hg) (inp_width hg) hn hD

theorem dd_real (hg : BaseCfg cfg S B) (hn : Genuine cfg.p n) (ho : o.Valid)
    (hD : m.compile .all o cfg.p cfg.r cfg.rank Reads.none (input cfg t n lb) = some D) (hx : t ≠ .relaxed ∨ D.exact = true) {b : Int}
    (hb : D.bestValue = some b) : ∃ sol, D.bestSolution = some sol ∧ IsSolutionOf cfg.p sol b := by
  have hs := Props.solution_iff_value D
  rw [hb] at hs
  obtain ⟨sol, hsol⟩ := Option.isSome_iff_exists.1 hs
  obtain ⟨b', g1, g2, _⟩ := Props.solution_real ho hg.wf (inp_rel hg) (inp_width hg) hn m hD hx hsol
  rw [hb] at g1; cases g1
  exact ⟨sol, hsol, g2⟩

theorem dd_bound (hg : GoodCfg cfg S B) (hn : Genuine cfg.p n) (ho : o.Valid)
    (hD : m.compile .all o cfg.p cfg.r cfg.rank Reads.none (input cfg t n lb) = some D) (hx : D.exact = true) {w : Int} (hw : Through cfg.p n w) :
    w ≤ lb ∨ ∃ b, D.bestValue = some b ∧ w ≤ b :=
  (Props.exact_flag (Or.inl rfl) ho hg.wf hg.adm (fun _ => hg.rel) (inp_width hg.base) hn m hD hx).1 w hw

theorem dd_cutset (hg : GoodCfg cfg S B) (hc : CutOK cfg S) (hm : m.cutsetType = cfg.cutset) (hn : Genuine cfg.p n) (ho : o.Valid)
    (hD : m.compile .all o cfg.p cfg.r cfg.rank Reads.none (input cfg .relaxed n lb) = some D) (hx : D.exact = false) {w : Int}
    (hw : Through cfg.p n w) (hlb : lb < w) : ∃ q ∈ D.drainCutset, ∃ w', Through cfg.p q w' ∧ w ≤ w' ∧ w' ≤ q.ub := by
  rcases hc with hc | hc
  · exact Props.lel_cutset_covers (Or.inl rfl) ho hg.wf hg.adm hg.rel rfl (hg.width _) hn m (hm.trans hc) hD hx hw hlb
  · cases hk : cfg.cutset with
    | lastExactLayer => exact Props.lel_cutset_covers (Or.inl rfl) ho hg.wf hg.adm hg.rel rfl (hg.width _) hn m (hm.trans hk) hD hx hw hlb
    | frontier => exact Props.frontier_cutset_covers_unique_terminal (Or.inl rfl) ho hg.wf hg.adm hg.rel hc rfl (hg.width _) hn m (hm.trans hk) hD hx hw hlb

theorem dd_genuine (hg : BaseCfg cfg S B) (hn : Genuine cfg.p n) (ho : o.Valid)
    (hD : m.compile .all o cfg.p cfg.r cfg.rank Reads.none (input cfg t n lb) = some D) {q : SubProblem σ} (hq : q ∈ D.drainCutset) :
    Genuine cfg.p q ∧ n.path.length < q.path.length := by
  obtain ⟨h1, h2, _⟩ := Props.cutset_genuine ho hg.wf (inp_rel hg) (inp_width hg) hn m hD hq
  exact ⟨h1, h2⟩
end mdd

theorem solution_bounds (hwf : WellFormed cfg.p S B) {ds : List Decision} {w : Int} (h : Solution cfg.p ds w) : isizeMin < w ∧ w ≤ isizeMax := by
  obtain ⟨u, ⟨t, hr, _⟩, rfl⟩ := h
  have h1 := hr.facts hwf hwf.ok_init
  have h2 := hr.len hwf hwf.ok_init (by rw [hwf.lvl_init]; omega)
  rw [hwf.lvl_init] at h2
  have h3 := hwf.init_bound
  have h4 := hwf.no_overflow
  have hB : 0 ≤ B := by omega
  have h5 : (ds.length : Int) * B ≤ cfg.p.nbVars * B := Int.mul_le_mul_of_nonneg_right (by omega) hB
  have h6 : 4 * ((cfg.p.nbVars : Int) + 2) * B = 4 * (cfg.p.nbVars * B) + 8 * B := by
    rw [Int.mul_assoc, Int.add_mul]; omega
  rw [h6] at h4
  simp only [isizeMin, isizeMax] at *
  omega

theorem root_through {ds : List Decision} {w : Int} : Solution cfg.p ds w → Through cfg.p (rootNode cfg) w := by
  rintro ⟨u, h, rfl⟩; exact ⟨ds, u, h, rfl⟩

theorem through_root {w : Int} : Through cfg.p (rootNode cfg) w → ∃ ds, Solution cfg.p ds w := by
  rintro ⟨ds, u, h, rfl⟩; exact ⟨ds, u, h, rfl⟩

theorem root_genuine : Genuine cfg.p (rootNode cfg) := ⟨[], .refl _, 0, Run.nil _, by simp [rootNode]⟩

/-! ### The invariant -/

/-- The incumbent is a solution of the recorded value. -/
def Incumbent (c : Crit σ cfg.fr.F) : Prop :=
  (c.bestSol = none ∧ c.bestLb = isizeMin) ∨ ∃ sol, c.bestSol = some sol ∧ IsSolutionOf cfg.p sol c.bestLb

variable (L) in
structure Inv (s : Sys σ cfg.fr.F) : Prop where
  inv : L.inv s.crit.fringe
  ong : s.crit.ongoing = busyCount s.threads
  thr : s.threads.length = cfg.nbThreads
  ubs : s.crit.upperBounds.length = cfg.custom
  gen : ∀ n ∈ L.holds s.crit.fringe ++ working s.threads, Genuine cfg.p n
  lbs : ∀ t ∈ s.threads, ∀ lb, Pc.lb t.pc = some lb → lb ≤ s.crit.bestLb
  min : isizeMin ≤ s.crit.bestLb
  inc : Incumbent s.crit
  wait : ∀ t ∈ s.threads, t.pc = .waiting → 0 < s.crit.ongoing
  done : ∀ t ∈ s.threads, t.pc = .done → s.crit.interrupted = false → L.holds s.crit.fringe = [] ∧ s.crit.ongoing = 0 ∧ s.crit.bestUb = s.crit.bestLb
  mdd : ∀ t ∈ s.threads, t.mdd.cutsetType = cfg.cutset

variable (L) in
/-- Every solution better than the incumbent is covered by an open node. -/
def Covered (s : Sys σ cfg.fr.F) : Prop :=
  s.crit.interrupted = false → ∀ w, Through cfg.p (rootNode cfg) w → s.crit.bestLb < w → Covers cfg.p (L.holds s.crit.fringe ++ working s.threads) w

theorem Inv.safe {s : Sys σ cfg.fr.F} (h : Inv L s) (hn : cfg.nbThreads ≤ cfg.custom) : Safe (L := L) s :=
  ⟨h.inv, h.ong, by rw [h.thr, h.ubs]; exact hn, fun n hn => h.gen n (by simp [hn])⟩

theorem maybe_spec {c : Crit σ cfg.fr.F} {D : Dd σ} (hm : isizeMin ≤ c.bestLb) (hi : Incumbent c)
    (hr : ∀ b, D.bestValue = some b → ∃ sol, D.bestSolution = some sol ∧ IsSolutionOf cfg.p sol b) :
    ∃ lb sol, maybeUpdateBest cfg c D = { c with bestLb := lb, bestSol := sol } ∧ c.bestLb ≤ lb ∧ (∀ b, D.bestValue = some b → b ≤ lb) ∧
      Incumbent ({ c with bestLb := lb, bestSol := sol } : Crit σ cfg.fr.F) := by
  unfold maybeUpdateBest
  cases hb : D.bestValue with
  | none =>
    refine ⟨c.bestLb, c.bestSol, ?_, Int.le_refl _, by simp, hi⟩
    simp only [Option.getD_none]
    rw [if_neg (by omega)]
  | some b =>
    simp only [Option.getD_some, Option.some.injEq, forall_eq']
    by_cases h : b > c.bestLb
    · rw [if_pos h]
      obtain ⟨sol, h1, h2⟩ := hr b hb
      exact ⟨b, D.bestSolution, rfl, by omega, by omega, Or.inr ⟨sol, h1, h2⟩⟩
    · rw [if_neg h]
      exact ⟨c.bestLb, c.bestSol, rfl, Int.le_refl _, by omega, hi⟩

theorem mem_split {α : Type} {l1 l2 : List α} {t x : α} : x ∈ l1 ++ t :: l2 ↔ x ∈ l1 ++ l2 ∨ x = t := by
  simp only [List.mem_append, List.mem_cons]
  constructor
  · rintro (h | h | h)
    · exact Or.inl (Or.inl h)
    · exact Or.inr h
    · exact Or.inl (Or.inr h)
  · rintro ((h | h) | h)
    · exact Or.inl h
    · exact Or.inr (Or.inr h)
    · exact Or.inr (Or.inl h)

theorem mem_working {l1 l2 : List (Thread σ)} {t : Thread σ} {n : SubProblem σ} :
    n ∈ working (l1 ++ t :: l2) ↔ n ∈ working (l1 ++ l2) ∨ Pc.node t.pc = some n := by
  unfold working
  simp only [List.mem_filterMap, mem_split]
  constructor
  · rintro ⟨x, h1 | rfl, h2⟩
    · exact Or.inl ⟨x, h1, h2⟩
    · exact Or.inr h2
  · rintro (⟨x, h1, h2⟩ | h)
    · exact ⟨x, Or.inl h1, h2⟩
    · exact ⟨t, Or.inr rfl, h⟩

/-- Preservation by the steps that are a critical section of one thread. -/
theorem act_inv (hg : BaseCfg cfg S B) {c c' : Crit σ cfg.fr.F} {t t' : Thread σ} {l1 l2 : List (Thread σ)}
    (ha : Act cfg L l1.length c t c' t') (h : Inv L ⟨c, l1 ++ t :: l2⟩) : Inv L ⟨c', l1 ++ t' :: l2⟩ := by
  obtain ⟨hinv, hong, hthr, hubs, hgen, hlbs, hmin, hinc, hwait, hdone, hmdd⟩ := h
  have hthr' : (l1 ++ t' :: l2).length = cfg.nbThreads := by simpa using hthr
  simp only [List.mem_append, mem_working] at hgen
  simp only [busyCount_split] at hong
  -- the general form: only `ongoing`, `fringe` and the thread matter
  have gen : ∀ (hinv' : L.inv c'.fringe) (hong' : c'.ongoing + (if Pc.busy t.pc then 1 else 0) = c.ongoing + (if Pc.busy t'.pc then 1 else 0))
      (hubs' : c'.upperBounds.length = c.upperBounds.length)
      (hgen' : ∀ n ∈ L.holds c'.fringe, n ∈ L.holds c.fringe ∨ Genuine cfg.p n)
      (hgent : ∀ n, Pc.node t'.pc = some n → Genuine cfg.p n)
      (hlb : c.bestLb ≤ c'.bestLb) (hlbt : ∀ lb, Pc.lb t'.pc = some lb → lb ≤ c'.bestLb) (hinc' : Incumbent c')
      (hw' : t'.pc = .waiting → 0 < c'.ongoing) (hpos : 0 < c.ongoing → 0 < c'.ongoing)
      (hd' : t'.pc = .done → c'.interrupted = false → L.holds c'.fringe = [] ∧ c'.ongoing = 0 ∧ c'.bestUb = c'.bestLb)
      (hd'' : c'.interrupted = false → (L.holds c.fringe = [] ∧ c.ongoing = 0 ∧ c.bestUb = c.bestLb) → c.interrupted = false →
        L.holds c'.fringe = [] ∧ c'.ongoing = 0 ∧ c'.bestUb = c'.bestLb) (hint : c.interrupted = true → c'.interrupted = true)
      (hm' : t'.mdd.cutsetType = cfg.cutset), Inv L ⟨c', l1 ++ t' :: l2⟩ := by
    intro hinv' hong' hubs' hgen' hgent hlb hlbt hinc' hw' hpos hd' hd'' hint hm'
    refine ⟨hinv', ?_, hthr', by rw [hubs']; exact hubs, ?_, ?_, Int.le_trans hmin hlb, hinc', ?_, ?_, ?_⟩
    · simp only [busyCount_split]; omega
    · intro n hn
      simp only [List.mem_append, mem_working] at hn
      rcases hn with hn | hn | hn
      · rcases hgen' n hn with h | h
        · exact hgen n (Or.inl h)
        · exact h
      · exact hgen n (Or.inr (Or.inl hn))
      · exact hgent n hn
    · intro x hx lb hlb'
      rcases mem_split.1 hx with hx | rfl
      · exact Int.le_trans (hlbs x (mem_split.2 (Or.inl hx)) lb hlb') hlb
      · exact hlbt lb hlb'
    · intro x hx hw
      rcases mem_split.1 hx with hx | rfl
      · exact hpos (hwait x (mem_split.2 (Or.inl hx)) hw)
      · exact hw' hw
    · intro x hx hd hi
      rcases mem_split.1 hx with hx | rfl
      · have hi0 : c.interrupted = false := by
          cases hc : c.interrupted
          · rfl
          · rw [hint hc] at hi; cases hi
        exact hd'' hi (hdone x (mem_split.2 (Or.inl hx)) hd hi0) hi0
      · exact hd' hd hi
    · intro x hx
      rcases mem_split.1 hx with hx | rfl
      · exact hmdd x (mem_split.2 (Or.inl hx))
      · exact hm'
  have hmt := hmdd t (mem_split.2 (Or.inr rfl))
  have hnt : ∀ n, Pc.node t.pc = some n → Genuine cfg.p n := fun n hn => hgen n (Or.inr (Or.inr hn))
  have hlt := hlbs t (mem_split.2 (Or.inr rfl))
  cases ha with
  | complete h1 h2 =>
    refine gen hinv (by rfl) rfl (fun n hn => Or.inl hn) (by simp [Pc.node]) (Int.le_refl _) (by simp [Pc.lb]) hinc (by simp) id ?_ ?_ id hmt
    · intro _ _; exact ⟨h2, h1, rfl⟩
    · intro _ _ _; exact ⟨h2, h1, rfl⟩
  | stop h1 h2 =>
    refine gen hinv (by rfl) rfl (fun n hn => Or.inl hn) (by simp [Pc.node]) (Int.le_refl _) (by simp [Pc.lb]) hinc (by simp) id ?_ ?_ id hmt
    · intro _ h; rw [h1] at h; cases h
    · intro h; rw [h1] at h; cases h
  | interrupt h1 hf h2 h3 =>
    refine gen hf (by rfl) rfl (by simp [h2]) (by simp [Pc.node]) (Int.le_refl _) (by simp [Pc.lb]) hinc (by simp) id ?_ ?_ (by simp) hmt
    · intro _ h; cases h
    · intro h; cases h
  | wait h1 h2 h3 =>
    exact gen hinv (by rfl) rfl (fun n hn => Or.inl hn) (by simp [Pc.node]) (Int.le_refl _) (by simp [Pc.lb]) hinc (fun _ => h2) id (by simp)
      (fun _ h _ => h) id hmt
  | prune h1 hf h2 h3 h4 h5 =>
    refine gen hf (by rfl) rfl (by simp [h2]) (by simp [Pc.node]) (Int.le_refl _) (by simp [Pc.lb]) hinc (by simp) id (by simp) ?_ id hmt
    intro _ h _; exact ⟨h2, h.2⟩
  | @take m n f h1 hf h2 h4 h5 =>
    refine gen hf (by simp [Pc.busy]) (by simp) (fun q hq => Or.inl (h2.mem_iff.2 (by simp [hq]))) ?_ (Int.le_refl _) (by simp [Pc.lb]) hinc (by simp)
      (by simp) (by simp) ?_ id hmt
    · intro q hq
      simp only [Pc.node, Option.some.injEq] at hq
      subst hq
      exact hgen n (Or.inl (h2.mem_iff.2 (by simp)))
    · intro _ h _
      rw [h.1] at h2
      simp at h2
  | skip h1 =>
    exact gen hinv (by rfl) rfl (fun n hn => Or.inl hn) (by simp [Pc.node]) (Int.le_refl _) (by simp [Pc.lb]) hinc (by simp) id (by simp)
      (fun _ h _ => h) id hmt
  | read1 h1 =>
    exact gen hinv (by rfl) rfl (fun n hn => Or.inl hn) (fun n hn => hnt n hn) (Int.le_refl _) (by simp [Pc.lb]) hinc (by simp) id (by simp)
      (fun _ h _ => h) id hmt
  | @restrict m n lb o D ho hD =>
    have hn := hnt n rfl
    obtain ⟨lb', sol, e, g1, g2, g3⟩ := maybe_spec (D := D) hmin hinc (fun b hb => dd_real hg hn ho hD (Or.inl (by intro h; cases h)) hb)
    rw [e] at gen ⊢
    refine gen hinv ?_ rfl (fun n hn => Or.inl hn) ?_ g1 ?_ g3 ?_ id ?_ ?_ id ?_
    · by_cases hx : D.exact = true <;> simp [hx, Pc.busy]
    · intro q hq
      by_cases hx : D.exact = true
      · simp [hx, Pc.node] at hq
      · simp [hx, Pc.node] at hq; subst hq; exact hn
    · intro b hb
      by_cases hx : D.exact = true <;> simp [hx, Pc.lb] at hb
    · intro h; by_cases hx : D.exact = true <;> simp [hx] at h
    · intro h; by_cases hx : D.exact = true <;> simp [hx] at h
    · intro _ h _
      simp [Pc.busy] at hong; omega
    · exact (dd_type hg hn ho hD).trans hmt
  | read2 =>
    exact gen hinv (by rfl) rfl (fun n hn => Or.inl hn) (fun n hn => hnt n hn) (Int.le_refl _) (by simp [Pc.lb]) hinc (by simp) id (by simp)
      (fun _ h _ => h) id hmt
  | @relaxExact m n lb dd o D ho hD hx =>
    have hn := hnt n rfl
    obtain ⟨lb', sol, e, g1, g2, g3⟩ := maybe_spec (D := D) hmin hinc (fun b hb => dd_real hg hn ho hD (Or.inr hx) hb)
    rw [e] at gen ⊢
    refine gen hinv (by rfl) rfl (fun n hn => Or.inl hn) (by simp [Pc.node]) g1 (by simp [Pc.lb]) g3 (by simp) id (by simp) ?_ id ?_
    · intro _ h _
      simp [Pc.busy] at hong; omega
    · exact (dd_type hg hn ho hD).trans hmt
  | @relaxCut m n lb dd o D f ho hD hx hf =>
    have hn := hnt n rfl
    refine gen hf.inv (by rfl) rfl ?_ (by simp [Pc.node]) (Int.le_refl _) (by simp [Pc.lb]) hinc (by simp) id (by simp) ?_ id ?_
    · intro q hq
      right
      refine hf.all (Genuine cfg.p) (fun a b ha hb _ => combine_genuine ha hb) ?_ (fun q hq => hgen q (Or.inl hq)) q hq
      intro a ha
      obtain ⟨_, q, hq, rfl⟩ := mem_toPush.1 ha
      exact (dd_genuine hg hn ho hD hq).1
    · intro _ h _
      simp [Pc.busy] at hong; omega
    · exact (dd_type hg hn ho hD).trans hmt

theorem act_covered (hg : GoodCfg cfg S B) (hc : CutOK cfg S) {c c' : Crit σ cfg.fr.F} {t t' : Thread σ} {l1 l2 : List (Thread σ)}
    (ha : Act cfg L l1.length c t c' t') (h : Inv L ⟨c, l1 ++ t :: l2⟩) (hcov : Covered L ⟨c, l1 ++ t :: l2⟩) : Covered L ⟨c', l1 ++ t' :: l2⟩ := by
  have hmono := (act_inv hg.base ha h)
  obtain ⟨hinv, hong, hthr, hubs, hgen, hlbs, hmin, hinc, hwait, hdone, hmdd⟩ := h
  simp only [List.mem_append, mem_working] at hgen
  have hmt := hmdd t (mem_split.2 (Or.inr rfl))
  have hnt : ∀ n, Pc.node t.pc = some n → Genuine cfg.p n := fun n hn => hgen n (Or.inr (Or.inr hn))
  have hlt := hlbs t (mem_split.2 (Or.inr rfl))
  -- covered before: by the frontier, another thread, or this one
  have before : c.interrupted = false → ∀ w, Through cfg.p (rootNode cfg) w → c.bestLb < w →
      Covers cfg.p (L.holds c.fringe ++ working (l1 ++ l2)) w ∨ ∃ n, Pc.node t.pc = some n ∧ w ≤ n.ub ∧ ∃ w', Through cfg.p n w' ∧ w ≤ w' := by
    intro hi w hw hlb
    obtain ⟨n, hn, hrest⟩ := hcov hi w hw hlb
    simp only [List.mem_append, mem_working] at hn
    rcases hn with hn | hn | hn
    · exact Or.inl ⟨n, by simp [hn], hrest⟩
    · exact Or.inl ⟨n, List.mem_append.2 (Or.inr hn), hrest⟩
    · exact Or.inr ⟨n, hn, hrest⟩
  have same : c'.interrupted = c.interrupted → c.bestLb ≤ c'.bestLb → (∀ n ∈ L.holds c.fringe, n ∈ L.holds c'.fringe) →
      (∀ n, Pc.node t.pc = some n → Pc.node t'.pc = some n ∨
        ∀ w w', c'.bestLb < w → w ≤ n.ub → Through cfg.p n w' → w ≤ w' → False) → Covered L ⟨c', l1 ++ t' :: l2⟩ := by
    intro e1 e2 e3 e4 hi w hw hlb
    simp only at hi hlb
    rcases before (by rw [← e1]; exact hi) w hw (by omega) with hb | ⟨n, h1, h2, w', h3, h4⟩
    · refine hb.mono ?_
      intro q hq
      rcases List.mem_append.1 hq with hq | hq
      · simp [e3 q hq]
      · exact List.mem_append.2 (Or.inr (mem_working.2 (Or.inl hq)))
    · rcases e4 n h1 with h | h
      · exact ⟨n, List.mem_append.2 (Or.inr (mem_working.2 (Or.inr h))), h2, w', h3, h4⟩
      · exact absurd (h w w' hlb h2 h3 h4) id
  cases ha with
  | complete h1 h2 => exact same rfl (Int.le_refl _) (fun _ h => h) (by simp [Pc.node])
  | stop h1 h2 => exact same rfl (Int.le_refl _) (fun _ h => h) (by simp [Pc.node])
  | interrupt h1 hf h2 h3 => intro h; cases h
  | wait h1 h2 h3 => exact same rfl (Int.le_refl _) (fun _ h => h) (by simp [Pc.node])
  | @prune m n f h1 hf h2 h3 h4 h5 =>
    intro hi w hw hlb
    simp only at hi hlb
    rcases before hi w hw hlb with ⟨q, hq, hub, hrest⟩ | ⟨n, h1, _⟩
    · rcases List.mem_append.1 hq with hq | hq
      · have := h4 q hq; omega
      · exact ⟨q, List.mem_append.2 (Or.inr (mem_working.2 (Or.inl hq))), hub, hrest⟩
    · simp [Pc.node] at h1
  | @take m n f h1 hf h2 h4 h5 =>
    intro hi w hw hlb
    simp only at hi hlb
    rcases before hi w hw hlb with ⟨q, hq, hrest⟩ | ⟨n, h1, _⟩
    · refine ⟨q, ?_, hrest⟩
      simp only [List.mem_append, mem_working]
      rcases List.mem_append.1 hq with hq | hq
      · rcases List.mem_cons.1 (h2.mem_iff.1 hq) with rfl | hq
        · exact Or.inr (Or.inr rfl)
        · exact Or.inl hq
      · exact Or.inr (Or.inl hq)
    · simp [Pc.node] at h1
  | @skip m n h1 =>
    refine same rfl (Int.le_refl _) (fun _ h => h) ?_
    intro q hq
    simp only [Pc.node, Option.some.injEq] at hq
    subst hq
    right; intro w w' a b _ _; omega
  | read1 h1 => exact same rfl (Int.le_refl _) (fun _ h => h) (fun n hn => Or.inl hn)
  | @restrict m n lb o D ho hD =>
    have hn := hnt n rfl
    obtain ⟨lb', sol, e, g1, g2, g3⟩ := maybe_spec (D := D) hmin hinc (fun b hb => dd_real hg.base hn ho hD (Or.inl (by intro h; cases h)) hb)
    rw [e] at same ⊢
    refine same rfl g1 (fun _ h => h) ?_
    intro q hq
    simp only [Pc.node, Option.some.injEq] at hq
    subst hq
    by_cases hx : D.exact = true
    · right
      intro w w' a b hth hle
      have hl : lb ≤ c.bestLb := hlt lb rfl
      have hg1 : c.bestLb ≤ lb' := g1
      rcases dd_bound hg hn ho hD hx hth with h | ⟨b', h1, h2⟩
      · simp only at a; omega
      · have := g2 b' h1; simp only at a; omega
    · left; simp [hx, Pc.node]
  | read2 => exact same rfl (Int.le_refl _) (fun _ h => h) (fun n hn => Or.inl hn)
  | @relaxExact m n lb dd o D ho hD hx =>
    have hn := hnt n rfl
    obtain ⟨lb', sol, e, g1, g2, g3⟩ := maybe_spec (D := D) hmin hinc (fun b hb => dd_real hg.base hn ho hD (Or.inr hx) hb)
    rw [e] at same ⊢
    refine same rfl g1 (fun _ h => h) ?_
    intro q hq
    simp only [Pc.node, Option.some.injEq] at hq
    subst hq
    right
    intro w w' a b hth hle
    have hl : lb ≤ c.bestLb := hlt lb rfl
    have hg1 : c.bestLb ≤ lb' := g1
    rcases dd_bound hg hn ho hD hx hth with h | ⟨b', h1, h2⟩
    · simp only at a; omega
    · have := g2 b' h1; simp only at a; omega
  | @relaxCut m n lb dd o D f ho hD hx hf =>
    have hn := hnt n rfl
    intro hi w hw hlb
    simp only at hi hlb
    have hl : lb ≤ c.bestLb := hlt lb rfl
    have cov : Covers cfg.p (toPush c.bestLb n.ub D.drainCutset ++ L.holds c.fringe) w ∨ Covers cfg.p (working (l1 ++ l2)) w := by
      rcases before hi w hw hlb with ⟨q, hq, hrest⟩ | ⟨q, h1, h2, w', h3, h4⟩
      · rcases List.mem_append.1 hq with hq | hq
        · exact Or.inl ⟨q, by simp [hq], hrest⟩
        · exact Or.inr ⟨q, hq, hrest⟩
      · simp only [Pc.node, Option.some.injEq] at h1
        subst h1
        obtain ⟨q, k1, w'', k2, k3, k4⟩ := dd_cutset hg hc hmt hn ho hD hx h3 (by omega)
        left
        refine ⟨{ q with ub := min n.ub q.ub }, ?_, by simp only; omega, w'', k2, by omega⟩
        exact List.mem_append.2 (Or.inl (mem_toPush.2 ⟨by simp only; omega, q, k1, rfl⟩))
    rcases cov with cov | cov
    · exact (hf.cov cfg.p w cov).mono (fun q hq => List.mem_append.2 (Or.inl hq))
    · exact cov.mono (fun q hq => List.mem_append.2 (Or.inr (mem_working.2 (Or.inl hq))))

theorem wake_mem {l : List (Thread σ)} {x : Thread σ} (h : x ∈ l.map wake) : ∃ y ∈ l, x.mdd = y.mdd ∧ (x.pc = y.pc ∨ x.pc = .idle) ∧ x.pc ≠ .waiting := by
  obtain ⟨y, hy, rfl⟩ := List.mem_map.1 h
  refine ⟨y, hy, ?_⟩
  unfold wake
  obtain ⟨pc, m⟩ := y
  cases pc <;> simp

theorem trans_inv (hg : BaseCfg cfg S B) {b : Bool} {s s' : Sys σ cfg.fr.F} (ht : Trans cfg L b s s') (h : Inv L s) : Inv L s' := by
  cases ht with
  | act ha => exact act_inv hg ha h
  | @finish c m dd l1 l2 hpos =>
    obtain ⟨hinv, hong, hthr, hubs, hgen, hlbs, hmin, hinc, hwait, hdone, hmdd⟩ := h
    have hmem : ∀ y, y ∈ l1 ++ ⟨.idle, m⟩ :: l2 → y ∈ l1 ++ l2 ∨ y = ⟨.idle, m⟩ := fun y hy => mem_split.1 hy
    simp only [List.mem_append, mem_working] at hgen
    simp only [busyCount_split] at hong
    refine ⟨hinv, ?_, by simpa using hthr, by simpa using hubs, ?_, ?_, hmin, hinc, ?_, ?_, ?_⟩
    · simp only [busyCount_wake, busyCount_split]
      simp [Pc.busy] at hong ⊢; omega
    · intro n hn
      simp only [working_wake, List.mem_append, mem_working] at hn
      rcases hn with hn | hn | hn
      · exact hgen n (Or.inl hn)
      · exact hgen n (Or.inr (Or.inl hn))
      · simp [Pc.node] at hn
    · intro x hx lb hlb
      obtain ⟨y, hy, _, hpc, _⟩ := wake_mem hx
      rcases hpc with hpc | hpc
      · rw [hpc] at hlb
        rcases hmem y hy with hy | rfl
        · exact hlbs y (mem_split.2 (Or.inl hy)) lb hlb
        · simp [Pc.lb] at hlb
      · rw [hpc] at hlb; simp [Pc.lb] at hlb
    · intro x hx hw
      obtain ⟨y, hy, _, hpc, hne⟩ := wake_mem hx
      exact absurd hw hne
    · intro x hx hd hi
      obtain ⟨y, hy, _, hpc, _⟩ := wake_mem hx
      rcases hpc with hpc | hpc
      · rw [hpc] at hd
        rcases hmem y hy with hy | rfl
        · have : c.ongoing = 0 := (hdone y (mem_split.2 (Or.inl hy)) hd hi).2.1
          omega
        · cases hd
      · rw [hpc] at hd; cases hd
    · intro x hx
      obtain ⟨y, hy, hm, _⟩ := wake_mem hx
      rw [hm]
      rcases hmem y hy with hy | rfl
      · exact hmdd y (mem_split.2 (Or.inl hy))
      · exact hmdd ⟨.fin dd, m⟩ (mem_split.2 (Or.inr rfl))
  | @spurious c m l1 l2 =>
    obtain ⟨hinv, hong, hthr, hubs, hgen, hlbs, hmin, hinc, hwait, hdone, hmdd⟩ := h
    simp only [List.mem_append, mem_working] at hgen
    simp only [busyCount_split] at hong
    have hmem : ∀ y, y ∈ l1 ++ ⟨.idle, m⟩ :: l2 → y ∈ l1 ++ l2 ∨ y = ⟨.idle, m⟩ := fun y hy => mem_split.1 hy
    refine ⟨hinv, ?_, by simpa using hthr, hubs, ?_, ?_, hmin, hinc, ?_, ?_, ?_⟩
    · simp only [busyCount_split]; exact hong
    · intro n hn
      simp only [List.mem_append, mem_working] at hn
      exact hgen n hn
    · intro x hx lb hlb
      rcases hmem x hx with hx | rfl
      · exact hlbs x (mem_split.2 (Or.inl hx)) lb hlb
      · simp [Pc.lb] at hlb
    · intro x hx hw
      rcases hmem x hx with hx | rfl
      · exact hwait x (mem_split.2 (Or.inl hx)) hw
      · cases hw
    · intro x hx hd hi
      rcases hmem x hx with hx | rfl
      · exact hdone x (mem_split.2 (Or.inl hx)) hd hi
      · cases hd
    · intro x hx
      rcases hmem x hx with hx | rfl
      · exact hmdd x (mem_split.2 (Or.inl hx))
      · exact hmdd ⟨.waiting, m⟩ (mem_split.2 (Or.inr rfl))

theorem trans_covered (hg : GoodCfg cfg S B) (hc : CutOK cfg S) {b : Bool} {s s' : Sys σ cfg.fr.F} (ht : Trans cfg L b s s') (h : Inv L s) (hcov : Covered L s) :
    Covered L s' := by
  cases ht with
  | act ha => exact act_covered hg hc ha h hcov
  | @finish c m dd l1 l2 hpos =>
    intro hi w hw hlb
    refine (hcov hi w hw hlb).mono ?_
    intro q hq
    simp only [working_wake, List.mem_append, mem_working] at hq ⊢
    exact hq
  | @spurious c m l1 l2 =>
    intro hi w hw hlb
    refine (hcov hi w hw hlb).mono ?_
    intro q hq
    simp only [List.mem_append, mem_working] at hq ⊢
    exact hq

theorem mem_replicate_eq {α : Type} {n : Nat} {a x : α} (h : x ∈ List.replicate n a) : x = a := (List.mem_replicate.1 h).2

theorem init_spec (L : FrontierLaws cfg.fr) (hg : BaseCfg cfg S B) : ∃ s, init cfg = some s ∧ Inv L s ∧ Covered L s := by
  obtain ⟨f', h1, h2⟩ := push_one L L.new_inv (rootNode cfg)
  unfold init
  rw [h1]
  refine ⟨_, rfl, ?_, ?_⟩
  · have hb : busyCount (List.replicate cfg.nbThreads (⟨.idle, Dd.new cfg.cutset⟩ : Thread σ)) = 0 := by
      unfold busyCount; rw [List.countP_eq_zero]
      intro x hx; rw [mem_replicate_eq hx]; simp [Pc.busy]
    have hw : working (List.replicate cfg.nbThreads (⟨.idle, Dd.new cfg.cutset⟩ : Thread σ)) = [] := by
      unfold working; rw [List.filterMap_eq_nil_iff]
      intro x hx; rw [mem_replicate_eq hx]; rfl
    refine ⟨h2.inv, hb.symm, by simp, by simp, ?_, ?_, by simp, Or.inl ⟨rfl, rfl⟩, ?_, ?_, ?_⟩
    · intro n hn
      rw [hw, List.append_nil] at hn
      exact h2.all (Genuine cfg.p) (fun a b ha hb _ => combine_genuine ha hb) root_genuine (by rw [L.new_holds]; simp) n hn
    · intro t ht lb hlb; rw [mem_replicate_eq ht] at hlb; simp [Pc.lb] at hlb
    · intro t ht h; rw [mem_replicate_eq ht] at h; cases h
    · intro t ht h; rw [mem_replicate_eq ht] at h; cases h
    · intro t ht; rw [mem_replicate_eq ht]; rfl
  · intro _ w hw _
    refine (h2.cov cfg.p w ⟨rootNode cfg, by simp, ?_, w, hw, Int.le_refl _⟩).mono (by intro q hq; simp [hq])
    obtain ⟨ds, hs⟩ := through_root hw
    exact (solution_bounds hg.wf hs).2

/-- The invariant holds in every reachable state, and no schedule leads to a panic. -/
theorem runs_inv (hg : BaseCfg cfg S B) (hn : cfg.nbThreads ≤ cfg.custom) : ∀ (ls : List (Lbl σ)) (s : Sys σ cfg.fr.F), Inv L s →
    (∀ l ∈ ls, ValidLbl l) → runs cfg s ls ≠ .panic ∧ ∀ s', runs cfg s ls = .ok s' → Inv L s' ∧ (GoodCfg cfg S B → CutOK cfg S → Covered L s → Covered L s') := by
  intro ls
  induction ls with
  | nil => intro s h _; exact ⟨by simp [runs], by intro s' he; cases he; exact ⟨h, fun _ _ h => h⟩⟩
  | cons l ls ih =>
    intro s h hl
    obtain ⟨h1, h2⟩ := step_trans (L := L) hg (h.safe hn) (hl l (by simp))
    unfold runs
    cases hs : step cfg s l with
    | panic => exact absurd hs h1
    | blocked => exact ⟨by simp, by simp⟩
    | ok s1 =>
      simp only
      have ht := h2 s1 hs
      have hi := trans_inv hg ht h
      obtain ⟨g1, g2⟩ := ih s1 hi (fun l hl' => hl l (by simp [hl']))
      refine ⟨g1, ?_⟩
      intro s' he
      obtain ⟨k1, k2⟩ := g2 s' he
      exact ⟨k1, fun hg hc hcov => k2 hg hc (trans_covered hg hc ht h hcov)⟩

theorem reachable_inv (L : FrontierLaws cfg.fr) (hg : BaseCfg cfg S B) (hn : cfg.nbThreads ≤ cfg.custom) {s : Sys σ cfg.fr.F} (hr : Reachable cfg s) :
    Inv L s ∧ (GoodCfg cfg S B → CutOK cfg S → Covered L s) := by
  obtain ⟨s0, ls, h1, h2, h3⟩ := hr
  obtain ⟨s1, g1, g2, g3⟩ := init_spec L hg
  rw [h1] at g1; cases g1
  obtain ⟨k1, k2⟩ := (runs_inv hg hn ls s0 g2 h2).2 s h3
  exact ⟨k1, fun hg hc => k2 hg hc g3⟩

end Verif.Par
