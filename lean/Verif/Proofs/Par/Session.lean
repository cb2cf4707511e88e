import Verif.Proofs.Par.Final
import Verif.Spec.Session
/-! Several calls of the solver without a barrier. -/
set_option autoImplicit false

namespace Verif.Par
open Verif Spec
variable {σ : Type} [DecidableEq σ] [Inhabited σ] {cfg : SolverCfg σ} {S : Layering σ} {B : Int} {L : FrontierLaws cfg.fr}

theorem finished_idle {s : Sys σ cfg.fr.F} (h : Inv L s) (hf : Finished s) : s.crit.ongoing = 0 := by
  rw [h.ong]
  unfold busyCount
  rw [List.countP_eq_zero]
  intro t ht
  rw [hf t ht]; simp [Pc.busy]

/-- The frontier holds something after a push. -/
theorem push_nonempty {f f' : cfg.fr.F} {n : SubProblem σ} (hf : L.inv f) (h : cfg.fr.push f n = some f') : L.holds f' ≠ [] := by
  obtain ⟨f'', h1, _, h3⟩ := L.push f n hf
  rw [h] at h1; cases h1
  intro e
  rcases h3 with h3 | ⟨_, _, _, _, h3⟩ <;> (rw [e] at h3; simp at h3)

/-- A further call starts from a good state. -/
theorem again_spec (hg : BaseCfg cfg S B) {s : Sys σ cfg.fr.F} (h : Inv L s) (hf : Finished s) :
    ∃ s', again cfg s.crit = some s' ∧ Inv L s' ∧ Covered L s' ∧ (∃ f, s'.crit = { s.crit with fringe := f } ∧ L.holds f ≠ []) ∧ ∀ t ∈ s'.threads, t.pc = .idle := by
  obtain ⟨f', h1, h2⟩ := push_one L h.inv (rootNode cfg)
  unfold again
  rw [h1]
  have hb : busyCount (List.replicate cfg.nbThreads (⟨.idle, Dd.new cfg.cutset⟩ : Thread σ)) = 0 := by
    unfold busyCount; rw [List.countP_eq_zero]
    intro x hx; rw [mem_replicate_eq hx]; simp [Pc.busy]
  have hw : working (List.replicate cfg.nbThreads (⟨.idle, Dd.new cfg.cutset⟩ : Thread σ)) = [] := by
    unfold working; rw [List.filterMap_eq_nil_iff]
    intro x hx; rw [mem_replicate_eq hx]; rfl
  refine ⟨_, rfl, ?_, ?_, ⟨f', rfl, push_nonempty h.inv h1⟩, fun t ht => by rw [mem_replicate_eq ht]⟩
  · refine ⟨h2.inv, (finished_idle h hf).trans hb.symm, by simp, h.ubs, ?_, ?_, h.min, h.inc, ?_, ?_, ?_⟩
    · intro n hn
      rw [hw, List.append_nil] at hn
      exact h2.all (Genuine cfg.p) (fun a b ha hb _ => combine_genuine ha hb) root_genuine (fun m hm => h.gen m (by simp [hm])) n hn
    · intro t ht lb hlb; rw [mem_replicate_eq ht] at hlb; simp [Pc.lb] at hlb
    · intro t ht h; rw [mem_replicate_eq ht] at h; cases h
    · intro t ht h; rw [mem_replicate_eq ht] at h; cases h
    · intro t ht; rw [mem_replicate_eq ht]; rfl
  · intro _ w hw _
    refine (h2.cov cfg.p w ⟨rootNode cfg, by simp, ?_, w, hw, Int.le_refl _⟩).mono (by intro q hq; simp [hq])
    obtain ⟨ds, hs⟩ := through_root hw
    exact (solution_bounds hg.wf hs).2

theorem session_inv (L : FrontierLaws cfg.fr) (hg : BaseCfg cfg S B) (hn : cfg.nbThreads ≤ cfg.custom) {stop : Bool} {s : Sys σ cfg.fr.F} (h : Session cfg stop s) :
    Inv L s ∧ (GoodCfg cfg S B → CutOK cfg S → Covered L s) := by
  induction h with
  | first h =>
    obtain ⟨s1, g1, g2, g3⟩ := init_spec L hg
    rw [h] at g1; cases g1
    exact ⟨g2, fun _ _ => g3⟩
  | step _ hv _ hs ih =>
    have ht := (step_trans (L := L) hg (ih.1.safe hn) hv).2 _ hs
    exact ⟨trans_inv hg ht ih.1, fun hg hc => trans_covered hg hc ht ih.1 (ih.2 hg hc)⟩
  | again _ hf hs ih =>
    obtain ⟨s', g1, g2, g3, _⟩ := again_spec hg ih.1 hf
    rw [hs] at g1; cases g1
    exact ⟨g2, fun _ _ => g3⟩

/-- Nothing can happen any more: the search was interrupted in an earlier call, and the threads have only to notice it. -/
structure Stuck (L : FrontierLaws cfg.fr) (s : Sys σ cfg.fr.F) : Prop where
  int : s.crit.interrupted = true
  inv : L.inv s.crit.fringe
  some : L.holds s.crit.fringe ≠ []
  pcs : ∀ t ∈ s.threads, t.pc = .idle ∨ t.pc = .done

theorem Stuck.work {s : Sys σ cfg.fr.F} (h : Stuck L s) (i : Nat) (intr : Bool) : getWorkload cfg s.crit i intr = .some (s.crit, .interruption) := by
  have hl : cfg.fr.len s.crit.fringe ≠ 0 := by
    rw [L.len _ h.inv]
    intro e; exact h.some (List.length_eq_zero_iff.1 e)
  unfold getWorkload
  rw [if_neg (by intro e; exact hl e.2), if_pos h.int]

theorem stuck_step {s s' : Sys σ cfg.fr.F} (h : Stuck L s) {l : Lbl σ} (hs : step cfg s l = .ok s') : s'.crit = s.crit ∧ Stuck L s' ∧
    ∃ i t, s.threads[i]? = .some t ∧ s'.threads = s.threads.set i { t with pc := .done } := by
  cases l with
  | spurious i =>
    simp only [step] at hs
    cases ht : s.threads[i]? with
    | none => simp only [ht] at hs; cases hs
    | some t =>
      simp only [ht] at hs
      rcases h.pcs t (List.mem_of_getElem? ht) with e | e <;> (simp only [e] at hs; cases hs)
  | run i intr o =>
    simp only [step] at hs
    cases ht : s.threads[i]? with
    | none => simp only [ht] at hs; cases hs
    | some t =>
      simp only [ht] at hs
      rcases h.pcs t (List.mem_of_getElem? ht) with e | e
      · simp only [stepThread, e, h.work] at hs
        cases hs
        refine ⟨rfl, ⟨h.int, h.inv, h.some, ?_⟩, i, t, ht, rfl⟩
        intro x hx
        rcases List.mem_or_eq_of_mem_set hx with hx | rfl
        · exact h.pcs x hx
        · exact Or.inr rfl
      · simp only [stepThread, e] at hs; cases hs

theorem stuck_runs : ∀ (ls : List (Lbl σ)) (s s' : Sys σ cfg.fr.F), Stuck L s → runs cfg s ls = .ok s' → s'.crit = s.crit ∧ Stuck L s' := by
  intro ls
  induction ls with
  | nil => intro s s' h hs; cases hs; exact ⟨rfl, h⟩
  | cons l ls ih =>
    intro s s' h hs
    unfold runs at hs
    cases h1 : step cfg s l with
    | panic => rw [h1] at hs; cases hs
    | blocked => rw [h1] at hs; cases hs
    | ok s1 =>
      rw [h1] at hs
      obtain ⟨g1, g2, _⟩ := stuck_step h h1
      obtain ⟨k1, k2⟩ := ih s1 s' g2 hs
      exact ⟨k1.trans g1, k2⟩

theorem again_stuck (hg : BaseCfg cfg S B) {s s' : Sys σ cfg.fr.F} (h : Inv L s) (hf : Finished s) (hi : s.crit.interrupted = true) (hs : again cfg s.crit = some s') :
    Stuck L s' := by
  obtain ⟨s1, g1, g2, _, ⟨f, g4, g5⟩, g6⟩ := again_spec hg h hf
  rw [hs] at g1; cases g1
  have e : s'.crit.fringe = f := by rw [g4]
  exact ⟨by rw [g4]; exact hi, g2.inv, by rw [e]; exact g5, fun t ht => Or.inl (g6 t ht)⟩

/-- With one thread the bounds reported after an interruption are valid, also in later calls. -/
theorem session_int (L : FrontierLaws cfg.fr) (hg : GoodCfg cfg S B) (hc : CutOK cfg S) (hn : cfg.nbThreads ≤ cfg.custom) (h1 : cfg.nbThreads = 1) {stop : Bool}
    {s : Sys σ cfg.fr.F} (h : Session cfg stop s) : s.crit.interrupted = true →
      ((∀ t ∈ s.threads, t.pc = .done) ∨ Stuck L s) ∧ ∀ w, Through cfg.p (rootNode cfg) w → w ≤ s.crit.bestLb ∨ w ≤ s.crit.bestUb := by
  induction h with
  | first h => intro hi; rw [(init_noint h).1] at hi; cases hi
  | @step s s' l h hv _ hs ih =>
    have hi := session_inv L hg.base hn h
    have ht := (step_trans (L := L) hg.base (hi.1.safe hn) hv).2 _ hs
    by_cases e : s.crit.interrupted = true
    · obtain ⟨g1, g2⟩ := ih e
      rcases g1 with g1 | g1
      · exfalso
        cases l with
        | spurious i =>
          simp only [step] at hs
          cases ht : s.threads[i]? with
          | none => simp only [ht] at hs; cases hs
          | some t => simp only [ht, g1 t (List.mem_of_getElem? ht)] at hs; cases hs
        | run i intr o =>
          simp only [step] at hs
          cases ht : s.threads[i]? with
          | none => simp only [ht] at hs; cases hs
          | some t => simp only [ht, stepThread, g1 t (List.mem_of_getElem? ht)] at hs; cases hs
      · obtain ⟨k1, k2, _⟩ := stuck_step g1 hs
        intro _
        rw [k1]; exact ⟨Or.inr k2, g2⟩
    · intro hi'
      obtain ⟨g1, g2⟩ := trans_int hg.base h1 ht hi.1 (hi.2 hg hc) (fun h => absurd h e) hi'
      exact ⟨Or.inl g1, g2⟩
  | @again s s' h hf hs ih =>
    have hi := session_inv L hg.base hn h
    obtain ⟨s1, g1, _, _, ⟨f, g4, _⟩, _⟩ := again_spec hg.base hi.1 hf
    rw [hs] at g1; cases g1
    intro e
    have e' : s.crit.interrupted = true := by rw [g4] at e; exact e
    refine ⟨Or.inr (again_stuck hg.base hi.1 hf e' hs), ?_⟩
    rw [g4]; exact (ih e').2

/-- Without interruptions nothing is ever marked as interrupted. -/
theorem session_noint (L : FrontierLaws cfg.fr) (hg : BaseCfg cfg S B) (hn : cfg.nbThreads ≤ cfg.custom) {s : Sys σ cfg.fr.F} (h : Session cfg false s) :
    s.crit.interrupted = false := by
  induction h with
  | first h => exact (init_noint h).1
  | @step s s' l h hv hl hs ih => exact (step_noint (hl rfl) hs).trans ih
  | @again s s' h hf hs ih =>
    obtain ⟨s1, g1, _, _, ⟨f, g4, _⟩, _⟩ := again_spec hg (session_inv L hg hn h).1 hf
    rw [hs] at g1; cases g1
    rw [g4]; exact ih

end Verif.Par
