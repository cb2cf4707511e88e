import Verif.Proofs.Bar.Trans
/-! The invariant of a run with a barrier, for any number of threads and whatever they see of the barrier. -/
set_option autoImplicit false

namespace Verif.Bar
open Verif Spec
open Verif.Par (split_at toPush toPush_cons mem_toPush input push_one rootNode mem_split root_genuine)
variable {σ : Type} [DecidableEq σ] [Inhabited σ] {cfg : SolverCfg σ} {L : FrontierLaws cfg.fr} {S : Layering σ} {B : Int}

section mdd
variable {o : Oracle σ} {n : SubProblem σ} {lb : Int} {m D : Dd σ} {t : CompilationType} {rd : Reads σ}

theorem dd_type (hg : BaseCfg cfg S B) (hn : Genuine cfg.p n) (ho : o.Valid)
    (hD : m.compile .barrier o cfg.p cfg.r cfg.rank rd (input cfg t n lb) = some D) : D.cutsetType = m.cutsetType :=
  Par.compile_cutsetType ho hg.wf (Par.inp_rel hg) (Par.inp_width hg) hn hD

theorem dd_real (hg : BaseCfg cfg S B) (hn : Genuine cfg.p n) (ho : o.Valid)
    (hD : m.compile .barrier o cfg.p cfg.r cfg.rank rd (input cfg t n lb) = some D) (hx : t ≠ .relaxed ∨ D.exact = true) {b : Int}
    (hb : D.bestValue = some b) : ∃ sol, D.bestSolution = some sol ∧ IsSolutionOf cfg.p sol b := by
  have hs := Props.solution_iff_value D
  rw [hb] at hs
  obtain ⟨sol, hsol⟩ := Option.isSome_iff_exists.1 hs
  obtain ⟨b', g1, g2, _⟩ := Props.solution_real ho hg.wf (Par.inp_rel hg) (Par.inp_width hg) hn m hD hx hsol
  rw [hb] at g1; cases g1
  exact ⟨sol, hsol, g2⟩

theorem dd_genuine (hg : BaseCfg cfg S B) (hn : Genuine cfg.p n) (ho : o.Valid)
    (hD : m.compile .barrier o cfg.p cfg.r cfg.rank rd (input cfg t n lb) = some D) {q : SubProblem σ} (hq : q ∈ D.drainCutset) :
    Genuine cfg.p q ∧ n.path.length < q.path.length := by
  obtain ⟨h1, h2, _⟩ := Props.cutset_genuine ho hg.wf (Par.inp_rel hg) (Par.inp_width hg) hn m hD hq
  exact ⟨h1, h2⟩
end mdd

theorem Compiled.genuine (hg : BaseCfg cfg S B) {n : SubProblem σ} {D : Dd σ} (hn : Genuine cfg.p n) (h : Compiled cfg n D) {q : SubProblem σ}
    (hq : q ∈ D.drainCutset) : Genuine cfg.p q ∧ n.path.length < q.path.length := by
  obtain ⟨o, lb, v, m, ho, hD⟩ := h
  exact dd_genuine hg hn ho hD hq

theorem Compiled.real (hg : BaseCfg cfg S B) {n : SubProblem σ} {D : Dd σ} (hn : Genuine cfg.p n) (h : Compiled cfg n D) (hx : D.exact = true) {b : Int}
    (hb : D.bestValue = some b) : ∃ sol, D.bestSolution = some sol ∧ IsSolutionOf cfg.p sol b := by
  obtain ⟨o, lb, v, m, ho, hD⟩ := h
  exact dd_real hg hn ho hD (Or.inr hx) hb

/-- The incumbent is a solution of the recorded value. -/
def Incumbent (c : BCrit σ cfg.fr.F) : Prop :=
  (c.bestSol = none ∧ c.bestLb = isizeMin) ∨ ∃ sol, c.bestSol = some sol ∧ IsSolutionOf cfg.p sol c.bestLb

theorem maybe_spec {c : BCrit σ cfg.fr.F} {D : Dd σ} (hm : isizeMin ≤ c.bestLb) (hi : Incumbent c)
    (hr : ∀ b, D.bestValue = some b → ∃ sol, D.bestSolution = some sol ∧ IsSolutionOf cfg.p sol b) :
    ∃ lb sol, maybeUpdateBest cfg c D = { c with bestLb := lb, bestSol := sol } ∧ c.bestLb ≤ lb ∧ (∀ b, D.bestValue = some b → b ≤ lb) ∧
      Incumbent ({ c with bestLb := lb, bestSol := sol } : BCrit σ cfg.fr.F) := by
  unfold maybeUpdateBest
  cases hb : D.bestValue with
  | none =>
    refine ⟨c.bestLb, c.bestSol, ?_, Int.le_refl _, by simp, hi⟩
    simp only [Option.getD_none]
    rw [if_neg (by omega)]
  | some b =>
    simp only [Option.getD_some, Option.some.injEq, forall_eq']
    by_cases h : b > c.bestLb
    · rw [if_pos h]
      obtain ⟨sol, h1, h2⟩ := hr b hb
      exact ⟨b, D.bestSolution, rfl, by omega, by omega, Or.inr ⟨sol, h1, h2⟩⟩
    · rw [if_neg h]
      exact ⟨c.bestLb, c.bestSol, rfl, Int.le_refl _, by omega, hi⟩

variable (L) in
/-- `fresh`: the solver is in its first call, so that no node is above the lowest active layer; `lost`: the number of nodes that were taken and lost. -/
structure Inv (s : BSys σ cfg.fr.F) (fresh : Bool := true) (lost : Nat := 0) : Prop where
  inv : L.inv s.crit.fringe
  ong : s.crit.ongoing = busyCount s.threads + lost
  thr : s.threads.length = cfg.nbThreads
  ubs : s.crit.upperBounds.length = cfg.custom
  genF : ∀ n ∈ L.holds s.crit.fringe, Genuine cfg.p n
  genW : ∀ n ∈ working s.threads, Genuine cfg.p n
  len : s.crit.openBy.length = cfg.p.nbVars + 1 ∧ s.crit.ongoingBy.length = cfg.p.nbVars + 1 ∧ s.bars.length = cfg.p.nbVars + 1
  cntO : ∀ d, atDepth (L.holds s.crit.fringe) d ≤ s.crit.openBy.getD d 0
  low : s.crit.lowest ≤ cfg.p.nbVars
  cntG : ∀ d, s.crit.ongoingBy.getD d 0 = heldAt s.threads d
  post : ∀ t ∈ s.threads, ∀ n dd, t.pc = .post n dd → Genuine cfg.p n ∧ Compiled cfg n t.mdd
  lbs : ∀ t ∈ s.threads, ∀ lb, Pc.lb t.pc = some lb → lb ≤ s.crit.bestLb
  min : isizeMin ≤ s.crit.bestLb
  inc : Incumbent s.crit
  wait : ∀ t ∈ s.threads, t.pc = .waiting → 0 < s.crit.ongoing
  done : ∀ t ∈ s.threads, t.pc = .done → s.crit.interrupted = false → L.holds s.crit.fringe = [] ∧ s.crit.ongoing = 0 ∧ s.crit.bestUb = s.crit.bestLb
  mdd : ∀ t ∈ s.threads, t.mdd.cutsetType = cfg.cutset
  lowF : fresh = true → ∀ n ∈ L.holds s.crit.fringe, s.crit.lowest ≤ n.path.length
  lowH : fresh = true → ∀ t ∈ s.threads, ∀ d, heldDepth t = some d → s.crit.lowest ≤ d

theorem Inv.safe {s : BSys σ cfg.fr.F} {e : Bool} {k : Nat} (h : Inv L s e k) (hn : cfg.nbThreads ≤ cfg.custom) : Safe (L := L) s True k :=
  ⟨h.inv, h.ong, fun _ => by rw [h.thr, h.ubs]; exact hn, h.genF, h.genW, h.len, h.cntO, h.low, h.cntG, h.post⟩

theorem mic_inv {v : Option (View σ)} {c c' : BCrit σ cfg.fr.F} {b b' : Bars σ} {ts : List (BThread σ)} (hm : Mic cfg L v c b c' b')
    {e : Bool} {k : Nat} (h : Inv L ⟨c, b, ts⟩ e k) : Inv L ⟨c', b', ts⟩ e k := by
  have hs := (mic_safe (L := L) ⟨h.inv, h.genF, h.len, h.cntO, h.low⟩ hm).1
  cases hm with
  | clean h1 h2 h3 hb =>
    refine ⟨hs.inv, h.ong, h.thr, h.ubs, hs.gen, h.genW, hs.len, hs.cntO, hs.low, h.cntG, h.post, h.lbs, h.min, h.inc, h.wait, h.done, h.mdd, ?_, ?_⟩
    · intro he n hn
      have a1 := h.lowF he n hn
      have a2 := h.cntO c.lowest
      simp only at a1 a2 ⊢
      rw [h2] at a2
      have : n.path.length ≠ c.lowest := by
        intro e
        have : 0 < atDepth (L.holds c.fringe) c.lowest := List.countP_pos_iff.2 ⟨n, hn, by simp [e]⟩
        omega
      omega
    · intro he t ht d hd
      have a1 := h.lowH he t ht d hd
      have a2 := h.cntG c.lowest
      simp only at a1 a2 ⊢
      rw [h3] at a2
      have : d ≠ c.lowest := by
        rintro rfl
        have : 0 < heldAt ts c.lowest := List.countP_pos_iff.2 ⟨t, ht, by simp [hd]⟩
        omega
      omega
  | @skip n f ob k h1 hf h2 h4 h5 h6 ho =>
    refine ⟨hs.inv, h.ong, h.thr, h.ubs, hs.gen, h.genW, hs.len, hs.cntO, hs.low, h.cntG, h.post, h.lbs, h.min, h.inc, h.wait, ?_, h.mdd, ?_, h.lowH⟩
    · intro t ht hd hi
      have := (h.done t ht hd hi).1
      simp only at this
      rw [this] at h2; simp at h2
    · intro he q hq
      exact h.lowF he q (h2.mem_iff.2 (by simp [show q ∈ L.holds f from hq]))

theorem mics_inv {v : Option (View σ)} {c c' : BCrit σ cfg.fr.F} {b b' : Bars σ} {ts : List (BThread σ)} (hm : Mics cfg L v c b c' b')
    {e : Bool} {k : Nat} (h : Inv L ⟨c, b, ts⟩ e k) : Inv L ⟨c', b', ts⟩ e k := by
  induction hm with
  | nil => exact h
  | cons h1 _ ih => exact ih (mic_inv h1 h)

/-- Preservation by the steps that are a critical section of one thread. -/
theorem act_inv (hg : BaseCfg cfg S B) {v : Option (View σ)} {c c' : BCrit σ cfg.fr.F} {b b' : Bars σ} {t t' : BThread σ} {l1 l2 : List (BThread σ)}
    (ha : Act cfg L v l1.length c b t c' b' t') {fresh : Bool} {k : Nat} (h : Inv L ⟨c, b, l1 ++ t :: l2⟩ fresh k) : Inv L ⟨c', b', l1 ++ t' :: l2⟩ fresh k := by
  obtain ⟨hinv, hong, hthr, hubs, hgenF, hgenW, hlen, hcntO, hlow, hcntG, hpost, hlbs, hmin, hinc, hwait, hdone, hmdd, hlowF, hlowH⟩ := h
  have hthr' : (l1 ++ t' :: l2).length = cfg.nbThreads := by simpa using hthr
  simp only [mem_working] at hgenW
  simp only [busyCount_split] at hong
  simp only [heldAt_split] at hcntG
  -- the general form
  have gen : ∀ (hinv' : L.inv c'.fringe) (hong' : c'.ongoing + (if (heldDepth t).isSome then 1 else 0) = c.ongoing + (if (heldDepth t').isSome then 1 else 0))
      (hubs' : c'.upperBounds.length = c.upperBounds.length)
      (hgenF' : ∀ n ∈ L.holds c'.fringe, n ∈ L.holds c.fringe ∨ (Genuine cfg.p n ∧ (fresh = true → c.lowest ≤ n.path.length)))
      (hgent : ∀ n, Pc.node t'.pc = some n → Genuine cfg.p n)
      (hlen' : c'.openBy.length = c.openBy.length ∧ c'.ongoingBy.length = c.ongoingBy.length ∧ b'.length = b.length)
      (hcntO' : ∀ d, atDepth (L.holds c'.fringe) d ≤ c'.openBy.getD d 0)
      (hlow' : c'.lowest = c.lowest)
      (hcntG' : ∀ d, c'.ongoingBy.getD d 0 + (if heldDepth t = some d then 1 else 0) = c.ongoingBy.getD d 0 + (if heldDepth t' = some d then 1 else 0))
      (hpost' : ∀ n dd, t'.pc = .post n dd → Genuine cfg.p n ∧ Compiled cfg n t'.mdd)
      (hlb : c.bestLb ≤ c'.bestLb) (hlbt : ∀ lb, Pc.lb t'.pc = some lb → lb ≤ c'.bestLb) (hinc' : Incumbent c')
      (hw' : t'.pc = .waiting → 0 < c'.ongoing) (hpos : 0 < c.ongoing → 0 < c'.ongoing)
      (hd' : t'.pc = .done → c'.interrupted = false → L.holds c'.fringe = [] ∧ c'.ongoing = 0 ∧ c'.bestUb = c'.bestLb)
      (hd'' : c'.interrupted = false → (L.holds c.fringe = [] ∧ c.ongoing = 0 ∧ c.bestUb = c.bestLb) → c.interrupted = false →
        L.holds c'.fringe = [] ∧ c'.ongoing = 0 ∧ c'.bestUb = c'.bestLb) (hint : c.interrupted = true → c'.interrupted = true)
      (hm' : t'.mdd.cutsetType = cfg.cutset)
      (hlowt : fresh = true → ∀ d, heldDepth t' = some d → c.lowest ≤ d), Inv L ⟨c', b', l1 ++ t' :: l2⟩ fresh k := by
    intro hinv' hong' hubs' hgenF' hgent hlen' hcntO' hlow' hcntG' hpost' hlb hlbt hinc' hw' hpos hd' hd'' hint hm' hlowt
    refine ⟨hinv', ?_, hthr', by rw [hubs']; exact hubs, ?_, ?_, ?_, hcntO', by rw [hlow']; exact hlow, ?_, ?_, ?_, Int.le_trans hmin hlb, hinc', ?_, ?_, ?_, ?_, ?_⟩
    · simp only [busyCount_split]; omega
    · intro n hn
      rcases hgenF' n hn with h | h
      · exact hgenF n h
      · exact h.1
    · intro n hn
      simp only [mem_working] at hn
      rcases hn with hn | hn
      · exact hgenW n (Or.inl hn)
      · exact hgent n hn
    · simp only at hlen ⊢
      rw [hlen'.1, hlen'.2.1, hlen'.2.2]; exact hlen
    · intro d
      have h1 := hcntG d
      have h2 := hcntG' d
      simp only [heldAt_split]
      omega
    · intro x hx n dd hpc
      rcases mem_split.1 hx with hx | rfl
      · exact hpost x (mem_split.2 (Or.inl hx)) n dd hpc
      · exact hpost' n dd hpc
    · intro x hx lb hlb'
      rcases mem_split.1 hx with hx | rfl
      · exact Int.le_trans (hlbs x (mem_split.2 (Or.inl hx)) lb hlb') hlb
      · exact hlbt lb hlb'
    · intro x hx hw
      rcases mem_split.1 hx with hx | rfl
      · exact hpos (hwait x (mem_split.2 (Or.inl hx)) hw)
      · exact hw' hw
    · intro x hx hd hi
      rcases mem_split.1 hx with hx | rfl
      · have hi0 : c.interrupted = false := by
          cases hc : c.interrupted
          · rfl
          · rw [hint hc] at hi; cases hi
        exact hd'' hi (hdone x (mem_split.2 (Or.inl hx)) hd hi0) hi0
      · exact hd' hd hi
    · intro x hx
      rcases mem_split.1 hx with hx | rfl
      · exact hmdd x (mem_split.2 (Or.inl hx))
      · exact hm'
    · intro he n hn
      simp only [hlow']
      rcases hgenF' n hn with h | h
      · exact hlowF he n h
      · exact h.2 he
    · intro he x hx d hd
      simp only [hlow']
      rcases mem_split.1 hx with hx | rfl
      · exact hlowH he x (mem_split.2 (Or.inl hx)) d hd
      · exact hlowt he d hd
  have hmt := hmdd t (mem_split.2 (Or.inr rfl))
  have hnt : ∀ n, Pc.node t.pc = some n → Genuine cfg.p n := fun n hn => hgenW n (Or.inr hn)
  have hlt := hlbs t (mem_split.2 (Or.inr rfl))
  have hht := fun he => hlowH he t (mem_split.2 (Or.inr rfl))
  have hpt := hpost t (mem_split.2 (Or.inr rfl))
  have keepF : ∀ n ∈ L.holds c.fringe, n ∈ L.holds c.fringe ∨ (Genuine cfg.p n ∧ (fresh = true → c.lowest ≤ n.path.length)) := fun n hn => Or.inl hn
  cases ha with
  | complete h1 h2 =>
    refine gen hinv (by rfl) rfl keepF (by simp [Pc.node]) ⟨rfl, rfl, rfl⟩ hcntO rfl (fun _ => rfl) (by simp) (Int.le_refl _) (by simp [Pc.lb]) hinc (by simp) id
      ?_ ?_ id hmt (by simp [heldDepth])
    · intro _ _; exact ⟨h2, h1, rfl⟩
    · intro _ _ _; exact ⟨h2, h1, rfl⟩
  | stop h1 =>
    refine gen hinv (by rfl) rfl keepF (by simp [Pc.node]) ⟨rfl, rfl, rfl⟩ hcntO rfl (fun _ => rfl) (by simp) (Int.le_refl _) (by simp [Pc.lb]) hinc (by simp) id
      ?_ ?_ id hmt (by simp [heldDepth])
    · intro _ h; rw [h1] at h; cases h
    · intro h; rw [h1] at h; cases h
  | interrupt h1 hf h2 h3 =>
    refine gen hf (by rfl) rfl (by simp [h2]) (by simp [Pc.node]) ⟨rfl, rfl, rfl⟩ (by simp [h2, atDepth]) rfl (fun _ => rfl) (by simp) (Int.le_refl _)
      (by simp [Pc.lb]) hinc (by simp) id ?_ ?_ (by simp) hmt (by simp [heldDepth])
    · intro _ h; cases h
    · intro h; cases h
  | wait h1 h2 h3 =>
    exact gen hinv (by rfl) rfl keepF (by simp [Pc.node]) ⟨rfl, rfl, rfl⟩ hcntO rfl (fun _ => rfl) (by simp) (Int.le_refl _) (by simp [Pc.lb]) hinc
      (fun _ => h2) id (by simp) (fun _ h _ => h) id hmt (by simp [heldDepth])
  | prune h1 hf h2 h3 h4 h5 =>
    refine gen hf (by rfl) rfl (by simp [h2]) (by simp [Pc.node]) ⟨by simp, rfl, rfl⟩ (by simp [h2, atDepth]) rfl (fun _ => rfl) (by simp) (Int.le_refl _)
      (by simp [Pc.lb]) hinc (by simp) id (by simp) ?_ id hmt (by simp [heldDepth])
    intro _ h _; exact ⟨h2, h.2⟩
  | @drop m n f ob k h1 hf h2 h4 h5 h6 ho h7 =>
    have hm : Mic cfg L v c b { c with fringe := f, openBy := ob } b := .skip h1 hf h2 h4 h5 h6 ho
    have hs := (mic_safe (L := L) ⟨hinv, hgenF, hlen, hcntO, hlow⟩ hm).1
    refine gen hf (by rfl) rfl (by simp [h7]) (by simp [Pc.node]) ⟨by rw [hs.len.1]; exact hlen.1.symm, rfl, rfl⟩ hs.cntO rfl (fun _ => rfl) (by simp)
      (Int.le_refl _) (by simp [Pc.lb]) hinc (by simp) id (by simp) ?_ id hmt (by simp [heldDepth])
    intro _ h _; exact ⟨h7, h.2⟩
  | @take m n f ob gb b' k h1 hf h2 h4 h5 h6 ho hgb hb =>
    have hn : n ∈ L.holds c.fringe := h2.mem_iff.2 (by simp)
    have hc := hcntO n.path.length
    simp only at hc
    rw [atDepth_perm h2, atDepth_cons, if_pos rfl] at hc
    obtain ⟨ob', k1, k2, k3⟩ := decAt_spec (l := c.openBy) (d := n.path.length) (by omega)
    rw [ho] at k1; cases k1
    have hroot := (hgenF n hn).rootOK hg.wf
    obtain ⟨gb', j1, j2, j3⟩ := incAt_spec (l := c.ongoingBy) (d := n.path.length) (by
      have := hroot.le; have h8 := hlen.2.1; simp only at h8; omega)
    rw [hgb] at j1; cases j1
    refine gen hf (by simp [heldDepth]) (by simp) (fun q hq => Or.inl (h2.mem_iff.2 (by simp [show q ∈ L.holds f from hq]))) ?_
      ⟨k2, j2, Bars.length_insert hb⟩ ?_ rfl ?_ (by simp) (Int.le_refl _) (by simp [Pc.lb]) hinc (by simp)
      (by simp) (by simp) ?_ id hmt ?_
    · intro q hq
      simp only [Pc.node, Option.some.injEq] at hq
      subst hq
      exact hgenF n hn
    · intro d
      have h7 := hcntO d
      simp only at h7 ⊢
      rw [atDepth_perm h2, atDepth_cons] at h7
      rw [k3 d]
      by_cases hd : n.path.length = d
      · rw [if_pos hd] at h7; rw [if_pos hd.symm]; omega
      · rw [if_neg hd] at h7; rw [if_neg fun h => hd h.symm]; omega
    · intro d
      simp only [heldDepth, j3 d]
      by_cases hd : d = n.path.length
      · subst hd; simp
      · have hd' : ¬ n.path.length = d := fun h => hd h.symm
        simp [hd, hd']
    · intro _ h _
      rw [h.1] at h2
      simp at h2
    · intro he d hd
      simp only [heldDepth, Option.some.injEq] at hd
      subst hd
      exact hlowF he n hn
  | @early m n h1 =>
    refine gen hinv (by rfl) rfl keepF (by simp [Pc.node]) ⟨rfl, rfl, rfl⟩ hcntO rfl (fun _ => rfl) (by simp) (Int.le_refl _) (by simp [Pc.lb]) hinc (by simp) id
      (by simp) (fun _ h _ => h) id hmt hht
  | read1 h1 =>
    exact gen hinv (by rfl) rfl keepF (fun n hn => hnt n hn) ⟨rfl, rfl, rfl⟩ hcntO rfl (fun _ => rfl) (by simp) (Int.le_refl _) (by simp [Pc.lb]) hinc (by simp) id
      (by simp) (fun _ h _ => h) id hmt hht
  | @restrict m n lb o D ho hD hu =>
    have hn := hnt n rfl
    obtain ⟨lb', sol, e, g1, g2, g3⟩ := maybe_spec (D := D) hmin hinc (fun b hb => dd_real hg hn ho hD (Or.inl (by intro h; cases h)) hb)
    rw [e] at gen ⊢
    refine gen hinv ?_ rfl keepF ?_ ⟨rfl, rfl, rfl⟩ hcntO rfl ?_ ?_ g1 ?_ g3 ?_ id ?_ ?_ id ?_ ?_
    · by_cases hx : D.exact = true <;> simp [hx, heldDepth]
    · intro q hq
      by_cases hx : D.exact = true
      · simp [hx, Pc.node] at hq
      · simp [hx, Pc.node] at hq; subst hq; exact hn
    · intro d
      by_cases hx : D.exact = true <;> simp [hx, heldDepth]
    · intro q dd h; by_cases hx : D.exact = true <;> simp [hx] at h
    · intro b hb
      by_cases hx : D.exact = true <;> simp [hx, Pc.lb] at hb
    · intro h; by_cases hx : D.exact = true <;> simp [hx] at h
    · intro h; by_cases hx : D.exact = true <;> simp [hx] at h
    · intro _ h _
      simp [heldDepth] at hong; omega
    · exact (dd_type hg hn ho hD).trans hmt
    · intro he d hd
      apply hht he
      by_cases hx : D.exact = true <;> simp [hx, heldDepth] at hd ⊢ <;> exact hd
  | read2 =>
    exact gen hinv (by rfl) rfl keepF (fun n hn => hnt n hn) ⟨rfl, rfl, rfl⟩ hcntO rfl (fun _ => rfl) (by simp) (Int.le_refl _) (by simp [Pc.lb]) hinc (by simp) id
      (by simp) (fun _ h _ => h) id hmt hht
  | @relax m n lb dd o D b' ho hD hb =>
    have hn := hnt n rfl
    obtain ⟨b2, k1, k2, _⟩ := Bars.tryUpdates_spec D.updates b (fun x hx => by
      have h1 := (dd_updates hg hn ho hD hx).2.2.2.2
      have h2 := hlen.2.2
      simp only at h2
      omega)
    rw [hb] at k1; cases k1
    refine gen hinv (by rfl) rfl keepF (by simp [Pc.node]) ⟨rfl, rfl, k2⟩ hcntO rfl (fun _ => rfl) ?_ (Int.le_refl _) (by simp [Pc.lb]) hinc (by simp) id
      (by simp) (fun _ h _ => h) id ((dd_type hg hn ho hD).trans hmt) hht
    intro q dd' h
    simp only [BPc.post.injEq] at h
    obtain ⟨rfl, _⟩ := h
    exact ⟨hn, o, lb, seen v b, m, ho, hD⟩
  | @postExact D n dd hx =>
    obtain ⟨hn, hcomp⟩ := hpt n dd rfl
    obtain ⟨lb', sol, e, g1, g2, g3⟩ := maybe_spec (D := D) hmin hinc (fun b hb => hcomp.real hg hn hx hb)
    rw [e] at gen ⊢
    refine gen hinv (by rfl) rfl keepF (by simp [Pc.node]) ⟨rfl, rfl, rfl⟩ hcntO rfl (fun _ => rfl) (by simp) g1 (by simp [Pc.lb]) g3 (by simp) id
      (by simp) ?_ id hmt hht
    intro _ h _
    simp [heldDepth] at hong; omega
  | @postCut D n dd f ob hx hf =>
    obtain ⟨hn, hcomp⟩ := hpt n dd rfl
    have hlo := fun he => hht he n.path.length rfl
    refine gen hf.inv (by rfl) rfl ?_ (by simp [Pc.node]) ⟨hf.len, rfl, rfl⟩ (hf.cnt hcntO) rfl (fun _ => rfl) (by simp) (Int.le_refl _) (by simp [Pc.lb]) hinc
      (by simp) id (by simp) ?_ id hmt hht
    · intro q hq
      right
      obtain ⟨q', h1, h2, h3, h4, _⟩ := hf.ref.src q hq
      have key : Genuine cfg.p q' ∧ (fresh = true → c.lowest ≤ q'.path.length) := by
        rcases List.mem_append.1 h1 with h1 | h1
        · obtain ⟨_, a, ha, rfl⟩ := mem_toPush.1 h1
          obtain ⟨a1, a2⟩ := hcomp.genuine hg hn ha
          exact ⟨a1, fun he => by have := hlo he; simp only at this ⊢; omega⟩
        · exact ⟨hgenF q' h1, fun he => hlowF he q' h1⟩
      obtain ⟨⟨ds, e1, e2⟩, k2⟩ := key
      rw [h4] at e1 k2
      rw [h2, h3] at e2
      exact ⟨⟨ds, e1, e2⟩, k2⟩
    · intro _ h _
      simp [heldDepth] at hong; omega

theorem wake_mem {l : List (BThread σ)} {x : BThread σ} (hx : x ∈ l.map wake) : x ∈ l ∨ ∃ m, ⟨.waiting, m⟩ ∈ l ∧ x = ⟨.idle, m⟩ := by
  obtain ⟨y, hy, rfl⟩ := List.mem_map.1 hx
  obtain ⟨pc, m⟩ := y
  cases pc with
  | waiting => exact Or.inr ⟨m, hy, rfl⟩
  | _ => exact Or.inl hy

theorem trans_inv (hg : BaseCfg cfg S B) {v : Option (View σ)} {r : Bool} {s s' : BSys σ cfg.fr.F} {e : Bool} {k : Nat} (ht : Trans cfg L v r s s') (h : Inv L s e k) : Inv L s' e k := by
  cases ht with
  | act hm hi ha => exact act_inv hg ha (mics_inv hm h)
  | @finish c b m d dd gb l1 l2 h0 hgb =>
    obtain ⟨hinv, hong, hthr, hubs, hgenF, hgenW, hlen, hcntO, hlow, hcntG, hpost, hlbs, hmin, hinc, hwait, hdone, hmdd, hlowF, hlowH⟩ := h
    have mem : ∀ x ∈ (l1 ++ ⟨.idle, m⟩ :: l2).map wake, x ∈ l1 ++ l2 ∨ (x.pc = .idle ∧ (⟨.fin d dd, x.mdd⟩ ∈ l1 ++ ⟨.fin d dd, m⟩ :: l2 ∨ ⟨.waiting, x.mdd⟩ ∈ l1 ++ l2)) := by
      intro x hx
      rcases wake_mem hx with hx | ⟨m', hm', rfl⟩
      · rcases mem_split.1 hx with hx | rfl
        · exact Or.inl hx
        · exact Or.inr ⟨rfl, Or.inl (by simp)⟩
      · rcases mem_split.1 hm' with hx | hx
        · exact Or.inr ⟨rfl, Or.inr hx⟩
        · cases hx
    have hdn : ∀ x ∈ l1 ++ l2, x.pc = .done → c.interrupted = true := by
      intro x hx hd
      cases hi : c.interrupted with
      | true => rfl
      | false =>
        have := (hdone x (mem_split.2 (Or.inl hx)) hd hi).2.1
        simp only at this; omega
    have hgd := hcntG d
    simp only [heldAt_split, heldDepth, if_true] at hgd
    obtain ⟨gb', k1, k2, k3⟩ := decAt_spec (l := c.ongoingBy) (d := d) (by omega)
    rw [hgb] at k1; cases k1
    refine ⟨hinv, ?_, by simpa using hthr, by simpa using hubs, hgenF, ?_, ?_, hcntO, hlow, ?_, ?_, ?_, hmin, hinc, ?_, ?_, ?_, hlowF, ?_⟩
    · simp only [busyCount_split, heldDepth] at hong
      simp only [busyCount_wake, busyCount_split, heldDepth]
      simp at hong ⊢; omega
    · intro n hn
      simp only [working_wake, mem_working] at hn
      apply hgenW
      simp only [mem_working]
      rcases hn with hn | hn
      · exact Or.inl hn
      · simp [Pc.node] at hn
    · exact ⟨hlen.1, k2.trans hlen.2.1, hlen.2.2⟩
    · intro x
      have h1 := hcntG x
      simp only [heldAt_split, heldDepth] at h1
      simp only [heldAt_wake, heldAt_split, heldDepth, k3 x]
      by_cases hx : x = d
      · subst hx; simp at h1 ⊢; omega
      · have hx' : ¬ d = x := fun h => hx h.symm
        simp [hx, hx'] at h1 ⊢; omega
    · intro x hx n dd hpc
      rcases mem x hx with hx | ⟨h1, _⟩
      · exact hpost x (mem_split.2 (Or.inl hx)) n dd hpc
      · rw [h1] at hpc; cases hpc
    · intro x hx lb hlb
      rcases mem x hx with hx | ⟨h1, _⟩
      · exact hlbs x (mem_split.2 (Or.inl hx)) lb hlb
      · rw [h1] at hlb; simp [Pc.lb] at hlb
    · intro x hx hw
      exfalso
      obtain ⟨y, hy, rfl⟩ := List.mem_map.1 hx
      obtain ⟨pc, m'⟩ := y
      cases pc <;> simp [wake] at hw
    · intro x hx hd hi
      rcases mem x hx with hx | ⟨h1, _⟩
      · have := hdn x hx hd; simp only at hi; rw [this] at hi; cases hi
      · rw [h1] at hd; cases hd
    · intro x hx
      rcases mem x hx with hx | ⟨h1, h2⟩
      · exact hmdd x (mem_split.2 (Or.inl hx))
      · rcases h2 with h2 | h2
        · exact hmdd ⟨.fin d dd, x.mdd⟩ h2
        · exact hmdd ⟨.waiting, x.mdd⟩ (mem_split.2 (Or.inl h2))
    · intro he x hx d' hd'
      rcases mem x hx with hx | ⟨h1, _⟩
      · exact hlowH he x (mem_split.2 (Or.inl hx)) d' hd'
      · simp [heldDepth, h1] at hd'
  | @spurious c b m l1 l2 =>
    obtain ⟨hinv, hong, hthr, hubs, hgenF, hgenW, hlen, hcntO, hlow, hcntG, hpost, hlbs, hmin, hinc, hwait, hdone, hmdd, hlowF, hlowH⟩ := h
    have back : ∀ x ∈ l1 ++ ⟨.idle, m⟩ :: l2, x ∈ l1 ++ ⟨.waiting, m⟩ :: l2 ∨ x = ⟨.idle, m⟩ := by
      intro x hx
      rcases mem_split.1 hx with hx | rfl
      · exact Or.inl (mem_split.2 (Or.inl hx))
      · exact Or.inr rfl
    refine ⟨hinv, ?_, by simpa using hthr, hubs, hgenF, ?_, hlen, hcntO, hlow, ?_, ?_, ?_, hmin, hinc, ?_, ?_, ?_, hlowF, ?_⟩
    · simp only [busyCount_split, heldDepth] at hong ⊢; exact hong
    · intro n hn
      apply hgenW
      simp only [mem_working] at hn ⊢
      exact hn
    · intro d
      have := hcntG d
      simp only [heldAt_split, heldDepth] at this ⊢; exact this
    · intro x hx n dd hpc
      rcases back x hx with hx | rfl
      · exact hpost x hx n dd hpc
      · cases hpc
    · intro x hx lb hlb
      rcases back x hx with hx | rfl
      · exact hlbs x hx lb hlb
      · simp [Pc.lb] at hlb
    · intro x hx hw
      rcases back x hx with hx | rfl
      · exact hwait x hx hw
      · cases hw
    · intro x hx hd
      rcases back x hx with hx | rfl
      · exact hdone x hx hd
      · cases hd
    · intro x hx
      rcases back x hx with hx | rfl
      · exact hmdd x hx
      · exact hmdd ⟨.waiting, m⟩ (by simp)
    · intro he x hx d hd
      rcases back x hx with hx | rfl
      · exact hlowH he x hx d hd
      · simp [heldDepth] at hd

theorem getD_replicate {α : Type} (n d : Nat) (x : α) : (List.replicate n x).getD d x = x := by
  simp only [List.getD]
  by_cases h : d < n
  · simp [h]
  · simp [h]

theorem init_spec (L : FrontierLaws cfg.fr) : ∃ s, init cfg = some s ∧ Inv L s ∧ (∀ n ∈ L.holds s.crit.fringe, n = rootNode cfg) ∧
    rootNode cfg ∈ L.holds s.crit.fringe ∧ (∀ t ∈ s.threads, t.pc = .idle) ∧ s.crit.bestLb = isizeMin ∧ s.crit.interrupted = false ∧
    (∀ d s', s.bars.get d s' = none) ∧ (∀ x ∈ s.crit.upperBounds, x = isizeMax) ∧ s.crit.ongoing = 0 ∧ s.crit.explored = 0 := by
  unfold init
  obtain ⟨f, h1, h2, h3⟩ := L.push cfg.fr.new (rootNode cfg) L.new_inv
  obtain ⟨ob, k1, k2, k3⟩ := incAt_spec (l := List.replicate (cfg.p.nbVars + 1) 0) (d := 0) (by simp)
  have hp : (L.holds f).Perm [rootNode cfg] := by
    rw [L.new_holds] at h3
    rcases h3 with h3 | ⟨old, rest, _, h4, _⟩
    · exact h3
    · simp at h4
  have hmem : ∀ n ∈ L.holds f, n = rootNode cfg := fun n hn => by simpa using hp.mem_iff.1 hn
  have hidle : ∀ t ∈ List.replicate cfg.nbThreads (⟨.idle, Dd.new cfg.cutset⟩ : BThread σ), t = ⟨.idle, Dd.new cfg.cutset⟩ := fun t ht => (List.mem_replicate.1 ht).2
  have hheld : ∀ d, heldAt (List.replicate cfg.nbThreads (⟨.idle, Dd.new cfg.cutset⟩ : BThread σ)) d = 0 := by
    intro d
    unfold heldAt
    rw [List.countP_eq_zero]
    intro t ht; rw [hidle t ht]; simp [heldDepth]
  have hbusy : busyCount (List.replicate cfg.nbThreads (⟨.idle, Dd.new cfg.cutset⟩ : BThread σ)) = 0 := by
    unfold busyCount
    rw [List.countP_eq_zero]
    intro t ht; rw [hidle t ht]; simp [heldDepth]
  rw [h1, k1]
  refine ⟨_, rfl, ⟨h2, hbusy.symm, by simp, by simp, ?_, ?_, ?_, ?_, by simp, ?_, ?_, ?_, Int.le_refl _, Or.inl ⟨rfl, rfl⟩, ?_, ?_, ?_, by simp, ?_⟩, hmem,
    hp.mem_iff.2 (by simp), ?_, rfl, rfl, ?_, ?_, rfl, rfl⟩
  · intro n hn; rw [hmem n hn]; exact root_genuine
  · intro n hn
    unfold working at hn
    obtain ⟨t, ht, h⟩ := List.mem_filterMap.1 hn
    rw [hidle t ht] at h; simp [Pc.node] at h
  · exact ⟨by rw [k2]; simp, by simp, by simp⟩
  · intro d
    simp only
    rw [atDepth_perm hp, atDepth_cons, k3 d, getD_replicate]
    have : (rootNode cfg).path.length = 0 := rfl
    rw [this]
    by_cases hd : d = 0
    · subst hd; simp [atDepth]
    · rw [if_neg fun h => hd h.symm]; simp [atDepth]
  · intro d; simp only; rw [hheld, getD_replicate]
  · intro t ht n dd h; rw [hidle t ht] at h; cases h
  · intro t ht lb h; rw [hidle t ht] at h; simp [Pc.lb] at h
  · intro t ht h; rw [hidle t ht] at h; cases h
  · intro t ht h; rw [hidle t ht] at h; cases h
  · intro t ht; rw [hidle t ht]; rfl
  · intro _ t ht d h; rw [hidle t ht] at h; simp [heldDepth] at h
  · intro t ht; rw [hidle t ht]
  · intro d s'
    simp only [Bars.get]
    rw [getD_replicate]; rfl
  · intro x hx; exact (List.mem_replicate.1 hx).2

theorem runs_inv (hg : BaseCfg cfg S B) (hn : cfg.nbThreads ≤ cfg.custom) {e : Bool} : ∀ (ls : List (BLbl σ)) (s : BSys σ cfg.fr.F), Inv L s e → (∀ l ∈ ls, BValidLbl l) →
    runs cfg s ls ≠ .panic ∧ ∀ s', runs cfg s ls = .ok s' → Inv L s' e := by
  intro ls
  induction ls with
  | nil =>
    intro s h _
    refine ⟨by simp [runs], ?_⟩
    intro s' he
    simp only [runs] at he
    cases he
    exact h
  | cons l ls ih =>
    intro s h hl
    obtain ⟨h1, h2⟩ := step_trans (L := L) hg (h.safe hn) (hl l (by simp))
    unfold runs
    cases hs : step cfg s l with
    | panic => exact absurd hs h1
    | blocked => exact ⟨by simp, by simp⟩
    | ok s1 =>
      simp only
      exact ih s1 (trans_inv hg (h2 s1 hs) h) (fun l hl' => hl l (by simp [hl']))

theorem reachable_inv (L : FrontierLaws cfg.fr) (hg : BaseCfg cfg S B) (hn : cfg.nbThreads ≤ cfg.custom) {s : BSys σ cfg.fr.F} (hr : BReachable cfg s) : Inv L s := by
  obtain ⟨s0, ls, h1, h2, h3⟩ := hr
  obtain ⟨s1, g1, g2, _⟩ := init_spec (cfg := cfg) L
  rw [h1] at g1; cases g1
  exact (runs_inv hg hn ls s0 g2 h2).2 s h3

end Verif.Bar
