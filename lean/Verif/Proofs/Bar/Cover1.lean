import Verif.Proofs.Bar.Cover
import Verif.Proofs.Bar.Frame
/-! The steps of a single worker keep every solution covered. -/
set_option autoImplicit false

namespace Verif.Bar
open Verif Spec
open Verif.Par (split_at toPush toPush_cons mem_toPush input push_one rootNode mem_split root_genuine)
variable {σ : Type} [DecidableEq σ] [Inhabited σ] {cfg : SolverCfg σ} {L : FrontierLaws cfg.fr} {S : Layering σ} {B : Int}

theorem mic_cov (hg : GoodCfg cfg S B) {c c' : BCrit σ cfg.fr.F} {b b' : Bars σ} {m : Dd σ} {ts : List (BThread σ)} (hm : Mic cfg L none c b c' b')
    (hi : Inv L ⟨c, b, ts⟩) (h : Covered1 L B c b ⟨.idle, m⟩) : Covered1 L B c' b' ⟨.idle, m⟩ := by
  cases hm with
  | clean h1 h2 h3 hb =>
    refine ⟨h.cov.mono (Int.le_refl _) (fun _ h => h) ?_, by intro n hn; simp [Pc.node] at hn⟩
    intro d s i hi'
    rw [Bars.get_clear hb] at hi'
    split at hi'
    · cases hi'
    · exact hi'
  | @skip n f ob k h1 hf h2 h4 h5 h6 ho =>
    have hn : n ∈ L.holds c.fringe := h2.mem_iff.2 (by simp)
    exact ⟨Cov.discard h2 h.cov ((hi.genF n hn).rootOK hg.wf).bound h6, by intro n hn; simp [Pc.node] at hn⟩

theorem mics_cov (hg : GoodCfg cfg S B) {v : Option (View σ)} (hv : v = none) {c c' : BCrit σ cfg.fr.F} {b b' : Bars σ} {m : Dd σ} {ts : List (BThread σ)} (hm : Mics cfg L v c b c' b')
    (hi : Inv L ⟨c, b, ts⟩) (h : Covered1 L B c b ⟨.idle, m⟩) : Covered1 L B c' b' ⟨.idle, m⟩ := by
  induction hm with
  | nil => exact h
  | cons h1 _ ih => subst hv; exact ih (mic_inv h1 hi) (mic_cov hg h1 hi h)

/-- With a worker that holds no node, the open nodes are those of the frontier. -/
theorem Covered1.idle_bound {c : BCrit σ cfg.fr.F} {b : Bars σ} {m : Dd σ} (h : Covered1 L B c b ⟨.idle, m⟩) {u : Int}
    (hu : ∀ q ∈ L.holds c.fringe, q.ub ≤ u) {w : Int} (hw : Through cfg.p (rootNode cfg) w) : w ≤ c.bestLb ∨ w ≤ u := by
  rcases h.cov.cov w hw with h1 | ⟨q, h1 | h1, h2⟩
  · exact Or.inl h1
  · exact Or.inr (Int.le_trans h2.1 (hu q h1))
  · cases h1

theorem act_cov (hg : GoodCfg cfg S B) (hco : CutOK cfg S) {c c' : BCrit σ cfg.fr.F} {b b' : Bars σ} {t t' : BThread σ} {i : Nat}
    {ts : List (BThread σ)} (hts : t ∈ ts) (ha : Act cfg L none i c b t c' b' t') (hi : Inv L ⟨c, b, ts⟩) (h : c.interrupted = false → Covered1 L B c b t) (hint : c'.interrupted = false) :
    Covered1 L B c' b' t' := by
  have hmt : t.mdd.cutsetType = cfg.cutset := hi.mdd t hts
  have hnt : ∀ n, Pc.node t.pc = some n → Genuine cfg.p n := by
    intro n hn
    exact hi.genW n (List.mem_filterMap.2 ⟨t, hts, hn⟩)
  have hlt := hi.lbs t hts
  have hpt := hi.post t hts
  have hmin := hi.min
  simp only at hlt hmin
  -- nothing but the position of the worker changes
  have nob : ∀ {c : BCrit σ cfg.fr.F} {t : BThread σ}, Pc.node t.pc = none → HeldBound c t := by
    intro c t ht n hn; rw [ht] at hn; cases hn
  cases ha with
  | complete h1 h2 => exact ⟨(h hint).cov, nob rfl⟩
  | stop h1 => rw [h1] at hint; cases hint
  | interrupt h1 hf h2 h3 => cases hint
  | wait h1 h2 h3 => exact ⟨(h h1).cov, nob rfl⟩
  | @prune m n f h1 hf h2 h3 h4 h5 =>
    exact ⟨(h h1).cov.drop (fun q hq => Or.inl (Int.le_trans (h4 q hq) h5)), nob rfl⟩
  | @drop m n f ob k h1 hf h2 h4 h5 h6 ho h7 =>
    have hn : n ∈ L.holds c.fringe := h2.mem_iff.2 (by simp)
    exact ⟨Cov.discard h2 (h h1).cov ((hi.genF n hn).rootOK hg.wf).bound h6, nob rfl⟩
  | @take m n f ob gb b' k h1 hf h2 h4 h5 h6 ho hgb hb =>
    have hn : n ∈ L.holds c.fringe := h2.mem_iff.2 (by simp)
    have hbd : ∀ w, Through cfg.p (rootNode cfg) w → w ≤ c.bestLb ∨ w ≤ n.ub := fun w hw => (h h1).idle_bound h4 hw
    refine ⟨Cov.take h2 (h h1).cov (fun w hw => hbd w (through_real hg.wf (hi.genF n hn) hw)) hb, ?_⟩
    intro q hq w hw
    simp only [Pc.node, Option.some.injEq] at hq
    subst hq
    exact hbd w hw
  | @early m n h1 =>
    have hc := h hint
    refine ⟨hc.cov.done (Int.le_refl _) (fun _ h => h) (fun w _ hu => Or.inl (Int.le_trans hu h1)) ?_, nob rfl⟩
    exact fun w hw => hc.bnd n rfl w (through_real hg.wf (hnt n rfl) hw)
  | @read1 m n h1 => exact ⟨(h hint).cov, (h hint).bnd⟩
  | @restrict m n lb o D ho hD hu =>
    have hn := hnt n rfl
    obtain ⟨lb', sol, e, g1, g2, g3⟩ := maybe_spec (D := D) hi.min hi.inc (fun b hb => dd_real hg.base hn ho hD (Or.inl (by intro h; cases h)) hb)
    rw [e] at hint ⊢
    simp only at hint
    have hc := h hint
    have hlb := hlt lb rfl
    simp only at g1
    by_cases hx : D.exact = true
    · simp only [hx, if_true]
      refine ⟨hc.cov.done (F' := L.holds c.fringe) (lb' := lb') g1 (fun _ h => h) ?_ ?_, nob rfl⟩
      · intro w hw _
        by_cases hlw : lb < w
        · rcases Props.exact_flag_barrier ho hg.wf hg.adm (fun _ => hg.rel) (Par.inp_width hg.base) hn m hD hx hw hlw with ⟨bv, k1, k2⟩ | hp
          · exact Or.inl (Int.le_trans k2 (g2 bv k1))
          · rcases hc.cov.pruned hp with h1 | ⟨q, h1 | h1, h2, h3⟩
            · exact Or.inl (Int.le_trans h1 g1)
            · exact Or.inr ⟨q, h1, h2, h3⟩
            · cases h1
              simp only [input] at h3; omega
        · exact Or.inl (by omega)
      · exact fun w hw => hc.bnd n rfl w (through_real hg.wf hn hw)
    · simp only [hx]
      refine ⟨hc.cov.mono g1 (fun _ h => h) (fun _ _ _ h => h), ?_⟩
      intro q hq w hw
      rcases hc.bnd q hq w hw with h1 | h1
      · exact Or.inl (Int.le_trans h1 g1)
      · exact Or.inr h1
  | @read2 m n dd => exact ⟨(h hint).cov, (h hint).bnd⟩
  | @relax m n lb dd o D b' ho hD hb =>
    have hn := hnt n rfl
    have hc := h hint
    have hlb := hlt lb rfl
    obtain ⟨b2, k1, k2, k3⟩ := Bars.tryUpdates_spec D.updates b (fun x hx => by
      have h1 := (dd_updates hg.base hn ho hD hx).2.2.2.2
      have h2 := hi.len.2.2
      simp only at h2
      omega)
    rw [hb] at k1; cases k1
    have hbd : ∀ w, Through cfg.p n w → w ≤ c.bestLb ∨ w ≤ n.ub := fun w hw => hc.bnd n rfl w (through_real hg.wf hn hw)
    have hlb1 : c.bestLb ≤ effLb c (⟨.post n (dd + D.explored), D⟩ : BThread σ) := by
      simp only [effLb]; split <;> omega
    -- a node of the cutset is pushed unless its solutions do not improve on the incumbent
    have child : D.exact = false → ∀ q ∈ D.drainCutset, ∀ w', Through cfg.p q w' → w' ≤ q.ub →
        w' ≤ c.bestLb ∨ ∃ q' ∈ openNodes L c (⟨.post n (dd + D.explored), D⟩ : BThread σ), Leads cfg.p q' w' ∧ q'.path = q.path ∧ q'.state = q.state ∧ q'.value = q.value := by
      intro hx q hq w' hw hu
      have hgq := (dd_genuine hg.base hn ho hD hq).1
      rcases hc.bnd n rfl w' (through_real hg.wf hgq hw) with h1 | h1
      · exact Or.inl h1
      · by_cases hp : c.bestLb < min n.ub q.ub
        · refine Or.inr ⟨{ q with ub := min n.ub q.ub }, ?_, ⟨by simp only; omega, w', hw, Int.le_refl _⟩, rfl, rfl, rfl⟩
          simp only [openNodes, hx, Bool.false_eq_true, if_false]
          exact List.mem_append.2 (Or.inl (mem_toPush.2 ⟨hp, q, hq, rfl⟩))
        · exact Or.inl (by omega)
    have bv : D.exact = true → ∀ x, D.bestValue = some x → x ≤ effLb c (⟨.post n (dd + D.explored), D⟩ : BThread σ) := by
      intro hx x hx'
      simp only [effLb, hx, if_true, hx', Option.getD_some]; omega
    have keep : ∀ q ∈ L.holds c.fringe, q ∈ openNodes L c (⟨.post n (dd + D.explored), D⟩ : BThread σ) := by
      intro q hq
      simp only [openNodes]
      split
      · exact hq
      · exact List.mem_append.2 (Or.inr hq)
    have base : Cov cfg.p B (rootNode cfg) (effLb c (⟨.post n (dd + D.explored), D⟩ : BThread σ)) (openNodes L c (⟨.post n (dd + D.explored), D⟩ : BThread σ)) none b := by
      refine hc.cov.done hlb1 keep ?_ hbd
      intro w hw _
      have viaP : PrunedAt cfg.p S B (seen none b).reads (input cfg .relaxed n lb) w →
          w ≤ effLb c (⟨.post n (dd + D.explored), D⟩ : BThread σ) ∨ ∃ q ∈ openNodes L c (⟨.post n (dd + D.explored), D⟩ : BThread σ), Leads cfg.p q w ∧ n.path.length < q.path.length := by
        intro hp
        rcases hc.cov.pruned hp with h1 | ⟨q, h1 | h1, h2, h3⟩
        · exact Or.inl (Int.le_trans h1 hlb1)
        · exact Or.inr ⟨q, keep q h1, h2, h3⟩
        · cases h1; simp only [input] at h3; omega
      by_cases hlw : lb < w
      · cases hx : D.exact with
        | true =>
          rcases Props.exact_flag_barrier ho hg.wf hg.adm (fun _ => hg.rel) (Par.inp_width hg.base) hn m hD hx hw hlw with ⟨x, k1, k2⟩ | hp
          · exact Or.inl (Int.le_trans k2 (bv hx x k1))
          · exact viaP hp
        | false =>
          rcases dd_cover hg hco hmt hn ho hD hx hw hlw with ⟨q, h1, w', h2, h3, h4⟩ | hp
          · rcases child hx q h1 w' h2 h4 with h5 | ⟨q', h5, h6, h7, _⟩
            · exact Or.inl (by omega)
            · refine Or.inr ⟨q', h5, h6.le h3, ?_⟩
              rw [h7]; exact (dd_genuine hg.base hn ho hD h1).2
          · exact viaP hp
      · exact Or.inl (by omega)
    refine ⟨⟨base.cov, ?_⟩, nob rfl⟩
    intro d s i hi' y ds u a1 a2 a3 a4
    rcases k3 d s i hi' with h1 | ⟨x, hx, rfl, rfl, rfl⟩
    · exact base.thr d s i h1 y ds u a1 a2 a3 a4
    · obtain ⟨hdx, hpr⟩ := dd_promise hg hco hmt hn ho hD hx ds y u a1 a2 a3 a4
      rcases hpr with h1 | h1 | ⟨⟨bvx, h1, h2⟩, h3⟩
      · exact Or.inl (by omega)
      · rcases base.pruned h1 with h2 | ⟨q, h2, h3, h4⟩
        · exact Or.inl h2
        · exact Or.inr ⟨q, h2, h3, Or.inl h4⟩
      · cases hx' : D.exact with
        | true => exact Or.inl (Int.le_trans h2 (bv hx' bvx h1))
        | false =>
          obtain ⟨q, h4, w', h5, h6, h7, h8⟩ := h3 hx'
          rcases child hx' q h4 w' h5 h7 with h9 | ⟨q', h9, h10, h11, h12, h13⟩
          · exact Or.inl (by omega)
          · refine Or.inr ⟨q', Or.inl h9, h10.le h6, ?_⟩
            rw [h11]
            rcases h8 with h8 | ⟨h8, h14, h15, h16⟩
            · exact Or.inl h8
            · exact Or.inr ⟨h8.symm, h12.trans h15, by simp only; omega, Or.inl h14⟩
  | @postExact D n dd hx =>
    obtain ⟨hn, hcomp⟩ := hpt n dd rfl
    obtain ⟨lb', sol, e, g1, g2, g3⟩ := maybe_spec (D := D) hi.min hi.inc (fun b hb => hcomp.real hg.base hn hx hb)
    rw [e] at hint ⊢
    have hc := h hint
    refine ⟨?_, nob rfl⟩
    have hcov := hc.cov
    simp only [openNodes, hx, if_true] at hcov
    refine hcov.mono ?_ (fun _ h => h) (fun _ _ _ h => h)
    simp only [effLb, hx, if_true] at g1 ⊢
    cases hb : D.bestValue with
    | none => simp only [Option.getD_none]; omega
    | some x => have := g2 x hb; simp only [Option.getD_some]; omega
  | @postCut D n dd f ob hx hf =>
    obtain ⟨hn, hcomp⟩ := hpt n dd rfl
    have hc := h hint
    refine ⟨?_, nob rfl⟩
    have hcov := hc.cov
    simp only [openNodes, effLb, hx, Bool.false_eq_true, if_false] at hcov
    have gen1 : ∀ q ∈ toPush c.bestLb n.ub D.drainCutset ++ L.holds c.fringe, Genuine cfg.p q := by
      intro q hq
      rcases List.mem_append.1 hq with h1 | h1
      · obtain ⟨_, a, ha, rfl⟩ := mem_toPush.1 h1
        exact (hcomp.genuine hg.base hn ha).1
      · exact hi.genF q h1
    have gen2 : ∀ q ∈ L.holds f, Genuine cfg.p q := by
      intro q hq
      obtain ⟨q', h1, h2, h3, h4, _⟩ := hf.ref.src q hq
      obtain ⟨ds, e1, e2⟩ := gen1 q' h1
      rw [h4] at e1
      rw [h2, h3] at e2
      exact ⟨ds, e1, e2⟩
    refine hcov.refines hf.ref ?_
    intro q hq q' hq' hs
    have e1 := ((gen1 q hq).rootOK hg.wf).lvl
    have e2 := ((gen2 q' hq').rootOK hg.wf).lvl
    rw [hs] at e1; omega

/-- What is claimed about a run of a single worker: as long as it is not interrupted, nothing is lost; once it is, the bounds enclose the optimum. -/
structure Single (L : FrontierLaws cfg.fr) (B : Int) (s : BSys σ cfg.fr.F) : Prop where
  cov : s.crit.interrupted = false → ∀ t, s.threads = [t] → Covered1 L B s.crit s.bars t
  intr : s.crit.interrupted = true → ∀ w, Through cfg.p (rootNode cfg) w → w ≤ s.crit.bestLb ∨ w ≤ s.crit.bestUb
  intrDone : s.crit.interrupted = true → ∀ t ∈ s.threads, t.pc = .done

theorem mics_keep {v : Option (View σ)} {c c' : BCrit σ cfg.fr.F} {b b' : Bars σ} (hm : Mics cfg L v c b c' b') :
    c'.interrupted = c.interrupted ∧ c'.bestLb = c.bestLb ∧ c'.bestUb = c.bestUb ∧ c'.ongoing = c.ongoing ∧ c'.bestSol = c.bestSol ∧ c'.explored = c.explored := by
  induction hm with
  | nil => exact ⟨rfl, rfl, rfl, rfl, rfl, rfl⟩
  | cons h _ ih =>
    cases h with
    | clean => exact ih
    | skip => exact ih

theorem one_split {l1 l2 : List (BThread σ)} {t : BThread σ} (h : (l1 ++ t :: l2).length = 1) : l1 = [] ∧ l2 = [] := by
  simp only [List.length_append, List.length_cons] at h
  exact ⟨List.length_eq_zero_iff.1 (by omega), List.length_eq_zero_iff.1 (by omega)⟩

theorem trans_single (hg : GoodCfg cfg S B) (hco : CutOK cfg S) (h1 : cfg.nbThreads = 1) {r : Bool} {s s' : BSys σ cfg.fr.F}
    (ht : Trans cfg L none r s s') (hi : Inv L s) (h : Single L B s) : Single L B s' := by
  have hthr := hi.thr
  rw [h1] at hthr
  cases ht with
  | @act c b c1 b1 c' b' t t' l1 l2 hm hidle ha =>
    obtain ⟨rfl, rfl⟩ := one_split hthr
    have hi1 := mics_inv hm hi
    obtain ⟨e1, e2, e3, e4, _⟩ := mics_keep hm
    simp only [List.nil_append] at *
    have hc1 : c1.interrupted = false → Covered1 L B c1 b1 t := by
      intro hint
      have hc := h.cov (by rw [← e1]; exact hint) t rfl
      rcases hidle with hp | ⟨rfl, rfl⟩
      · obtain ⟨pc, m⟩ := t
        simp only at hp; subst hp
        exact mics_cov hg rfl hm hi hc
      · exact hc
    have hid : c.interrupted = true → t.pc = .done := fun hh => h.intrDone hh t (by simp)
    refine ⟨?_, ?_, ?_⟩
    · intro hint q hq
      cases hq
      exact act_cov hg hco (List.mem_singleton.2 rfl) ha hi1 hc1 hint
    · intro hint
      simp only at hint ⊢
      have hcc : c1.interrupted = true → False := by
        intro hh
        have := hid (by rw [← e1]; exact hh)
        cases ha <;> simp at this
      cases ha with
      | interrupt g1 hf g2 g3 =>
        intro w hw
        rcases g3 with ⟨g3, _⟩ | ⟨g3, n, g4, g5, g6⟩
        · have := hi1.ong
          simp [busyCount, heldDepth] at this
          omega
        · exact (hc1 g1).idle_bound g6 hw
      | restrict ho hD hu =>
        exfalso; apply hcc
        unfold maybeUpdateBest at hint
        simp only at hint
        split at hint <;> exact hint
      | postExact hx =>
        exfalso; apply hcc
        unfold maybeUpdateBest at hint
        simp only at hint
        split at hint <;> exact hint
      | _ => exact absurd hint hcc
    · intro hint q hq
      simp only [List.mem_singleton] at hq
      subst hq
      have hcc : c1.interrupted = true → False := by
        intro hh
        have := hid (by rw [← e1]; exact hh)
        cases ha <;> simp at this
      simp only at hint
      cases ha with
      | interrupt g1 hf g2 g3 => rfl
      | restrict ho hD hu =>
        exfalso; apply hcc
        unfold maybeUpdateBest at hint
        simp only at hint
        split at hint <;> exact hint
      | postExact hx =>
        exfalso; apply hcc
        unfold maybeUpdateBest at hint
        simp only at hint
        split at hint <;> exact hint
      | _ => exact absurd hint hcc
  | @finish c b m d dd gb l1 l2 h0 hgb =>
    obtain ⟨rfl, rfl⟩ := one_split hthr
    have hid : c.interrupted = true → False := by
      intro hh
      have := h.intrDone hh ⟨.fin d dd, m⟩ (by simp)
      cases this
    refine ⟨?_, fun hh => absurd hh hid, fun hh => absurd hh hid⟩
    intro hint q hq
    simp only [List.nil_append, List.map_cons, List.map_nil, wake, List.cons.injEq, and_true] at hq
    subst hq
    have := h.cov hint ⟨.fin d dd, m⟩ rfl
    exact ⟨this.cov, by intro n hn; simp [Pc.node] at hn⟩
  | @spurious c b m l1 l2 =>
    obtain ⟨rfl, rfl⟩ := one_split hthr
    have hid : c.interrupted = true → False := by
      intro hh
      have := h.intrDone hh ⟨.waiting, m⟩ (by simp)
      cases this
    refine ⟨?_, fun hh => absurd hh hid, fun hh => absurd hh hid⟩
    intro hint q hq
    simp only [List.nil_append, List.cons.injEq, and_true] at hq
    subst hq
    have := h.cov hint ⟨.waiting, m⟩ rfl
    exact ⟨this.cov, by intro n hn; simp [Pc.node] at hn⟩

theorem runs_single (hg : GoodCfg cfg S B) (hco : CutOK cfg S) (h1 : cfg.nbThreads = 1) (hn : cfg.nbThreads ≤ cfg.custom) :
    ∀ (ls : List (BLbl σ)) (s : BSys σ cfg.fr.F), Inv L s → Single L B s → (∀ l ∈ ls, BValidLbl l ∧ Sharp l) →
    ∀ s', runs cfg s ls = .ok s' → Single L B s' := by
  intro ls
  induction ls with
  | nil =>
    intro s h hs _ s' he
    simp only [runs] at he
    cases he
    exact hs
  | cons l ls ih =>
    intro s h hs hl s' he
    obtain ⟨k1, k2⟩ := step_trans (L := L) hg.base (h.safe hn) (hl l (by simp)).1
    unfold runs at he
    cases hst : step cfg s l with
    | panic => exact absurd hst k1
    | blocked => rw [hst] at he; cases he
    | ok s1 =>
      rw [hst] at he
      have ht := k2 s1 hst
      rw [sharp_view (hl l (by simp)).2] at ht
      exact ih s1 (trans_inv hg.base ht h) (trans_single hg hco h1 ht h hs) (fun l hl' => hl l (by simp [hl'])) s' he

theorem init_single (hg : GoodCfg cfg S B) {s : BSys σ cfg.fr.F} (hs : init cfg = some s) : Single L B s := by
  obtain ⟨s0, g1, g2, g3, g4, g5, g6, g7, g8, _⟩ := init_spec (cfg := cfg) L
  rw [hs] at g1; cases g1
  refine ⟨?_, (by rw [g7]; intro h; cases h), (by rw [g7]; intro h; cases h)⟩
  intro _ t ht
  have htp := g5 t (by rw [ht]; simp)
  obtain ⟨pc, m⟩ := t
  simp only at htp; subst htp
  refine ⟨⟨?_, ?_⟩, by intro n hn; simp [Pc.node] at hn⟩
  · intro w hw
    refine Or.inr ⟨rootNode cfg, Or.inl g4, ?_, w, hw, Int.le_refl _⟩
    obtain ⟨ds, h⟩ := Par.through_root hw
    exact (Par.solution_bounds hg.wf h).2
  · intro d s' i hi'
    rw [g8] at hi'; cases hi'

end Verif.Bar
