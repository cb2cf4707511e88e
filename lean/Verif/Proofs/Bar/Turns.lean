import Verif.Proofs.Bar.Final
import Verif.Spec.Turns
/-! As long as at most one worker holds a node, nothing is lost, however many workers there are. -/
set_option autoImplicit false

namespace Verif.Bar
open Verif Spec
open Verif.Par (rootNode root_through)
variable {σ : Type} [DecidableEq σ] [Inhabited σ] {cfg : SolverCfg σ} {L : FrontierLaws cfg.fr} {S : Layering σ} {B : Int}

theorem free_iff {t : BThread σ} : heldDepth t = none ↔ t.pc = .idle ∨ t.pc = .waiting ∨ t.pc = .done := by
  obtain ⟨pc, m⟩ := t
  cases pc <;> simp [heldDepth]

/-- For a worker that holds no node, `Covered1` does not speak about the worker. -/
theorem covered_free {c : BCrit σ cfg.fr.F} {b : Bars σ} {t : BThread σ} (ht : heldDepth t = none) :
    Covered1 L B c b t ↔ Cov cfg.p B (rootNode cfg) c.bestLb (L.holds c.fringe) none b := by
  obtain ⟨pc, m⟩ := t
  rcases free_iff.1 ht with h | h | h <;> simp only at h <;> subst h <;>
    exact ⟨fun h => h.cov, fun h => ⟨h, by intro n hn; cases hn⟩⟩

/-- What is claimed as long as at most one worker holds a node. -/
def CoveredM (L : FrontierLaws cfg.fr) (B : Int) (s : BSys σ cfg.fr.F) : Prop :=
  (∃ t ∈ s.threads, (heldDepth t).isSome = true ∧ Covered1 L B s.crit s.bars t) ∨
    ((∀ t ∈ s.threads, heldDepth t = none) ∧ Cov cfg.p B (rootNode cfg) s.crit.bestLb (L.holds s.crit.fringe) none s.bars)

theorem others_free {l1 l2 : List (BThread σ)} {t : BThread σ} (h : busyCount (l1 ++ t :: l2) ≤ 1) (ht : (heldDepth t).isSome = true) :
    ∀ q ∈ l1 ++ l2, heldDepth q = none := by
  intro q hq
  rw [busyCount_split] at h
  simp only [ht, if_true] at h
  have h0 : busyCount (l1 ++ l2) = 0 := by simp only [busyCount, List.countP_append] at h ⊢; omega
  have := List.countP_eq_zero.1 h0 q hq
  simpa using this

/-- The open nodes that are not in the frontier yet. -/
def pend (c : BCrit σ cfg.fr.F) (t : BThread σ) : List (SubProblem σ) :=
  match t.pc with
  | .post n _ => if t.mdd.exact then [] else Par.toPush c.bestLb n.ub t.mdd.drainCutset
  | _ => []

theorem open_pend (c : BCrit σ cfg.fr.F) (t : BThread σ) : openNodes L c t = pend c t ++ L.holds c.fringe := by
  obtain ⟨pc, m⟩ := t
  cases pc with
  | post n dd =>
    simp only [openNodes, pend]
    split <;> simp
  | _ => rfl

theorem le_effLb (c : BCrit σ cfg.fr.F) (t : BThread σ) : c.bestLb ≤ effLb c t := by
  unfold effLb
  split
  · split <;> omega
  · omega

/-- A node of the frontier is discarded because of a threshold. -/
theorem discard_other (hg : GoodCfg cfg S B) {c : BCrit σ cfg.fr.F} {b : Bars σ} {t : BThread σ} {ts : List (BThread σ)} (hi : Inv L ⟨c, b, ts⟩)
    (h : Covered1 L B c b t) {n : SubProblem σ} {f : cfg.fr.F} {ob : List Nat} (h2 : (L.holds c.fringe).Perm (n :: L.holds f))
    (h6 : mustExplore (b.get n.path.length n.state) n.value = false) : Covered1 L B { c with fringe := f, openBy := ob } b t := by
  have hn : n ∈ L.holds c.fringe := h2.mem_iff.2 (by simp)
  refine ⟨?_, h.bnd⟩
  have hp : (openNodes L c t).Perm (n :: openNodes L { c with fringe := f, openBy := ob } t) := by
    rw [open_pend, open_pend]
    exact (List.Perm.append_left (pend c t) h2).trans List.perm_middle
  exact Cov.discard hp h.cov ((hi.genF n hn).rootOK hg.wf).bound h6

/-- The steps of a worker that takes no node, while another one holds a node. -/
theorem mic_other (hg : GoodCfg cfg S B) {c c' : BCrit σ cfg.fr.F} {b b' : Bars σ} {t : BThread σ} {ts : List (BThread σ)} (hm : Mic cfg L none c b c' b')
    (hi : Inv L ⟨c, b, ts⟩) (h : Covered1 L B c b t) : Covered1 L B c' b' t := by
  cases hm with
  | clean h1 h2 h3 hb =>
    refine ⟨?_, h.bnd⟩
    have := h.cov.mono (lb' := effLb c t) (F' := openNodes L c t) (b' := b') (Int.le_refl _) (fun _ h => h) (by
      intro d s i hi'
      rw [Bars.get_clear hb] at hi'
      split at hi'
      · cases hi'
      · exact hi')
    exact this
  | @skip n f ob k h1 hf h2 h4 h5 h6 ho => exact discard_other hg hi h h2 h6

theorem mics_other (hg : GoodCfg cfg S B) {v : Option (View σ)} (hv : v = none) {c c' : BCrit σ cfg.fr.F} {b b' : Bars σ} {t : BThread σ} {ts : List (BThread σ)}
    (hm : Mics cfg L v c b c' b') (hi : Inv L ⟨c, b, ts⟩) (h : Covered1 L B c b t) : Covered1 L B c' b' t := by
  induction hm with
  | nil => exact h
  | cons h1 _ ih => subst hv; exact ih (mic_inv h1 hi) (mic_other hg h1 hi h)

theorem act_other (hg : GoodCfg cfg S B) {c c' : BCrit σ cfg.fr.F} {b b' : Bars σ} {t q q' : BThread σ} {i : Nat} {ts : List (BThread σ)}
    (ha : Act cfg L none i c b q c' b' q') (hi : Inv L ⟨c, b, ts⟩) (hq : heldDepth q = none) (hq' : heldDepth q' = none)
    (h : c.interrupted = false → Covered1 L B c b t) (hint : c'.interrupted = false) : Covered1 L B c' b' t := by
  cases ha with
  | complete h1 h2 => exact ⟨(h hint).cov, (h hint).bnd⟩
  | stop h1 => rw [h1] at hint; cases hint
  | interrupt h1 hf h2 h3 => cases hint
  | wait h1 h2 h3 => exact h hint
  | @prune m n f h1 hf h2 h3 h4 h5 =>
    refine ⟨?_, (h h1).bnd⟩
    refine (h h1).cov.drop (F' := openNodes L { c with fringe := f, openBy := c.openBy.map fun _ => 0 } t) ?_
    intro q hq
    rw [open_pend] at hq ⊢
    rcases List.mem_append.1 hq with h6 | h6
    · exact Or.inr (List.mem_append.2 (Or.inl h6))
    · exact Or.inl (Int.le_trans (Int.le_trans (h4 q h6) h5) (le_effLb c t))
  | @drop m n f ob k h1 hf h2 h4 h5 h6 ho h7 => exact discard_other hg hi (h h1) h2 h6
  | take => simp [heldDepth] at hq'
  | _ => simp [heldDepth] at hq

theorem trans_many (hg : GoodCfg cfg S B) (hco : CutOK cfg S) {r : Bool} {s s' : BSys σ cfg.fr.F} (ht : Trans cfg L none r s s') (hi : Inv L s)
    (hone : OneHolder s) (hone' : OneHolder s') (h : s.crit.interrupted = false → CoveredM L B s) (hint : s'.crit.interrupted = false) : CoveredM L B s' := by
  cases ht with
  | @act c b c1 b1 c' b' t t' l1 l2 hm hidle ha =>
    have hi1 := mics_inv hm hi
    obtain ⟨e1, -⟩ := mics_keep hm
    have hmem : t ∈ l1 ++ t :: l2 := by simp
    cases hd : (heldDepth t).isSome with
    | true =>
      -- the worker that holds the node moves
      obtain ⟨rfl, rfl⟩ : c1 = c ∧ b1 = b := by
        rcases hidle with h1 | h1
        · exact absurd h1 (busy_active hd).2.2
        · exact h1
      have hfree := others_free (l1 := l1) (l2 := l2) hone hd
      have hc : c1.interrupted = false → Covered1 L B c1 b1 t := by
        intro h0
        rcases h h0 with ⟨q, h1, h2, h3⟩ | ⟨h1, _⟩
        · simp only [List.mem_append, List.mem_cons] at h1
          have hq : q = t := by
            by_contra hne
            have := hfree q (by simp only [List.mem_append]; tauto)
            rw [this] at h2; cases h2
          subst hq; exact h3
        · rw [h1 t hmem] at hd; cases hd
      have hc' := act_cov hg hco hmem ha hi1 hc hint
      cases hd' : (heldDepth t').isSome with
      | true => exact Or.inl ⟨t', by simp, hd', hc'⟩
      | false =>
        have hn : heldDepth t' = none := by simpa using hd'
        refine Or.inr ⟨?_, (covered_free hn).1 hc'⟩
        intro q hq
        simp only [List.mem_append, List.mem_cons] at hq
        rcases hq with h1 | rfl | h1
        · exact hfree q (by simp [h1])
        · exact hn
        · exact hfree q (by simp [h1])
    | false =>
      have hn : heldDepth t = none := by simpa using hd
      -- is a node held by another worker?
      by_cases hex : ∃ q ∈ l1 ++ l2, (heldDepth q).isSome = true
      · obtain ⟨q, hq, hqs⟩ := hex
        have hn' : heldDepth t' = none := by
          by_contra hne
          have := others_free (l1 := l1) (l2 := l2) (t := t') hone' (Option.isSome_iff_ne_none.2 hne) q hq
          rw [this] at hqs; cases hqs
        have hq1 : q ∈ l1 ++ t' :: l2 := by simp only [List.mem_append, List.mem_cons] at hq ⊢; tauto
        have hc : c1.interrupted = false → ∃ q ∈ l1 ++ t' :: l2, (heldDepth q).isSome = true ∧ Covered1 L B c1 b1 q := by
          intro h0
          rcases h (e1 ▸ h0) with ⟨q', h1, h2, h3⟩ | ⟨h1, _⟩
          · refine ⟨q', ?_, h2, mics_other hg rfl hm hi h3⟩
            simp only [List.mem_append, List.mem_cons] at h1 ⊢
            rcases h1 with h1 | rfl | h1
            · exact Or.inl h1
            · rw [hn] at h2; cases h2
            · exact Or.inr (Or.inr h1)
          · have := h1 q (by simp only [List.mem_append, List.mem_cons] at hq ⊢; tauto)
            rw [this] at hqs; cases hqs
        have h0 : c1.interrupted = false := by
          cases hc1 : c1.interrupted with
          | false => rfl
          | true => cases ha <;> simp_all [heldDepth]
        obtain ⟨q', k1, k2, k3⟩ := hc h0
        exact Or.inl ⟨q', k1, k2, act_other hg ha hi1 hn hn' (fun _ => k3) hint⟩
      · have hfree : ∀ q ∈ l1 ++ l2, heldDepth q = none := by
          intro q hq
          by_contra hne
          exact hex ⟨q, hq, Option.isSome_iff_ne_none.2 hne⟩
        have hall : ∀ q ∈ l1 ++ t :: l2, heldDepth q = none := by
          intro q hq
          simp only [List.mem_append, List.mem_cons] at hq
          rcases hq with h1 | rfl | h1
          · exact hfree q (by simp [h1])
          · exact hn
          · exact hfree q (by simp [h1])
        have hc : c1.interrupted = false → Covered1 L B c1 b1 t := by
          intro h0
          rcases h (e1 ▸ h0) with ⟨q', h1, h2, h3⟩ | ⟨_, h2⟩
          · rw [hall q' h1] at h2; cases h2
          · exact mics_other hg rfl hm hi ((covered_free hn).2 h2)
        have hc' := act_cov hg hco hmem ha hi1 hc hint
        cases hd' : (heldDepth t').isSome with
        | true => exact Or.inl ⟨t', by simp, hd', hc'⟩
        | false =>
          have hn' : heldDepth t' = none := by simpa using hd'
          refine Or.inr ⟨?_, (covered_free hn').1 hc'⟩
          intro q hq
          simp only [List.mem_append, List.mem_cons] at hq
          rcases hq with h1 | rfl | h1
          · exact hfree q (by simp [h1])
          · exact hn'
          · exact hfree q (by simp [h1])
  | @finish c b m d dd gb l1 l2 h0 hgb =>
    have hfree := others_free (l1 := l1) (l2 := l2) (t := ⟨.fin d dd, m⟩) hone rfl
    right
    refine ⟨?_, ?_⟩
    · intro q hq
      obtain ⟨q', h1, rfl⟩ := List.mem_map.1 hq
      rw [held_wake]
      simp only [List.mem_append, List.mem_cons] at h1
      rcases h1 with h1 | rfl | h1
      · exact hfree q' (by simp [h1])
      · rfl
      · exact hfree q' (by simp [h1])
    · rcases h hint with ⟨q, h1, h2, h3⟩ | ⟨h1, _⟩
      · simp only [List.mem_append, List.mem_cons] at h1
        have hq : q = ⟨.fin d dd, m⟩ := by
          by_contra hne
          have := hfree q (by simp only [List.mem_append]; tauto)
          rw [this] at h2; cases h2
        subst hq
        exact h3.cov
      · have := h1 ⟨.fin d dd, m⟩ (by simp)
        cases this
  | @spurious c b m l1 l2 =>
    rcases h hint with ⟨q, h1, h2, h3⟩ | ⟨h1, h2⟩
    · refine Or.inl ⟨q, ?_, h2, h3⟩
      simp only [List.mem_append, List.mem_cons] at h1 ⊢
      rcases h1 with h1 | rfl | h1
      · exact Or.inl h1
      · cases h2
      · exact Or.inr (Or.inr h1)
    · refine Or.inr ⟨?_, h2⟩
      intro q hq
      simp only [List.mem_append, List.mem_cons] at hq
      rcases hq with h3 | rfl | h3
      · exact h1 q (by simp [h3])
      · rfl
      · exact h1 q (by simp [h3])

theorem along_head {P : BSys σ cfg.fr.F → Prop} {s : BSys σ cfg.fr.F} {ls : List (BLbl σ)} (h : Along cfg P s ls) : P s := by
  cases ls with
  | nil => exact h
  | cons => exact h.1

theorem runs_many (hg : GoodCfg cfg S B) (hco : CutOK cfg S) (hn : cfg.nbThreads ≤ cfg.custom) :
    ∀ (ls : List (BLbl σ)) (s : BSys σ cfg.fr.F), Inv L s → (s.crit.interrupted = false → CoveredM L B s) → (∀ l ∈ ls, BValidLbl l ∧ Sharp l) →
    Along cfg OneHolder s ls → ∀ s', runs cfg s ls = .ok s' → Inv L s' ∧ (s'.crit.interrupted = false → CoveredM L B s') := by
  intro ls
  induction ls with
  | nil =>
    intro s h hs _ _ s' he
    simp only [runs] at he
    cases he
    exact ⟨h, hs⟩
  | cons l ls ih =>
    intro s h hs hl hal s' he
    obtain ⟨k1, k2⟩ := step_trans (L := L) hg.base (h.safe hn) (hl l (by simp)).1
    unfold runs at he
    cases hst : step cfg s l with
    | panic => exact absurd hst k1
    | blocked => rw [hst] at he; cases he
    | ok s1 =>
      rw [hst] at he
      have ht := k2 s1 hst
      rw [sharp_view (hl l (by simp)).2] at ht
      have hal' := hal.2 s1 hst
      exact ih s1 (trans_inv hg.base ht h) (trans_many hg hco ht h hal.1 (along_head hal') hs) (fun l hl' => hl l (by simp [hl'])) hal' s' he

theorem init_many (hg : GoodCfg cfg S B) {s : BSys σ cfg.fr.F} (hs : init cfg = some s) : CoveredM L B s := by
  obtain ⟨s0, g1, g2, g3, g4, g5, g6, g7, g8, _⟩ := init_spec (cfg := cfg) L
  rw [hs] at g1; cases g1
  refine Or.inr ⟨fun t ht => free_iff.2 (Or.inl (g5 t ht)), ⟨?_, ?_⟩⟩
  · intro w hw
    refine Or.inr ⟨rootNode cfg, Or.inl g4, ?_, w, hw, Int.le_refl _⟩
    obtain ⟨ds, h⟩ := Par.through_root hw
    exact (Par.solution_bounds hg.wf h).2
  · intro d s' i hi'
    rw [g8] at hi'; cases hi'

theorem many_covered {s : BSys σ cfg.fr.F} (h : Inv L s) (hs : CoveredM L B s) (h0 : 0 < cfg.nbThreads) (hf : BFinished s)
    (hi : s.crit.interrupted = false) : s.crit.bestUb = s.crit.bestLb ∧ ∀ ds w, Solution cfg.p ds w → w ≤ s.crit.bestLb := by
  have hlen := h.thr
  obtain ⟨t, htm⟩ : ∃ t, t ∈ s.threads := List.exists_mem_of_length_pos (by omega)
  obtain ⟨g1, g2, g3⟩ := h.done t htm (hf t htm) hi
  refine ⟨g3, ?_⟩
  intro ds w hw
  rcases hs with ⟨q, h1, h2, _⟩ | ⟨_, h1⟩
  · exact absurd (hf q h1) (busy_active h2).2.1
  · rcases h1.cov w (root_through hw) with h2 | ⟨m, h2 | h2, h3⟩
    · exact h2
    · rw [g1] at h2; cases h2
    · cases h2

end Verif.Bar
