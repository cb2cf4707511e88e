import Verif.Proofs.Mdd.Sim
/-! Best paths of exact nodes are real, and exact cutsets are reached. -/
set_option autoImplicit false

namespace Verif.Dd
open Verif Spec
variable {σ : Type} [DecidableEq σ] [Inhabited σ]
variable {v : Variant} {p : Problem σ} {r : Relaxation σ} {S : Layering σ} {B : Int}
  {inp : Input σ} {rd : Reads σ} {m : Dd σ} {k kL jx : Nat} {P L : Nat → List Nat} {c : CutsetType}

theorem Core.id_ge (h : Core v p r S B inp rd m k kL jx P L c) (hkL : k ≤ kL) (hk2 : kL ≤ k + 1) : ∀ j i, InLay P L k kL j i → j ≤ i := by
  intro j
  induction j with
  | zero => intro i _; omega
  | succ j ih =>
    intro i hi
    obtain ⟨b, hb, _⟩ := (h.node j i hi).veq
    have hs := h.src_layer hi hb hkL hk2
    have := h.incr j i hi _ hs.1
    have := ih _ hs.2
    omega

/-- The best path of a node that passes `hasExactBestPath` is a run of the problem. -/
theorem Core.real_path (hwf : WellFormed p S B) (hroot : RootOK p S B inp.residual) (h : Core v p r S B inp rd m k kL jx P L c)
    (hkL : k ≤ kL) (hk2 : kL ≤ k + 1) : ∀ j i, InLay P L k kL j i → ∀ fuel, m.hasExactBestPath fuel (some i) = true →
    ∃ ds, Run p inp.residual.state ds ((m.node i).value - inp.residual.value) (m.node i).state ∧ ds.length = j ∧
      ∀ f, j ≤ f → m.bestEdges f (m.node i).best = ds.reverse := by
  intro j
  induction j with
  | zero =>
    intro i hi _ _
    have := h.root1 i hi
    subst this
    obtain ⟨_, h2, h3, h4, _⟩ := h.root
    refine ⟨[], ?_, rfl, ?_⟩
    · rw [h2, h3, Int.sub_self]; exact .nil _
    · intro f _; rw [h4]; cases f <;> rfl
  | succ j ih =>
    intro i hi fuel hx
    obtain ⟨b, hb, hbest, hv⟩ := (h.node j i hi).veq
    obtain ⟨hs1, hs2⟩ := h.src_layer hi hb hkL hk2
    have hj : j < kL := by rcases hi with hi | hi <;> omega
    rw [h.sat_edge hwf hroot hkL hk2 hi hb] at hv
    have hnot : (m.node i).flags.isRelaxed = false ∧ ∃ f, m.hasExactBestPath f (some (m.edge b).src) = true := by
      cases fuel with
      | zero => simp [hasExactBestPath] at hx
      | succ fuel =>
        unfold hasExactBestPath at hx
        simp only [] at hx
        by_cases hex : (m.node i).flags.isExact = true
        · refine ⟨by unfold NodeFlags.isExact at hex; unfold NodeFlags.isRelaxed; simp at hex; exact hex.2, 1, ?_⟩
          unfold hasExactBestPath
          simp [(h.node j i hi).exb hex b hbest]
        · simp only [hex, Bool.false_eq_true, if_false, Bool.and_eq_true, Bool.not_eq_true'] at hx
          rw [hbest] at hx
          exact ⟨hx.1, fuel, hx.2⟩
    obtain ⟨hrel, f, hf⟩ := hnot
    obtain ⟨ds, hrun, hlen, hpath⟩ := ih _ hs2 f hf
    have hre := (h.node j i hi).real hrel b hb
    have hdec := (h.node j i hi).dec b hb
    have hnv := h.nextVar hwf hs2 hj
    refine ⟨ds ++ [(m.edge b).decision], ?_, by simp [hlen], ?_⟩
    · have := hrun.snoc hnv hdec
      rw [← hre.1, ← hre.2] at this
      have e : (m.node i).value - inp.residual.value = (m.node (m.edge b).src).value - inp.residual.value + (m.edge b).cost := by omega
      rw [e]; exact this
    · intro f hf
      cases f with
      | zero => omega
      | succ f =>
        rw [hbest]
        unfold bestEdges
        rw [hpath f (by omega)]
        simp

theorem hasExact_of_exact {m : Dd σ} {i : Nat} (h : (m.node i).flags.isExact = true) : m.hasExactBestPath 1 (some i) = true := by
  unfold hasExactBestPath; simp [h]

/-- The best path of an exact node, as the diagram reports it. -/
theorem Done.real_best (hwf : WellFormed p S B) (hroot : RootOK p S B inp.residual) (hd : Done v p r S B inp rd m k jx P L c)
    {j i : Nat} (hi : InLay P L k k j i) {fuel : Nat} (hx : m.hasExactBestPath fuel (some i) = true) :
    ∃ ds, Run p inp.residual.state ds ((m.node i).value - inp.residual.value) (m.node i).state ∧ ds.length = j ∧
      m.bestPath i = inp.residual.path ++ ds.reverse := by
  have hc := hd.head.core
  obtain ⟨ds, h1, h2, h3⟩ := hc.real_path hwf hroot (Nat.le_refl _) (by omega) j i hi fuel hx
  refine ⟨ds, h1, h2, ?_⟩
  have hge := hc.id_ge (Nat.le_refl _) (by omega) j i hi
  have hlt := hc.lt j i hi
  unfold bestPath
  rw [hc.misc.1, h3 _ (by omega)]

/-- The root is kept. -/
theorem Done.root_mem (hd : Done v p r S B inp rd m k jx P L c) (hres : inp.compType = .restricted → m.approximate = false) :
    (0 < k ∧ 0 ∈ L 0) ∨ (0 = k ∧ 0 ∈ P k) := by
  have hc := hd.head.core
  have h0 : 0 ∈ P 0 := by rw [hc.root.1]; simp
  by_cases hk : k = 0
  · right; subst hk; exact ⟨rfl, h0⟩
  · left
    refine ⟨by omega, ?_⟩
    have hjx : 0 < jx := by
      by_cases hr : inp.compType = .relaxed
      · by_cases ha : m.approximate = true
        · have := (hc.jxr hr).2 ha; omega
        · have := (hc.jxr hr).1 (by simpa using ha); omega
      · have := hc.jxn hr; omega
    rcases (hc.pre 0 hjx).1 0 h0 with h1 | h1 | h1
    · exact h1
    · have := h1.below; omega
    · have := hres h1.1; rw [h1.2] at this; cases this

/-- Above the first merged layer nothing is lost: a completion reaches any layer before `jx`. -/
theorem Done.reach_layer (hwf : WellFormed p S B) (hroot : RootOK p S B inp.residual) (hd : Done v p r S B inp rd m k jx P L c)
    (hadm : Admissible p S) (hr : inp.compType = .relaxed → SoundRelaxation p r S B)
    (hres : inp.compType = .restricted → m.approximate = false) {j0 : Nat} (hj0 : j0 < jx) :
    ∀ (n j i : Nat), j + n = j0 → i ∈ L j → ∀ (ds : List Decision) (u : Int),
      Completion p (m.node i).state ds u → inp.bestLb < (m.node i).value + u →
      (∃ f ∈ L j0, ∃ ds' u', Completion p (m.node f).state ds' u' ∧ (m.node i).value + u ≤ (m.node f).value + u') ∨
      (∃ j' q, j < j' ∧ j' ≤ j0 ∧ q ∈ P j' ∧ Pruned v rd inp.residual.path.length (inp.residual.path.length + j') m q ∧
        ∃ ds' u', Completion p (m.node q).state ds' u' ∧ (m.node i).value + u ≤ (m.node q).value + u') := by
  have hjk := hd.head.core.jx_le
  intro n
  induction n with
  | zero =>
    intro j i hj hi ds u hcomp _
    have : j = j0 := by omega
    subst this
    exact Or.inl ⟨i, hi, ds, u, hcomp, Int.le_refl _⟩
  | succ n ih =>
    intro j i hj hi ds u hcomp hlb
    obtain ⟨q, e, u', ds', he, rfl, hcomp', hle, hqL, hcase⟩ := hd.step hwf hroot hadm hr hres (by omega) hi hcomp hlb
    have hval := hd.edge_value hwf hroot hqL he
    rcases hcase with ⟨⟨hqP, hq⟩, _⟩ | ⟨hqP, hjk, hpru, _⟩ | ⟨hjk, hq, hjx, _⟩
    · have hq' : q ∈ L (j+1) := by
        rcases hq with hq | hq
        · omega
        · exact hq
      rcases ih (j+1) q (by omega) hq' ds' u' hcomp' (by omega) with ⟨f, hf, ds'', u'', h1, h2⟩ | ⟨j', q', h1, h2, h3, h4, ds'', u'', h5, h6⟩
      · exact Or.inl ⟨f, hf, ds'', u'', h1, by omega⟩
      · exact Or.inr ⟨j', q', by omega, h2, h3, h4, ds'', u'', h5, by omega⟩
    · exact Or.inr ⟨j+1, q, by omega, by omega, hqP, hpru, ds', u', hcomp', by omega⟩
    · omega

/-- From an exact node, a completion leads along exact nodes to an exact terminal node, or to an exact node with an inexact child on
which it can be continued, or to a pruned node. -/
theorem Done.reach_frontier (hwf : WellFormed p S B) (hroot : RootOK p S B inp.residual) (hd : Done v p r S B inp rd m k jx P L c)
    (hadm : Admissible p S) (hr : inp.compType = .relaxed → SoundRelaxation p r S B)
    (hres : inp.compType = .restricted → m.approximate = false) :
    ∀ (n j i : Nat), j + n = k → ((j < k ∧ i ∈ L j) ∨ (j = k ∧ i ∈ P k)) → (m.node i).flags.isExact = true →
      ∀ (ds : List Decision) (u : Int), Completion p (m.node i).state ds u → inp.bestLb < (m.node i).value + u →
      (∃ t ∈ P k, (m.node t).flags.isExact = true ∧ (m.node i).value + u ≤ (m.node t).value) ∨
      (∃ j' f q e ds1 u1 ds2 u2, (j < j' ∨ (j' = j ∧ f = i)) ∧ j' < k ∧ f ∈ L j' ∧ (m.node f).flags.isExact = true ∧ e ∈ m.inIds q ∧ (m.edge e).src = f ∧
        (m.node q).flags.isExact = false ∧ ((j' + 1 < k ∧ q ∈ L (j'+1)) ∨ (j' + 1 = k ∧ q ∈ P k)) ∧
        Completion p (m.node f).state ds1 u1 ∧ (m.node i).value + u ≤ (m.node f).value + u1 ∧
        Completion p (m.node q).state ds2 u2 ∧ u1 ≤ (m.edge e).cost + u2) ∨
      (∃ j' q, j < j' ∧ j' < k ∧ q ∈ P j' ∧ Pruned v rd inp.residual.path.length (inp.residual.path.length + j') m q ∧
        ∃ ds' u', Completion p (m.node q).state ds' u' ∧ (m.node i).value + u ≤ (m.node q).value + u') := by
  intro n
  induction n with
  | zero =>
    intro j i hj hi hex ds u hcomp _
    have : j = k := by omega
    subst this
    rcases hi with ⟨h1, _⟩ | ⟨_, hi⟩
    · omega
    · have ht := hd.terminal hwf hi
      obtain ⟨_, rfl⟩ := (Completion.nil_iff ht).1 hcomp
      exact Or.inl ⟨i, hi, hex, by omega⟩
  | succ n ih =>
    intro j i hj hi hex ds u hcomp hlb
    have hi' : i ∈ L j := by
      rcases hi with hi | hi
      · exact hi.2
      · omega
    obtain ⟨q, e, u', ds', he, rfl, hcomp', hle, hqL, hcase⟩ := hd.step hwf hroot hadm hr hres (by omega) hi' hcomp hlb
    have hval := hd.edge_value hwf hroot hqL he
    have hq : (q ∈ P (j+1) ∧ j + 1 < k ∧ Pruned v rd inp.residual.path.length (inp.residual.path.length + (j+1)) m q) ∨
        ((j + 1 < k ∧ q ∈ L (j+1)) ∨ (j + 1 = k ∧ q ∈ P k)) := by
      rcases hcase with ⟨⟨hqP, hq⟩, _⟩ | ⟨hqP, hjk, hpru, _⟩ | ⟨hjk, hq, _⟩
      · right
        by_cases hjk : j + 1 = k
        · right; exact ⟨hjk, by rw [← hjk]; exact hqP⟩
        · rcases hq with hq | hq
          · exact absurd hq hjk
          · exact Or.inl ⟨by omega, hq⟩
      · exact Or.inl ⟨hqP, hjk, hpru⟩
      · exact Or.inr (Or.inl ⟨hjk, hq⟩)
    rcases hq with ⟨hqP, hjk, hpru⟩ | hq
    · exact Or.inr (Or.inr ⟨j+1, q, by omega, hjk, hqP, hpru, ds', u', hcomp', by omega⟩)
    · by_cases hqe : (m.node q).flags.isExact = true
      · rcases ih (j+1) q (by omega) hq hqe ds' u' hcomp' (by omega) with ⟨t, h1, h2, h3⟩ |
          ⟨j', f, q', e', ds1, u1, ds2, u2, h1, h2, h3, h4, h5, h6, h7, h8, h9, h10, h11⟩ | ⟨j', q', h1, h2, h3, h4, ds'', u'', h5, h6⟩
        · exact Or.inl ⟨t, h1, h2, by omega⟩
        · exact Or.inr (Or.inl ⟨j', f, q', e', ds1, u1, ds2, u2, by omega, h2, h3, h4, h5, h6, h7, h8, h9, by omega, h11⟩)
        · exact Or.inr (Or.inr ⟨j', q', by omega, h2, h3, h4, ds'', u'', h5, by omega⟩)
      · exact Or.inr (Or.inl ⟨j, (m.edge e).src, q, e, ds, u, ds', u', Or.inr ⟨rfl, rfl⟩, by omega, hi', hex, he, rfl, by simpa using hqe, hq,
          hcomp, Int.le_refl _, hcomp', hle⟩)

end Verif.Dd
