import Verif.Proofs.Mdd.Result
/-! The thresholds a compilation stores: what they promise. -/
set_option autoImplicit false

namespace Verif.Spec
open Verif
variable {σ : Type} {p : Problem σ} {S : Layering σ} {B : Int} {rd : Reads σ}

theorem _root_.Verif.Spec.PrunedBelow.mono {d0 d1 : Nat} {w w' : Int} (h : PrunedBelow p S B rd d0 w) (hd : d1 ≤ d0) (hw : w' ≤ w) :
    PrunedBelow p S B rd d1 w' := by
  obtain ⟨d, s, θ, y, ds, u, h1, h2, h3, h4, h5, h6, h7, h8, h9, h10⟩ := h
  exact ⟨d, s, θ, y, ds, u, by omega, h2, h3, h4, h5, h6, h7, h8, h9, by omega⟩

end Verif.Spec

namespace Verif.Dd
open Verif Spec
variable {σ : Type} [DecidableEq σ] [Inhabited σ]
variable {v : Variant} {p : Problem σ} {r : Relaxation σ} {S : Layering σ} {B : Int}
  {inp : Input σ} {rd : Reads σ} {m D : Dd σ} {k jx : Nat} {P L : Nat → List Nat} {c : CutsetType} {o : Oracle σ}

theorem le_satSub {y a c : Int} (h : y ≤ satSub a c) (hy : isizeMin < y) : y + c ≤ a := by
  simp only [satSub, clamp, isizeMin, isizeMax] at *; omega

theorem Done.prunedBelow (hwf : WellFormed p S B) (hroot : RootOK p S B inp.residual) (hd : Done v p r S B inp rd m k jx P L c)
    {j q : Nat} (hj : j ≤ k) (hq : q ∈ P j) (h : Pruned v rd inp.residual.path.length (inp.residual.path.length + j) m q)
    {d0 : Nat} (hd0 : d0 < inp.residual.path.length + j) {ds : List Decision} {y u w : Int}
    (hy : y ≤ (m.node q).theta) (hb : -(((inp.residual.path.length + j + 1 : Nat) : Int) * B) ≤ y ∧ y ≤ ((inp.residual.path.length + j + 1 : Nat) : Int) * B)
    (hcomp : Completion p (m.node q).state ds u) (hw : w ≤ y + u) : PrunedBelow p S B rd d0 w := by
  have hc := hd.head.core
  have hin : InLay P L k k j q := Or.inl ⟨hj, hq⟩
  have hst := hc.st j q hin
  have hlv := hc.lvl_le hroot (by omega) hin
  have hf := fits hwf (x := y) (n := inp.residual.path.length + j + 1) (by omega) hb.1 hb.2
  rw [h.theta] at hy
  cases hth : rd.theta (inp.residual.path.length + j) (m.node q).state with
  | none => rw [hth] at hy; simp at hy; omega
  | some θ =>
    rw [hth] at hy
    refine ⟨inp.residual.path.length + j, (m.node q).state, θ, y, ds, u, hd0, hst.1, hst.2.1, h.nonempty, hth, hy, ?_, ?_, hcomp, hw⟩
    · have := hb.1; simpa using this
    · have := hb.2; simpa using this

/-- The pruned nodes met by a simulation. -/
theorem Done.prunedBelow' (hwf : WellFormed p S B) (hroot : RootOK p S B inp.residual) (hd : Done v p r S B inp rd m k jx P L c)
    {j q : Nat} (hj : j ≤ k) (hq : q ∈ P j) (h : Pruned v rd inp.residual.path.length (inp.residual.path.length + j) m q)
    {d0 : Nat} (hd0 : d0 < inp.residual.path.length + j) {ds : List Decision} {u w : Int}
    (hcomp : Completion p (m.node q).state ds u) (hw : w ≤ (m.node q).value + u) : PrunedBelow p S B rd d0 w := by
  have hc := hd.head.core
  have hvb := hc.value_bound hwf hroot (Nat.le_refl _) (by omega) j q (Or.inl ⟨hj, hq⟩)
  exact hd.prunedBelow hwf hroot hj hq h hd0 (by rw [h.theta]; exact h.le) hvb hcomp hw

/-- The upper bound recorded for a subproblem of the cutset may only fail for completions that a threshold cut off. -/
theorem Done.drain_ub (hwf : WellFormed p S B) (ho : o.Valid) (hroot : RootOK p S B inp.residual) (hd : Done v p r S B inp rd m k jx P L c)
    (hadm : Admissible p S) (hr : inp.compType = .relaxed → SoundRelaxation p r S B) (hx : v = .barrier ∨ (m.finish v o inp).exact = false)
    {n : SubProblem σ} (hn : n ∈ (m.finish v o inp).drainCutset) {w : Int} (ht : Through p n w) :
    w ≤ inp.bestLb ∨ w ≤ n.ub ∨ PrunedBelow p S B rd n.path.length w := by
  obtain ⟨ds, u, hcomp, rfl⟩ := ht
  have hc := hd.head.core
  obtain ⟨pds, hpath, _, hrun, _⟩ := hd.drained hwf ho hroot hn
  obtain ⟨bv, i, hb, hi, hm, rfl⟩ := mem_drain hn
  obtain ⟨hrel, happ, j, h1, h2, h3, h4, h5, h6⟩ := hd.cutset_exact hwf ho hroot hi hm
  have hF := hd.final hwf ho hroot hrel hx
  have hres : inp.compType = .restricted → m.approximate = false := by rw [hrel]; intro h; cases h
  have hst := hc.st j i (Or.inr ⟨h2, h3⟩)
  have hsv : ((m.finish v o inp).node i).value = (m.node i).value := (hF.skel.node i).value
  have hss : ((m.finish v o inp).node i).state = (m.node i).state := (hF.skel.node i).state
  have hlen : ((m.finish v o inp).cutsetNode bv i).path.length = inp.residual.path.length + j := by
    have hf := (hrun.facts hwf hroot.ok).2.1
    rw [hpath]
    simp only [cutsetNode, hss, hst.2.1, hroot.lvl] at hf
    simp; omega
  have hcomp' : Completion p (m.node i).state ds u := by simp only [cutsetNode, hss] at hcomp; exact hcomp
  have hval : ((m.finish v o inp).cutsetNode bv i).value = (m.node i).value := by simp only [cutsetNode, hsv]
  rw [hval, hlen]
  by_cases hlb : (m.node i).value + u ≤ inp.bestLb
  · exact Or.inl hlb
  · right
    rcases hd.sim hwf hroot hadm hr hres (k - j) j i (by omega) (Or.inl ⟨h2, h3⟩) ds u hcomp' (by omega) with
      ⟨t, ht, w, hw, hle⟩ | ⟨j', q, g1, g2, g3, g4, w, u', ds', hw, hcc, hle⟩
    · left
      exact (Final.ub hwf ho hroot hd hadm rfl hF h2 h3 (fun _ _ => h5) ht hw hcomp' hle hb).2.2.2
    · right
      have hwv := hd.walk_value hwf hroot hw (Or.inl ⟨by omega, g3⟩)
      exact hd.prunedBelow' hwf hroot (by omega) g3 g4 (by omega) hcc (by omega)

section barrier
variable {b : Dd σ}

/-- Facts about the sweep used below: node by node, in terms of the diagram before it. -/
theorem Done.simTheta (hwf : WellFormed p S B) (hroot : RootOK p S B inp.residual) (hd : Done .barrier p r S B inp rd m k jx P L c)
    (hadm : Admissible p S) (hr : inp.compType = .relaxed → SoundRelaxation p r S B)
    (hres : inp.compType = .restricted → m.approximate = false)
    (hθ : ∀ j, j ≤ k → ∀ i, InLay P L k k j i → (D.node i).theta ≤ (m.node i).theta)
    (hE : ∀ j, j ≤ k → ∀ i, InLay P L k k j i → (m.node i).flags.isDeleted = false → ∀ e ∈ m.inIds i,
      (D.node (m.edge e).src).theta ≤ satSub (D.node i).theta (m.edge e).cost) {j0 : Nat} (hj0 : j0 ≤ k) :
    ∀ (n j i : Nat), j + n = j0 → i ∈ Lay P L k j → ∀ (ds : List Decision) (y u : Int),
      -(((inp.residual.path.length + j + 1 : Nat) : Int) * B) ≤ y → y ≤ ((inp.residual.path.length + j + 1 : Nat) : Int) * B →
      y ≤ (D.node i).theta → Completion p (m.node i).state ds u →
      (∃ f ∈ Lay P L k j0, ∃ w ds' u', Walk m i f w ∧ Completion p (m.node f).state ds' u' ∧ u ≤ w + u' ∧ y + w ≤ (D.node f).theta ∧
        -(((inp.residual.path.length + j0 + 1 : Nat) : Int) * B) ≤ y + w ∧ y + w ≤ ((inp.residual.path.length + j0 + 1 : Nat) : Int) * B) ∨
      y + u ≤ inp.bestLb ∨ PrunedBelow p S B rd (inp.residual.path.length + j) (y + u) := by
  have hc := hd.head.core
  intro n
  induction n with
  | zero =>
    intro j i hj hi ds y u hy1 hy2 hy hcomp
    have : j = j0 := by omega
    subst this
    exact Or.inl ⟨i, hi, 0, ds, u, .nil i, hcomp, by omega, by omega, by omega, by omega⟩
  | succ n ih =>
    intro j i hj hi ds y u hy1 hy2 hy hcomp
    have hjk : j < k := by omega
    have hiL : i ∈ L j := by rw [Lay_lt hjk] at hi; exact hi
    have hin : InLay P L k k j i := Or.inr ⟨hjk, hiL⟩
    have hst := hc.st j i hin
    have hlv := hc.lvl_le hroot (by omega) hin
    have hfit := fits hwf (x := y) (n := inp.residual.path.length + j + 1) (by omega) hy1 hy2
    by_cases hprom : Promising p inp.bestLb (m.node i)
    · obtain ⟨q, e, u', ds', he, rfl, hcomp', hle, hqL, hcase⟩ := hd.stepP hwf hr hres hjk hiL hcomp hprom
      have hndel : (m.node q).flags.isDeleted = false := by
        rcases hcase with ⟨⟨hqP, hq⟩, _⟩ | ⟨hqP, hjk', hpru, _⟩ | ⟨hjk', hq, _⟩
        · rcases hq with hq | hq
          · rw [hq] at hqP; exact (hd.head.clean q hqP).1.deleted
          · by_cases hjk' : j + 1 < k
            · exact (hc.lclean (j+1) hjk' q hq).1
            · have : j + 1 = k := by omega
              rw [this] at hqP; exact (hd.head.clean q hqP).1.deleted
        · exact hpru.del
        · exact (hc.lclean (j+1) hjk' q hq).1
      have hth := hE (j+1) (by omega) q hqL hndel e he
      have hcb := hc.edge_bound hwf (Nat.le_refl _) (by omega) hqL he
      have hy' : y + (m.edge e).cost ≤ (D.node q).theta := le_satSub (Int.le_trans hy hth) hfit.2
      have e1 : ((inp.residual.path.length + (j + 1) + 1 : Nat) : Int) * B = ((inp.residual.path.length + j + 1 : Nat) : Int) * B + B := by
        have : ((inp.residual.path.length + (j + 1) + 1 : Nat) : Int) = ((inp.residual.path.length + j + 1 : Nat) : Int) + 1 := by omega
        rw [this, Int.add_mul]; omega
      have cont : q ∈ Lay P L k (j+1) → _ := fun hq =>
        ih (j+1) q (by omega) hq ds' (y + (m.edge e).cost) u' (by rw [e1]; omega) (by rw [e1]; omega) hy' hcomp'
      suffices hgoal : q ∈ Lay P L k (j+1) ∨ PrunedBelow p S B rd (inp.residual.path.length + j) (y + u) by
        rcases hgoal with hq | h
        rotate_left
        · exact Or.inr (Or.inr h)
        rcases cont hq with ⟨f, hf, w, ds2, u2, hw, hc2, hu2, ht2, hb2, hb3⟩ | h | h
        · exact Or.inl ⟨f, hf, (m.edge e).cost + w, ds2, u2, .cons he hw, hc2, by omega, by omega, by omega, by omega⟩
        · exact Or.inr (Or.inl (by omega))
        · exact Or.inr (Or.inr (h.mono (by omega) (by omega)))
      rcases hcase with ⟨⟨hqP, hq⟩, _⟩ | ⟨hqP, hjk', hpru, _⟩ | ⟨hjk', hq, _⟩
      · left
        by_cases hjk' : j + 1 = k
        · rw [hjk', Lay_k]; rw [hjk'] at hqP; exact hqP
        · rcases hq with hq | hq
          · exact absurd hq hjk'
          · rw [Lay_lt (by omega)]; exact hq
      · right
        have := hθ (j+1) (by omega) q hqL
        exact hd.prunedBelow hwf hroot (by omega) hqP hpru (by omega) (Int.le_trans hy' this) ⟨by rw [e1]; omega, by rw [e1]; omega⟩ hcomp' (by omega)
      · left
        rw [Lay_lt hjk']; exact hq
    · right; left
      have h1 := (hc.exp j hjk i hiL).2.1 rfl
      rw [if_neg hprom] at h1
      have h2 := hθ j (by omega) i hin
      have h3 := le_satSub (y := y) (a := inp.bestLb) (c := p.estimate (m.node i).state) (by omega) hfit.2
      have := hadm _ hst.1 _ _ hcomp
      omega

/-- What a stored threshold promises about a completion of its state that is worth `w` in total. -/
def Promise (p : Problem σ) (S : Layering σ) (B : Int) (rd : Reads σ) (lb : Int) (D : Dd σ) (x : Update σ) (w : Int) : Prop :=
  w ≤ lb ∨ PrunedBelow p S B rd x.depth w ∨
  ((∃ bv, D.bestValue = some bv ∧ w ≤ bv) ∧
    (D.exact = false → ∃ n ∈ D.drainCutset, ∃ w', Through p n w' ∧ w ≤ w' ∧ w' ≤ n.ub ∧
      (x.depth < n.path.length ∨ (x.depth = n.path.length ∧ x.explored = false ∧ n.state = x.state ∧ x.theta ≤ n.value))))

/-- A completion of a node of the last exact layer that could improve on the lower bound is represented in the cutset. -/
theorem Done.cut_cover (hwf : WellFormed p S B) (ho : o.Valid) (hroot : RootOK p S B inp.residual) (hd : Done v p r S B inp rd m k jx P L c)
    (hadm : Admissible p S) (hr : inp.compType = .relaxed → SoundRelaxation p r S B) (hrel : inp.compType = .relaxed)
    (hlel : m.cutsetType = .lastExactLayer) (hx : v = .barrier ∨ (m.finish v o inp).exact = false) (happ : m.approximate = true)
    {f : Nat} (hf : f ∈ L (jx - 1)) {ds : List Decision} {u : Int} (hcomp : Completion p (m.node f).state ds u)
    (hlb : inp.bestLb < (m.node f).value + u) :
    ((∃ bv, (m.finish v o inp).bestValue = some bv ∧ (m.node f).value + u ≤ bv) ∧
      ∃ n ∈ (m.finish v o inp).drainCutset, Through p n ((m.node f).value + u) ∧ (m.node f).value + u ≤ n.ub ∧
        n.path.length = inp.residual.path.length + (jx - 1) ∧ n.state = (m.node f).state ∧ n.value = (m.node f).value) ∨
    PrunedBelow p S B rd (inp.residual.path.length + (jx - 1)) ((m.node f).value + u) := by
  have hc := hd.head.core
  have hres : inp.compType = .restricted → m.approximate = false := by rw [hrel]; intro h; cases h
  have hjx := (hc.jxr hrel).2 happ
  have hF := hd.final hwf ho hroot hrel hx
  rcases hd.sim hwf hroot hadm hr hres (k - (jx - 1)) (jx - 1) f (by omega) (Or.inl ⟨by omega, hf⟩) ds u hcomp (by omega) with
    ⟨t, ht, w, hw, hle'⟩ | ⟨j', q, h1, h2, h3, h4, w, u'', ds'', hw, hcc, hle'⟩
  · left
    have hwv := hd.walk_value hwf hroot hw (Or.inl ⟨Nat.le_refl _, ht⟩)
    rcases hd.bestValue hwf ho hroot (o := o) with ⟨_, _, h2⟩ | ⟨t', g1, _, g2, g3⟩
    · rw [h2] at ht; cases ht
    · obtain ⟨a1, a2, a3, a4⟩ := Final.ub hwf ho hroot hd hadm rfl hF (by omega) hf (fun _ _ => Nat.le_refl _) ht hw hcomp hle' g2
      refine ⟨⟨_, g2, by have := g3 t ht; omega⟩, _, drain_mem g2 (hF.cutL f ?_) a1, ⟨ds, u, by rw [a2]; exact hcomp, by rw [a3]⟩, a4, ?_, a2, a3⟩
      · rw [(hc.cut1 (by rw [← hc.misc.2.2.2]; exact hlel) hrel happ).1]; exact hf
      · have hmem := drain_mem g2 (hF.cutL f (by rw [(hc.cut1 (by rw [← hc.misc.2.2.2]; exact hlel) hrel happ).1]; exact hf)) a1
        obtain ⟨pds, hpath, _, hrun, _⟩ := hd.drained hwf ho hroot hmem
        have hst := hc.st (jx-1) f (Or.inr ⟨by omega, hf⟩)
        have := (hrun.facts hwf hroot.ok).2.1
        rw [a2, hst.2.1, hroot.lvl] at this
        rw [hpath]; simp; omega
  · right
    have hwv := hd.walk_value hwf hroot hw (Or.inl ⟨by omega, h3⟩)
    exact hd.prunedBelow' hwf hroot (by omega) h3 h4 (by omega) hcc (by omega)

/-- Thresholds stored by a relaxed compilation with the last exact layer as cutset keep their promise. -/
theorem Done.promise (hwf : WellFormed p S B) (ho : o.Valid) (hroot : RootOK p S B inp.residual) (hd : Done .barrier p r S B inp rd m k jx P L c)
    (hadm : Admissible p S) (hr : inp.compType = .relaxed → SoundRelaxation p r S B) (hrel : inp.compType = .relaxed)
    (hlel : m.cutsetType = .lastExactLayer) {x : Update σ} (hu : x ∈ (m.finish .barrier o inp).updates) :
    S.ok x.state ∧ S.lvl x.state = x.depth ∧ inp.residual.path.length ≤ x.depth ∧ x.depth ≤ p.nbVars ∧
    ∀ (ds : List Decision) (y u : Int), -(((x.depth + 1 : Nat) : Int) * B) ≤ y → y ≤ ((x.depth + 1 : Nat) : Int) * B → y ≤ x.theta →
      Completion p x.state ds u → Promise p S B rd inp.bestLb (m.finish .barrier o inp) x (y + u) := by
  have hc := hd.head.core
  have hres : inp.compType = .restricted → m.approximate = false := by rw [hrel]; intro h; cases h
  have hcl : c = .lastExactLayer := by rw [← hc.misc.2.2.2]; exact hlel
  have hF := hd.finalBarrier hwf ho hroot hrel
  obtain ⟨b, hT, hsrc, hS⟩ := hd.sweep ho hrel
  have hbest := hd.bestValue hwf ho hroot (o := o)
  have hcov := fun (happ : m.approximate = true) (f : Nat) (hf : f ∈ L (jx-1)) => fun (ds : List Decision) (u : Int) =>
    hd.cut_cover (o := o) hwf ho hroot hadm hr hrel hlel (Or.inl rfl) happ hf (ds := ds) (u := u)
  have hexact : m.approximate = false → (m.finish .barrier o inp).exact = true := by
    intro h
    have : (m.fin0 o inp).exact = (!m.approximate || _) := rfl
    rw [hF.skel.exact, this, h]; rfl
  obtain ⟨D, hD⟩ : ∃ D, D = m.finish .barrier o inp := ⟨_, rfl⟩
  rw [← hD] at hu hS hF hbest hcov hexact ⊢
  have hsk := hT.skel
  have hbe : ∀ e, b.edge e = m.edge e := fun e => (hsk.edge e).trans (fin0_edge o inp m e)
  have hbi : ∀ i, b.inIds i = m.inIds i := fun i => (hsk.inIds i).trans (fin0_inIds o inp m i)
  have hbl : b.nodes.length = m.nodes.length := hsk.len
  have hθb : ∀ i, i < m.nodes.length → (b.node i).theta = (m.node i).theta := by
    intro i hi
    by_cases hk : i ∈ P k
    · exact (hT.term i hk hi).2.2.1
    · rw [hT.other i hk, fin0_node]
  have hθ : ∀ j, j ≤ k → ∀ i, InLay P L k k j i → (D.node i).theta ≤ (m.node i).theta := by
    intro j _ i hi
    rw [← hθb i (hc.lt j i hi)]; exact hS.mono.theta i
  have hE : ∀ j, j ≤ k → ∀ i, InLay P L k k j i → (m.node i).flags.isDeleted = false → ∀ e ∈ m.inIds i,
      (D.node (m.edge e).src).theta ≤ satSub (D.node i).theta (m.edge e).cost := by
    intro j _ i hi hdel e he
    have := (hS.edge i (Nat.zero_le _) (by rw [hbl]; exact hc.lt j i hi) (by rw [(hsk.node i).deleted, fin0_node]; exact hdel) e
      (by rw [hbi]; exact he)).2
    rw [hbe] at this; exact this
  have hval : ∀ i, (D.node i).value = (m.node i).value := fun i => (hF.skel.node i).value
  -- the simulation
  have hsim := fun (j0 : Nat) (hj0 : j0 ≤ k) => hd.simTheta (D := D) hwf hroot hadm hr hres hθ hE hj0
  -- what happens at the last exact layer
  have hlast : m.approximate = true → ∀ f ∈ L (jx - 1), ∀ (ds : List Decision) (y u : Int),
      -(((inp.residual.path.length + (jx - 1) + 1 : Nat) : Int) * B) ≤ y → y ≤ ((inp.residual.path.length + (jx - 1) + 1 : Nat) : Int) * B →
      y ≤ (D.node f).theta → Completion p (m.node f).state ds u →
      y + u ≤ inp.bestLb ∨ PrunedBelow p S B rd (inp.residual.path.length + (jx - 1)) (y + u) ∨
      ((∃ bv, D.bestValue = some bv ∧ y + u ≤ bv) ∧ ∃ n ∈ D.drainCutset, ∃ w', Through p n w' ∧ y + u ≤ w' ∧ w' ≤ n.ub ∧
        n.path.length = inp.residual.path.length + (jx - 1) ∧ n.state = (m.node f).state ∧ (D.node f).theta ≤ n.value) := by
    intro happ f hf ds y u hy1 hy2 hy hcomp
    have hjx := (hc.jxr hrel).2 happ
    have hin : InLay P L k k (jx-1) f := Or.inr ⟨by omega, hf⟩
    have hlv := hc.lvl_le hroot (by omega) hin
    have hfit := fits hwf (x := y) (n := inp.residual.path.length + (jx-1) + 1) (by omega) hy1 hy2
    have hfk : f ∉ P k := fun hh => by
      have := hc.layer_unique hin (Or.inl ⟨Nat.le_refl _, hh⟩)
      omega
    have hcut : (D.node f).flags.isCutset = true := by
      apply hS.mono.cutF
      rw [hT.other f hfk, fin0_node, (hc.lclean (jx-1) (by omega) f hf).2.2.2.2, (hc.cut1 hcl hrel happ).1]
      simp [hf]
    have hdel : (b.node f).flags.isDeleted = false := by
      rw [(hsk.node f).deleted, fin0_node]; exact (hc.lclean (jx-1) (by omega) f hf).1
    have hcb := hS.cutTheta f (Nat.zero_le _) (by rw [hbl]; exact hc.lt _ f hin) hdel hcut
    unfold cutBound at hcb
    by_cases hcase : satAdd (D.node f).value (D.node f).valueBot < inp.bestLb
    · rw [if_pos hcase] at hcb
      have h1 := le_satSub (Int.le_trans hy hcb) hfit.2
      rcases hsim k (Nat.le_refl _) (k - (jx-1)) (jx-1) f (by omega) (by rw [Lay_lt (by omega)]; exact hf) ds y u hy1 hy2 hy hcomp with
        ⟨t, ht, w, ds', u', hw, hc', hle, _⟩ | h | h
      · left
        rw [Lay_k] at ht
        have h2 := (hF.A (jx-1) (by omega) (fun _ _ => Nat.le_refl _) f (by rw [Lay_lt (by omega)]; exact hf) t ht w hw).2
        obtain ⟨_, rfl⟩ := (Completion.nil_iff (hd.terminal hwf ht)).1 hc'
        omega
      · exact Or.inl h
      · exact Or.inr (Or.inl h)
    · rw [if_neg hcase, hval] at hcb
      by_cases hlb : (m.node f).value + u ≤ inp.bestLb
      · left; omega
      · right
        rcases hcov happ f hf ds u hcomp (by omega) with ⟨⟨bv, g1, g2⟩, n, g3, g4, g5, g6, g7, g8⟩ | h
        · right
          exact ⟨⟨bv, g1, by omega⟩, n, g3, _, g4, by omega, g5, g6, g7, by omega⟩
        · exact Or.inl (h.mono (Nat.le_refl _) (by omega))
  rcases hS.upd x hu with hx | ⟨i, _, hil, hidel, hiex, hipr, hist, rfl⟩
  · -- stored while the layers were developed
    rw [hT.upd] at hx
    obtain ⟨_, _, j, hj, i, hi, _, hjx, rfl⟩ := hc.upd x hx
    have hin : InLay P L k k j i := Or.inr ⟨hj, hi⟩
    have hst := hc.st j i hin
    have hlv := hc.lvl_le hroot (by omega) hin
    have hjx := hjx hcl
    refine ⟨hst.1, hst.2.1, by simp, hlv, ?_⟩
    simp only []
    intro ds y u hy1 hy2 hy hcomp
    have hfit := fits hwf (x := y) (n := inp.residual.path.length + j + 1) (by omega) hy1 hy2
    by_cases hprom : Promising p inp.bestLb (m.node i)
    · rw [if_pos hprom] at hy
      by_cases hlb : (m.node i).value + u ≤ inp.bestLb
      · exact Or.inl (by omega)
      · by_cases happ : m.approximate = true
        · have hjx2 := (hc.jxr hrel).2 happ
          rcases hd.reach_layer hwf hroot hadm hr hres (j0 := jx - 1) (by omega) (jx - 1 - j) j i (by omega) hi ds u hcomp (by omega) with
            ⟨f, hf, ds', u', hc1, hle⟩ | ⟨j', q, h1, h2, h3, h4, ds', u', h5, h6⟩
          · by_cases hjj : j = jx - 1
            · have hi' : i ∈ L (jx-1) := by rw [← hjj]; exact hi
              rcases hcov happ i hi' ds u hcomp (by omega) with ⟨⟨bv, g1, g2⟩, n, g3, g4, g5, g6, g7, g8⟩ | h
              · refine Or.inr (Or.inr ⟨⟨bv, g1, by omega⟩, fun _ => ⟨n, g3, _, g4, by omega, g5, Or.inr ⟨by simp only []; omega, rfl, g7, ?_⟩⟩⟩)
                simp only [if_pos hprom]; omega
              · exact Or.inr (Or.inl (h.mono (by simp only []; omega) (by omega)))
            · rcases hcov happ f hf ds' u' hc1 (by omega) with ⟨⟨bv, g1, g2⟩, n, g3, g4, g5, g6, g7, g8⟩ | h
              · exact Or.inr (Or.inr ⟨⟨bv, g1, by omega⟩, fun _ => ⟨n, g3, _, g4, by omega, g5, Or.inl (by simp only []; omega)⟩⟩)
              · exact Or.inr (Or.inl (h.mono (by simp only []; omega) (by omega)))
          · exact Or.inr (Or.inl (hd.prunedBelow' hwf hroot (by omega) h3 h4 (by simp only []; omega) h5 (by omega)))
        · have happ : m.approximate = false := by simpa using happ
          rcases hd.sim hwf hroot hadm hr hres (k - j) j i (by omega) (Or.inl ⟨hj, hi⟩) ds u hcomp (by omega) with
            ⟨t, ht, w, hw, hle⟩ | ⟨j', q, g1, g2, g3, g4, w, u', ds', hw, hcc, hle⟩
          · have hwv := hd.walk_value hwf hroot hw (Or.inl ⟨Nat.le_refl _, ht⟩)
            refine Or.inr (Or.inr ⟨?_, fun h => by rw [hexact happ] at h; cases h⟩)
            rcases hbest with ⟨_, _, h2⟩ | ⟨t', g1, _, g2, g3⟩
            · rw [h2] at ht; cases ht
            · exact ⟨_, g2, by have := g3 t ht; omega⟩
          · have hwv := hd.walk_value hwf hroot hw (Or.inl ⟨by omega, g3⟩)
            exact Or.inr (Or.inl (hd.prunedBelow' hwf hroot (by omega) g3 g4 (by simp only []; omega) hcc (by omega)))
    · rw [if_neg hprom] at hy
      have h3 := le_satSub hy hfit.2
      have := hadm _ hst.1 _ _ hcomp
      exact Or.inl (by omega)
  · -- stored during the sweep
    rw [hbl] at hil
    obtain ⟨j, hin⟩ := hc.all i hil
    have hst := hc.st j i hin
    have hlv := hc.lvl_le hroot (by omega) hin
    have hjk : j ≤ k := by rcases hin with h | h <;> omega
    have ed : (b.node i).depth = inp.residual.path.length + j := by rw [(hsk.node i).depth, fin0_node, hst.2.2]
    have es : (b.node i).state = (m.node i).state := by rw [(hsk.node i).state, fin0_node]
    rw [(hsk.node i).deleted, fin0_node] at hidel
    rw [(hsk.node i).pruned, fin0_node] at hipr
    have hLay : i ∈ Lay P L k j := by
      rcases hin with ⟨h1, h2⟩ | ⟨h1, h2⟩
      · by_cases hk : j = k
        · subst hk; rw [Lay_k]; exact h2
        · rw [Lay_lt (by omega)]
          rcases hc.fate j (by omega) i h2 with g | g | g | g
          · exact g
          · rw [g.flag] at hipr; cases hipr
          · by_cases hh : i ∈ L j
            · exact hh
            · have := g.2.2.del rfl hh
              rw [this] at hidel; cases hidel
          · rw [hrel] at g; cases g.1
      · rw [Lay_lt h1]; exact h2
    rw [ed] at hist ⊢
    rw [es]
    refine ⟨hst.1, hst.2.1, by simp, hlv, ?_⟩
    simp only []
    intro ds y u hy1 hy2 hy hcomp
    by_cases happ : m.approximate = true
    · have hjx := (hc.jxr hrel).2 happ
      have hjle : j ≤ jx - 1 := by
        have h2 := (hc.cut1 hcl hrel happ).2
        have hld : b.lelDepth = m.lelDepth := hsk.lelDepth
        have hct : b.cutsetType = .lastExactLayer := by rw [hsk.cutsetType]; exact hlel
        cases hl : m.lelDepth with
        | none => rw [hl] at h2; cases h2
        | some l =>
          rw [hl] at h2
          simp only [Option.map_some, Option.some.injEq] at h2
          unfold Stored at hist
          rw [hld, hl, hct] at hist
          simp at hist
          omega
      by_cases hjj : j = jx - 1
      · have hi' : i ∈ L (jx-1) := by rw [Lay_lt (by omega)] at hLay; rw [← hjj]; exact hLay
        rcases hlast happ i hi' ds y u (by rw [← hjj]; exact hy1) (by rw [← hjj]; exact hy2) hy hcomp with h | h | ⟨g1, n, g2, w', g3, g4, g5, g6, g7, g8⟩
        · exact Or.inl h
        · exact Or.inr (Or.inl (h.mono (by simp only []; omega) (Int.le_refl _)))
        · refine Or.inr (Or.inr ⟨g1, fun _ => ⟨n, g2, w', g3, g4, g5, Or.inr ⟨by simp only []; omega, ?_, g7, g8⟩⟩⟩)
          have hfk : i ∉ P k := fun hh => by
            have := hc.layer_unique hin (Or.inl ⟨Nat.le_refl _, hh⟩)
            omega
          have hcut : (D.node i).flags.isCutset = true := by
            apply hS.mono.cutF
            rw [hT.other i hfk, fin0_node, (hc.lclean (jx-1) (by omega) i hi').2.2.2.2, (hc.cut1 hcl hrel happ).1]
            simp [hi']
          simp [hcut]
      · rcases hsim (jx-1) (by omega) (jx-1-j) j i (by omega) hLay ds y u hy1 hy2 hy hcomp with
          ⟨f, hf, w, ds', u', hw, hc', hle, ht2, hb2, hb3⟩ | h | h
        · rw [Lay_lt (by omega)] at hf
          rcases hlast happ f hf ds' (y+w) u' hb2 hb3 ht2 hc' with h | h | ⟨⟨bv, g0, g1⟩, n, g2, w', g3, g4, g5, g6, g7, g8⟩
          · exact Or.inl (by omega)
          · exact Or.inr (Or.inl (h.mono (by simp only []; omega) (by omega)))
          · exact Or.inr (Or.inr ⟨⟨bv, g0, by omega⟩, fun _ => ⟨n, g2, w', g3, by omega, g5, Or.inl (by simp only []; omega)⟩⟩)
        · exact Or.inl h
        · exact Or.inr (Or.inl h)
    · have happ : m.approximate = false := by simpa using happ
      rcases hsim k (Nat.le_refl _) (k - j) j i (by omega) hLay ds y u hy1 hy2 hy hcomp with
        ⟨t, ht, w, ds', u', hw, hc', hle, ht2, hb2, hb3⟩ | h | h
      · rw [Lay_k] at ht
        obtain ⟨_, rfl⟩ := (Completion.nil_iff (hd.terminal hwf ht)).1 hc'
        have hin' : InLay P L k k k t := Or.inl ⟨Nat.le_refl _, ht⟩
        have hlt := hc.lt k t hin'
        have hlv' := hc.lvl_le hroot (by omega) hin'
        have htt := hT.term t ht hlt
        have hfit := fits hwf (x := y + w) (n := inp.residual.path.length + k + 1) (by omega) hb2 hb3
        have hcut : (D.node t).flags.isCutset = true := by
          apply hS.mono.cutF
          rw [htt.2.2.2]
          simp [hlel, happ]
        have hdel : (b.node t).flags.isDeleted = false := by
          rw [(hsk.node t).deleted, fin0_node]; exact (hd.head.clean t ht).1.deleted
        have hcb := hS.cutTheta t (Nat.zero_le _) (by rw [hbl]; exact hlt) hdel hcut
        have hbot := hS.mono.bot t
        rw [htt.1] at hbot
        unfold cutBound at hcb
        by_cases hcase : satAdd (D.node t).value (D.node t).valueBot < inp.bestLb
        · rw [if_pos hcase] at hcb
          have h1 := le_satSub (Int.le_trans ht2 hcb) hfit.2
          exact Or.inl (by omega)
        · rw [if_neg hcase, hval] at hcb
          refine Or.inr (Or.inr ⟨?_, fun h => by rw [hexact happ] at h; cases h⟩)
          rcases hbest with ⟨_, _, h2⟩ | ⟨t', g1, _, g2, g3⟩
          · rw [h2] at ht; cases ht
          · exact ⟨_, g2, by have := g3 t ht; omega⟩
      · exact Or.inl h
      · exact Or.inr (Or.inl h)

end barrier
/-- Thresholds are stored by relaxed compilations only, for states met by the compilation. -/
theorem Done.upd_range (ho : o.Valid) (hroot : RootOK p S B inp.residual) (hd : Done .barrier p r S B inp rd m k jx P L c)
    {x : Update σ} (hu : x ∈ (m.finish .barrier o inp).updates) :
    inp.compType = .relaxed ∧ S.ok x.state ∧ S.lvl x.state = x.depth ∧ inp.residual.path.length ≤ x.depth ∧ x.depth ≤ p.nbVars := by
  have hc := hd.head.core
  have old : x ∈ m.updates → inp.compType = .relaxed ∧ S.ok x.state ∧ S.lvl x.state = x.depth ∧ inp.residual.path.length ≤ x.depth ∧ x.depth ≤ p.nbVars := by
    intro hx
    obtain ⟨_, hrel, j, hj, i, hi, _, _, rfl⟩ := hc.upd x hx
    have hin : InLay P L k k j i := Or.inr ⟨hj, hi⟩
    have hst := hc.st j i hin
    exact ⟨hrel, hst.1, hst.2.1, by simp, hc.lvl_le hroot (by omega) hin⟩
  by_cases hrel : inp.compType = .relaxed
  · obtain ⟨b, hT, hsrc, hS⟩ := hd.sweep ho hrel
    rcases hS.upd x hu with hx | ⟨i, _, hil, _, _, _, _, rfl⟩
    · rw [hT.upd] at hx; exact old hx
    · have hsk := hT.skel
      have hbl : b.nodes.length = m.nodes.length := hsk.len
      rw [hbl] at hil
      obtain ⟨j, hin⟩ := hc.all i hil
      have hst := hc.st j i hin
      have hlv := hc.lvl_le hroot (by omega) hin
      have ed : (b.node i).depth = inp.residual.path.length + j := by rw [(hsk.node i).depth, fin0_node, hst.2.2]
      have es : (b.node i).state = (m.node i).state := by rw [(hsk.node i).state, fin0_node]
      simp only [ed, es]
      exact ⟨hrel, hst.1, hst.2.1, by omega, hlv⟩
  · apply old
    have : (m.finish .barrier o inp).updates = m.updates := by
      unfold finish
      cases hc : inp.compType
      · rfl
      · exact absurd hc hrel
      · rfl
    rw [← this]; exact hu

end Verif.Dd
