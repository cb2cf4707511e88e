import Verif.Proofs.Mdd.Loop
import Verif.Proofs.Problem
import Verif.Spec.Walks
/-! Every completion of a node of the diagram is simulated by a walk to the last layer. -/
set_option autoImplicit false

namespace Verif.Dd
open Verif Spec
variable {σ : Type} [DecidableEq σ] [Inhabited σ]
variable {v : Variant} {p : Problem σ} {r : Relaxation σ} {S : Layering σ} {B : Int}
  {inp : Input σ} {rd : Reads σ} {m : Dd σ} {k kL jx : Nat} {P L : Nat → List Nat} {c : CutsetType}

/-- No sum of a moderate number of costs overflows. -/
theorem fits (hwf : WellFormed p S B) {x : Int} {n : Nat} (hn : n ≤ 4 * (p.nbVars + 2)) (h1 : -((n : Int) * B) ≤ x)
    (h2 : x ≤ (n : Int) * B) : InISize x ∧ isizeMin < x := by
  have hB := hwf.B_nonneg
  have : (n : Int) * B ≤ 4 * ((p.nbVars : Int) + 2) * B := Int.mul_le_mul_of_nonneg_right (by omega) hB
  have := hwf.no_overflow
  simp only [InISize, isizeMin, isizeMax] at *
  omega

theorem mulB (hwf : WellFormed p S B) {a b : Nat} (h : a ≤ b) : (a : Int) * B ≤ (b : Int) * B :=
  Int.mul_le_mul_of_nonneg_right (by omega) hwf.B_nonneg

theorem Core.lvl_le (h : Core v p r S B inp rd m k kL jx P L c) (hroot : RootOK p S B inp.residual) (hk : kL ≤ k + 1) {j i : Nat} (hi : InLay P L k kL j i) :
    inp.residual.path.length + j ≤ p.nbVars := by
  rcases hi with ⟨h1, _⟩ | ⟨h1, _⟩
  · cases j with
    | zero => exact hroot.le
    | succ j => have := h.var j (by omega); omega
  · have := h.varL j h1; omega

/-- The source of an inbound edge is in the layer above. -/
theorem Core.src_layer (h : Core v p r S B inp rd m k kL jx P L c) {j i : Nat} (hi : InLay P L k kL (j+1) i) {e : Nat} (he : e ∈ m.inIds i)
    (hkL : k ≤ kL) (hk2 : kL ≤ k + 1) : (m.edge e).src ∈ L j ∧ InLay P L k kL j (m.edge e).src := by
  have := (h.node j i hi).src e he
  refine ⟨this, Or.inr ⟨?_, this⟩⟩
  rcases hi with hi | hi <;> omega

theorem Core.edge_bound (hwf : WellFormed p S B) (h : Core v p r S B inp rd m k kL jx P L c) (hkL : k ≤ kL) (hk2 : kL ≤ k + 1)
    {j i : Nat} (hi : InLay P L k kL (j+1) i) {e : Nat} (he : e ∈ m.inIds i) :
    -B ≤ (m.edge e).cost ∧ (m.edge e).cost ≤ B := by
  obtain ⟨h1, h2⟩ := h.src_layer hi he hkL hk2
  have hn := h.node j i hi
  have hj : j < kL := by
    rcases hi with hi | hi <;> omega
  have := hwf.cost_bound _ _ _ (h.st j _ h2).1 (h.nextVar hwf h2 hj) (hn.dec e he)
  exact ⟨by have := hn.cost_ge e he; omega, hn.cost_le e he⟩

theorem Core.value_bound (hwf : WellFormed p S B) (hroot : RootOK p S B inp.residual) (h : Core v p r S B inp rd m k kL jx P L c)
    (hkL : k ≤ kL) (hk2 : kL ≤ k + 1) : ∀ j i, InLay P L k kL j i →
    -(((inp.residual.path.length + j + 1 : Nat) : Int) * B) ≤ (m.node i).value ∧
    (m.node i).value ≤ ((inp.residual.path.length + j + 1 : Nat) : Int) * B := by
  intro j
  induction j with
  | zero =>
    intro i hi
    have := h.root1 i hi
    subst this
    rw [h.root.2.2.1]
    have := hroot.bound
    simpa using this
  | succ j ih =>
    intro i hi
    obtain ⟨b, hb, _, hv⟩ := (h.node j i hi).veq
    have hs := ih _ (h.src_layer hi hb hkL hk2).2
    have he := h.edge_bound hwf hkL hk2 hi hb
    have hlv := h.lvl_le hroot hk2 hi
    have e1 : ((inp.residual.path.length + (j + 1) + 1 : Nat) : Int) * B = ((inp.residual.path.length + j + 1 : Nat) : Int) * B + B := by
      have : ((inp.residual.path.length + (j + 1) + 1 : Nat) : Int) = ((inp.residual.path.length + j + 1 : Nat) : Int) + 1 := by omega
      rw [this, Int.add_mul]; omega
    have hf := fits hwf (x := (m.node (m.edge b).src).value + (m.edge b).cost) (n := inp.residual.path.length + (j+1) + 1) (by omega)
      (by rw [e1]; omega) (by rw [e1]; omega)
    rw [hv, satAdd_of_in hf.1, e1]; omega

/-- Edge sums do not saturate. -/
theorem Core.sat_edge (hwf : WellFormed p S B) (hroot : RootOK p S B inp.residual) (h : Core v p r S B inp rd m k kL jx P L c)
    (hkL : k ≤ kL) (hk2 : kL ≤ k + 1) {j i : Nat} (hi : InLay P L k kL (j+1) i) {e : Nat} (he : e ∈ m.inIds i) :
    satAdd (m.node (m.edge e).src).value (m.edge e).cost = (m.node (m.edge e).src).value + (m.edge e).cost := by
  have hs := h.value_bound hwf hroot hkL hk2 j _ (h.src_layer hi he hkL hk2).2
  have hb := h.edge_bound hwf hkL hk2 hi he
  have hlv := h.lvl_le hroot hk2 hi
  have e1 : ((inp.residual.path.length + (j + 1) + 1 : Nat) : Int) * B = ((inp.residual.path.length + j + 1 : Nat) : Int) * B + B := by
    have : ((inp.residual.path.length + (j + 1) + 1 : Nat) : Int) = ((inp.residual.path.length + j + 1 : Nat) : Int) + 1 := by omega
    rw [this, Int.add_mul]; omega
  exact satAdd_of_in (fits hwf (n := inp.residual.path.length + (j+1) + 1) (by omega) (by rw [e1]; omega) (by rw [e1]; omega)).1

/-- A state of the last layer is terminal. -/
theorem Done.terminal (hwf : WellFormed p S B) (hd : Done v p r S B inp rd m k jx P L c) {t : Nat} (ht : t ∈ P k) :
    p.nextVar [(m.node t).state] = none := by
  have hst := hd.head.core.st k t (Or.inl ⟨Nat.le_refl _, ht⟩)
  rw [hwf.nextVar_one hst.1, hst.2.1]
  rcases hd.fin with h | h
  · rw [h] at ht; cases ht
  · rw [if_neg (by omega)]

/-- Along an edge of the layer structure. -/
theorem Done.edge_value (hwf : WellFormed p S B) (hroot : RootOK p S B inp.residual) (hd : Done v p r S B inp rd m k jx P L c)
    {j i : Nat} (hi : InLay P L k k (j+1) i) {e : Nat} (he : e ∈ m.inIds i) :
    (m.node (m.edge e).src).value + (m.edge e).cost ≤ (m.node i).value := by
  have hc := hd.head.core
  rw [← hc.sat_edge hwf hroot (Nat.le_refl _) (by omega) hi he]
  exact (hc.node j i hi).vge e he

/-- A node on which some walk to the last layer starts, in the layer of its number. -/
theorem Done.walk_layer (hd : Done v p r S B inp rd m k jx P L c) {i q : Nat} {w : Int} (h : Walk m i q w) :
    ∀ {j' : Nat}, InLay P L k k j' q → ∃ j, j ≤ j' ∧ InLay P L k k j i ∧ (j < j' → i ∈ L j) := by
  induction h with
  | nil i => intro j' h; exact ⟨j', Nat.le_refl _, h, fun hh => by omega⟩
  | @cons q t e w he h ih =>
    intro j' ht
    obtain ⟨j, hj, hq, _⟩ := ih ht
    have hc := hd.head.core
    cases j with
    | zero =>
      exfalso
      have := hc.root1 q hq
      subst this
      have h0 : m.inIds 0 = [] := by unfold inIds; rw [hc.root.2.2.2.2]; exact chain_none _ _
      rw [h0] at he; cases he
    | succ j =>
      have := hc.src_layer hq he (Nat.le_refl _) (by omega)
      exact ⟨j, by omega, this.2, fun _ => this.1⟩

theorem Done.walk_value (hwf : WellFormed p S B) (hroot : RootOK p S B inp.residual) (hd : Done v p r S B inp rd m k jx P L c)
    {i q : Nat} {w : Int} (h : Walk m i q w) : ∀ {j' : Nat}, InLay P L k k j' q → (m.node i).value + w ≤ (m.node q).value := by
  induction h with
  | nil i => intro j' _; omega
  | @cons q t e w he h ih =>
    intro j' ht
    have hv := ih ht
    obtain ⟨j, hj, hq, _⟩ := hd.walk_layer h ht
    have hc := hd.head.core
    cases j with
    | zero =>
      exfalso
      have := hc.root1 q hq
      subst this
      have h0 : m.inIds 0 = [] := by unfold inIds; rw [hc.root.2.2.2.2]; exact chain_none _ _
      rw [h0] at he; cases he
    | succ j =>
      have := hd.edge_value hwf hroot hq he
      omega

/-- A node with a completion that could improve on the lower bound is expanded. -/
theorem Done.promising (hwf : WellFormed p S B) (hroot : RootOK p S B inp.residual) (hd : Done v p r S B inp rd m k jx P L c)
    (hadm : Admissible p S) {j i : Nat} (hj : j < k) (hi : i ∈ L j) {ds : List Decision} {u : Int} (hcomp : Completion p (m.node i).state ds u)
    (hlb : inp.bestLb < (m.node i).value + u) : Promising p inp.bestLb (m.node i) := by
  have hc := hd.head.core
  have hiL : InLay P L k k j i := Or.inr ⟨hj, hi⟩
  have hst := hc.st j i hiL
  have hvb := hc.value_bound hwf hroot (Nat.le_refl _) (by omega) j i hiL
  have hlv := hc.lvl_le hroot (by omega) hiL
  have hub := hcomp.bound hwf hst.1 (by omega)
  rw [hst.2.1] at hub
  have hest := hadm _ hst.1 _ _ hcomp
  have e1 : ((2 * p.nbVars + 2 : Nat) : Int) * B = ((inp.residual.path.length + j + 1 : Nat) : Int) * B +
      ((p.nbVars : Int) - ((inp.residual.path.length + j : Nat) : Int)) * B + ((p.nbVars + 1 : Nat) : Int) * B := by
    rw [← Int.add_mul, ← Int.add_mul]; congr 1; omega
  have hn := mulB hwf (Nat.zero_le (p.nbVars + 1))
  simp only [Int.natCast_zero, Int.zero_mul] at hn
  have hf := fits hwf (x := (m.node i).value + u) (n := 2 * p.nbVars + 2) (by omega) (by rw [e1]; omega) (by rw [e1]; omega)
  unfold Promising
  have := le_satAdd (a := p.estimate (m.node i).state) (b := (m.node i).value) hf.1 (by omega)
  omega

/-- A completion of an expanded node survives in the next layer: on the child itself, on a node pruned by the barrier,
or on a node into which the child was merged. -/
theorem Done.stepP (hwf : WellFormed p S B) (hd : Done v p r S B inp rd m k jx P L c)
    (hr : inp.compType = .relaxed → SoundRelaxation p r S B)
    (hres : inp.compType = .restricted → m.approximate = false)
    {j i : Nat} (hj : j < k) (hi : i ∈ L j) {ds : List Decision} {u : Int} (hcomp : Completion p (m.node i).state ds u)
    (hprom : Promising p inp.bestLb (m.node i)) :
    ∃ q e u' ds', e ∈ m.inIds q ∧ (m.edge e).src = i ∧ Completion p (m.node q).state ds' u' ∧ u ≤ (m.edge e).cost + u' ∧
      InLay P L k k (j+1) q ∧
      (((q ∈ P (j+1) ∧ (j + 1 = k ∨ q ∈ L (j+1))) ∧ RealEdge p m e q ∧ u = (m.edge e).cost + u') ∨
       (q ∈ P (j+1) ∧ j + 1 < k ∧ Pruned v rd inp.residual.path.length (inp.residual.path.length + (j+1)) m q ∧ RealEdge p m e q ∧
          u = (m.edge e).cost + u') ∨
       (j + 1 < k ∧ q ∈ L (j+1) ∧ jx ≤ j + 1 ∧ inp.compType = .relaxed ∧ m.approximate = true ∧ (m.node q).flags.isRelaxed = true)) := by
  have hc := hd.head.core
  have hiL : InLay P L k k j i := Or.inr ⟨hj, hi⟩
  have hst := hc.st j i hiL
  have hnv := hc.nextVar hwf hiL hj
  obtain ⟨d, ds', u', hdd, rfl, rfl, hcomp'⟩ := hcomp.cases hnv
  obtain ⟨q, hq, hqs, e, he, he1, he2, he3⟩ := (hc.exp j hj i hi).2.2 hprom d hdd
  have hqL : InLay P L k k (j+1) q := Or.inl ⟨by omega, hq⟩
  have hreal : RealEdge p m e q := ⟨by rw [he1, he2]; exact hqs, by rw [he1, he2]; exact he3⟩
  by_cases hjk : j + 1 = k
  · exact ⟨q, e, u', ds', he, he1, by rw [hqs]; exact hcomp', by omega, hqL, Or.inl ⟨⟨hq, Or.inl hjk⟩, hreal, by omega⟩⟩
  · have hjk' : j + 1 < k := by omega
    by_cases hqL' : q ∈ L (j+1)
    · exact ⟨q, e, u', ds', he, he1, by rw [hqs]; exact hcomp', by omega, hqL, Or.inl ⟨⟨hq, Or.inr hqL'⟩, hreal, by omega⟩⟩
    · by_cases hpru : Pruned v rd inp.residual.path.length (inp.residual.path.length + (j+1)) m q
      · exact ⟨q, e, u', ds', he, he1, by rw [hqs]; exact hcomp', by omega, hqL, Or.inr (Or.inl ⟨hq, hjk', hpru, hreal, by omega⟩)⟩
      · have hjx : jx ≤ j + 1 := by
          by_cases hh : j + 1 < jx
          · exfalso
            rcases (hc.pre (j+1) hh).1 q hq with h1 | h1 | h1
            · exact hqL' h1
            · exact hpru h1
            · have := hres h1.1; rw [h1.2] at this; cases this
          · omega
        rcases hc.fate (j+1) hjk' q hq with h1 | h1 | h1 | h1
        · exact absurd h1 hqL'
        · exact absurd h1 hpru
        · obtain ⟨hrel, happ, hm⟩ := h1
          obtain ⟨mid, hmid, hmne, ⟨l, hl1, hl2, hl3⟩, hcov, hmr⟩ := hm.ex
          obtain ⟨e', he', c1, c2, c3⟩ := hcov e he
          rw [hqs] at hl2
          obtain ⟨ds'', u'', hcomp'', hdom⟩ := (hr hrel).merge_dom l _ hl3 _ _ d hst.1 hnv hdd hl2 ds' u' hcomp'
          refine ⟨mid, e', u'', ds'', he', by rw [c1, he1], by rw [hl1]; exact hcomp'', ?_, Or.inr ⟨hjk', hmid⟩,
            Or.inr (Or.inr ⟨hjk', hmid, hjx, hrel, happ, hmr⟩)⟩
          rw [c3, he1, he2, he3, hqs, hl1]; exact hdom
        · have := hres h1.1; rw [h1.2] at this; cases this

/-- The same for a completion that could improve on the lower bound. -/
theorem Done.step (hwf : WellFormed p S B) (hroot : RootOK p S B inp.residual) (hd : Done v p r S B inp rd m k jx P L c)
    (hadm : Admissible p S) (hr : inp.compType = .relaxed → SoundRelaxation p r S B)
    (hres : inp.compType = .restricted → m.approximate = false)
    {j i : Nat} (hj : j < k) (hi : i ∈ L j) {ds : List Decision} {u : Int} (hcomp : Completion p (m.node i).state ds u)
    (hlb : inp.bestLb < (m.node i).value + u) :
    ∃ q e u' ds', e ∈ m.inIds q ∧ (m.edge e).src = i ∧ Completion p (m.node q).state ds' u' ∧ u ≤ (m.edge e).cost + u' ∧
      InLay P L k k (j+1) q ∧
      (((q ∈ P (j+1) ∧ (j + 1 = k ∨ q ∈ L (j+1))) ∧ RealEdge p m e q ∧ u = (m.edge e).cost + u') ∨
       (q ∈ P (j+1) ∧ j + 1 < k ∧ Pruned v rd inp.residual.path.length (inp.residual.path.length + (j+1)) m q ∧ RealEdge p m e q ∧
          u = (m.edge e).cost + u') ∨
       (j + 1 < k ∧ q ∈ L (j+1) ∧ jx ≤ j + 1 ∧ inp.compType = .relaxed ∧ m.approximate = true ∧ (m.node q).flags.isRelaxed = true)) :=
  hd.stepP hwf hr hres hj hi hcomp (hd.promising hwf hroot hadm hj hi hcomp hlb)

/-- Simulation: a completion that could improve on the lower bound gives a walk to the last layer which is at least as good, or to a
node pruned by the barrier from which it can be completed. -/
theorem Done.sim (hwf : WellFormed p S B) (hroot : RootOK p S B inp.residual) (hd : Done v p r S B inp rd m k jx P L c)
    (hadm : Admissible p S) (hr : inp.compType = .relaxed → SoundRelaxation p r S B)
    (hres : inp.compType = .restricted → m.approximate = false) :
    ∀ (n j i : Nat), j + n = k → ((j < k ∧ i ∈ L j) ∨ (j = k ∧ i ∈ P k)) → ∀ (ds : List Decision) (u : Int),
      Completion p (m.node i).state ds u → inp.bestLb < (m.node i).value + u →
      (∃ t ∈ P k, ∃ w, Walk m i t w ∧ u ≤ w) ∨
      (∃ j' q, j < j' ∧ j' < k ∧ q ∈ P j' ∧ Pruned v rd inp.residual.path.length (inp.residual.path.length + j') m q ∧
        ∃ w u' ds', Walk m i q w ∧ Completion p (m.node q).state ds' u' ∧ u ≤ w + u') := by
  intro n
  induction n with
  | zero =>
    intro j i hj hi ds u hcomp _
    have : j = k := by omega
    subst this
    rcases hi with ⟨h1, _⟩ | ⟨_, hi⟩
    · omega
    · have ht := hd.terminal hwf hi
      obtain ⟨_, rfl⟩ := (Completion.nil_iff ht).1 hcomp
      exact Or.inl ⟨i, hi, 0, .nil i, Int.le_refl _⟩
  | succ n ih =>
    intro j i hj hi ds u hcomp hlb
    have hi' : i ∈ L j := by
      rcases hi with hi | hi
      · exact hi.2
      · omega
    obtain ⟨q, e, u', ds', he, rfl, hcomp', hle, hqL, hcase⟩ := hd.step hwf hroot hadm hr hres (by omega) hi' hcomp hlb
    have hval := hd.edge_value hwf hroot hqL he
    have cont : ((j + 1 < k ∧ q ∈ L (j+1)) ∨ (j + 1 = k ∧ q ∈ P k)) → _ := fun hq =>
      ih (j+1) q (by omega) hq ds' u' hcomp' (by omega)
    rcases hcase with ⟨⟨hqP, hq⟩, _⟩ | ⟨hqP, hjk, hpru, _⟩ | ⟨hjk, hq, _⟩
    · have : (j + 1 < k ∧ q ∈ L (j+1)) ∨ (j + 1 = k ∧ q ∈ P k) := by
        by_cases hjk : j + 1 = k
        · right; exact ⟨hjk, by rw [← hjk]; exact hqP⟩
        · rcases hq with hq | hq
          · exact absurd hq hjk
          · exact Or.inl ⟨by omega, hq⟩
      rcases cont this with ⟨t, ht, w, hw, hwu⟩ | ⟨j', q', h1, h2, h3, h4, w, u'', ds'', hw, hcc, hwu⟩
      · exact Or.inl ⟨t, ht, _, .cons he hw, by omega⟩
      · exact Or.inr ⟨j', q', by omega, h2, h3, h4, _, u'', ds'', .cons he hw, hcc, by omega⟩
    · exact Or.inr ⟨j+1, q, by omega, hjk, hqP, hpru, _, u', ds', .cons he (.nil q), hcomp', by omega⟩
    · rcases cont (Or.inl ⟨hjk, hq⟩) with ⟨t, ht, w, hw, hwu⟩ | ⟨j', q', h1, h2, h3, h4, w, u'', ds'', hw, hcc, hwu⟩
      · exact Or.inl ⟨t, ht, _, .cons he hw, by omega⟩
      · exact Or.inr ⟨j', q', by omega, h2, h3, h4, _, u'', ds'', .cons he hw, hcc, by omega⟩

end Verif.Dd
