import Verif.Proofs.Mdd.Finish
/-! Consequences for the result of a compilation. -/
set_option autoImplicit false

namespace Verif.Spec
open Verif
variable {σ : Type} {p : Problem σ} {S : Layering σ} {B : Int}

theorem Genuine.rootOK (hwf : WellFormed p S B) {n : SubProblem σ} (h : Genuine p n) : RootOK p S B n := by
  obtain ⟨ds, hp, u, hr, hv⟩ := h
  have hf := hr.facts hwf hwf.ok_init
  have hl := hp.length_eq
  rw [hwf.lvl_init] at hf
  have hib := hwf.init_bound
  refine ⟨hf.1, by rw [hf.2.1, hl]; omega, ?_, ?_, ?_⟩
  · have := hf.2.2.1 (by omega); omega
  · rw [hl, Int.add_mul]; omega
  · rw [hl, Int.add_mul]; omega

end Verif.Spec

namespace Verif.Dd
open Verif Spec
variable {σ : Type} [DecidableEq σ] [Inhabited σ]
variable {v : Variant} {p : Problem σ} {r : Relaxation σ} {S : Layering σ} {B : Int}
  {inp : Input σ} {rd : Reads σ} {m D : Dd σ} {k jx : Nat} {P L : Nat → List Nat} {c : CutsetType} {o : Oracle σ}

theorem hasExact_congr {m m' : Dd σ} (he : m'.edges = m.edges) (hn : m'.nodes = m.nodes) : ∀ f o, m'.hasExactBestPath f o = m.hasExactBestPath f o := by
  intro f
  induction f with
  | zero => intro o; rfl
  | succ f ih =>
    intro o
    cases o with
    | none => rfl
    | some i => simp only [hasExactBestPath, ih, Dd.node, Dd.edge, he, hn]; rfl

theorem bestEdges_congr {m m' : Dd σ} (he : m'.edges = m.edges) (hn : m'.nodes = m.nodes) : ∀ f o, m'.bestEdges f o = m.bestEdges f o := by
  intro f
  induction f with
  | zero => intro o; rfl
  | succ f ih =>
    intro o
    cases o with
    | none => rfl
    | some i => simp only [bestEdges, ih, Dd.node, Dd.edge, he, hn]

theorem fin0_bestPath (o : Oracle σ) (inp : Input σ) (m : Dd σ) (i : Nat) : (m.fin0 o inp).bestPath i = m.bestPath i := by
  unfold bestPath
  rw [bestEdges_congr (m := m) (m' := m.fin0 o inp) rfl rfl]; rfl

theorem Done.prunedAt (hwf : WellFormed p S B) (hroot : RootOK p S B inp.residual) (hd : Done v p r S B inp rd m k jx P L c)
    {j q : Nat} (hj : j ≤ k) (hq : q ∈ P j) (h : Pruned v rd inp.residual.path.length (inp.residual.path.length + j) m q)
    {ds : List Decision} {u w : Int} (hcomp : Completion p (m.node q).state ds u) (hw : w ≤ (m.node q).value + u) :
    PrunedAt p S B rd inp w := by
  have hc := hd.head.core
  have hin : InLay P L k k j q := Or.inl ⟨hj, hq⟩
  have hst := hc.st j q hin
  have hvb := hc.value_bound hwf hroot (Nat.le_refl _) (by omega) j q hin
  have hlv := hc.lvl_le hroot (by omega) hin
  have hf := fits hwf (x := (m.node q).value) (n := inp.residual.path.length + j + 1) (by omega) hvb.1 hvb.2
  have hle := h.le
  cases hth : rd.theta (inp.residual.path.length + j) (m.node q).state with
  | none => rw [hth] at hle; simp at hle; omega
  | some θ =>
    rw [hth] at hle
    refine ⟨inp.residual.path.length + j, (m.node q).state, θ, (m.node q).value, ds, u, h.below, hst.1, hst.2.1, h.nonempty, hth, hle, ?_, ?_, hcomp, hw⟩
    · have := hvb.1; simpa using this
    · have := hvb.2; simpa using this

/-- The best node of the result. -/
theorem Done.best (ho : o.Valid) (hd : Done v p r S B inp rd m k jx P L c) :
    ((m.fin0 o inp).bestN = none ∧ P k = []) ∨
    ∃ t ∈ P k, (m.fin0 o inp).bestN = some t ∧ ∀ t' ∈ P k, (m.node t').value ≤ (m.node t).value := by
  have hp := hd.ids_perm (o := o) ho
  have hb : (m.fin0 o inp).bestN = m.maxByValue ((o.hashOrd m.nextL).map (·.2)) := rfl
  rw [hb]
  rcases maxByValue_spec m ((o.hashOrd m.nextL).map (·.2)) with ⟨h1, h2⟩ | ⟨t, h1, h2, h3⟩
  · left; refine ⟨h1, ?_⟩
    rw [h2] at hp; exact hp.symm.eq_nil
  · right
    exact ⟨t, hp.mem_iff.1 h1, h2, fun t' ht' => h3 t' (hp.mem_iff.2 ht')⟩

theorem Done.skelAny (hwf : WellFormed p S B) (ho : o.Valid) (hroot : RootOK p S B inp.residual) (hd : Done v p r S B inp rd m k jx P L c) :
    Skel (m.fin0 o inp) (m.finish v o inp) := by
  by_cases hrel : inp.compType = .relaxed
  · cases v with
    | all =>
      by_cases hne : (m.fin0 o inp).exact = false
      · exact (hd.finalAll hwf ho hroot hrel hne).skel
      · have h1 : m.finish .all o inp = (m.fin0 o inp).computeLocalBounds o := by simp only [finish, fin0, hrel]
        rw [h1]; unfold computeLocalBounds; rw [if_pos (by simpa using hne)]; exact .refl _
    | barrier => exact (hd.finalBarrier hwf ho hroot hrel).skel
  · have : m.finish v o inp = m.fin0 o inp := by
      unfold finish fin0
      cases hc : inp.compType
      · rfl
      · exact absurd hc hrel
      · rfl
    rw [this]; exact .refl _

theorem Done.bestValue (hwf : WellFormed p S B) (ho : o.Valid) (hroot : RootOK p S B inp.residual) (hd : Done v p r S B inp rd m k jx P L c) :
    ((m.finish v o inp).bestN = none ∧ (m.finish v o inp).bestValue = none ∧ P k = []) ∨
    ∃ t ∈ P k, (m.finish v o inp).bestN = some t ∧ (m.finish v o inp).bestValue = some (m.node t).value ∧
      ∀ t' ∈ P k, (m.node t').value ≤ (m.node t).value := by
  have hs := hd.skelAny hwf ho hroot (o := o)
  rcases hd.best (o := o) ho with ⟨h1, h2⟩ | ⟨t, h1, h2, h3⟩
  · left; refine ⟨by rw [hs.bestN]; exact h1, ?_, h2⟩
    rw [hs.bestValue]; unfold Dd.bestValue; rw [h1]; rfl
  · right; refine ⟨t, h1, by rw [hs.bestN]; exact h2, ?_, h3⟩
    rw [hs.bestValue]; unfold Dd.bestValue; rw [h2]; rfl

/-- Upper bound. -/
theorem Done.upper (hwf : WellFormed p S B) (ho : o.Valid) (hroot : RootOK p S B inp.residual) (hd : Done v p r S B inp rd m k jx P L c)
    (hadm : Admissible p S) (hr : inp.compType = .relaxed → SoundRelaxation p r S B)
    (hres : inp.compType = .restricted → m.approximate = false) {w : Int} (ht : Through p inp.residual w) (hlb : inp.bestLb < w) :
    (∃ b, (m.finish v o inp).bestValue = some b ∧ w ≤ b) ∨ PrunedAt p S B rd inp w := by
  obtain ⟨ds, u, hcomp, rfl⟩ := ht
  have hc := hd.head.core
  have hrm := hd.root_mem hres
  have hcomp' : Completion p (m.node 0).state ds u := by rw [hc.root.2.1]; exact hcomp
  have hv0 : (m.node 0).value = inp.residual.value := hc.root.2.2.1
  rcases hd.sim hwf hroot hadm hr hres k 0 0 (by omega) hrm ds u hcomp' (by omega) with ⟨t, ht, w, hw, hle⟩ | ⟨j', q, h1, h2, h3, h4, w, u', ds', hw, hcc, hle⟩
  · left
    have hwv := hd.walk_value hwf hroot hw (Or.inl ⟨Nat.le_refl _, ht⟩)
    rcases hd.bestValue hwf ho hroot (o := o) with ⟨_, _, h2⟩ | ⟨t', h1, _, h2, h3⟩
    · rw [h2] at ht; cases ht
    · exact ⟨_, h2, by have := h3 t ht; omega⟩
  · right
    have hwv := hd.walk_value hwf hroot hw (Or.inl ⟨by omega, h3⟩)
    exact hd.prunedAt hwf hroot (by omega) h3 h4 hcc (by omega)

theorem Done.exact_or (hne : m.approximate = false ∨ inp.compType ≠ .relaxed) (hd : Done v p r S B inp rd m k jx P L c) {j i : Nat}
    (hi : InLay P L k k j i) : (m.node i).flags.isExact = true := by
  have hc := hd.head.core
  have : jx = k := by
    by_cases hrel : inp.compType = .relaxed
    · rcases hne with h | h
      · exact (hc.jxr hrel).1 h
      · exact absurd hrel h
    · exact hc.jxn hrel
  exact (hc.ex j (Or.inr this) i hi).1

/-- Reported solutions are real. -/
theorem Done.solution (hwf : WellFormed p S B) (ho : o.Valid) (hroot : RootOK p S B inp.residual) (hd : Done v p r S B inp rd m k jx P L c)
    (hx : inp.compType ≠ .relaxed ∨ (m.finish v o inp).exact = true) {sol : List Decision} (hs : (m.finish v o inp).bestSolution = some sol) :
    ∃ b ds, (m.finish v o inp).bestValue = some b ∧ Completion p inp.residual.state ds (b - inp.residual.value) ∧ sol = inp.residual.path ++ ds.reverse := by
  have hsk := hd.skelAny hwf ho hroot (o := o)
  rcases hd.bestValue hwf ho hroot (o := o) with ⟨h1, h2, h3⟩ | ⟨t, h1, h2, h3, h4⟩
  · unfold Dd.bestSolution at hs; rw [h1] at hs; simp at hs
  · have hin : InLay P L k k k t := Or.inl ⟨Nat.le_refl _, h1⟩
    have hex : ∃ f, m.hasExactBestPath f (some t) = true := by
      by_cases happ : m.approximate = false ∨ inp.compType ≠ .relaxed
      · exact ⟨1, hasExact_of_exact (hd.exact_or happ hin)⟩
      · simp only [not_or, Decidable.not_not] at happ
        rcases hx with hx | hx
        · exact absurd happ.2 hx
        · rw [hsk.exact] at hx
          have he : (m.fin0 o inp).exact = (!m.approximate || (decide (inp.compType = .relaxed) &&
            ({ m with bestN := m.maxByValue ((o.hashOrd m.nextL).map (·.2)) } : Dd σ).hasExactBestPath (m.nodes.length + 1)
              (m.maxByValue ((o.hashOrd m.nextL).map (·.2))))) := rfl
          have hb : m.maxByValue ((o.hashOrd m.nextL).map (·.2)) = some t := by
            have := hsk.bestN; rw [h2] at this; exact this.symm
          rw [he, hb, happ.2] at hx
          have ha : m.approximate = true := by simpa using happ.1
          rw [ha] at hx
          simp only [Bool.not_true, Bool.false_or, decide_true, Bool.true_and] at hx
          refine ⟨m.nodes.length + 1, ?_⟩
          exact (hasExact_congr (m := m) (m' := _) (by rfl) (by rfl) _ _).symm.trans hx
    obtain ⟨f, hf⟩ := hex
    obtain ⟨ds, g1, g2, g3⟩ := hd.real_best hwf hroot hin hf
    refine ⟨_, ds, h3, ⟨_, g1, hd.terminal hwf h1⟩, ?_⟩
    have : (m.finish v o inp).bestSolution = some (m.bestPath t) := by
      rw [hsk.bestSolution]
      unfold Dd.bestSolution
      rw [← hsk.bestN, h2, Option.map_some, fin0_bestPath]
    rw [this] at hs
    cases hs
    exact g3

/-- The subproblem made of cutset node `i`. -/
theorem mem_drain {n : SubProblem σ} (h : n ∈ D.drainCutset) : ∃ bv i, D.bestValue = some bv ∧ i ∈ D.cutset ∧ (D.node i).flags.isMarked = true ∧
    n = D.cutsetNode bv i := by
  unfold drainCutset at h
  cases hb : D.bestValue with
  | none => rw [hb] at h; cases h
  | some bv =>
    rw [hb] at h
    simp only [List.mem_map, List.mem_filter] at h
    obtain ⟨i, ⟨h1, h2⟩, h3⟩ := h
    exact ⟨bv, i, rfl, h1, h2, h3.symm⟩

theorem drain_mem {bv : Int} {i : Nat} (hb : D.bestValue = some bv) (hi : i ∈ D.cutset) (hm : (D.node i).flags.isMarked = true) :
    D.cutsetNode bv i ∈ D.drainCutset := by
  unfold drainCutset; rw [hb]
  simp only [List.mem_map, List.mem_filter]
  exact ⟨i, ⟨hi, hm⟩, rfl⟩

/-- The nodes of the cutset, when there are some. -/
theorem Done.cutset_exact (hwf : WellFormed p S B) (ho : o.Valid) (hroot : RootOK p S B inp.residual) (hd : Done v p r S B inp rd m k jx P L c)
    {i : Nat} (hi : i ∈ (m.finish v o inp).cutset) (hm : ((m.finish v o inp).node i).flags.isMarked = true) :
    inp.compType = .relaxed ∧ m.approximate = true ∧ ∃ j, 1 ≤ j ∧ j < k ∧ i ∈ L j ∧ (m.node i).flags.isExact = true ∧ jx - 1 ≤ j ∧
      (m.cutsetType = .lastExactLayer → j = jx - 1) := by
  have hc := hd.head.core
  have hm0 : i ∈ m.cutset → inp.compType = .relaxed ∧ m.approximate = true ∧ i ∈ L (jx - 1) ∧ 2 ≤ jx ∧ jx < k := by
    intro h
    by_cases hh : c = .lastExactLayer ∧ inp.compType = .relaxed ∧ m.approximate = true
    · have h2 := hc.cut1 hh.1 hh.2.1 hh.2.2
      rw [h2.1] at h
      exact ⟨hh.2.1, hh.2.2, h, (hc.jxr hh.2.1).2 hh.2.2⟩
    · rw [(hc.cut0 hh).1] at h; cases h
  have hm1 : i ∈ m.cutset → inp.compType = .relaxed ∧ m.approximate = true ∧ ∃ j, 1 ≤ j ∧ j < k ∧ i ∈ L j ∧ (m.node i).flags.isExact = true ∧ jx - 1 ≤ j ∧
      (m.cutsetType = .lastExactLayer → j = jx - 1) := by
    intro h
    obtain ⟨h1, h2, h3, h4, h5⟩ := hm0 h
    exact ⟨h1, h2, jx - 1, by omega, by omega, h3, (hc.ex (jx-1) (Or.inl (by omega)) i (Or.inr ⟨by omega, h3⟩)).1, Nat.le_refl _, fun _ => rfl⟩
  have hF : Final inp m (m.finish v o inp) k jx P L o → inp.compType = .relaxed → inp.compType = .relaxed ∧ m.approximate = true ∧
      ∃ j, 1 ≤ j ∧ j < k ∧ i ∈ L j ∧ (m.node i).flags.isExact = true ∧ jx - 1 ≤ j ∧ (m.cutsetType = .lastExactLayer → j = jx - 1) := by
    intro hF hrel
    rcases hF.cutN i hi with h1 | ⟨h0, j', h1, h2, h3, q, h4, e, h5, h6, h7, _⟩
    · exact hm1 h1
    · have hin := Lay_in (P := P) (L := L) (k := k) (j := j'+1) (by omega) h4
      have happ : m.approximate = true := by
        cases ha : m.approximate
        · have := (hc.ex (j'+1) (Or.inr ((hc.jxr hrel).1 ha)) q hin).1
          rw [h7] at this; cases this
        · rfl
      have hjx : jx ≤ j' + 1 := by
        by_cases hh : j' + 1 < jx
        · have := (hc.ex (j'+1) (Or.inl hh) q hin).1
          rw [h7] at this; cases this
        · omega
      have := (hc.jxr hrel).2 happ
      exact ⟨hrel, happ, j', by omega, h1, h2, h3, by omega, fun hh => by rw [h0] at hh; cases hh⟩
  by_cases hrel : inp.compType = .relaxed
  · cases v with
    | barrier => exact hF (hd.finalBarrier hwf ho hroot hrel) hrel
    | all =>
      by_cases hne : (m.fin0 o inp).exact = false
      · exact hF (hd.finalAll hwf ho hroot hrel hne) hrel
      · have h1 : m.finish .all o inp = m.fin0 o inp := by
          have h1 : m.finish .all o inp = (m.fin0 o inp).computeLocalBounds o := by simp only [finish, fin0, hrel]
          rw [h1]; unfold computeLocalBounds; rw [if_pos (by simpa using hne)]
        rw [h1] at hi; exact hm1 hi
  · have : m.finish v o inp = m.fin0 o inp := by
      unfold finish fin0
      cases hc : inp.compType
      · rfl
      · exact absurd hc hrel
      · rfl
    rw [this] at hi; exact hm1 hi

/-- Drained subproblems are reached by their paths and deeper. -/
theorem Done.drained (hwf : WellFormed p S B) (ho : o.Valid) (hroot : RootOK p S B inp.residual) (hd : Done v p r S B inp rd m k jx P L c)
    {n : SubProblem σ} (hn : n ∈ (m.finish v o inp).drainCutset) :
    ∃ ds, n.path = inp.residual.path ++ ds.reverse ∧ ds ≠ [] ∧ Run p inp.residual.state ds (n.value - inp.residual.value) n.state ∧
      ∃ b, (m.finish v o inp).bestValue = some b ∧ n.ub ≤ b := by
  obtain ⟨bv, i, hb, hi, hm, rfl⟩ := mem_drain hn
  obtain ⟨hrel, happ, j, h1, h2, h3, h4, _⟩ := hd.cutset_exact hwf ho hroot hi hm
  obtain ⟨ds, g1, g2, g3⟩ := hd.real_best hwf hroot (Or.inr ⟨h2, h3⟩) (hasExact_of_exact h4)
  have hsk := hd.skelAny hwf ho hroot (o := o)
  refine ⟨ds, ?_, ?_, ?_, bv, hb, ?_⟩
  · simp only [cutsetNode]; rw [hsk.bestPath i, ← g3, fin0_bestPath]
  · intro h; subst h; simp at g2; omega
  · simp only [cutsetNode]; rw [(hsk.node i).value, (hsk.node i).state]; exact g1
  · simp only [cutsetNode]; omega

/-- The upper bound recorded for a cutset node is valid for a completion that has a walk. -/
theorem Final.ub (hwf : WellFormed p S B) (ho : o.Valid) (hroot : RootOK p S B inp.residual) (hd : Done v p r S B inp rd m k jx P L c)
    (hadm : Admissible p S) (hD : D = m.finish v o inp) (hF : Final inp m D k jx P L o) {j f t : Nat} {w u : Int} {ds : List Decision} (hj : j < k) (hf : f ∈ L j)
    (hlo : m.cutsetType = .lastExactLayer → m.approximate = true → jx - 1 ≤ j) (ht : t ∈ P k) (hw : Walk m f t w)
    (hcomp : Completion p (m.node f).state ds u) (hle : u ≤ w) {bv : Int} (hb : D.bestValue = some bv) :
    (D.node f).flags.isMarked = true ∧ (D.cutsetNode bv f).state = (m.node f).state ∧ (D.cutsetNode bv f).value = (m.node f).value ∧
      (m.node f).value + u ≤ (D.cutsetNode bv f).ub := by
  have hc := hd.head.core
  have hin : InLay P L k k j f := Or.inr ⟨hj, hf⟩
  obtain ⟨h1, h2⟩ := hF.A j (by omega) hlo f (by rw [Lay_lt hj]; exact hf) t ht w hw
  have hsv := (hF.skel.node f).value
  have hsr := (hF.skel.node f).rub
  have hss := (hF.skel.node f).state
  rw [fin0_node] at hsv hsr hss
  refine ⟨h1, hss, hsv, ?_⟩
  -- no overflow
  have hst := hc.st j f hin
  have hvb := hc.value_bound hwf hroot (Nat.le_refl _) (by omega) j f hin
  have hlv := hc.lvl_le hroot (by omega) hin
  have hub := hcomp.bound hwf hst.1 (by omega)
  rw [hst.2.1] at hub
  have e1 : ((2 * p.nbVars + 2 : Nat) : Int) * B = ((inp.residual.path.length + j + 1 : Nat) : Int) * B +
      ((p.nbVars : Int) - ((inp.residual.path.length + j : Nat) : Int)) * B + ((p.nbVars + 1 : Nat) : Int) * B := by
    rw [← Int.add_mul, ← Int.add_mul]; congr 1; omega
  have hn := mulB hwf (Nat.zero_le (p.nbVars + 1))
  simp only [Int.natCast_zero, Int.zero_mul] at hn
  have hfit := fits hwf (x := (m.node f).value + u) (n := 2 * p.nbVars + 2) (by omega) (by rw [e1]; omega) (by rw [e1]; omega)
  have hest := hadm _ hst.1 _ _ hcomp
  have hrub := (hc.exp j hj f hf).1
  have a1 := le_satAdd (a := (m.node f).value) (b := p.estimate (m.node f).state) hfit.1 (by omega)
  have a2 := le_satAdd (a := (m.node f).value) (b := (D.node f).valueBot) hfit.1 (by omega)
  have hwv := hd.walk_value hwf hroot hw (Or.inl ⟨Nat.le_refl _, ht⟩)
  have a3 : (m.node f).value + u ≤ bv := by
    rcases hd.bestValue hwf ho hroot (o := o) with ⟨_, _, h2⟩ | ⟨t', g1, _, g2, g3⟩
    · rw [h2] at ht; cases ht
    · rw [← hD, hb] at g2
      cases g2
      have := g3 t ht; omega
  simp only [cutsetNode, hsv, hsr, hrub]
  omega

theorem Done.inexact (hwf : WellFormed p S B) (ho : o.Valid) (hroot : RootOK p S B inp.residual) (hd : Done v p r S B inp rd m k jx P L c)
    (hx : (m.finish v o inp).exact = false) : m.approximate = true ∧ (m.fin0 o inp).exact = false := by
  have hsk := hd.skelAny hwf ho hroot (o := o)
  rw [hsk.exact] at hx
  refine ⟨?_, hx⟩
  have : (m.fin0 o inp).exact = (!m.approximate || _) := rfl
  rw [this] at hx
  cases h : m.approximate
  · rw [h] at hx; simp at hx
  · rfl

theorem Done.final (hwf : WellFormed p S B) (ho : o.Valid) (hroot : RootOK p S B inp.residual) (hd : Done v p r S B inp rd m k jx P L c)
    (hrel : inp.compType = .relaxed) (hx : v = .barrier ∨ (m.finish v o inp).exact = false) : Final inp m (m.finish v o inp) k jx P L o := by
  cases v with
  | barrier => exact hd.finalBarrier hwf ho hroot hrel
  | all =>
    rcases hx with hx | hx
    · cases hx
    · exact hd.finalAll hwf ho hroot hrel (hd.inexact hwf ho hroot hx).2

/-- Coverage by the last exact layer. -/
theorem Done.cover_lel (hwf : WellFormed p S B) (ho : o.Valid) (hroot : RootOK p S B inp.residual) (hd : Done v p r S B inp rd m k jx P L c)
    (hadm : Admissible p S) (hr : inp.compType = .relaxed → SoundRelaxation p r S B) (hrel : inp.compType = .relaxed)
    (hlel : m.cutsetType = .lastExactLayer) (hx : v = .barrier ∨ (m.finish v o inp).exact = false) (happ : m.approximate = true)
    {w : Int} (ht : Through p inp.residual w) (hlb : inp.bestLb < w) :
    (∃ n ∈ (m.finish v o inp).drainCutset, ∃ w', Through p n w' ∧ w ≤ w' ∧ w' ≤ n.ub) ∨ PrunedAt p S B rd inp w := by
  obtain ⟨ds, u, hcomp, rfl⟩ := ht
  have hc := hd.head.core
  have hres : inp.compType = .restricted → m.approximate = false := by rw [hrel]; intro h; cases h
  have hrm := hd.root_mem hres
  have hcomp' : Completion p (m.node 0).state ds u := by rw [hc.root.2.1]; exact hcomp
  have hv0 : (m.node 0).value = inp.residual.value := hc.root.2.2.1
  have hjx := (hc.jxr hrel).2 happ
  have hF := hd.final hwf ho hroot hrel hx
  have h0 : 0 ∈ L 0 := by
    rcases hrm with h | h
    · exact h.2
    · omega
  rcases hd.reach_layer hwf hroot hadm hr hres (j0 := jx - 1) (by omega) (jx - 1) 0 0 (by omega) h0 ds u hcomp' (by omega) with
    ⟨f, hf, ds', u', hc1, hle⟩ | ⟨j', q, h1, h2, h3, h4, ds', u', h5, h6⟩
  · rcases hd.sim hwf hroot hadm hr hres (k - (jx - 1)) (jx - 1) f (by omega) (Or.inl ⟨by omega, hf⟩) ds' u' hc1 (by omega) with
      ⟨t, ht, w, hw, hle'⟩ | ⟨j', q, h1, h2, h3, h4, w, u'', ds'', hw, hcc, hle'⟩
    · left
      rcases hd.bestValue hwf ho hroot (o := o) with ⟨_, _, h2⟩ | ⟨t', g1, _, g2, g3⟩
      · rw [h2] at ht; cases ht
      · obtain ⟨a1, a2, a3, a4⟩ := Final.ub hwf ho hroot hd hadm rfl hF (by omega) hf (fun _ _ => Nat.le_refl _) ht hw hc1 hle' g2
        refine ⟨_, drain_mem g2 (hF.cutL f ?_) a1, (m.node f).value + u', ⟨ds', u', by rw [a2]; exact hc1, by rw [a3]⟩, by omega, a4⟩
        rw [(hc.cut1 (by rw [← hc.misc.2.2.2]; exact hlel) hrel happ).1]; exact hf
    · right
      have hwv := hd.walk_value hwf hroot hw (Or.inl ⟨by omega, h3⟩)
      exact hd.prunedAt hwf hroot (by omega) h3 h4 hcc (by omega)
  · right
    exact hd.prunedAt hwf hroot (by omega) h3 h4 h5 (by omega)

/-- Coverage by the frontier cutset, up to exact terminal nodes. -/
theorem Done.cover_frontier (hwf : WellFormed p S B) (ho : o.Valid) (hroot : RootOK p S B inp.residual) (hd : Done v p r S B inp rd m k jx P L c)
    (hadm : Admissible p S) (hr : inp.compType = .relaxed → SoundRelaxation p r S B) (hrel : inp.compType = .relaxed)
    (hfr : m.cutsetType = .frontier) (hx : v = .barrier ∨ (m.finish v o inp).exact = false)
    {w : Int} (ht : Through p inp.residual w) (hlb : inp.bestLb < w) :
    (∃ n ∈ (m.finish v o inp).drainCutset, ∃ w', Through p n w' ∧ w ≤ w' ∧ w' ≤ n.ub) ∨
    (∃ t ∈ P k, (m.node t).flags.isExact = true ∧ w ≤ (m.node t).value) ∨ PrunedAt p S B rd inp w := by
  obtain ⟨ds, u, hcomp, rfl⟩ := ht
  have hc := hd.head.core
  have hres : inp.compType = .restricted → m.approximate = false := by rw [hrel]; intro h; cases h
  have hrm := hd.root_mem hres
  have hcomp' : Completion p (m.node 0).state ds u := by rw [hc.root.2.1]; exact hcomp
  have hv0 : (m.node 0).value = inp.residual.value := hc.root.2.2.1
  have hF := hd.final hwf ho hroot hrel hx
  have hex0 : (m.node 0).flags.isExact = true := by
    have h0 : InLay P L k k 0 0 := Or.inl ⟨by omega, by rw [hc.root.1]; simp⟩
    by_cases happ : m.approximate = true
    · have := (hc.jxr hrel).2 happ
      exact (hc.ex 0 (Or.inl (by omega)) 0 h0).1
    · exact hd.exact_or (Or.inl (by simpa using happ)) h0
  have hnlel : m.cutsetType = .lastExactLayer → ∀ (j : Nat), m.approximate = true → jx - 1 ≤ j := by
    intro h; rw [hfr] at h; cases h
  rcases hd.reach_frontier hwf hroot hadm hr hres k 0 0 (by omega) hrm hex0 ds u hcomp' (by omega) with
    ⟨t, h1, h2, h3⟩ | ⟨j', f, q, e, ds1, u1, ds2, u2, _, h2, h3, h4, h5, h6, h7, h8, h9, h10, h11, h12⟩ | ⟨j', q, h1, h2, h3, h4, ds'', u'', h5, h6⟩
  · exact Or.inr (Or.inl ⟨t, h1, h2, by omega⟩)
  · have hinq : InLay P L k k (j'+1) q := Lay_in (by omega) ((Lay_iff (by omega)).2 h8)
    have hev := hd.edge_value hwf hroot hinq h5
    rw [h6] at hev
    rcases hd.sim hwf hroot hadm hr hres (k - (j'+1)) (j'+1) q (by omega) h8 ds2 u2 h11 (by omega) with
      ⟨t, ht, w, hw, hle'⟩ | ⟨j'', q', g1, g2, g3, g4, w, u'', ds'', hw, hcc, hle'⟩
    · left
      have hmq := (hF.A (j'+1) (by omega) (fun h => hnlel h _) q ((Lay_iff (by omega)).2 h8) t ht w hw).1
      have hcut := hF.front hfr j' (by omega) q ((Lay_iff (by omega)).2 h8) hmq h7 e h5 (by rw [h6]; exact h4)
      rw [h6] at hcut
      have hwf' : Walk m f t ((m.edge e).cost + w) := by rw [← h6]; exact .cons h5 hw
      rcases hd.bestValue hwf ho hroot (o := o) with ⟨_, _, hh⟩ | ⟨t', g1, _, g2, g3⟩
      · rw [hh] at ht; cases ht
      · obtain ⟨a1, a2, a3, a4⟩ := Final.ub hwf ho hroot hd hadm rfl hF (by omega) h3 (fun h => hnlel h _) ht hwf' h9 (by omega) g2
        exact ⟨_, drain_mem g2 hcut a1, (m.node f).value + u1, ⟨ds1, u1, by rw [a2]; exact h9, by rw [a3]⟩, by omega, a4⟩
    · right; right
      have hwv := hd.walk_value hwf hroot hw (Or.inl ⟨by omega, g3⟩)
      exact hd.prunedAt hwf hroot (by omega) g3 g4 hcc (by omega)
  · right; right
    exact hd.prunedAt hwf hroot (by omega) h3 h4 h5 (by omega)

/-- A threshold is only consulted by the barrier variant. -/
theorem Done.no_prune (hd : Done v p r S B inp rd m k jx P L c) (h : v = .all ∨ ∀ d, rd.isEmpty d = true) {D' i : Nat} :
    ¬ Pruned v rd inp.residual.path.length D' m i := by
  intro hp
  rcases h with h | h
  · rw [hp.bar] at h; cases h
  · have := hp.nonempty; rw [h] at this; cases this

end Verif.Dd
