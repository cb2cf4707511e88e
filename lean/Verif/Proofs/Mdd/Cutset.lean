import Verif.Proofs.Mdd.Tight
/-! The subproblems of the two cutsets, node by node. -/
set_option autoImplicit false

namespace Verif.Dd
open Verif Spec
variable {σ : Type} [DecidableEq σ] [Inhabited σ]

section
variable {v : Variant} {p : Problem σ} {r : Relaxation σ} {S : Layering σ} {B : Int} {inp : Input σ} {rd : Reads σ}
  {m : Dd σ} {k jx : Nat} {P L : Nat → List Nat} {c : CutsetType} {o : Oracle σ}

theorem Done.src_lt (hd : Done v p r S B inp rd m k jx P L c) : ∀ i, i < m.nodes.length → ∀ e ∈ m.inIds i, (m.edge e).src < i ∧
    ∃ j, j < k ∧ (m.edge e).src ∈ L j := by
  have hc := hd.head.core
  intro i hi e he
  obtain ⟨j, hj⟩ := hc.all i hi
  cases j with
  | zero =>
    have := hc.root1 i hj
    subst this
    rw [hc.inIds_zero] at he; cases he
  | succ j =>
    have h1 := (hc.src_layer hj he (Nat.le_refl _) (by omega)).1
    exact ⟨hc.incr j i hj _ h1, j, by rcases hj with hj | hj <;> omega, h1⟩

theorem Done.walk_in (hwf : WellFormed p S B) (hroot : RootOK p S B inp.residual) (hd : Done v p r S B inp rd m k jx P L c) {q t : Nat} {w : Int}
    (hw : Walk m q t w) (ht : t ∈ P k) : InISize w :=
  (hd.layers hwf hroot m (fun _ => rfl) (fun _ => rfl) rfl).walk_in hw (by rw [Lay_k]; exact ht)

theorem TermInit.tight (hd : Done v p r S B inp rd m k jx P L c) {b : Dd σ} {ids : List Nat} {cf : Nat → Bool}
    (hT : TermInit (m.fin0 o inp) b ids cf) (hmi : ∀ i, i ∈ ids ↔ i ∈ P k) : Tight b b (P k) := by
  have hc := hd.head.core
  have hsk := hT.skel
  have hbe : ∀ e, b.edge e = m.edge e := fun e => (hsk.edge e).trans (fin0_edge o inp m e)
  have hbi : ∀ i, b.inIds i = m.inIds i := fun i => (hsk.inIds i).trans (fin0_inIds o inp m i)
  have hbl : b.nodes.length = m.nodes.length := hsk.len
  refine ⟨.refl b, ?_, ?_⟩
  · intro q hq
    by_cases hqi : q ∈ ids
    · have hqP := (hmi q).1 hqi
      have := (hT.term q hqi (hc.lt k q (Or.inl ⟨Nat.le_refl _, hqP⟩))).1
      exact ⟨q, hqP, 0, .nil q, by rw [this]; exact Int.le_refl _⟩
    · exfalso
      rw [hT.other q hqi, fin0_node] at hq
      by_cases hl : q < m.nodes.length
      · obtain ⟨j, hj⟩ := hc.all q hl
        rw [hc.unm j q hj] at hq; cases hq
      · have : m.node q = default := by
          unfold Dd.node
          rw [List.getD_eq_getElem?_getD, List.getElem?_eq_none (by omega)]; rfl
        rw [this] at hq
        have hd : (default : NodeFlags).isMarked = false := by decide
        have : (default : NodeFlags).isMarked = true := hq
        rw [hd] at this; cases this
  · intro i hi e he _
    rw [hbi] at he; rw [hbl] at hi; rw [hbe]
    obtain ⟨_, j, hj, hs⟩ := hd.src_lt i hi e he
    have hnk : (m.edge e).src ∉ ids := fun hh => by
      have := hc.layer_unique (Or.inr ⟨hj, hs⟩) (Or.inl ⟨Nat.le_refl _, (hmi _).1 hh⟩)
      omega
    rw [hT.other _ hnk, fin0_node, (hc.lclean j hj _ hs).2.2.2.1]; exact Int.le_refl _

/-- The bound of a marked node is attained. -/
theorem Done.tight (hwf : WellFormed p S B) (ho : o.Valid) (hroot : RootOK p S B inp.residual) (hd : Done v p r S B inp rd m k jx P L c)
    (hrel : inp.compType = .relaxed) (hx : v = .barrier ∨ (m.finish v o inp).exact = false) {q : Nat}
    (hq : ((m.finish v o inp).node q).flags.isMarked = true) :
    ∃ t ∈ P k, ∃ w, Walk m q t w ∧ ((m.finish v o inp).node q).valueBot ≤ w := by
  have hc := hd.head.core
  have hperm := hd.ids_perm (o := o) ho
  obtain ⟨ids, hids⟩ : ∃ ids, ids = (o.hashOrd m.nextL).map (·.2) := ⟨_, rfl⟩
  rw [← hids] at hperm
  have key : ∀ (b : Dd σ) (cf : Nat → Bool), TermInit (m.fin0 o inp) b ids cf → Tight b (m.finish v o inp) (P k) →
      ∃ t ∈ P k, ∃ w, Walk m q t w ∧ ((m.finish v o inp).node q).valueBot ≤ w := by
    intro b cf hT ht
    obtain ⟨t, h1, w, h2, h3⟩ := ht.att q hq
    refine ⟨t, h1, w, h2.congr (fun e => ?_) (fun i => ?_), h3⟩
    · exact ((hT.skel.edge e).trans (fin0_edge o inp m e)).symm
    · exact ((hT.skel.inIds i).trans (fin0_inIds o inp m i)).symm
  have facts : ∀ (b : Dd σ) (cf : Nat → Bool), TermInit (m.fin0 o inp) b ids cf →
      (∀ q t w, t ∈ P k → Walk b q t w → InISize w) ∧ (∀ i, i < b.nodes.length → ∀ e ∈ b.inIds i, (b.edge e).src < i) ∧ Tight b b (P k) := by
    intro b cf hT
    have hbe : ∀ e, b.edge e = m.edge e := fun e => (hT.skel.edge e).trans (fin0_edge o inp m e)
    have hbi : ∀ i, b.inIds i = m.inIds i := fun i => (hT.skel.inIds i).trans (fin0_inIds o inp m i)
    refine ⟨fun q t w ht hw => hd.walk_in hwf hroot (hw.congr (fun e => (hbe e).symm) (fun i => (hbi i).symm)) ht, ?_,
      hT.tight hd (fun i => hperm.mem_iff)⟩
    intro i hi e he
    rw [hbi] at he; rw [hbe]
    exact (hd.src_lt i (by rw [← show b.nodes.length = m.nodes.length from hT.skel.len]; exact hi) e he).1
  cases v with
  | all =>
    have hne : (m.fin0 o inp).exact = false := by
      rcases hx with hx | hx
      · cases hx
      · exact (hd.inexact hwf ho hroot hx).2
    obtain ⟨b, hb⟩ : ∃ b : Dd σ, b = ids.foldl (fun m i => m.modNode i fun n => { n with valueBot := 0, flags := n.flags.setMarked true }) (m.fin0 o inp) := ⟨_, rfl⟩
    have hfin : m.finish .all o inp = Dd.boundLoop (b.nodes.length + 1) b ids := by
      have h1 : m.finish .all o inp = (m.fin0 o inp).computeLocalBounds o := by
        simp only [finish, fin0, hrel]
      rw [h1]
      unfold computeLocalBounds
      rw [hne]
      simp only [Bool.false_eq_true, if_false]
      have : (m.fin0 o inp).nextL = m.nextL := rfl
      rw [this, ← hids, ← hb]
    have hT : TermInit (m.fin0 o inp) b ids (fun _ => false) := by rw [hb]; exact termAll _ _
    obtain ⟨f1, f2, f3⟩ := facts b _ hT
    apply key b _ hT
    rw [hfin]
    refine Tight.boundLoop f1 f2 _ _ _ f3 (fun q hq => ?_)
    have hlt := hc.lt k q (Or.inl ⟨Nat.le_refl _, hperm.mem_iff.1 hq⟩)
    exact ⟨by rw [show b.nodes.length = m.nodes.length from hT.skel.len]; exact hlt, (hT.term q hq hlt).2.1⟩
  | barrier =>
    obtain ⟨b, hb⟩ : ∃ b : Dd σ, b = ids.foldl (fun m i => m.initTerminal i) (m.fin0 o inp) := ⟨_, rfl⟩
    have hfin : m.finish .barrier o inp = (List.range b.nodes.length).reverse.foldl (Dd.thetaNode inp.bestLb) b := by
      have h1 : m.finish .barrier o inp = (m.fin0 o inp).computeLocalBoundsAndTheta o inp.bestLb := by
        simp only [finish, fin0, hrel]
      rw [h1]
      unfold computeLocalBoundsAndTheta
      have : (m.fin0 o inp).nextL = m.nextL := rfl
      simp only [this, ← hids, ← hb]
    have hT : TermInit (m.fin0 o inp) b ids (fun q => decide (m.cutsetType = .lastExactLayer ∧ m.approximate = false) ||
        decide (m.cutsetType = .frontier ∧ (m.node q).flags.isExact = true)) := by
      rw [hb]; exact termBarrier _ _ _ (fun q => rfl)
    obtain ⟨f1, f2, f3⟩ := facts b _ hT
    apply key b _ hT
    rw [hfin]
    exact Tight.sweep f1 f2 _ _ (fun i hi => by simpa using hi) _ f3

/-- Walks to the last layer are what completes a node. -/
theorem Done.completes (hwf : WellFormed p S B) (ho : o.Valid) (hroot : RootOK p S B inp.residual) (hd : Done v p r S B inp rd m k jx P L c) {i : Nat} {w : Int} :
    Completes p (m.finish v o inp) i w ↔ ∃ t ∈ P k, Walk m i t w := by
  have hc := hd.head.core
  have hsk := hd.skelAny hwf ho hroot (o := o)
  have hst : ∀ t, ((m.finish v o inp).node t).state = (m.node t).state := fun t => by rw [(hsk.node t).state, fin0_node]
  have hl : (m.finish v o inp).nodes.length = m.nodes.length := hsk.len
  constructor
  · rintro ⟨t, h1, h2, h3⟩
    rw [hl] at h1
    rw [hst] at h2
    refine ⟨t, ?_, Walk.congr (m := m.fin0 o inp) (m' := m) (fun e => rfl) (fun i => rfl) (hsk.walk' h3)⟩
    obtain ⟨j, hj⟩ := hc.all t h1
    by_cases hjk : j < k
    · rw [hc.nextVar hwf hj hjk] at h2; cases h2
    · rcases hj with ⟨g1, g2⟩ | ⟨g1, _⟩
      · have : j = k := by omega
        subst this; exact g2
      · omega
  · rintro ⟨t, h1, h2⟩
    refine ⟨t, by rw [hl]; exact hc.lt k t (Or.inl ⟨Nat.le_refl _, h1⟩), by rw [hst]; exact hd.terminal hwf h1, ?_⟩
    exact hsk.walk (Walk.congr (m := m) (m' := m.fin0 o inp) (fun e => rfl) (fun i => rfl) h2)

/-- The subproblem of a node of a squashed layer with a walk to the end. -/
theorem Done.subOf (hwf : WellFormed p S B) (ho : o.Valid) (hroot : RootOK p S B inp.residual) (hd : Done v p r S B inp rd m k jx P L c)
    (hrel : inp.compType = .relaxed) (hx : v = .barrier ∨ (m.finish v o inp).exact = false) {j i : Nat} (hj : j < k) (hi : i ∈ L j)
    (hlo : m.cutsetType = .lastExactLayer → m.approximate = true → jx - 1 ≤ j) {n : SubProblem σ} :
    SubOf p (m.finish v o inp) i n ↔ ∃ bv, (m.finish v o inp).bestValue = some bv ∧ ((m.finish v o inp).node i).flags.isMarked = true ∧
      n = (m.finish v o inp).cutsetNode bv i := by
  have hc := hd.head.core
  have hF := hd.final hwf ho hroot hrel hx
  have hsk := hF.skel
  have hA : ∀ t ∈ P k, ∀ w, Walk m i t w → ((m.finish v o inp).node i).flags.isMarked = true ∧ w ≤ ((m.finish v o inp).node i).valueBot :=
    fun t ht w hw => hF.A j (by omega) hlo i (by rw [Lay_lt hj]; exact hi) t ht w hw
  have hval : ((m.finish v o inp).node i).value = (m.node i).value := by rw [(hsk.node i).value, fin0_node]
  have hst : ((m.finish v o inp).node i).state = (m.node i).state := by rw [(hsk.node i).state, fin0_node]
  have hrub : ((m.finish v o inp).node i).rub = p.estimate (m.node i).state := by
    rw [(hsk.node i).rub, fin0_node]; exact (hc.exp j hj i hi).1
  -- the longest walk
  have hlong : ∀ w, Longest p (m.finish v o inp) i w → w = ((m.finish v o inp).node i).valueBot ∧ ((m.finish v o inp).node i).flags.isMarked = true := by
    intro w hw
    obtain ⟨t, ht, hwk⟩ := (hd.completes hwf ho hroot).1 hw.completes
    obtain ⟨h1, h2⟩ := hA t ht w hwk
    obtain ⟨t', ht', w', hw', h3⟩ := hd.tight hwf ho hroot hrel hx h1
    have := hw.le w' ((hd.completes hwf ho hroot).2 ⟨t', ht', hw'⟩)
    exact ⟨by omega, h1⟩
  have hbot : ((m.finish v o inp).node i).flags.isMarked = true → Longest p (m.finish v o inp) i ((m.finish v o inp).node i).valueBot ∧
      ∃ t ∈ P k, Walk m i t ((m.finish v o inp).node i).valueBot := by
    intro hm
    obtain ⟨t', ht', w', hw', h3⟩ := hd.tight hwf ho hroot hrel hx hm
    have := (hA t' ht' w' hw').2
    have he : w' = ((m.finish v o inp).node i).valueBot := by omega
    subst he
    refine ⟨⟨(hd.completes hwf ho hroot).2 ⟨t', ht', hw'⟩, ?_⟩, t', ht', hw'⟩
    intro w hw
    obtain ⟨t, ht, hwk⟩ := (hd.completes hwf ho hroot).1 hw
    exact (hA t ht w hwk).2
  -- its value
  have hend : ((m.finish v o inp).node i).flags.isMarked = true → ∃ bv, (m.finish v o inp).bestValue = some bv ∧
      InISize ((m.node i).value + ((m.finish v o inp).node i).valueBot) ∧ (m.node i).value + ((m.finish v o inp).node i).valueBot ≤ bv := by
    intro hm
    obtain ⟨_, t, ht, hw⟩ := hbot hm
    have hwv := hd.walk_value hwf hroot hw (Or.inl ⟨Nat.le_refl _, ht⟩)
    have hvb := hc.value_bound hwf hroot (Nat.le_refl _) (by omega) j i (Or.inr ⟨hj, hi⟩)
    obtain ⟨j', hj', hij, hb1, hb2⟩ := (hd.layers hwf hroot m (fun _ => rfl) (fun _ => rfl) rfl).walk hw (by rw [Lay_k]; exact ht)
    have : j' = j := hc.layer_unique (Lay_in hj' hij) (Or.inr ⟨hj, hi⟩)
    subst this
    have hkl := hc.k_le hroot
    have e1 : ((inp.residual.path.length + k + 1 : Nat) : Int) * B = ((inp.residual.path.length + j' + 1 : Nat) : Int) * B + ((k - j' : Nat) : Int) * B := by
      rw [← Int.add_mul]; congr 1; omega
    have hfit := fits hwf (x := (m.node i).value + ((m.finish v o inp).node i).valueBot) (n := inp.residual.path.length + k + 1) (by omega)
      (by rw [e1]; omega) (by rw [e1]; omega)
    rcases hd.bestValue hwf ho hroot (o := o) with ⟨_, _, h2⟩ | ⟨t', _, _, g2, g3⟩
    · rw [h2] at ht; cases ht
    · refine ⟨_, g2, hfit.1, ?_⟩
      have := g3 t ht; omega
  have hub : ∀ bv, (m.finish v o inp).bestValue = some bv → ((m.finish v o inp).node i).flags.isMarked = true →
      ((m.finish v o inp).cutsetNode bv i).ub = min (satAdd (m.node i).value (p.estimate (m.node i).state))
        ((m.node i).value + ((m.finish v o inp).node i).valueBot) := by
    intro bv hb hm
    obtain ⟨bv', hb', hin, hle⟩ := hend hm
    rw [hb] at hb'
    cases hb'
    simp only [cutsetNode, hval, hrub, satAdd_of_in hin]
    omega
  constructor
  · intro h
    obtain ⟨w, hw, hn⟩ := h.ub
    obtain ⟨rfl, hm⟩ := hlong w hw
    obtain ⟨bv, hb, _, _⟩ := hend hm
    refine ⟨bv, hb, hm, ?_⟩
    have hu := hub bv hb hm
    have hs := h.state
    have hv' := h.value
    rw [hs, hv', hst, hval] at hn
    cases n with
    | mk st va pa ub =>
      have hpa := h.path
      simp only [] at hs hv' hpa hn
      subst hs hv' hpa
      rw [hn, ← hu]; rfl
  · rintro ⟨bv, hb, hm, rfl⟩
    refine ⟨rfl, rfl, rfl, ((m.finish v o inp).node i).valueBot, (hbot hm).1, ?_⟩
    rw [hub bv hb hm]
    simp only [cutsetNode, hval, hst]

theorem Done.node_layer (hwf : WellFormed p S B) (ho : o.Valid) (hroot : RootOK p S B inp.residual) (hd : Done v p r S B inp rd m k jx P L c) {i : Nat}
    (hi : i < (m.finish v o inp).nodes.length) : ∃ j, InLay P L k k j i ∧ S.lvl ((m.finish v o inp).node i).state = inp.residual.path.length + j := by
  have hsk := hd.skelAny hwf ho hroot (o := o)
  rw [show (m.finish v o inp).nodes.length = m.nodes.length from hsk.len] at hi
  obtain ⟨j, hj⟩ := hd.head.core.all i hi
  refine ⟨j, hj, ?_⟩
  rw [(hsk.node i).state, fin0_node]; exact (hd.head.core.st j i hj).2.1

theorem Done.node_exact (hwf : WellFormed p S B) (ho : o.Valid) (hroot : RootOK p S B inp.residual) (hd : Done v p r S B inp rd m k jx P L c) (i : Nat) :
    ((m.finish v o inp).node i).flags.isExact = (m.node i).flags.isExact := by
  rw [((hd.skelAny hwf ho hroot (o := o)).node i).exact, fin0_node]

theorem Done.node_lt (hwf : WellFormed p S B) (ho : o.Valid) (hroot : RootOK p S B inp.residual) (hd : Done v p r S B inp rd m k jx P L c) {j i : Nat}
    (hi : InLay P L k k j i) : i < (m.finish v o inp).nodes.length := by
  rw [show (m.finish v o inp).nodes.length = m.nodes.length from (hd.skelAny hwf ho hroot (o := o)).len]
  exact hd.head.core.lt j i hi

/-- A node before the last layer that is completed lies in a squashed layer. -/
theorem Done.completes_mem (hwf : WellFormed p S B) (ho : o.Valid) (hroot : RootOK p S B inp.residual) (hd : Done v p r S B inp rd m k jx P L c) {j i : Nat}
    {w : Int} (hi : InLay P L k k j i) (hj : j < k) (h : Completes p (m.finish v o inp) i w) : i ∈ L j := by
  obtain ⟨t, ht, hw⟩ := (hd.completes hwf ho hroot).1 h
  obtain ⟨j', h1, h2, h3⟩ := hd.walk_layer hw (Or.inl ⟨Nat.le_refl _, ht⟩)
  have := hd.head.core.layer_unique h2 hi
  subst this
  exact h3 hj

/-- A node from which the end is reached is marked, and then there is a best value. -/
theorem Done.completes_marked (hwf : WellFormed p S B) (ho : o.Valid) (hroot : RootOK p S B inp.residual) (hd : Done v p r S B inp rd m k jx P L c)
    (hrel : inp.compType = .relaxed) (hx : v = .barrier ∨ (m.finish v o inp).exact = false) {j i : Nat} (hj : j < k) (hi : i ∈ L j)
    (hlo : m.cutsetType = .lastExactLayer → m.approximate = true → jx - 1 ≤ j) {w : Int} (h : Completes p (m.finish v o inp) i w) :
    (∃ bv, (m.finish v o inp).bestValue = some bv) ∧ ((m.finish v o inp).node i).flags.isMarked = true := by
  obtain ⟨t, ht, hw⟩ := (hd.completes hwf ho hroot).1 h
  refine ⟨?_, ((hd.final hwf ho hroot hrel hx).A j (by omega) hlo i (by rw [Lay_lt hj]; exact hi) t ht w hw).1⟩
  rcases hd.bestValue hwf ho hroot (o := o) with ⟨_, _, h2⟩ | ⟨t', _, _, g2, g3⟩
  · rw [h2] at ht; cases ht
  · exact ⟨_, g2⟩

theorem forall₂_map_right {α β : Type} {R : α → β → Prop} {f : α → β} : ∀ {l : List α}, (∀ a ∈ l, R a (f a)) → List.Forall₂ R l (l.map f)
  | [], _ => .nil
  | a :: _, h => .cons (h a (List.mem_cons_self ..)) (forall₂_map_right fun b hb => h b (List.mem_cons_of_mem _ hb))

theorem Done.consists (hwf : WellFormed p S B) (ho : o.Valid) (hroot : RootOK p S B inp.residual) (hd : Done v p r S B inp rd m k jx P L c)
    (hrel : inp.compType = .relaxed) (hx : v = .barrier ∨ (m.finish v o inp).exact = false) {sel : Nat → Prop}
    (h1 : ∀ i ∈ (m.finish v o inp).cutset, ((m.finish v o inp).node i).flags.isMarked = true →
      sel i ∧ ∃ j, j < k ∧ i ∈ L j ∧ (m.cutsetType = .lastExactLayer → m.approximate = true → jx - 1 ≤ j))
    (h2 : ∀ i, sel i → (∃ w, Completes p (m.finish v o inp) i w) → i ∈ (m.finish v o inp).cutset ∧
      ∃ j, j < k ∧ i ∈ L j ∧ (m.cutsetType = .lastExactLayer → m.approximate = true → jx - 1 ≤ j)) : Consists p (m.finish v o inp) sel := by
  have hF := hd.final hwf ho hroot hrel hx
  cases hb : (m.finish v o inp).bestValue with
  | none =>
    refine ⟨[], List.nodup_nil, ?_, ?_⟩
    · refine fun i => ⟨fun h => (by cases h), ?_⟩
      rintro ⟨hs, w, hw⟩
      obtain ⟨_, j, hj, hi, hlo⟩ := h2 i hs ⟨w, hw⟩
      obtain ⟨⟨bv, h⟩, _⟩ := hd.completes_marked hwf ho hroot hrel hx hj hi hlo hw
      rw [hb] at h; cases h
    · unfold drainCutset; rw [hb]; exact .nil
  | some bv =>
    refine ⟨(m.finish v o inp).cutset.filter fun i => ((m.finish v o inp).node i).flags.isMarked, hF.nodup.filter _, ?_, ?_⟩
    · intro i
      rw [List.mem_filter]
      constructor
      · rintro ⟨hi, hm⟩
        obtain ⟨hs, j, hj, hl, hlo⟩ := h1 i hi hm
        obtain ⟨t, ht, w, hw, _⟩ := hd.tight hwf ho hroot hrel hx hm
        exact ⟨hs, w, (hd.completes hwf ho hroot).2 ⟨t, ht, hw⟩⟩
      · rintro ⟨hs, w, hw⟩
        obtain ⟨hi, j, hj, hl, hlo⟩ := h2 i hs ⟨w, hw⟩
        exact ⟨hi, (hd.completes_marked hwf ho hroot hrel hx hj hl hlo hw).2⟩
    · unfold drainCutset; rw [hb]
      refine forall₂_map_right fun i hi => ?_
      obtain ⟨hi, hm⟩ := List.mem_filter.1 hi
      obtain ⟨_, j, hj, hl, hlo⟩ := h1 i hi hm
      exact (hd.subOf hwf ho hroot hrel hx hj hl hlo).2 ⟨bv, hb, hm, rfl⟩

theorem Done.last_exact (hwf : WellFormed p S B) (ho : o.Valid) (hroot : RootOK p S B inp.residual) (hd : Done v p r S B inp rd m k jx P L c)
    (hrel : inp.compType = .relaxed) (happ : m.approximate = true) : LastExact S.lvl (m.finish v o inp) (inp.residual.path.length + (jx - 1)) := by
  have hc := hd.head.core
  have hjx := (hc.jxr hrel).2 happ
  refine ⟨fun i hi hle => ⟨hi, ?_⟩, ?_⟩
  · obtain ⟨j, hj, hlv⟩ := hd.node_layer hwf ho hroot hi
    rw [hd.node_exact hwf ho hroot]
    exact (hc.ex j (Or.inl (by omega)) i hj).1
  · obtain ⟨i, hi, _, hxi⟩ := hc.inx hrel happ
    have hin : InLay P L k k jx i := Or.inr ⟨hjx.2, hi⟩
    have hlt := hd.node_lt hwf ho hroot (o := o) hin
    refine ⟨i, ?_, hlt, by rw [hd.node_exact hwf ho hroot]; exact hxi⟩
    obtain ⟨j, hj, hlv⟩ := hd.node_layer hwf ho hroot hlt
    have := hc.layer_unique hj hin
    subst this
    rw [hlv]; omega

theorem Done.all_exact (hwf : WellFormed p S B) (ho : o.Valid) (hroot : RootOK p S B inp.residual) (hd : Done v p r S B inp rd m k jx P L c)
    (hrel : inp.compType = .relaxed) (happ : m.approximate = false) {i : Nat} (hi : i < (m.finish v o inp).nodes.length) : ExactNode (m.finish v o inp) i := by
  obtain ⟨j, hj, _⟩ := hd.node_layer hwf ho hroot hi
  refine ⟨hi, ?_⟩
  rw [hd.node_exact hwf ho hroot]
  exact (hd.head.core.ex j (Or.inr ((hd.head.core.jxr hrel).1 happ)) i hj).1

/-- The last exact layer cutset. -/
theorem Done.lel_cut (hwf : WellFormed p S B) (ho : o.Valid) (hroot : RootOK p S B inp.residual) (hd : Done v p r S B inp rd m k jx P L c)
    (hrel : inp.compType = .relaxed) (hx : v = .barrier ∨ (m.finish v o inp).exact = false) (hl : c = .lastExactLayer) :
    ((m.finish v o inp).drainCutset = [] ∧ ∀ i, i < (m.finish v o inp).nodes.length → ExactNode (m.finish v o inp) i) ∨
    ∃ d, LastExact S.lvl (m.finish v o inp) d ∧
      Consists p (m.finish v o inp) fun i => i < (m.finish v o inp).nodes.length ∧ S.lvl ((m.finish v o inp).node i).state = d := by
  have hc := hd.head.core
  have hct : m.cutsetType = .lastExactLayer := hc.misc.2.2.2.trans hl
  cases happ : m.approximate with
  | false =>
    left
    refine ⟨List.eq_nil_iff_forall_not_mem.2 (fun n hn => ?_), fun i hi => hd.all_exact hwf ho hroot hrel happ hi⟩
    obtain ⟨bv, i, _, h1, h2, _⟩ := mem_drain hn
    have := (hd.cutset_exact hwf ho hroot h1 h2).2.1
    rw [happ] at this; cases this
  | true =>
    right
    have hjx := (hc.jxr hrel).2 happ
    have hF := hd.final hwf ho hroot hrel hx
    refine ⟨inp.residual.path.length + (jx - 1), hd.last_exact hwf ho hroot hrel happ, ?_⟩
    · refine hd.consists hwf ho hroot hrel hx ?_ ?_
      · intro i h1 h2
        obtain ⟨_, _, j, g1, g2, g3, _, g5, g6⟩ := hd.cutset_exact hwf ho hroot h1 h2
        have hjj := g6 hct
        have hin : InLay P L k k j i := Or.inr ⟨g2, g3⟩
        have hlt := hd.node_lt hwf ho hroot (o := o) hin
        obtain ⟨j', hj', hlv⟩ := hd.node_layer hwf ho hroot hlt
        have := hc.layer_unique hj' hin
        subst this
        exact ⟨⟨hlt, by rw [hlv, hjj]⟩, j', g2, g3, fun _ _ => g5⟩
      · rintro i ⟨hlt, hlv⟩ ⟨w, hw⟩
        obtain ⟨j, hj, hlv'⟩ := hd.node_layer hwf ho hroot hlt
        have hjj : j = jx - 1 := by omega
        subst hjj
        have hi := hd.completes_mem hwf ho hroot hj (by omega) hw
        refine ⟨hF.cutL i ?_, jx - 1, by omega, hi, fun _ _ => Nat.le_refl _⟩
        rw [(hc.cut1 hl hrel happ).1]; exact hi

/-- The subproblems of the last exact layer have different states and lie in one layer. -/
theorem Done.lel_states (hwf : WellFormed p S B) (ho : o.Valid) (hroot : RootOK p S B inp.residual) (hd : Done v p r S B inp rd m k jx P L c)
    (hrel : inp.compType = .relaxed) (hx : v = .barrier ∨ (m.finish v o inp).exact = false) (hl : c = .lastExactLayer) :
    ((m.finish v o inp).drainCutset.map (·.state)).Nodup ∧ ∃ d, ∀ n ∈ (m.finish v o inp).drainCutset, S.lvl n.state = d := by
  have hc := hd.head.core
  have hct : m.cutsetType = .lastExactLayer := hc.misc.2.2.2.trans hl
  have hsk := hd.skelAny hwf ho hroot (o := o)
  have hF := hd.final hwf ho hroot hrel hx
  have hst : ∀ i, ((m.finish v o inp).node i).state = (m.node i).state := fun i => by rw [(hsk.node i).state, fin0_node]
  have hmem : ∀ i ∈ (m.finish v o inp).cutset, ((m.finish v o inp).node i).flags.isMarked = true → m.approximate = true ∧ jx - 1 < k ∧ i ∈ L (jx - 1) := by
    intro i h1 h2
    obtain ⟨_, happ, j, g1, g2, g3, _, g5, g6⟩ := hd.cutset_exact hwf ho hroot h1 h2
    have := g6 hct
    subst this
    exact ⟨happ, g2, g3⟩
  refine ⟨?_, inp.residual.path.length + (jx - 1), ?_⟩
  · unfold drainCutset
    cases (m.finish v o inp).bestValue with
    | none => exact List.nodup_nil
    | some bv =>
      simp only [List.map_map]
      refine nodup_map_of_inj ?_ (hF.nodup.filter _)
      intro i hi i' hi' he
      obtain ⟨hi, hm⟩ := List.mem_filter.1 hi
      obtain ⟨hi', hm'⟩ := List.mem_filter.1 hi'
      obtain ⟨happ, hk, h1⟩ := hmem i hi hm
      obtain ⟨_, _, h2⟩ := hmem i' hi' hm'
      have hjx := (hc.jxr hrel).2 happ
      simp only [Function.comp, cutsetNode, hst] at he
      exact hc.inj (jx - 1) (by omega) i ((hc.pre (jx - 1) (by omega)).2 i h1) i' ((hc.pre (jx - 1) (by omega)).2 i' h2) he
  · intro n hn
    obtain ⟨bv, i, _, h1, h2, rfl⟩ := mem_drain hn
    obtain ⟨_, hk, h3⟩ := hmem i h1 h2
    simp only [cutsetNode, hst]
    exact (hc.st (jx - 1) i (Or.inr ⟨hk, h3⟩)).2.1

/-- The nodes of the frontier cutset. -/
theorem Done.frontier_mem (hwf : WellFormed p S B) (ho : o.Valid) (hroot : RootOK p S B inp.residual) (hd : Done v p r S B inp rd m k jx P L c)
    (hrel : inp.compType = .relaxed) (hx : v = .barrier ∨ (m.finish v o inp).exact = false) (hf : c = .frontier) (i : Nat) :
    (i ∈ (m.finish v o inp).cutset → OnFrontier p (m.finish v o inp) i ∧ ∃ j, j < k ∧ i ∈ L j) ∧
    (OnFrontier p (m.finish v o inp) i → i ∈ (m.finish v o inp).cutset) := by
  have hc := hd.head.core
  have hct : m.cutsetType = .frontier := hc.misc.2.2.2.trans hf
  have hF := hd.final hwf ho hroot hrel hx
  have hsk := hd.skelAny hwf ho hroot (o := o)
  have hmc : m.cutset = [] := (hc.cut0 (fun h => by rw [hf] at h; cases h.1)).1
  have hnl : m.cutsetType = .lastExactLayer → m.approximate = true → ∀ j : Nat, jx - 1 ≤ j := fun h => by rw [hct] at h; cases h
  have hie : ∀ i, (m.finish v o inp).inIds i = m.inIds i := fun i => (hsk.inIds i).trans (fin0_inIds o inp m i)
  have hed : ∀ i, (m.finish v o inp).edge i = m.edge i := fun i => (hsk.edge i).trans (fin0_edge o inp m i)
  constructor
  · intro h1
    rcases hF.cutN i h1 with g | ⟨_, j, g1, g2, g3, q, g4, e, g5, g6, g7, g8⟩
    · rw [hmc] at g; cases g
    · have hin : InLay P L k k j i := Or.inr ⟨g1, g2⟩
      have hq := Lay_in (P := P) (L := L) (k := k) (j := j+1) (by omega) g4
      refine ⟨⟨⟨hd.node_lt hwf ho hroot hin, by rw [hd.node_exact hwf ho hroot]; exact g3⟩, q, e,
        ⟨hd.node_lt hwf ho hroot hq, by rw [hd.node_exact hwf ho hroot]; exact g7⟩, by rw [hie]; exact g5, by rw [hed]; exact g6, ?_⟩, ?_⟩
      · obtain ⟨t, ht, w, hw, _⟩ := hd.tight hwf ho hroot hrel hx g8
        exact ⟨w, (hd.completes hwf ho hroot).2 ⟨t, ht, hw⟩⟩
      · exact ⟨j, g1, g2⟩
  · rintro ⟨⟨hi1, hi2⟩, q, e, ⟨hq1, hq2⟩, he, hsrc, w, hw⟩
    rw [hd.node_exact hwf ho hroot] at hi2 hq2
    rw [hie] at he
    rw [hed] at hsrc
    obtain ⟨j, hj, _⟩ := hd.node_layer hwf ho hroot hq1
    obtain ⟨t, ht, hwk⟩ := (hd.completes hwf ho hroot).1 hw
    cases j with
    | zero =>
      have := hc.root1 q hj
      subst this
      rw [hc.inIds_zero] at he; cases he
    | succ j =>
      have hsl := (hc.src_layer hj he (Nat.le_refl _) (by omega)).1
      rw [hsrc] at hsl
      have hjk : j + 1 ≤ k := by rcases hj with hj | hj <;> omega
      have hqL : q ∈ Lay P L k (j+1) := by
        by_cases hh : j + 1 < k
        · rw [Lay_lt hh]; exact hd.completes_mem hwf ho hroot hj hh hw
        · have : j + 1 = k := by omega
          rcases hj with hj | hj
          · rw [this, Lay_k]; rw [this] at hj; exact hj.2
          · omega
      have hm := (hF.A (j+1) hjk (fun h1 h2 => hnl h1 h2 _) q hqL t ht w hwk).1
      have hcut := hF.front hct j (by omega) q hqL hm hq2 e he (by rw [hsrc]; exact hi2)
      rw [hsrc] at hcut
      exact hcut

/-- The frontier cutset. -/
theorem Done.frontier_cut (hwf : WellFormed p S B) (ho : o.Valid) (hroot : RootOK p S B inp.residual) (hd : Done v p r S B inp rd m k jx P L c)
    (hrel : inp.compType = .relaxed) (hx : v = .barrier ∨ (m.finish v o inp).exact = false) (hf : c = .frontier) :
    Consists p (m.finish v o inp) (OnFrontier p (m.finish v o inp)) := by
  have hnl : ∀ j : Nat, m.cutsetType = .lastExactLayer → m.approximate = true → jx - 1 ≤ j := fun j h => by
    rw [hd.head.core.misc.2.2.2, hf] at h; cases h
  have hm := hd.frontier_mem hwf ho hroot hrel hx hf
  refine hd.consists hwf ho hroot hrel hx ?_ ?_
  · intro i h1 _
    obtain ⟨g1, j, g2, g3⟩ := (hm i).1 h1
    exact ⟨g1, j, g2, g3, hnl j⟩
  · intro i h1 _
    have h2 := (hm i).2 h1
    obtain ⟨_, j, g2, g3⟩ := (hm i).1 h2
    exact ⟨h2, j, g2, g3, hnl j⟩

/-- An exact diagram of the variant without thresholds has no cutset, and neither has one that is not relaxed. -/
theorem Done.no_cut (hwf : WellFormed p S B) (ho : o.Valid) (hroot : RootOK p S B inp.residual) (hd : Done v p r S B inp rd m k jx P L c)
    (h : inp.compType ≠ .relaxed ∨ (v = .all ∧ (m.finish v o inp).exact = true)) : (m.finish v o inp).drainCutset = [] := by
  have hc := hd.head.core
  have h1 : m.finish v o inp = m.fin0 o inp := by
    rcases h with h | ⟨rfl, h⟩
    · unfold finish fin0
      cases hcc : inp.compType
      · rfl
      · exact absurd hcc h
      · rfl
    · rw [(hd.skelAny hwf ho hroot (o := o)).exact] at h
      unfold finish fin0
      cases hcc : inp.compType
      · rfl
      · simp only []
        unfold computeLocalBounds
        rw [if_pos]
        · unfold fin0 at h; simpa only [hcc] using h
      · rfl
  refine List.eq_nil_iff_forall_not_mem.2 (fun n hn => ?_)
  obtain ⟨bv, i, _, g1, g2, _⟩ := mem_drain hn
  obtain ⟨_, _, j, k1, k2, k3, _⟩ := hd.cutset_exact hwf ho hroot g1 g2
  rw [h1, fin0_node, hc.unm j i (Or.inr ⟨k2, k3⟩)] at g2; cases g2

end
end Verif.Dd
