import Verif.Proofs.Mdd.Cutset
import Verif.Spec.Threshold
/-! The thresholds of the diagrams with barrier, in terms of walks. -/
set_option autoImplicit false

namespace Verif.Dd
open Verif Spec
variable {σ : Type} [DecidableEq σ] [Inhabited σ]

theorem longest_unique {p : Problem σ} {D : Dd σ} {i : Nat} {w w' : Int} (h : Longest p D i w) (h' : Longest p D i w') : w = w' := by
  have := h.le _ h'.completes
  have := h'.le _ h.completes
  omega

theorem below_unique {p : Problem σ} {D : Dd σ} {i : Nat} {w w' : Int} (h : Below p D i w) (h' : Below p D i w') : w = w' := by
  rcases h with h | ⟨h, rfl⟩ <;> rcases h' with h' | ⟨h', rfl⟩
  · exact longest_unique h h'
  · exact absurd ⟨_, h.completes⟩ h'
  · exact absurd ⟨_, h'.completes⟩ h
  · rfl

theorem lastExact_unique {lvl : σ → Nat} {D : Dd σ} {d d' : Nat} (h : LastExact lvl D d) (h' : LastExact lvl D d') : d = d' := by
  obtain ⟨i, hi, hx⟩ := h.last
  obtain ⟨i', hi', hx'⟩ := h'.last
  rcases Nat.lt_trichotomy d d' with hlt | hlt | hlt
  · have := (h'.exact i hx.1 (by omega)).2
    rw [hx.2] at this; cases this
  · exact hlt
  · have := (h.exact i' hx'.1 (by omega)).2
    rw [hx'.2] at this; cases this

/-- A limit that follows from a failed comparison is not below the value compared. -/
theorem limit_ge {a b lb : Int} (ha : InISize a) (hb : b ≤ isizeMax) (h : satAdd a b ≤ lb) : min a 0 ≤ satSub lb b := by
  simp only [satAdd, satSub, clamp, InISize, isizeMin, isizeMax] at *
  omega

section
variable {p : Problem σ} {r : Relaxation σ} {S : Layering σ} {B : Int} {inp : Input σ} {rd : Reads σ}
  {m : Dd σ} {k jx : Nat} {P L : Nat → List Nat} {c : CutsetType} {o : Oracle σ}

/-- What becomes of a node that is not merged into another one. -/
theorem Done.live (hwf : WellFormed p S B) (ho : o.Valid) (hroot : RootOK p S B inp.residual) (hd : Done .barrier p r S B inp rd m k jx P L c)
    (hrel : inp.compType = .relaxed) {x : Nat} (hx : Live (m.finish .barrier o inp) x) :
    (x ∈ P k) ∨ (∃ j, j < k ∧ x ∈ L j) ∨ (∃ j, j < k ∧ x ∈ P j ∧ Pruned .barrier rd inp.residual.path.length (inp.residual.path.length + j) m x) := by
  have hc := hd.head.core
  have hsk := hd.skelAny hwf ho hroot (o := o)
  obtain ⟨hlt, hdel⟩ := hx
  rw [(hsk.node x).deleted, fin0_node] at hdel
  obtain ⟨j, hj, _⟩ := hd.node_layer hwf ho hroot hlt
  rcases hj with ⟨hj, hx⟩ | ⟨hj, hx⟩
  · by_cases hjk : j = k
    · subst hjk; exact Or.inl hx
    · rcases hc.fate j (by omega) x hx with h | h | ⟨_, _, h⟩ | ⟨h, _⟩
      · exact Or.inr (Or.inl ⟨j, by omega, h⟩)
      · exact Or.inr (Or.inr ⟨j, by omega, hx, h⟩)
      · by_cases hxl : x ∈ L j
        · exact Or.inr (Or.inl ⟨j, by omega, hxl⟩)
        · rw [h.del rfl hxl] at hdel; cases hdel
      · rw [hrel] at h; cases h
  · exact Or.inr (Or.inl ⟨j, hj, hx⟩)

theorem Done.next_last (hwf : WellFormed p S B) (ho : o.Valid) (hroot : RootOK p S B inp.residual) (hd : Done .barrier p r S B inp rd m k jx P L c)
    {x : Nat} (hx : x ∈ P k) : p.nextVar [((m.finish .barrier o inp).node x).state] = none := by
  have hc := hd.head.core
  have hst := hc.st k x (Or.inl ⟨Nat.le_refl _, hx⟩)
  rw [((hd.skelAny hwf ho hroot (o := o)).node x).state, fin0_node]
  rw [hwf.next_var [(m.node x).state] (inp.residual.path.length + k) (by simp) (by simp; exact ⟨hst.1, hst.2.1⟩), if_neg]
  rcases hd.fin with h | h
  · rw [h] at hx; cases hx
  · omega

theorem Done.next_inner (hwf : WellFormed p S B) (ho : o.Valid) (hroot : RootOK p S B inp.residual) (hd : Done .barrier p r S B inp rd m k jx P L c)
    {j x : Nat} (hj : j < k) (hx : InLay P L k k j x) : p.nextVar [((m.finish .barrier o inp).node x).state] ≠ none := by
  rw [((hd.skelAny hwf ho hroot (o := o)).node x).state, fin0_node, hd.head.core.nextVar hwf hx hj]
  simp

/-- The cutset flag at the end. -/
theorem Done.cut_flag (hwf : WellFormed p S B) (ho : o.Valid) (hroot : RootOK p S B inp.residual) (hd : Done .barrier p r S B inp rd m k jx P L c)
    (hrel : inp.compType = .relaxed) {j x : Nat} (hj : j ≤ k) (hx : x ∈ Lay P L k j) :
    ((m.finish .barrier o inp).node x).flags.isCutset = true ↔ CutNode p S.lvl (m.finish .barrier o inp) x := by
  have hc := hd.head.core
  have hF := hd.final hwf ho hroot hrel (Or.inl rfl) (o := o)
  have hsk := hd.skelAny hwf ho hroot (o := o)
  obtain ⟨b, hT, _, hS⟩ := hd.sweep ho hrel (o := o)
  have hin : InLay P L k k j x := Lay_in hj hx
  have hlt := hd.node_lt hwf ho hroot (o := o) hin
  have hlv : S.lvl ((m.finish .barrier o inp).node x).state = inp.residual.path.length + j := by
    rw [(hsk.node x).state, fin0_node]; exact (hc.st j x hin).2.1
  have hbc : b.cutset = m.cutset := hT.cut
  have hct : (m.finish .barrier o inp).cutsetType = m.cutsetType := hsk.cutsetType
  have hmt : m.cutsetType = c := hc.misc.2.2.2
  have hfl := hS.flag x
  rw [hbc] at hfl
  have hlayer : (j = k ∧ x ∈ P k ∧ (b.node x).flags.isCutset = (decide (m.cutsetType = .lastExactLayer ∧ m.approximate = false) ||
      decide (m.cutsetType = .frontier ∧ (m.node x).flags.isExact = true)) ∧ p.nextVar [((m.finish .barrier o inp).node x).state] = none) ∨
      (j < k ∧ x ∈ L j ∧ (b.node x).flags.isCutset = decide (x ∈ m.cutset) ∧ p.nextVar [((m.finish .barrier o inp).node x).state] ≠ none) := by
    rcases (Lay_iff hj).1 hx with ⟨h1, h2⟩ | ⟨h1, h2⟩
    · right
      refine ⟨h1, h2, ?_, hd.next_inner hwf ho hroot h1 hin⟩
      rw [hT.other x, fin0_node, (hc.lclean j h1 x h2).2.2.2.2]
      intro hh
      have := hc.layer_unique hin (Or.inl ⟨Nat.le_refl _, hh⟩)
      omega
    · left
      refine ⟨h1, h2, ?_, hd.next_last hwf ho hroot h2⟩
      rw [(hT.term x h2 (hc.lt j x hin)).2.2.2, fin0_node, (hd.head.clean x h2).1.cutset]
      rfl
  have hexn : ((m.finish .barrier o inp).node x).flags.isExact = (m.node x).flags.isExact := hd.node_exact hwf ho hroot x
  unfold CutNode
  rw [hct, hmt]
  cases hcc : c with
  | lastExactLayer =>
    have hDm : x ∈ (m.finish .barrier o inp).cutset → x ∈ m.cutset := by
      intro h
      rcases hF.cutN x h with h | ⟨h, _⟩
      · exact h
      · rw [hmt, hcc] at h; cases h
    have hfl2 : ((m.finish .barrier o inp).node x).flags.isCutset = (b.node x).flags.isCutset := by
      rw [hfl, decide_eq_false (fun h => h.2 (hDm h.1))]; simp
    rw [hfl2]
    simp only [true_and, reduceCtorEq, false_and, or_false]
    cases happ : m.approximate with
    | false =>
      have hno : ¬ LastExact S.lvl (m.finish .barrier o inp) (S.lvl ((m.finish .barrier o inp).node x).state) := by
        intro h
        obtain ⟨i, _, hi⟩ := h.last
        have := (hd.all_exact hwf ho hroot hrel happ hi.1).2
        rw [hi.2] at this; cases this
      have hmc : m.cutset = [] := (hc.cut0 (fun h => by rw [happ] at h; exact absurd h.2.2 (by simp))).1
      rcases hlayer with ⟨h1, h2, h3, h4⟩ | ⟨h1, h2, h3, h4⟩
      · rw [h3, hmt, hcc, happ]
        simp only [true_and, decide_true, Bool.true_or, true_iff]
        exact Or.inr ⟨fun i hi => hd.all_exact hwf ho hroot hrel happ hi, h4⟩
      · rw [h3, hmc]
        simp [hno, h4]
    | true =>
      have hle := hd.last_exact hwf ho hroot hrel happ (o := o)
      have hjx := (hc.jxr hrel).2 happ
      have hne : ¬ ∀ i, i < (m.finish .barrier o inp).nodes.length → ExactNode (m.finish .barrier o inp) i := by
        intro h
        obtain ⟨i, _, hi⟩ := hle.last
        have := (h i hi.1).2
        rw [hi.2] at this; cases this
      have hmc : m.cutset = L (jx - 1) := (hc.cut1 hcc hrel happ).1
      rcases hlayer with ⟨h1, h2, h3, h4⟩ | ⟨h1, h2, h3, h4⟩
      · rw [h3, hmt, hcc, happ]
        simp only [reduceCtorEq, and_false, false_and, decide_false, Bool.or_self, Bool.false_eq_true, false_iff, not_or]
        refine ⟨fun h => ?_, fun h => hne h.1⟩
        have := lastExact_unique h hle
        omega
      · rw [h3, hmc, decide_eq_true_eq]
        constructor
        · intro h
          left
          have := hc.layer_unique (Or.inr ⟨by omega, h⟩) hin
          rw [hlv, ← this]; exact hle
        · rintro (h | h)
          · have := lastExact_unique h hle
            have hjj : j = jx - 1 := by omega
            rw [← hjj]; exact h2
          · exact absurd h.1 hne
  | frontier =>
    have hmc : m.cutset = [] := (hc.cut0 (fun h => by rw [hcc] at h; exact absurd h.1 (by simp))).1
    have hm := hd.frontier_mem hwf ho hroot hrel (Or.inl rfl) hcc (o := o) x
    have hmem : x ∈ (m.finish .barrier o inp).cutset ↔ OnFrontier p (m.finish .barrier o inp) x := ⟨fun h => (hm.1 h).1, hm.2⟩
    rw [hfl, hmc]
    simp only [reduceCtorEq, false_and, false_or, true_and, List.not_mem_nil, not_false_eq_true, and_true, Bool.or_eq_true, decide_eq_true_eq, hmem]
    rcases hlayer with ⟨h1, h2, h3, h4⟩ | ⟨h1, h2, h3, h4⟩
    · rw [h3, hmt, hcc]
      simp only [reduceCtorEq, false_and, decide_false, Bool.false_or, true_and, decide_eq_true_eq, h4, and_true]
      unfold ExactNode
      rw [hexn]
      constructor
      · rintro (h | h)
        · exact Or.inr ⟨hlt, h⟩
        · exact Or.inl h
      · rintro (h | h)
        · exact Or.inr h
        · exact Or.inl h.2
    · rw [h3, hmc]
      simp [h4]

/-- The bound of a node at the end. -/
theorem Done.below (hwf : WellFormed p S B) (ho : o.Valid) (hroot : RootOK p S B inp.residual) (hd : Done .barrier p r S B inp rd m k jx P L c)
    (hrel : inp.compType = .relaxed) {j x : Nat} (hj : j ≤ k) (hx : x ∈ Lay P L k j) (hlo : m.cutsetType = .lastExactLayer → m.approximate = true → jx - 1 ≤ j) :
    Below p (m.finish .barrier o inp) x ((m.finish .barrier o inp).node x).valueBot := by
  have hc := hd.head.core
  have hF := hd.final hwf ho hroot hrel (Or.inl rfl) (o := o)
  have hA : ∀ t ∈ P k, ∀ w, Walk m x t w → ((m.finish .barrier o inp).node x).flags.isMarked = true ∧ w ≤ ((m.finish .barrier o inp).node x).valueBot :=
    fun t ht w hw => hF.A j hj hlo x hx t ht w hw
  cases hm : ((m.finish .barrier o inp).node x).flags.isMarked with
  | true =>
    left
    obtain ⟨t', ht', w', hw', h3⟩ := hd.tight hwf ho hroot hrel (Or.inl rfl) hm
    have := (hA t' ht' w' hw').2
    have he : w' = ((m.finish .barrier o inp).node x).valueBot := by omega
    subst he
    refine ⟨(hd.completes hwf ho hroot).2 ⟨t', ht', hw'⟩, ?_⟩
    intro w hw
    obtain ⟨t, ht, hwk⟩ := (hd.completes hwf ho hroot).1 hw
    exact (hA t ht w hwk).2
  | false =>
    right
    constructor
    · rintro ⟨w, hw⟩
      obtain ⟨t, ht, hwk⟩ := (hd.completes hwf ho hroot).1 hw
      have := (hA t ht w hwk).1
      rw [hm] at this; cases this
    · obtain ⟨b, hT, _, hS⟩ := hd.sweep ho hrel (o := o)
      rw [hS.unb x hm]
      rcases (Lay_iff hj).1 hx with ⟨h1, h2⟩ | ⟨h1, h2⟩
      · rw [hT.other x, fin0_node, (hc.lclean j h1 x h2).2.2.2.1]
        intro hh
        have := hc.layer_unique (Lay_in hj hx) (Or.inl ⟨Nat.le_refl _, hh⟩)
        omega
      · have := hS.mono.mark x (hT.term x h2 (hc.lt k x (Or.inl ⟨Nat.le_refl _, h2⟩))).2.1
        rw [hm] at this; cases this

theorem Done.not_barred (hwf : WellFormed p S B) (ho : o.Valid) (hroot : RootOK p S B inp.residual) (hd : Done .barrier p r S B inp rd m k jx P L c)
    {j x : Nat} (hj : j ≤ k) (hx : x ∈ Lay P L k j) : ¬ Barred (m.finish .barrier o inp) x := by
  unfold Barred
  rw [((hd.skelAny hwf ho hroot (o := o)).node x).pruned, fin0_node]
  rcases (Lay_iff hj).1 hx with ⟨h1, h2⟩ | ⟨h1, h2⟩
  · rw [(hd.head.core.lclean j h1 x h2).2.1]; simp
  · rw [(hd.head.clean x h2).1.pruned]; simp

/-- A node that is neither merged nor pruned lies in one of the final layers. -/
theorem Done.live_lay (hwf : WellFormed p S B) (ho : o.Valid) (hroot : RootOK p S B inp.residual) (hd : Done .barrier p r S B inp rd m k jx P L c)
    (hrel : inp.compType = .relaxed) {x : Nat} (hx : Live (m.finish .barrier o inp) x) (hb : ¬ Barred (m.finish .barrier o inp) x) :
    ∃ j, j ≤ k ∧ x ∈ Lay P L k j := by
  rcases hd.live hwf ho hroot hrel hx with h | ⟨j, hj, h⟩ | ⟨j, hj, h, hp⟩
  · exact ⟨k, Nat.le_refl _, by rw [Lay_k]; exact h⟩
  · exact ⟨j, by omega, by rw [Lay_lt hj]; exact h⟩
  · refine absurd ?_ hb
    unfold Barred
    rw [((hd.skelAny hwf ho hroot (o := o)).node x).pruned, fin0_node]; exact hp.flag

theorem Done.lay_live (hwf : WellFormed p S B) (ho : o.Valid) (hroot : RootOK p S B inp.residual) (hd : Done .barrier p r S B inp rd m k jx P L c)
    {j x : Nat} (hj : j ≤ k) (hx : x ∈ Lay P L k j) : Live (m.finish .barrier o inp) x := by
  refine ⟨hd.node_lt hwf ho hroot (Lay_in hj hx), ?_⟩
  rw [((hd.skelAny hwf ho hroot (o := o)).node x).deleted, fin0_node]
  rcases (Lay_iff hj).1 hx with ⟨h1, h2⟩ | ⟨h1, h2⟩
  · exact (hd.head.core.lclean j h1 x h2).1
  · exact (hd.head.clean x h2).1.deleted

theorem Done.flag_lay (hwf : WellFormed p S B) (ho : o.Valid) (hroot : RootOK p S B inp.residual) (hd : Done .barrier p r S B inp rd m k jx P L c)
    (hrel : inp.compType = .relaxed) {x : Nat} (hx : Live (m.finish .barrier o inp) x) (hf : ((m.finish .barrier o inp).node x).flags.isCutset = true) :
    ¬ Barred (m.finish .barrier o inp) x := by
  have hc := hd.head.core
  rcases hd.live hwf ho hroot hrel hx with h | ⟨j, hj, h⟩ | ⟨j, hj, h, hp⟩
  · exact hd.not_barred hwf ho hroot (Nat.le_refl k) (by rw [Lay_k]; exact h)
  · exact hd.not_barred hwf ho hroot (j := j) (by omega) (by rw [Lay_lt hj]; exact h)
  · exfalso
    have hin : InLay P L k k j x := Or.inl ⟨by omega, h⟩
    obtain ⟨b, hT, _, hS⟩ := hd.sweep ho hrel (o := o)
    have hbx : (b.node x).flags.isCutset = false := by
      rw [hT.other x, fin0_node]
      · exact hp.cut
      · intro hh
        have := hc.layer_unique hin (Or.inl ⟨Nat.le_refl _, hh⟩)
        omega
    have hfl := hS.flag x
    rw [hf, hbx] at hfl
    have hxc : x ∈ (m.finish .barrier o inp).cutset := by
      have := hfl.symm
      rw [Bool.false_or, decide_eq_true_eq] at this; exact this.1
    have hL : ∃ j', j' < k ∧ x ∈ L j' := by
      rcases (hd.final hwf ho hroot hrel (Or.inl rfl) (o := o)).cutN x hxc with h1 | ⟨_, j', h1, h2, _⟩
      · by_cases h : c = .lastExactLayer ∧ inp.compType = .relaxed ∧ m.approximate = true
        · have h2 := hc.cut1 h.1 h.2.1 h.2.2
          have := (hc.jxr h.2.1).2 h.2.2
          exact ⟨jx - 1, by omega, by rw [← h2.1]; exact h1⟩
        · rw [(hc.cut0 h).1] at h1; cases h1
      · exact ⟨j', h1, h2⟩
    obtain ⟨j', hj', hx'⟩ := hL
    have := (hc.lclean j' hj' x hx').2.1
    rw [hp.flag] at this; cases this

theorem Done.cut_lo (hwf : WellFormed p S B) (ho : o.Valid) (hroot : RootOK p S B inp.residual) (hd : Done .barrier p r S B inp rd m k jx P L c)
    (hrel : inp.compType = .relaxed) {j x : Nat} (hj : j ≤ k) (hx : x ∈ Lay P L k j) (hcn : CutNode p S.lvl (m.finish .barrier o inp) x) :
    m.cutsetType = .lastExactLayer → m.approximate = true → jx - 1 ≤ j := by
  intro hl happ
  have hle := hd.last_exact hwf ho hroot hrel happ (o := o)
  have hsk := hd.skelAny hwf ho hroot (o := o)
  have hlv : S.lvl ((m.finish .barrier o inp).node x).state = inp.residual.path.length + j := by
    rw [(hsk.node x).state, fin0_node]; exact (hd.head.core.st j x (Lay_in hj hx)).2.1
  rcases hcn with ⟨_, h | h⟩ | ⟨h, _⟩
  · have := lastExact_unique h hle
    omega
  · obtain ⟨i, _, hi⟩ := hle.last
    have := (h.1 i hi.1).2
    rw [hi.2] at this; cases this
  · rw [show (m.finish .barrier o inp).cutsetType = m.cutsetType from hsk.cutsetType, hl] at h; cases h

/-- Before the sweep every node carries one of its limits. -/
theorem Done.own_limit (hwf : WellFormed p S B) (ho : o.Valid) (hroot : RootOK p S B inp.residual) (hd : Done .barrier p r S B inp rd m k jx P L c)
    (hrel : inp.compType = .relaxed) {x : Nat} (hx : Live (m.finish .barrier o inp) x) :
    Limit p S.lvl rd inp.bestLb (m.finish .barrier o inp) x (m.node x).theta := by
  have hc := hd.head.core
  have hsk := hd.skelAny hwf ho hroot (o := o)
  have hst : ((m.finish .barrier o inp).node x).state = (m.node x).state := by rw [(hsk.node x).state, fin0_node]
  have hva : ((m.finish .barrier o inp).node x).value = (m.node x).value := by rw [(hsk.node x).value, fin0_node]
  rcases hd.live hwf ho hroot hrel hx with h | ⟨j, hj, h⟩ | ⟨j, hj, h, hp⟩
  · rw [(hd.head.clean x h).2.2]; exact .any hx
  · rw [(hc.exp j hj x h).2.1 rfl]
    split
    · exact .any hx
    · rename_i hpr
      rw [← hst]
      refine .hopeless hx (hd.not_barred hwf ho hroot (j := j) (by omega) (by rw [Lay_lt hj]; exact h)) (hd.next_inner hwf ho hroot hj (Or.inr ⟨hj, h⟩)) ?_
      unfold Promising at hpr
      rw [hst, hva]; omega
  · rw [hp.theta, ← (hc.st j x (Or.inl ⟨by omega, h⟩)).2.1, ← hst]
    refine .barred hx ?_
    unfold Barred
    rw [(hsk.node x).pruned, fin0_node]; exact hp.flag

theorem Done.own_le (hwf : WellFormed p S B) (ho : o.Valid) (hroot : RootOK p S B inp.residual) (hd : Done .barrier p r S B inp rd m k jx P L c)
    (hrel : inp.compType = .relaxed) (hrd : ∀ d s t, rd.theta d s = some t → InISize t) {x : Nat} (hx : Live (m.finish .barrier o inp) x) {l : Int}
    (hl : Limit p S.lvl rd inp.bestLb (m.finish .barrier o inp) x l) : ((m.finish .barrier o inp).node x).theta ≤ l := by
  have hc := hd.head.core
  have hsk := hd.skelAny hwf ho hroot (o := o)
  obtain ⟨b, hT, _, hS⟩ := hd.sweep ho hrel (o := o)
  have hst : ((m.finish .barrier o inp).node x).state = (m.node x).state := by rw [(hsk.node x).state, fin0_node]
  have hva : ((m.finish .barrier o inp).node x).value = (m.node x).value := by rw [(hsk.node x).value, fin0_node]
  have hlt : x < m.nodes.length := by rw [← show (m.finish .barrier o inp).nodes.length = m.nodes.length from hsk.len]; exact hx.1
  have hbl : b.nodes.length = m.nodes.length := hT.skel.len
  have hbt : (b.node x).theta = (m.node x).theta := by
    by_cases h : x ∈ P k
    · rw [(hT.term x h hlt).2.2.1, fin0_node]
    · rw [hT.other x h, fin0_node]
  have hmono := hS.mono.theta x
  rw [hbt] at hmono
  have hmax : isizeMin ≤ isizeMax := by decide
  have hcl : ∀ a : Int, clamp a ≤ isizeMax := fun a => by unfold clamp; omega
  cases hl with
  | any =>
    refine Int.le_trans hmono ?_
    rcases hd.live hwf ho hroot hrel hx with h | ⟨j, hj, h⟩ | ⟨j, hj, h, hp⟩
    · rw [(hd.head.clean x h).2.2]; exact Int.le_refl _
    · rw [(hc.exp j hj x h).2.1 rfl]
      split
      · exact Int.le_refl _
      · exact hcl _
    · rw [hp.theta]
      cases hth : rd.theta (inp.residual.path.length + j) (m.node x).state with
      | none => exact hmax
      | some t => exact (hrd _ _ _ hth).2
  | barred _ hb =>
    refine Int.le_trans hmono ?_
    rcases hd.live hwf ho hroot hrel hx with h | ⟨j, hj, h⟩ | ⟨j, hj, h, hp⟩
    · exact absurd hb (hd.not_barred hwf ho hroot (Nat.le_refl k) (by rw [Lay_k]; exact h))
    · exact absurd hb (hd.not_barred hwf ho hroot (j := j) (by omega) (by rw [Lay_lt hj]; exact h))
    · rw [hp.theta, ← (hc.st j x (Or.inl ⟨by omega, h⟩)).2.1, ← hst]; exact Int.le_refl _
  | hopeless _ hb hv hle =>
    refine Int.le_trans hmono ?_
    obtain ⟨j, hj, h⟩ := hd.live_lay hwf ho hroot hrel hx hb
    rcases (Lay_iff hj).1 h with ⟨h1, h2⟩ | ⟨h1, h2⟩
    · rw [(hc.exp j h1 x h2).2.1 rfl, if_neg, hst]
      · exact Int.le_refl _
      · unfold Promising
        rw [hst, hva] at hle; omega
    · exact absurd (hd.next_last hwf ho hroot h2) hv
  | below _ hb hcn hbot hlt' =>
    obtain ⟨j, hj, h⟩ := hd.live_lay hwf ho hroot hrel hx hb
    have he := below_unique hbot (hd.below hwf ho hroot hrel hj h (hd.cut_lo hwf ho hroot hrel hj h hcn))
    have := hS.cutTheta x (Nat.zero_le _) (by rw [hbl]; exact hlt) (by rw [← (hS.skel.node x).deleted]; exact hx.2)
      ((hd.cut_flag hwf ho hroot hrel hj h).2 hcn)
    unfold cutBound at this
    rw [← he, if_pos hlt'] at this
    exact this
  | cut _ hb hcn hbot hge =>
    obtain ⟨j, hj, h⟩ := hd.live_lay hwf ho hroot hrel hx hb
    have he := below_unique hbot (hd.below hwf ho hroot hrel hj h (hd.cut_lo hwf ho hroot hrel hj h hcn))
    have := hS.cutTheta x (Nat.zero_le _) (by rw [hbl]; exact hlt) (by rw [← (hS.skel.node x).deleted]; exact hx.2)
      ((hd.cut_flag hwf ho hroot hrel hj h).2 hcn)
    unfold cutBound at this
    rw [← he, if_neg (by omega)] at this
    exact this

/-- The limits of a node are not far below zero. -/
theorem Done.limit_low (hwf : WellFormed p S B) (ho : o.Valid) (hroot : RootOK p S B inp.residual) (hd : Done .barrier p r S B inp rd m k jx P L c)
    (hrel : inp.compType = .relaxed) (hest : ∀ s, S.ok s → InISize (p.estimate s)) {x j : Nat} (hj : InLay P L k k j x) {l : Int}
    (hl : Limit p S.lvl rd inp.bestLb (m.finish .barrier o inp) x l) : -(((inp.residual.path.length + j + 1 : Nat) : Int) * B) ≤ l := by
  have hc := hd.head.core
  have hsk := hd.skelAny hwf ho hroot (o := o)
  have hst : ((m.finish .barrier o inp).node x).state = (m.node x).state := by rw [(hsk.node x).state, fin0_node]
  have hva : ((m.finish .barrier o inp).node x).value = (m.node x).value := by rw [(hsk.node x).value, fin0_node]
  have hvb := hc.value_bound hwf hroot (Nat.le_refl _) (by omega) j x hj
  have hB := hwf.B_nonneg
  have hnb : 0 ≤ ((inp.residual.path.length + j + 1 : Nat) : Int) * B := Int.mul_nonneg (by omega) hB
  have hkl := hc.k_le hroot
  have hjk : j ≤ k := by rcases hj with h | h <;> omega
  have hvin : InISize (m.node x).value := (fits hwf (n := inp.residual.path.length + j + 1) (by omega) hvb.1 hvb.2).1
  have hbelow : ∀ b, Below p (m.finish .barrier o inp) x b → b ≤ isizeMax := by
    rintro b (h | ⟨_, rfl⟩)
    · obtain ⟨t, ht, hw⟩ := (hd.completes hwf ho hroot).1 h.completes
      exact (hd.walk_in hwf hroot hw ht).2
    · decide
  cases hl with
  | any =>
    have : (0 : Int) ≤ isizeMax := by decide
    omega
  | barred hlv hb =>
    rcases hd.live hwf ho hroot hrel hlv with h | ⟨j', hj', h⟩ | ⟨j', hj', h, hp⟩
    · exact absurd hb (hd.not_barred hwf ho hroot (Nat.le_refl k) (by rw [Lay_k]; exact h))
    · exact absurd hb (hd.not_barred hwf ho hroot (j := j') (by omega) (by rw [Lay_lt hj']; exact h))
    · have hle := hp.le
      rw [hst, (hc.st j' x (Or.inl ⟨by omega, h⟩)).2.1]; omega
  | hopeless _ _ _ hle =>
    rw [hva] at hle
    have he := hest _ (hc.st j x hj).1
    rw [← hst] at he
    have h1 : satAdd (m.node x).value (p.estimate ((m.finish .barrier o inp).node x).state) ≤ inp.bestLb := by
      rw [satAdd, Int.add_comm]; exact hle
    have := limit_ge hvin he.2 h1
    omega
  | below _ _ _ hbot hlt' =>
    rw [hva] at hlt'
    have := limit_ge hvin (hbelow _ hbot) (Int.le_of_lt hlt')
    omega
  | cut => rw [hva]; exact hvb.1

/-- A threshold is a limit of the node, or comes from a child. -/
theorem Done.theta_step (hwf : WellFormed p S B) (ho : o.Valid) (hroot : RootOK p S B inp.residual) (hd : Done .barrier p r S B inp rd m k jx P L c)
    (hrel : inp.compType = .relaxed) {x : Nat} (hx : Live (m.finish .barrier o inp) x) :
    Limit p S.lvl rd inp.bestLb (m.finish .barrier o inp) x ((m.finish .barrier o inp).node x).theta ∨
    ∃ i e, Live (m.finish .barrier o inp) i ∧ e ∈ (m.finish .barrier o inp).inIds i ∧ ((m.finish .barrier o inp).edge e).src = x ∧
      ((m.finish .barrier o inp).node x).theta = satSub ((m.finish .barrier o inp).node i).theta ((m.finish .barrier o inp).edge e).cost := by
  have hsk := hd.skelAny hwf ho hroot (o := o)
  obtain ⟨b, hT, _, hS⟩ := hd.sweep ho hrel (o := o)
  have hlt : x < m.nodes.length := by rw [← show (m.finish .barrier o inp).nodes.length = m.nodes.length from hsk.len]; exact hx.1
  have hbt : (b.node x).theta = (m.node x).theta := by
    by_cases h : x ∈ P k
    · rw [(hT.term x h hlt).2.2.1, fin0_node]
    · rw [hT.other x h, fin0_node]
  rcases hS.att x with h | ⟨_, hf, h⟩ | ⟨i, _, hi, hdel, e, he, hs, h⟩
  · left; rw [h, hbt]; exact hd.own_limit hwf ho hroot hrel hx
  · left
    have hb := hd.flag_lay hwf ho hroot hrel hx hf
    obtain ⟨j, hj, hl⟩ := hd.live_lay hwf ho hroot hrel hx hb
    have hcn := (hd.cut_flag hwf ho hroot hrel hj hl).1 hf
    have hbot := hd.below hwf ho hroot hrel hj hl (hd.cut_lo hwf ho hroot hrel hj hl hcn)
    rw [h]
    unfold cutBound
    split
    · rename_i hh; exact .below hx hb hcn hbot hh
    · rename_i hh; exact .cut hx hb hcn hbot (by omega)
  · right
    refine ⟨i, e, ⟨by rw [hS.skel.len]; exact hi, by rw [(hS.skel.node i).deleted]; exact hdel⟩, by rw [hS.skel.inIds]; exact he,
      by rw [hS.skel.edge]; exact hs, by rw [hS.skel.edge]; exact h⟩

/-- An edge of the diagram leads from one layer to the next and costs at most `B`. -/
theorem Done.edge_step (hwf : WellFormed p S B) (ho : o.Valid) (hroot : RootOK p S B inp.residual) (hd : Done .barrier p r S B inp rd m k jx P L c)
    {i e : Nat} (hi : i < (m.finish .barrier o inp).nodes.length) (he : e ∈ (m.finish .barrier o inp).inIds i) :
    ∃ j, j < k ∧ InLay P L k k (j+1) i ∧ ((m.finish .barrier o inp).edge e).src ∈ L j ∧ ((m.finish .barrier o inp).edge e).src < i ∧
      -B ≤ ((m.finish .barrier o inp).edge e).cost ∧ ((m.finish .barrier o inp).edge e).cost ≤ B := by
  have hc := hd.head.core
  have hsk := hd.skelAny hwf ho hroot (o := o)
  obtain ⟨j, hj, _⟩ := hd.node_layer hwf ho hroot hi
  rw [(hsk.inIds i).trans (fin0_inIds o inp m i)] at he
  rw [(hsk.edge e).trans (fin0_edge o inp m e)]
  cases j with
  | zero =>
    have := hc.root1 i hj
    subst this
    rw [hc.inIds_zero] at he; cases he
  | succ j =>
    have h1 := (hc.src_layer hj he (Nat.le_refl _) (by omega)).1
    have h2 := hc.edge_bound hwf (Nat.le_refl _) (by omega) hj he
    exact ⟨j, by rcases hj with hj | hj <;> omega, hj, h1, hc.incr j i hj _ h1, h2⟩

theorem Done.theta_low (hwf : WellFormed p S B) (ho : o.Valid) (hroot : RootOK p S B inp.residual) (hd : Done .barrier p r S B inp rd m k jx P L c)
    (hrel : inp.compType = .relaxed) (hest : ∀ s, S.ok s → InISize (p.estimate s)) : ∀ (n : Nat) (x j : Nat),
    (m.finish .barrier o inp).nodes.length - x ≤ n → Live (m.finish .barrier o inp) x → InLay P L k k j x →
    -(((2 * p.nbVars + 3 - (inp.residual.path.length + j) : Nat) : Int) * B) ≤ ((m.finish .barrier o inp).node x).theta := by
  have hkl := hd.head.core.k_le hroot
  have hB := hwf.B_nonneg
  intro n
  induction n with
  | zero => intro x j hn hx; have := hx.1; omega
  | succ n ih =>
    intro x j hn hx hj
    have hjk : j ≤ k := by rcases hj with h | h <;> omega
    rcases hd.theta_step hwf ho hroot hrel hx with h | ⟨i, e, hi, he, hs, h⟩
    · have h1 := hd.limit_low hwf ho hroot hrel hest hj h
      have h2 : ((inp.residual.path.length + j + 1 : Nat) : Int) * B ≤ ((2 * p.nbVars + 3 - (inp.residual.path.length + j) : Nat) : Int) * B :=
        Int.mul_le_mul_of_nonneg_right (by omega) hB
      omega
    · obtain ⟨j', hj', hi', hsL, hlt, hc1, hc2⟩ := hd.edge_step hwf ho hroot hi.1 he
      rw [hs] at hsL hlt
      have := hd.head.core.layer_unique hj (Or.inr ⟨hj', hsL⟩)
      subst this
      have h1 := ih i (j+1) (by have := hi.1; omega) hi hi'
      have e1 : ((2 * p.nbVars + 3 - (inp.residual.path.length + j) : Nat) : Int) * B =
          ((2 * p.nbVars + 3 - (inp.residual.path.length + (j+1)) : Nat) : Int) * B + B := by
        rw [show (2 * p.nbVars + 3 - (inp.residual.path.length + j) : Nat) = (2 * p.nbVars + 3 - (inp.residual.path.length + (j+1))) + 1 by omega]
        rw [Int.natCast_add, Int.add_mul]; simp
      have h3 := (fits hwf (n := 2 * p.nbVars + 3 - (inp.residual.path.length + j)) (by omega) (Int.le_refl _)
        (by have : 0 ≤ ((2 * p.nbVars + 3 - (inp.residual.path.length + j) : Nat) : Int) * B := Int.mul_nonneg (by omega) hB
            omega)).1
      have h0 : 0 ≤ ((2 * p.nbVars + 3 - (inp.residual.path.length + j) : Nat) : Int) * B := Int.mul_nonneg (by omega) hB
      rw [h]
      simp only [satSub, clamp, InISize] at h3 ⊢
      have : (0 : Int) ≤ isizeMax := by decide
      omega

/-- The value from which a threshold is derived does not underflow. -/
theorem Done.theta_sub (hwf : WellFormed p S B) (ho : o.Valid) (hroot : RootOK p S B inp.residual) (hd : Done .barrier p r S B inp rd m k jx P L c)
    (hrel : inp.compType = .relaxed) (hest : ∀ s, S.ok s → InISize (p.estimate s)) {i e : Nat} (hi : Live (m.finish .barrier o inp) i)
    (he : e ∈ (m.finish .barrier o inp).inIds i) :
    isizeMin ≤ ((m.finish .barrier o inp).node i).theta - ((m.finish .barrier o inp).edge e).cost := by
  have hkl := hd.head.core.k_le hroot
  have hB := hwf.B_nonneg
  obtain ⟨j, hj, hi', _, _, _, hc2⟩ := hd.edge_step hwf ho hroot hi.1 he
  have h1 := hd.theta_low hwf ho hroot hrel hest _ i (j+1) (Nat.le_refl _) hi hi'
  have h0 : 0 ≤ ((2 * p.nbVars + 3 - (inp.residual.path.length + j) : Nat) : Int) * B := Int.mul_nonneg (by omega) hB
  have h3 := (fits hwf (x := -(((2 * p.nbVars + 3 - (inp.residual.path.length + j) : Nat) : Int) * B)) (n := 2 * p.nbVars + 3 - (inp.residual.path.length + j)) (by omega)
    (Int.le_refl _) (by omega)).1
  have e1 : ((2 * p.nbVars + 3 - (inp.residual.path.length + j) : Nat) : Int) * B =
      ((2 * p.nbVars + 3 - (inp.residual.path.length + (j+1)) : Nat) : Int) * B + B := by
    rw [show (2 * p.nbVars + 3 - (inp.residual.path.length + j) : Nat) = (2 * p.nbVars + 3 - (inp.residual.path.length + (j+1))) + 1 by omega]
    rw [Int.natCast_add, Int.add_mul]; simp
  simp only [InISize] at h3
  omega

theorem Done.threshold_le (hwf : WellFormed p S B) (ho : o.Valid) (hroot : RootOK p S B inp.residual) (hd : Done .barrier p r S B inp rd m k jx P L c)
    (hrel : inp.compType = .relaxed) (hest : ∀ s, S.ok s → InISize (p.estimate s)) (hrd : ∀ d s t, rd.theta d s = some t → InISize t) {i x : Nat} {w l : Int}
    (hw : Walk (m.finish .barrier o inp) i x w) (hl : Limit p S.lvl rd inp.bestLb (m.finish .barrier o inp) x l) :
    Live (m.finish .barrier o inp) i ∧ ((m.finish .barrier o inp).node i).theta + w ≤ l := by
  obtain ⟨b, hT, _, hS⟩ := hd.sweep ho hrel (o := o)
  induction hw with
  | nil x =>
    have hx : Live (m.finish .barrier o inp) x := by cases hl <;> assumption
    exact ⟨hx, by have := hd.own_le hwf ho hroot hrel hrd hx hl; omega⟩
  | @cons q t e w he hw ih =>
    obtain ⟨h1, h2⟩ := ih hl
    obtain ⟨j, hj, hi', hsL, _⟩ := hd.edge_step hwf ho hroot h1.1 he
    refine ⟨hd.lay_live hwf ho hroot (j := j) (by omega) (by rw [Lay_lt hj]; exact hsL), ?_⟩
    have h3 := (hS.edge q (Nat.zero_le _) (by rw [← hS.skel.len]; exact h1.1) (by rw [← (hS.skel.node q).deleted]; exact h1.2) e
      (by rw [← hS.skel.inIds]; exact he)).2
    rw [← hS.skel.edge] at h3
    have h4 := hd.theta_sub hwf ho hroot hrel hest h1 he
    simp only [satSub, clamp] at h3
    have : isizeMin ≤ isizeMax := by decide
    omega

theorem Done.threshold_att (hwf : WellFormed p S B) (ho : o.Valid) (hroot : RootOK p S B inp.residual) (hd : Done .barrier p r S B inp rd m k jx P L c)
    (hrel : inp.compType = .relaxed) (hest : ∀ s, S.ok s → InISize (p.estimate s)) : ∀ (n i : Nat), (m.finish .barrier o inp).nodes.length - i ≤ n →
    Live (m.finish .barrier o inp) i → ∃ x w l, Walk (m.finish .barrier o inp) i x w ∧ Limit p S.lvl rd inp.bestLb (m.finish .barrier o inp) x l ∧
      ((m.finish .barrier o inp).node i).theta + w = l := by
  intro n
  induction n with
  | zero => intro i hn hi; have := hi.1; omega
  | succ n ih =>
    intro i hn hi
    rcases hd.theta_step hwf ho hroot hrel hi with h | ⟨q, e, hq, he, hs, h⟩
    · exact ⟨i, 0, _, .nil i, h, by omega⟩
    · obtain ⟨j, hj, _, _, hlt, _⟩ := hd.edge_step hwf ho hroot hq.1 he
      rw [hs] at hlt
      have h4 := hd.theta_sub hwf ho hroot hrel hest hq he
      by_cases hmx : ((m.finish .barrier o inp).node q).theta - ((m.finish .barrier o inp).edge e).cost ≤ isizeMax
      · obtain ⟨x, w, l, h1, h2, h3⟩ := ih q (by have := hq.1; omega) hq
        have h5 := Walk.cons he h1
        rw [hs] at h5
        refine ⟨x, _, l, h5, h2, ?_⟩
        rw [h]
        simp only [satSub, clamp]
        omega
      · refine ⟨i, 0, _, .nil i, .any hi, ?_⟩
        rw [h]
        have : isizeMin ≤ isizeMax := by decide
        simp only [satSub, clamp]
        omega

theorem Done.threshold (hwf : WellFormed p S B) (ho : o.Valid) (hroot : RootOK p S B inp.residual) (hd : Done .barrier p r S B inp rd m k jx P L c)
    (hrel : inp.compType = .relaxed) (hest : ∀ s, S.ok s → InISize (p.estimate s)) (hrd : ∀ d s t, rd.theta d s = some t → InISize t) {i : Nat}
    (hi : Live (m.finish .barrier o inp) i) :
    Threshold p S.lvl rd inp.bestLb (m.finish .barrier o inp) i ((m.finish .barrier o inp).node i).theta :=
  ⟨fun _ _ _ hw hl => (hd.threshold_le hwf ho hroot hrel hest hrd hw hl).2, hd.threshold_att hwf ho hroot hrel hest _ i (Nat.le_refl _) hi⟩

/-- Which nodes are stored. -/
theorem Done.stored (hwf : WellFormed p S B) (ho : o.Valid) (hroot : RootOK p S B inp.residual) (hd : Done .barrier p r S B inp rd m k jx P L c)
    (hrel : inp.compType = .relaxed) {j i : Nat} (hj : InLay P L k k j i) :
    Stored m (m.node i).depth ↔ ((m.finish .barrier o inp).cutsetType = .lastExactLayer → ∀ d, LastExact S.lvl (m.finish .barrier o inp) d →
      S.lvl ((m.finish .barrier o inp).node i).state ≤ d) := by
  have hc := hd.head.core
  have hsk := hd.skelAny hwf ho hroot (o := o)
  have hst := hc.st j i hj
  rw [(hsk.node i).state, fin0_node, show (m.finish .barrier o inp).cutsetType = m.cutsetType from hsk.cutsetType, hst.2.1]
  unfold Stored
  rw [hst.2.2]
  have hmt : m.cutsetType = c := hc.misc.2.2.2
  rw [hmt]
  by_cases hcc : c = .lastExactLayer
  · cases happ : m.approximate with
    | false =>
      rw [(hc.cut0 (fun h => by rw [happ] at h; exact absurd h.2.2 (by simp))).2]
      simp only [Option.any_none, Bool.false_eq_true, and_false, not_false_eq_true, true_iff]
      intro _ d h
      obtain ⟨i', _, hi⟩ := h.last
      have := (hd.all_exact hwf ho hroot hrel happ hi.1).2
      rw [hi.2] at this; cases this
    | true =>
      have h1 := (hc.cut1 hcc hrel happ).2
      have hjx := (hc.jxr hrel).2 happ
      have hle := hd.last_exact hwf ho hroot hrel happ (o := o)
      cases hl : m.lelDepth with
      | none => rw [hl] at h1; cases h1
      | some l =>
        rw [hl] at h1
        simp only [Option.map_some, Option.some.injEq] at h1
        simp only [hcc, true_and, Option.any_some, decide_eq_true_eq, forall_const]
        constructor
        · intro h d hd'
          have := lastExact_unique hd' hle
          omega
        · intro h
          have := h _ hle
          omega
  · simp [hcc]

theorem limit_ge_value {a b lb : Int} (ha : InISize a) (hlb : lb < isizeMax) (h : satAdd a b ≤ lb) : a ≤ satSub lb b := by
  simp only [satAdd, satSub, clamp, InISize, isizeMin, isizeMax] at *
  omega

theorem Done.limit_value (hwf : WellFormed p S B) (ho : o.Valid) (hroot : RootOK p S B inp.residual) (hd : Done .barrier p r S B inp rd m k jx P L c)
    (hrel : inp.compType = .relaxed) (hlb : inp.bestLb < isizeMax) {x j : Nat} (hj : InLay P L k k j x) {l : Int}
    (hl : Limit p S.lvl rd inp.bestLb (m.finish .barrier o inp) x l) : (m.node x).value ≤ l := by
  have hc := hd.head.core
  have hsk := hd.skelAny hwf ho hroot (o := o)
  have hst : ((m.finish .barrier o inp).node x).state = (m.node x).state := by rw [(hsk.node x).state, fin0_node]
  have hva : ((m.finish .barrier o inp).node x).value = (m.node x).value := by rw [(hsk.node x).value, fin0_node]
  have hvb := hc.value_bound hwf hroot (Nat.le_refl _) (by omega) j x hj
  have hkl := hc.k_le hroot
  have hjk : j ≤ k := by rcases hj with h | h <;> omega
  have hvin : InISize (m.node x).value := (fits hwf (n := inp.residual.path.length + j + 1) (by omega) hvb.1 hvb.2).1
  cases hl with
  | any => exact hvin.2
  | barred hlv hb =>
    rcases hd.live hwf ho hroot hrel hlv with h | ⟨j', hj', h⟩ | ⟨j', hj', h, hp⟩
    · exact absurd hb (hd.not_barred hwf ho hroot (Nat.le_refl k) (by rw [Lay_k]; exact h))
    · exact absurd hb (hd.not_barred hwf ho hroot (j := j') (by omega) (by rw [Lay_lt hj']; exact h))
    · rw [hst, (hc.st j' x (Or.inl ⟨by omega, h⟩)).2.1]; exact hp.le
  | hopeless _ _ _ hle =>
    rw [hva] at hle
    refine limit_ge_value hvin hlb ?_
    rw [satAdd, Int.add_comm]; exact hle
  | below _ _ _ hbot hlt' =>
    rw [hva] at hlt'
    exact limit_ge_value hvin hlb (Int.le_of_lt hlt')
  | cut => rw [hva]; exact Int.le_refl _

end
end Verif.Dd
