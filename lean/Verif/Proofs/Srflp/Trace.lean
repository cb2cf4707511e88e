import Verif.Proofs.Srflp.Loops
/-! A completion, step by step: which departments each step is charged for. -/
set_option autoImplicit false

namespace Verif.Srflp
open Verif Spec
variable {I : Inst} {F L : Nat}

/-- A department is placed.  The flow to the departments of `after1` (those that must be placed) and `after2` (some of the others) passes over it. -/
structure Step where
  dep : Nat
  must : Bool
  after1 : List Nat
  after2 : List Nat

def Step.after (t : Step) : List Nat := t.after1 ++ t.after2

/-- How many of those that need not be placed are placed -/
def nMaybe (ss : List Step) : Nat := (ss.filter fun t => !t.must).length

/-- The departments of `M` are placed, and some of those of `K`. -/
inductive Trace : List Nat → List Nat → List Step → Prop
  | nil (K : List Nat) : Trace [] K []
  | must {M M' K : List Nat} {d : Nat} {A1 A2 : List Nat} {ss : List Step} (hM : M.Perm (d :: M')) (h1 : A1.Perm M') (h2 : A2.Subperm K) (h3 : A2.length = nMaybe ss)
      (h : Trace M' K ss) : Trace M K (⟨d, true, A1, A2⟩ :: ss)
  | maybe {M K K' : List Nat} {d : Nat} {A1 A2 : List Nat} {ss : List Step} (hK : K.Perm (d :: K')) (h1 : A1.Perm M) (h2 : A2.Subperm K') (h3 : A2.length = nMaybe ss)
      (h : Trace M K' ss) : Trace M K (⟨d, false, A1, A2⟩ :: ss)

/-- What it costs, if `c` is the flow into the departments at first -/
def walkCost (I : Inst) (c : Nat → Int) : List Step → Int
  | [] => 0
  | t :: ss => (t.after.map c).sum * I.len t.dep + walkCost I (fun i => c i + I.flow t.dep i) ss

theorem walkCost_congr {M K : List Nat} {ss : List Step} (h : Trace M K ss) : ∀ {c c' : Nat → Int}, (∀ i, i ∈ M ∨ i ∈ K → c i = c' i) → walkCost I c ss = walkCost I c' ss := by
  induction h with
  | nil K => intro _ _ _; rfl
  | @must M M' K d A1 A2 ss hM h1 h2 h3 h ih =>
    intro c c' hc
    have hM' : ∀ i ∈ M', i ∈ M := fun i hi => hM.mem_iff.2 (by simp [hi])
    simp only [walkCost, Step.after]
    rw [ih (c' := fun i => c' i + I.flow d i)]
    · congr 2
      congr 1
      refine List.map_congr_left fun i hi => hc i ?_
      rcases List.mem_append.1 hi with hi | hi
      · exact Or.inl (hM' i (h1.mem_iff.1 hi))
      · exact Or.inr (h2.subset hi)
    · intro i hi
      rw [hc i (hi.imp (hM' i) id)]
  | @maybe M K K' d A1 A2 ss hK h1 h2 h3 h ih =>
    intro c c' hc
    have hK' : ∀ i ∈ K', i ∈ K := fun i hi => hK.mem_iff.2 (by simp [hi])
    simp only [walkCost, Step.after]
    rw [ih (c' := fun i => c' i + I.flow d i)]
    · congr 2
      congr 1
      refine List.map_congr_left fun i hi => hc i ?_
      rcases List.mem_append.1 hi with hi | hi
      · exact Or.inl (h1.mem_iff.1 hi)
      · exact Or.inr (hK' i (h2.subset hi))
    · intro i hi
      rw [hc i (hi.imp id (hK' i))]

theorem Trace.length {M K : List Nat} {ss : List Step} (h : Trace M K ss) : ss.length = M.length + nMaybe ss := by
  induction h with
  | nil K => rfl
  | must hM h1 h2 h3 h ih =>
    rw [hM.length_eq]
    unfold nMaybe at *
    simp only [List.length_cons, List.filter_cons_of_neg, Bool.not_true, Bool.false_eq_true, not_false_eq_true]
    omega
  | maybe hK h1 h2 h3 h ih =>
    unfold nMaybe at *
    simp only [List.length_cons, List.filter_cons_of_pos, Bool.not_false]
    omega

/-- Every completion is of this kind. -/
theorem trace_of_run (hB : Bounded I F L) {s e : State} {ds : List Decision} {v : Int} (hr : Run (problem I) s ds v e) (he : (problem I).nextVar [e] = none) :
    Ok I F s → ∃ ss, Trace (Bits.iter I.n s.must) (Bits.iter I.n (mb s)) ss ∧ v = -walkCost I s.at ss ∧ ss.length + s.depth = I.n := by
  induction hr with
  | nil s =>
    intro h
    have h1 := nextVar_none he
    have h2 := h.few
    have : Bits.iter I.n s.must = [] := List.length_eq_zero_iff.1 (by unfold Bits.count at h2; omega)
    rw [this]
    exact ⟨[], Trace.nil _, rfl, by simpa using h1⟩
  | @cons s e x d ds v hx hd hr ih =>
    intro h
    obtain ⟨rfl, hn⟩ := nextVar_some hx
    obtain ⟨ss, h1, h2, h3⟩ := ih he (h.trans hB hd)
    obtain ⟨T, hT, hlen, hcost⟩ := cost_choice h hd
    obtain ⟨i, rfl, hi, hcase⟩ := mem_dom.1 hd
    have ht : ((⟨s.depth, (i : Int)⟩ : Decision).value.toNat) = i := rfl
    simp only [ht] at hT hlen hcost
    change Trace (Bits.iter I.n (Srflp.trans I s ⟨s.depth, (i : Int)⟩).must) (Bits.iter I.n (mb (Srflp.trans I s ⟨s.depth, (i : Int)⟩))) ss at h1
    change v = -walkCost I (Srflp.trans I s ⟨s.depth, (i : Int)⟩).at ss at h2
    change ss.length + (s.depth + 1) = I.n at h3
    rw [trans_must, trans_mb, ht] at h1
    have hwalk : walkCost I (Srflp.trans I s ⟨s.depth, (i : Int)⟩).at ss = walkCost I (fun j => s.at j + I.flow i j) ss := by
      refine walkCost_congr h1 fun j hj => ?_
      have hfree : Free s j ∧ j ≠ i := by
        rcases hj with hj | hj
        · have := (Bits.mem_iter.1 hj).2
          rw [Bits.testBit_clear, Bool.and_eq_true, decide_eq_true_eq] at this
          exact ⟨Or.inl this.1, fun e => this.2 e.symm⟩
        · have := (Bits.mem_iter.1 hj).2
          rw [Bits.testBit_clear, Bool.and_eq_true, decide_eq_true_eq] at this
          exact ⟨Or.inr this.1, fun e => this.2 e.symm⟩
      exact trans_at h hfree.1 hfree.2
    have hTlen : T.length = nMaybe ss := by
      have := h1.length
      rw [musts_eq] at hlen
      omega
    have hval : ∀ b, (problem I).cost s ⟨s.depth, (i : Int)⟩ + v = -walkCost I s.at (⟨i, b, musts I s i, T⟩ :: ss) := by
      intro b
      show Srflp.cost I s ⟨s.depth, (i : Int)⟩ + v = _
      rw [hcost, h2, hwalk]
      simp only [walkCost, Step.after]
      ring
    rcases hcase with hm | ⟨hm, _⟩
    · refine ⟨⟨i, true, musts I s i, T⟩ :: ss, ?_, hval true, by simp only [List.length_cons]; omega⟩
      rw [count_clear_of_not (h.disj i hm)] at h1 hT
      exact Trace.must (Bits.perm_clear hi hm) (by rw [musts_eq]) hT hTlen h1
    · refine ⟨⟨i, false, musts I s i, T⟩ :: ss, ?_, hval false, by simp only [List.length_cons]; omega⟩
      rw [count_clear_of_not (not_must h hm)] at h1
      exact Trace.maybe (Bits.perm_clear hi hm) (by rw [musts_eq, count_clear_of_not (not_must h hm)]) hT hTlen h1

/-! ### What a step is charged for -/

theorem Trace.musts {M K : List Nat} {ss : List Step} (h : Trace M K ss) : ((ss.filter fun t => t.must).map Step.dep).Perm M := by
  induction h with
  | nil K => exact List.Perm.refl _
  | must hM h1 h2 h3 h ih => exact (ih.cons _).trans hM.symm
  | maybe hK h1 h2 h3 h ih => exact ih

theorem Trace.maybes {M K : List Nat} {ss : List Step} (h : Trace M K ss) : ((ss.filter fun t => !t.must).map Step.dep).Subperm K := by
  induction h with
  | nil K => exact List.nil_subperm
  | must hM h1 h2 h3 h ih => exact ih
  | @maybe M K K' d A1 A2 ss hK h1 h2 h3 h ih =>
    refine List.Subperm.trans ?_ hK.symm.subperm
    have := subperm_append (List.Subperm.refl [d]) ih
    simpa using this

/-- Where steps and the departments they are charged for come from -/
theorem Trace.mem {M K : List Nat} {ss : List Step} (h : Trace M K ss) : ∀ t ∈ ss, (if t.must then t.dep ∈ M else t.dep ∈ K) ∧ (∀ i ∈ t.after1, i ∈ M) ∧ (∀ i ∈ t.after2, i ∈ K) := by
  induction h with
  | nil K => intro t ht; cases ht
  | @must M M' K d A1 A2 ss hM h1 h2 h3 h ih =>
    have hM' : ∀ i ∈ M', i ∈ M := fun i hi => hM.mem_iff.2 (by simp [hi])
    intro t ht
    rcases List.mem_cons.1 ht with rfl | ht
    · exact ⟨hM.mem_iff.2 (by simp), fun i hi => hM' i (h1.mem_iff.1 hi), fun i hi => h2.subset hi⟩
    · obtain ⟨g1, g2, g3⟩ := ih t ht
      refine ⟨?_, fun i hi => hM' i (g2 i hi), g3⟩
      split
      · rename_i hb; rw [if_pos hb] at g1; exact hM' _ g1
      · rename_i hb; rw [if_neg hb] at g1; exact g1
  | @maybe M K K' d A1 A2 ss hK h1 h2 h3 h ih =>
    have hK' : ∀ i ∈ K', i ∈ K := fun i hi => hK.mem_iff.2 (by simp [hi])
    intro t ht
    rcases List.mem_cons.1 ht with rfl | ht
    · exact ⟨hK.mem_iff.2 (by simp), fun i hi => h1.mem_iff.1 hi, fun i hi => hK' i (h2.subset hi)⟩
    · obtain ⟨g1, g2, g3⟩ := ih t ht
      refine ⟨?_, g2, fun i hi => hK' i (g3 i hi)⟩
      split
      · rename_i hb; rw [if_pos hb] at g1; exact g1
      · rename_i hb; rw [if_neg hb] at g1; exact hK' _ g1

/-- A step, and a later one -/
structure Earlier (a b : Step) : Prop where
  ne : a.dep ≠ b.dep
  not_mem : a.dep ∉ b.after
  le1 : b.after1.length ≤ a.after1.length
  le2 : b.after2.length ≤ a.after2.length

theorem Trace.pairwise {M K : List Nat} {ss : List Step} (h : Trace M K ss) : (M ++ K).Nodup →
    ss.Pairwise Earlier ∧ ∀ t ∈ ss, t.after.Nodup ∧ t.dep ∉ t.after ∧ t.after1.length ≤ M.length ∧ t.after2.length ≤ nMaybe ss := by
  induction h with
  | nil K => intro _; exact ⟨List.Pairwise.nil, fun t ht => by cases ht⟩
  | @must M M' K d A1 A2 ss hM h1 h2 h3 h ih =>
    intro hn
    have hn1 : (d :: (M' ++ K)).Nodup := (hM.append_right K).nodup_iff.1 hn
    rw [List.nodup_cons] at hn1
    obtain ⟨g1, g2⟩ := ih hn1.2
    have hcount : nMaybe (⟨d, true, A1, A2⟩ :: ss) = nMaybe ss := rfl
    have hd : ∀ i, i ∈ M' ∨ i ∈ K → d ≠ i := by
      rintro i hi rfl; exact hn1.1 (List.mem_append.2 hi)
    refine ⟨List.pairwise_cons.2 ⟨?_, g1⟩, ?_⟩
    · intro t ht
      obtain ⟨k1, k2, k3⟩ := h.mem t ht
      obtain ⟨l1, l2, l3, l4⟩ := g2 t ht
      refine ⟨hd _ ?_, ?_, ?_, ?_⟩
      · split at k1
        · exact Or.inl k1
        · exact Or.inr k1
      · intro hi
        rcases List.mem_append.1 hi with hi | hi
        · exact hd d (Or.inl (k2 d hi)) rfl
        · exact hd d (Or.inr (k3 d hi)) rfl
      · simp only; rw [h1.length_eq]; exact l3
      · simp only; rw [h3]; exact l4
    · intro t ht
      rw [hcount]
      rcases List.mem_cons.1 ht with rfl | ht
      · have hsub : (A1 ++ A2).Subperm (M' ++ K) := subperm_append h1.subperm h2
        refine ⟨?_, ?_, ?_, by simp only; omega⟩
        · obtain ⟨k, p1, p2⟩ := hsub
          exact p1.nodup_iff.1 (hn1.2.sublist p2)
        · intro hi; exact hn1.1 (hsub.subset hi)
        · simp only; rw [h1.length_eq, hM.length_eq]; simp
      · obtain ⟨l1, l2, l3, l4⟩ := g2 t ht
        refine ⟨l1, l2, ?_, l4⟩
        rw [hM.length_eq, List.length_cons]; omega
  | @maybe M K K' d A1 A2 ss hK h1 h2 h3 h ih =>
    intro hn
    have hn1 : (d :: (M ++ K')).Nodup := ((hK.append_left M).trans List.perm_middle).nodup_iff.1 hn
    rw [List.nodup_cons] at hn1
    obtain ⟨g1, g2⟩ := ih hn1.2
    have hcount : nMaybe (⟨d, false, A1, A2⟩ :: ss) = nMaybe ss + 1 := rfl
    have hd : ∀ i, i ∈ M ∨ i ∈ K' → d ≠ i := by
      rintro i hi rfl; exact hn1.1 (List.mem_append.2 hi)
    refine ⟨List.pairwise_cons.2 ⟨?_, g1⟩, ?_⟩
    · intro t ht
      obtain ⟨k1, k2, k3⟩ := h.mem t ht
      obtain ⟨l1, l2, l3, l4⟩ := g2 t ht
      refine ⟨hd _ ?_, ?_, ?_, ?_⟩
      · split at k1
        · exact Or.inl k1
        · exact Or.inr k1
      · intro hi
        rcases List.mem_append.1 hi with hi | hi
        · exact hd d (Or.inl (k2 d hi)) rfl
        · exact hd d (Or.inr (k3 d hi)) rfl
      · simp only; rw [h1.length_eq]; exact l3
      · simp only; rw [h3]; exact l4
    · intro t ht
      rw [hcount]
      rcases List.mem_cons.1 ht with rfl | ht
      · have hsub : (A1 ++ A2).Subperm (M ++ K') := subperm_append h1.subperm h2
        refine ⟨?_, ?_, ?_, by simp only; omega⟩
        · obtain ⟨k, p1, p2⟩ := hsub
          exact p1.nodup_iff.1 (hn1.2.sublist p2)
        · intro hi; exact hn1.1 (hsub.subset hi)
        · simp only; rw [h1.length_eq]
      · obtain ⟨l1, l2, l3, l4⟩ := g2 t ht
        exact ⟨l1, l2, l3, by omega⟩

/-- A later step is charged for fewer departments; all later steps of a choice are. -/
theorem Trace.after_length {M K : List Nat} {ss : List Step} (h : Trace M K ss) : ∀ R : List Step, R.Sublist ss → tri R.length ≤ (R.map fun t => t.after.length).sum := by
  induction h with
  | nil K => intro R hR; rw [List.eq_nil_of_sublist_nil hR]; simp
  | @must M M' K d A1 A2 ss hM h1 h2 h3 h ih =>
    intro R hR
    rcases List.sublist_cons_iff.1 hR with hR | ⟨R', rfl, hR⟩
    · exact ih R hR
    · have hR := List.cons_sublist_cons.1 hR
      have := ih R' hR
      have hl := h.length
      have := hR.length_le
      rw [List.length_cons, tri_succ, List.map_cons, List.sum_cons]
      simp only [Step.after, List.length_append]
      rw [h1.length_eq]
      simp only [Step.after, List.length_append] at *
      omega
  | @maybe M K K' d A1 A2 ss hK h1 h2 h3 h ih =>
    intro R hR
    rcases List.sublist_cons_iff.1 hR with hR | ⟨R', rfl, hR⟩
    · exact ih R hR
    · have hR := List.cons_sublist_cons.1 hR
      have := ih R' hR
      have hl := h.length
      have := hR.length_le
      rw [List.length_cons, tri_succ, List.map_cons, List.sum_cons]
      simp only [Step.after, List.length_append]
      rw [h1.length_eq]
      simp only [Step.after, List.length_append] at *
      omega

/-- How many mixed pairs there are, and pairs of departments that need not be placed -/
theorem Trace.budgets {M K : List Nat} {ss : List Step} (h : Trace M K ss) :
    (ss.map fun t => if t.must then t.after2.length else t.after1.length).sum = M.length * nMaybe ss ∧
    (ss.map fun t => if t.must then 0 else t.after2.length).sum = tri (nMaybe ss) := by
  induction h with
  | nil K => exact ⟨rfl, rfl⟩
  | @must M M' K d A1 A2 ss hM h1 h2 h3 h ih =>
    have hcount : nMaybe (⟨d, true, A1, A2⟩ :: ss) = nMaybe ss := rfl
    rw [hcount, List.map_cons, List.sum_cons, List.map_cons, List.sum_cons, ih.1, ih.2, hM.length_eq, List.length_cons]
    simp only [if_true, h3]
    constructor
    · ring
    · omega
  | @maybe M K K' d A1 A2 ss hK h1 h2 h3 h ih =>
    have hcount : nMaybe (⟨d, false, A1, A2⟩ :: ss) = nMaybe ss + 1 := rfl
    rw [hcount, List.map_cons, List.sum_cons, List.map_cons, List.sum_cons, ih.1, ih.2, tri_succ]
    simp only [Bool.false_eq_true, if_false, h3, h1.length_eq]
    constructor
    · ring
    · omega

end Verif.Srflp
