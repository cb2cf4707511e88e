import Verif.Spec.NodeFlags
/-! C01: node flags are independent switches. -/
set_option autoImplicit false

namespace Verif.Props
open Verif Spec

private theorem test_one (b : BitVec 8) (i : Nat) (hi : i < 8) :
    (b &&& BitVec.twoPow 8 i == BitVec.twoPow 8 i) = b.getLsbD i := by
  rw [Bool.eq_iff_iff, beq_iff_eq]
  constructor
  · intro h
    have := congrArg (fun x => x.getLsbD i) h
    simpa [BitVec.getLsbD_and, BitVec.getLsbD_twoPow, hi] using this
  · intro h
    apply BitVec.eq_of_getLsbD_eq
    intro j hj
    simp only [BitVec.getLsbD_and, BitVec.getLsbD_twoPow]
    by_cases hij : i = j
    · subst hij; simp [h]
    · simp [hij]

/-- The bit number of each switch. -/
private def idx : Switch → Nat
  | .exact => 0 | .relaxed => 1 | .marked => 2 | .cutset => 3 | .deleted => 4 | .barrier => 5

private theorem observe_eq (f : NodeFlags) (s : Switch) : observe f s = f.bits.getLsbD (idx s) := by
  cases s <;> simp only [observe, idx, NodeFlags.isRelaxed, NodeFlags.isMarked, NodeFlags.isCutset,
    NodeFlags.isDeleted, NodeFlags.isPrunedByBarrier, NodeFlags.test]
  · exact test_one f.bits 0 (by decide)
  · exact test_one f.bits 1 (by decide)
  · exact test_one f.bits 2 (by decide)
  · exact test_one f.bits 3 (by decide)
  · exact test_one f.bits 4 (by decide)
  · exact test_one f.bits 5 (by decide)

private theorem apply_bits (f : NodeFlags) (op : SetOp) :
    (apply f op).bits = if op.value then f.bits ||| BitVec.twoPow 8 (idx op.which)
      else f.bits &&& ~~~ BitVec.twoPow 8 (idx op.which) := by
  rcases op with ⟨s, b⟩
  cases s <;> cases b <;> rfl

private theorem idx_lt (s : Switch) : idx s < 8 := by cases s <;> decide
private theorem idx_inj {s t : Switch} (h : idx s = idx t) : s = t := by
  cases s <;> cases t <;> simp_all [idx]

/-- C01 (one step): after one setter call, the observable switches are the old ones with exactly
that switch changed. -/
theorem flags_set_observe (f : NodeFlags) (op : SetOp) :
    observe (apply f op) = (observe f).set op.which op.value := by
  funext t
  rw [observe_eq, apply_bits]
  simp only [Switches.set, observe_eq]
  have ht := idx_lt t
  have hs := idx_lt op.which
  by_cases h : t = op.which
  · subst h
    cases hb : op.value <;>
      simp [ht]
  · have h' : idx op.which ≠ idx t := fun e => h (idx_inj e).symm
    cases hb : op.value <;> simp [h, Ne.symm h', ht]

/-- C01: after any history of setter calls on any flag word, each switch shows the value of
the last call that set it, or its initial value if it was never set. -/
theorem flags_history (f : NodeFlags) (ops : List SetOp) (s : Switch) :
    observe (ops.foldl apply f) s =
      match (ops.filter (fun o => o.which = s)).getLast? with
      | some o => o.value
      | none => observe f s := by
  induction ops generalizing f with
  | nil => simp
  | cons o ops ih =>
    rw [List.foldl_cons, ih, flags_set_observe]
    by_cases h : o.which = s
    · subst h
      simp only [decide_true, List.filter_cons_of_pos, List.getLast?_cons]
      cases h2 : (ops.filter (fun o' => decide (o'.which = o.which))).getLast? <;>
        simp [Switches.set]
    · have h' : ¬ s = o.which := fun e => h e.symm
      simp only [h, decide_false, Bool.false_eq_true, not_false_eq_true, List.filter_cons_of_neg]
      cases h2 : (ops.filter (fun o' => decide (o'.which = s))).getLast? <;>
        simp [Switches.set, h']

/-- C01: a node counts as exact iff its exact switch is on and its relaxed switch is off. -/
theorem flags_isExact (f : NodeFlags) :
    f.isExact = true ↔ observe f .exact = true ∧ observe f .relaxed = false := by
  simp [NodeFlags.isExact, observe, NodeFlags.isRelaxed]

/-- C01: the two constructors: a fresh exact (relaxed) node has that single switch on. -/
theorem flags_new (b : Bool) (s : Switch) :
    observe (NodeFlags.new b) s = decide (s = if b then .relaxed else .exact) := by
  cases b <;> cases s <;> rfl

-- non-vacuity: a history on a concrete word
example : observe ([⟨.cutset, true⟩, ⟨.exact, false⟩, ⟨.cutset, false⟩, ⟨.marked, true⟩].foldl apply
    NodeFlags.newExact) .cutset = false := by decide
example : observe ([⟨.cutset, true⟩, ⟨.exact, false⟩, ⟨.cutset, false⟩, ⟨.marked, true⟩].foldl apply
    NodeFlags.newExact) .marked = true := by decide

end Verif.Props
