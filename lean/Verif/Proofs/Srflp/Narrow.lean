import Mathlib.Data.List.Sublists
import Mathlib.Data.Nat.Choose.Basic
import Verif.Proofs.Srflp.Exact
import Verif.Spec.Narrow
/-! The states of the dynamic program are sets of departments. -/
set_option autoImplicit false

namespace Verif.Srflp
open Verif Spec
variable {I : Inst}

/-- The order in which departments were placed is forgotten. -/
theorem Exact.unique {pre pre' : List Nat} {s s' : State} (h : Exact I pre s) (h' : Exact I pre' s') (hp : pre.Perm pre') : s = s' := by
  obtain ⟨m, mb, c, d⟩ := s
  obtain ⟨m', mb', c', d'⟩ := s'
  have e1 : m = m' := Nat.eq_of_testBit_eq fun i => by
    have a := h.must i
    have b := h'.must i
    simp only [hp.mem_iff] at a
    exact Bool.eq_iff_iff.2 (a.trans b.symm)
  have e2 : mb = mb' := h.mb.trans h'.mb.symm
  have e3 : d = d' := by have := h.depth; have := h'.depth; have := hp.length_eq; simp only at *; omega
  have e4 : c = c' := by
    refine List.ext_getElem (h.cut.trans h'.cut.symm) fun i hi hi' => ?_
    have hn : i < I.n := by have := h.cut; simp only at this; omega
    have a := h.at_eq i hn
    have b := h'.at_eq i hn
    have e : into I pre i = into I pre' i := by unfold into; exact perm_sum (hp.map fun r => I.flow r i)
    simp only [hp.mem_iff, e] at a
    have hc := a.trans b.symm
    simpa [State.at, List.getD_eq_getElem?_getD, hi, hi'] using hc
  rw [e1, e2, e3, e4]

/-- A run places departments one by one. -/
theorem exact_run {s t : State} {ds : List Decision} {v : Int} (hr : Run (problem I) s ds v t) :
    ∀ {pre : List Nat}, Exact I pre s → ∃ pre', Exact I pre' t ∧ pre'.length = pre.length + ds.length := by
  induction hr with
  | nil => intro pre h; exact ⟨pre, h, by simp⟩
  | cons hx hd _ ih =>
    intro pre h
    obtain ⟨i, rfl, hi⟩ := h.dom.1 hd
    obtain ⟨q, h1, h2⟩ := ih (h.step hi)
    exact ⟨q, h1, by simp at h2 ⊢; omega⟩

/-- The state after placing the departments of a list -/
def after (I : Inst) (l : List Nat) : State := l.foldl (fun s i => trans I s ⟨0, (i : Int)⟩) (initial I)

theorem exact_after (l : List Nat) (hn : l.Nodup) (hl : ∀ i ∈ l, i < I.n) : Exact I l (after I l) := by
  suffices h : ∀ (l pre : List Nat) (s : State), Exact I pre s → (pre ++ l).Nodup → (∀ i ∈ l, i < I.n) →
      Exact I (pre ++ l) (l.foldl (fun s i => trans I s ⟨0, (i : Int)⟩) s) from h l [] (initial I) exact_init (by simpa using hn) hl
  intro l
  induction l with
  | nil => intro pre s h _ _; simpa using h
  | cons a l ih =>
    intro pre s h h1 h2
    have ha : a ∉ pre := fun hm => (List.nodup_append.1 h1).2.2 a hm a (by simp) rfl
    have := ih (pre ++ [a]) _ (h.step (x := 0) (Bits.mem_iter.2 ⟨h2 a (by simp), (h.must a).2 ⟨h2 a (by simp), ha⟩⟩)) (by simpa using h1) fun i hi => h2 i (by simp [hi])
    simpa using this

/-- There are no more states than sets of departments. -/
theorem narrow : Narrow (problem I) (I.n.choose (I.n / 2)) := by
  intro k _
  refine ⟨((List.range I.n).sublistsLen k).map (after I), ?_, ?_⟩
  · rw [List.length_map, List.length_sublistsLen, List.length_range]
    exact Nat.choose_le_middle k I.n
  · intro ds v s hr hk
    obtain ⟨pre, h1, h2⟩ := exact_run hr (exact_init (I := I))
    refine List.mem_map.2 ⟨(List.range I.n).filter (fun i => decide (i ∈ pre)), ?_, ?_⟩
    all_goals
      have hp : ((List.range I.n).filter (fun i => decide (i ∈ pre))).Perm pre :=
        perm_of_mem (List.nodup_range.filter _) h1.nodup fun i => by
          simp only [List.mem_filter, List.mem_range, decide_eq_true_eq]
          exact ⟨fun h => h.2, fun h => ⟨h1.lt i h, h⟩⟩
    · rw [List.mem_sublistsLen]
      exact ⟨List.filter_sublist, by rw [hp.length_eq, h2]; simpa using hk⟩
    · exact (exact_after _ (hp.nodup_iff.2 h1.nodup) fun i hi => h1.lt i (hp.mem_iff.1 hi)).unique h1 hp

end Verif.Srflp
