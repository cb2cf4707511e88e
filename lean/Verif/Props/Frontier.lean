import Verif.Proofs.NoDupInv
import Verif.Spec.FrontierLaws
/-!
C33: both frontiers of the library satisfy the contract the solvers rely on.
-/
set_option autoImplicit false

namespace Verif.Props
open Verif Spec Proofs
variable {σ : Type} [DecidableEq σ] (rank : σ → σ → Ordering)

/-- The nodes held by a `NoDupFrontier`. -/
def noDupHolds (f : NoDup σ) : List (SubProblem σ) := f.heap.filterMap (f.nodes[·]?)

variable {rank}

omit [DecidableEq σ] in
theorem mem_noDupHolds {f : NoDup σ} (h : Inv rank f) {n : SubProblem σ} : n ∈ noDupHolds f ↔ held f n.state = some n := by
  unfold noDupHolds
  rw [List.mem_filterMap]
  constructor
  · rintro ⟨id, h1, h2⟩; exact h.held_of rank h2 h1
  · intro hh
    obtain ⟨_, id, _, h2, h3⟩ := h.held_mem rank hh
    exact ⟨id, h3, h2⟩

omit [DecidableEq σ] in
theorem nodup_noDupHolds {f : NoDup σ} (h : Inv rank f) : (noDupHolds f).Nodup := by
  unfold noDupHolds
  rw [List.nodup_iff_pairwise_ne, List.pairwise_filterMap]
  have hp : f.heap.Pairwise fun a b => a ∈ f.heap ∧ b ∈ f.heap ∧ a ≠ b := by
    have := Inv.nodup h.base
    rw [List.nodup_iff_pairwise_ne, List.pairwise_iff_getElem] at this
    rw [List.pairwise_iff_getElem]
    intro i j hi hj hij
    exact ⟨List.getElem_mem _, List.getElem_mem _, this i j hi hj hij⟩
  refine hp.imp ?_
  rintro a b ⟨ha, hb, hab⟩ n hn m hm rfl
  have h1 := (h.st n.state a).mpr ⟨ha, n, hn, rfl⟩
  have h2 := (h.st n.state b).mpr ⟨hb, n, hm, rfl⟩
  rw [h1] at h2; cases h2; exact hab rfl

omit [DecidableEq σ] in
theorem length_noDupHolds {f : NoDup σ} (h : Inv rank f) : (noDupHolds f).length = f.heap.length := by
  unfold noDupHolds
  have : ∀ l : List Nat, (∀ id ∈ l, ∃ n, f.nodes[id]? = some n) → (l.filterMap (f.nodes[·]?)).length = l.length := by
    intro l
    induction l with
    | nil => intro _; rfl
    | cons a l ih =>
      intro hl
      obtain ⟨n, hn⟩ := hl a (by simp)
      rw [List.filterMap_cons, hn]
      simp only [List.length_cons, ih fun id hid => hl id (by simp [hid])]
  apply this
  intro id hid
  obtain ⟨i, hi⟩ := List.mem_iff_getElem?.mp hid
  obtain ⟨n, hn, -⟩ := h.base.node hi
  exact ⟨n, hn⟩

theorem perm_of_mem {l l' : List (SubProblem σ)} (h1 : l.Nodup) (h2 : l'.Nodup) (h : ∀ n, n ∈ l ↔ n ∈ l') : l.Perm l' := by
  rw [List.perm_iff_count]
  intro a
  rw [h1.count, h2.count]
  simp only [h a]

variable [Std.TransCmp rank]

omit [Std.TransCmp rank] [DecidableEq σ] in
theorem mergeEntry_combine (o n : SubProblem σ) (h : o.state = n.state) : mergeEntry (some o) n = combine o n := by
  unfold combine
  by_cases c : n.value > o.value
  · rw [if_pos c]; simp only [mergeEntry, c, if_true]
  · rw [if_neg c]; simp only [mergeEntry, c, if_false, h]

/-- `NoDupFrontier` satisfies the contract. -/
def noDup_laws : FrontierLaws (noDupOps rank) where
  inv := Inv rank
  holds := noDupHolds
  new_inv := new_inv rank
  new_holds := rfl
  push := by
    intro f n hf
    obtain ⟨f', h1, h2, h3⟩ := push_spec rank hf n
    refine ⟨f', h1, h2, ?_⟩
    cases hh : held f n.state with
    | none =>
      left
      apply perm_of_mem (nodup_noDupHolds h2)
      · rw [List.nodup_cons, mem_noDupHolds hf, hh]
        exact ⟨by simp, nodup_noDupHolds hf⟩
      · intro m
        rw [mem_noDupHolds h2, List.mem_cons, mem_noDupHolds hf, h3]
        by_cases hs : m.state = n.state
        · rw [if_pos hs, hs, hh]; simp [mergeEntry, eq_comm]
        · rw [if_neg hs]
          constructor
          · exact Or.inr
          · rintro (rfl | h)
            · exact absurd rfl hs
            · exact h
    | some old =>
      right
      have hst := (hf.held_mem rank hh).1
      have hold : old ∈ noDupHolds f := by rw [mem_noDupHolds hf, hst]; exact hh
      refine ⟨old, (noDupHolds f).erase old, hst, List.perm_cons_erase hold, ?_⟩
      have hne : (noDupHolds f).erase old |>.Nodup := (nodup_noDupHolds hf).erase _
      have hcs : (combine old n).state = n.state := by unfold combine; split <;> simp [hst]
      have hmem : ∀ m, m ∈ (noDupHolds f).erase old ↔ m ≠ old ∧ held f m.state = some m := by
        intro m
        rw [(nodup_noDupHolds hf).mem_erase_iff, mem_noDupHolds hf]
      have hkey : ∀ m, m ≠ old → held f m.state = some m → m.state ≠ n.state := by
        intro m hm h he
        rw [he, hh] at h; cases h; exact hm rfl
      apply perm_of_mem (nodup_noDupHolds h2)
      · rw [List.nodup_cons, hmem]
        refine ⟨?_, hne⟩
        rintro ⟨a, b⟩
        exact hkey _ a b hcs
      · intro m
        rw [mem_noDupHolds h2, List.mem_cons, hmem, h3]
        by_cases hs : m.state = n.state
        · rw [if_pos hs, hs, hh, mergeEntry_combine _ _ hst]
          constructor
          · intro h; left; simpa using h.symm
          · rintro (rfl | ⟨a, b⟩)
            · rfl
            · rw [hh] at *; cases b; exact absurd rfl a
        · rw [if_neg hs]
          constructor
          · intro h
            refine Or.inr ⟨?_, h⟩
            rintro rfl; exact hs hst
          · rintro (rfl | ⟨_, h⟩)
            · exact absurd hcs hs
            · exact h
  pop := by
    intro f hf
    rcases pop_spec rank hf with ⟨h1, h2⟩ | ⟨f', n, h1, h2, h3, h4, h5, _⟩
    · left
      have : noDupHolds f = [] := by
        rw [List.eq_nil_iff_forall_not_mem]
        intro m hm
        rw [mem_noDupHolds hf, h2] at hm; cases hm
      exact ⟨f, this, h1, hf, this⟩
    · right
      refine ⟨f', n, h1, h2, ?_, ?_⟩
      · apply perm_of_mem (nodup_noDupHolds hf)
        · rw [List.nodup_cons, mem_noDupHolds h2, h4]
          exact ⟨by simp, nodup_noDupHolds h2⟩
        · intro m
          rw [List.mem_cons, mem_noDupHolds hf, mem_noDupHolds h2, h4]
          by_cases hs : m.state = n.state
          · rw [if_pos hs, hs, h3]; simp [eq_comm]
          · rw [if_neg hs]
            constructor
            · exact Or.inr
            · rintro (rfl | h)
              · exact absurd rfl hs
              · exact h
      · intro m hm
        exact leO_ub rank (h5 _ _ ((mem_noDupHolds hf).1 hm))
  clear := fun f hf => ⟨new_inv rank, rfl⟩
  len := fun f hf => (length_noDupHolds hf).symm

omit [Std.TransCmp rank] [DecidableEq σ] in
theorem maxUB_gt {a b : SubProblem σ} (h : maxUB rank a b = .gt) : b.ub ≤ a.ub := by
  unfold maxUB at h
  rcases Int.lt_trichotomy a.ub b.ub with c | c | c
  · have : compare a.ub b.ub = .lt := by rw [Int.compare_eq_lt]; exact c
    rw [this] at h; cases h
  · omega
  · omega

omit [Std.TransCmp rank] [DecidableEq σ] in
theorem maxUB_ngt {a b : SubProblem σ} (h : ¬ maxUB rank a b = .gt) : a.ub ≤ b.ub := by
  apply Int.not_lt.1
  intro c
  apply h
  unfold maxUB
  have : compare a.ub b.ub = .gt := by rw [Int.compare_eq_gt]; exact c
  rw [this]; rfl

omit [Std.TransCmp rank] [DecidableEq σ] in
theorem maxElem_spec : ∀ (l : List (SubProblem σ)) (a : SubProblem σ), maxElem rank a l ∈ a :: l ∧ ∀ m ∈ a :: l, m.ub ≤ (maxElem rank a l).ub := by
  intro l
  induction l with
  | nil => intro a; simp [maxElem]
  | cons b l ih =>
    intro a
    unfold maxElem
    by_cases h : maxUB rank a b = .gt
    · rw [if_pos h]
      obtain ⟨h1, h2⟩ := ih a
      refine ⟨?_, ?_⟩
      · rcases List.mem_cons.1 h1 with h | h
        · rw [h]; simp
        · simp [h]
      · intro m hm
        simp only [List.mem_cons] at hm
        rcases hm with rfl | rfl | hm
        · exact h2 _ (by simp)
        · exact Int.le_trans (maxUB_gt h) (h2 a (by simp))
        · exact h2 _ (by simp [hm])
    · rw [if_neg h]
      obtain ⟨h1, h2⟩ := ih b
      refine ⟨?_, ?_⟩
      · simp only [List.mem_cons] at h1 ⊢
        exact Or.inr h1
      · intro m hm
        simp only [List.mem_cons] at hm
        rcases hm with rfl | rfl | hm
        · exact Int.le_trans (maxUB_ngt h) (h2 b (by simp))
        · exact h2 _ (by simp)
        · exact h2 _ (by simp [hm])

omit [Std.TransCmp rank] in
/-- `SimpleFrontier` satisfies the contract. -/
def simple_laws : FrontierLaws (simpleOps rank) where
  inv := fun _ => True
  holds := fun l => l
  new_inv := trivial
  new_holds := rfl
  push := fun f n _ => ⟨n :: f, rfl, trivial, Or.inl (.refl _)⟩
  pop := by
    intro f _
    cases f with
    | nil => exact Or.inl ⟨[], rfl, rfl, trivial, rfl⟩
    | cons a l =>
      obtain ⟨h1, h2⟩ := maxElem_spec (rank := rank) l a
      exact Or.inr ⟨(a :: l).erase (maxElem rank a l), maxElem rank a l, rfl, trivial, List.perm_cons_erase h1, h2⟩
  clear := fun _ _ => ⟨trivial, rfl⟩
  len := fun _ _ => rfl

/-- **C33.** A new `NoDupFrontier` and a new `SimpleFrontier` satisfy the contract of a frontier. -/
theorem noDup_lawful : ∃ L : FrontierLaws (noDupOps rank), L.holds (noDupOps rank).new = [] := ⟨noDup_laws, rfl⟩

omit [Std.TransCmp rank] in
theorem simple_lawful : ∃ L : FrontierLaws (simpleOps rank), L.holds (simpleOps rank).new = [] := ⟨simple_laws, rfl⟩

end Verif.Props
