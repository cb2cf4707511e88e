import Verif.Spec.Tsptw
import Verif.Spec.Problem
import Verif.Proofs.Bits
/-! The states of the TSPTW program that are reached without merging. -/
set_option autoImplicit false

namespace Verif.Tsptw
open Verif Spec
variable {I : Inst}

variable (I) in
/-- The states reached without merging: city `i` has been left at time `t`. -/
structure Exact (s : State) (i t : Nat) : Prop where
  pos : s.position = .node i
  ela : s.elapsed = .fixed t
  mb : s.maybe = none
  lt : i < I.n
  sub : Bits.Sub I.n s.must
  nz : s.must.testBit 0 = false
  ni : s.must.testBit i = false
  cnt : s.depth + Bits.count I.n s.must + 1 = I.n ∨ (s.depth = I.n ∧ s.must = 0 ∧ i = 0 ∧ t ≤ max (I.latest 0) (I.earliest 0))

theorem exact_init (hn : 1 ≤ I.n) : Exact I (initial I) 0 0 where
  pos := rfl
  ela := rfl
  mb := rfl
  lt := hn
  sub := (Bits.Sub.full _).clear 0
  nz := by show (Bits.clear (Bits.full I.n) 0).testBit 0 = false; rw [Bits.testBit_clear]; simp
  ni := by show (Bits.clear (Bits.full I.n) 0).testBit 0 = false; rw [Bits.testBit_clear]; simp
  cnt := by
    left
    show 0 + (Bits.iter I.n (Bits.clear (Bits.full I.n) 0)).length + 1 = I.n
    rw [Bits.iter_full_clear_zero, List.length_range']
    omega

section
variable {s : State} {i t : Nat} (h : Exact I s i t)
include h

theorem Exact.depth_le : s.depth ≤ I.n := by
  rcases h.cnt with h | h <;> omega

theorem Exact.minDist (j : Nat) : minDist I s j = I.dist i j := by unfold Tsptw.minDist; rw [h.pos]
theorem Exact.maxDist (j : Nat) : maxDist I s j = I.dist i j := by unfold Tsptw.maxDist; rw [h.pos]

theorem Exact.canMove (j : Nat) : canMove I s j = decide (t + I.dist i j ≤ I.latest j) := by
  unfold Tsptw.canMove
  rw [h.minDist, h.ela]; rfl

theorem Exact.arrival (j : Nat) : arrival I s j = .fixed (leaveTime I t i j) := by
  unfold Tsptw.arrival
  rw [h.minDist, h.maxDist, h.ela]
  simp [Elapsed.add, Elapsed.earliest, Elapsed.latest, mkElapsed, leaveTime]

theorem Exact.cost (x j : Nat) : cost I s ⟨x, j⟩ = (t : Int) - (leaveTime I t i j : Int) := by
  unfold Tsptw.cost
  simp only [Int.toNat_natCast, h.minDist, h.ela, Elapsed.earliest, leaveTime]
  split <;> omega

theorem Exact.must_last (hd : s.depth = I.n - 1) (hn : s.depth < I.n) : s.must = 0 := by
  refine Bits.iter_eq_nil h.sub ?_
  rcases h.cnt with h | h
  · have : Bits.count I.n s.must = 0 := by omega
    exact List.length_eq_zero_iff.1 this
  · omega

theorem Exact.dom_last (x : Nat) (hd : s.depth = I.n - 1) {d : Decision} : d ∈ dom I x s ↔ d = ⟨x, 0⟩ ∧ t + I.dist i 0 ≤ I.latest 0 := by
  unfold Tsptw.dom
  rw [if_pos hd, h.canMove]
  by_cases hc : t + I.dist i 0 ≤ I.latest 0 <;> simp [hc]

theorem Exact.dom_mid (x : Nat) (hd : s.depth ≠ I.n - 1) {d : Decision} : d ∈ dom I x s ↔
    (∀ k ∈ Bits.iter I.n s.must, t + I.dist i k ≤ I.latest k) ∧ ∃ j ∈ Bits.iter I.n s.must, d = ⟨x, (j : Int)⟩ := by
  unfold Tsptw.dom
  rw [if_neg hd, h.mb]
  have hall : (Bits.iter I.n s.must).all (Tsptw.canMove I s) = true ↔ ∀ k ∈ Bits.iter I.n s.must, t + I.dist i k ≤ I.latest k := by
    rw [List.all_eq_true]
    refine forall_congr' fun k => forall_congr' fun _ => ?_
    rw [h.canMove, decide_eq_true_iff]
  by_cases hc : (Bits.iter I.n s.must).all (Tsptw.canMove I s) = true
  · rw [if_pos hc]
    simp only [List.append_nil, List.mem_map]
    constructor
    · rintro ⟨j, hj, rfl⟩; exact ⟨hall.1 hc, j, hj, rfl⟩
    · rintro ⟨_, j, hj, rfl⟩; exact ⟨j, hj, rfl⟩
  · rw [if_neg hc]
    simp only [List.not_mem_nil, false_iff]
    rintro ⟨h1, _⟩
    exact hc (hall.2 h1)

theorem Exact.step {x j : Nat} (_hd : s.depth ≠ I.n - 1) (hj : j ∈ Bits.iter I.n s.must) :
    Exact I (trans I s ⟨x, j⟩) j (leaveTime I t i j) := by
  obtain ⟨hj1, hj2⟩ := Bits.mem_iter.1 hj
  refine ⟨rfl, h.arrival j, ?_, hj1, ?_, ?_, ?_, ?_⟩
  · simp [trans, h.mb]
  · exact h.sub.clear _
  · show (Bits.clear s.must _).testBit 0 = false
    rw [Bits.testBit_clear, h.nz]; rfl
  · simp [trans, Bits.testBit_clear]
  · have hc : Bits.count I.n (Bits.clear s.must j) + 1 = Bits.count I.n s.must := Bits.count_clear hj1 hj2
    left
    show s.depth + 1 + Bits.count I.n (Bits.clear s.must ((j : Int)).toNat) + 1 = I.n
    rw [Int.toNat_natCast]
    rcases h.cnt with h | h
    · omega
    · rw [h.2.1] at hj2; simp at hj2

theorem Exact.home {x : Nat} (hd : s.depth = I.n - 1) (hn : s.depth < I.n) (hc : t + I.dist i 0 ≤ I.latest 0) :
    Exact I (trans I s ⟨x, 0⟩) 0 (leaveTime I t i 0) := by
  have hm := h.must_last hd hn
  have hm' : Bits.clear s.must 0 = 0 := by rw [hm]; simp [Bits.clear]
  have e : (trans I s ⟨x, 0⟩).must = 0 := hm'
  have hlt := h.lt
  refine ⟨rfl, h.arrival 0, by simp [trans, h.mb], by omega, ?_, ?_, ?_, ?_⟩
  · rw [e]; exact Bits.Sub.zero _
  · rw [e]; simp
  · rw [e]; simp
  · right
    refine ⟨?_, e, rfl, ?_⟩
    · show s.depth + 1 = I.n; omega
    · unfold leaveTime; omega

end

theorem nextVar_single (s : State) : nextVar I [s] = if s.depth = I.n then none else some s.depth := rfl

theorem nextVar_some {s : State} {x : Nat} (h : (problem I).nextVar [s] = some x) : x = s.depth ∧ s.depth ≠ I.n := by
  change nextVar I [s] = some x at h
  rw [nextVar_single] at h
  split at h
  · cases h
  · cases h; exact ⟨rfl, by assumption⟩

theorem nextVar_none {s : State} (h : (problem I).nextVar [s] = none) : s.depth = I.n := by
  change nextVar I [s] = none at h
  rw [nextVar_single] at h
  split at h
  · assumption
  · cases h

theorem nextVar_eq {s : State} (h : s.depth ≠ I.n) : (problem I).nextVar [s] = some s.depth := by
  change nextVar I [s] = _
  rw [nextVar_single, if_neg h]

theorem nextVar_eq_none {s : State} (h : s.depth = I.n) : (problem I).nextVar [s] = none := by
  change nextVar I [s] = _
  rw [nextVar_single, if_pos h]

/-- One step of an exact state. -/
theorem Exact.next {s : State} {i t : Nat} (h : Exact I s i t) {x : Nat} {d : Decision} (hx : (problem I).nextVar [s] = some x)
    (hd : d ∈ (problem I).dom x s) : ∃ j : Nat, d = ⟨x, (j : Int)⟩ ∧ t + I.dist i j ≤ I.latest j ∧ Exact I (trans I s d) j (leaveTime I t i j) ∧
      ((s.depth = I.n - 1 ∧ j = 0) ∨ (s.depth ≠ I.n - 1 ∧ j ∈ Bits.iter I.n s.must)) := by
  obtain ⟨rfl, hn⟩ := nextVar_some hx
  have hlt : s.depth < I.n := by have := h.depth_le; omega
  by_cases hl : s.depth = I.n - 1
  · obtain ⟨rfl, hc⟩ := (h.dom_last _ hl).1 hd
    exact ⟨0, rfl, hc, h.home hl hlt hc, Or.inl ⟨hl, rfl⟩⟩
  · obtain ⟨hc, j, hj, rfl⟩ := (h.dom_mid _ hl).1 hd
    exact ⟨j, rfl, hc j hj, h.step hl hj, Or.inr ⟨hl, hj⟩⟩

/-- A completion of an exact state is a way to finish the tour. -/
theorem Exact.completion {s : State} {ds : List Decision} {v : Int} {e : State} (hr : Run (problem I) s ds v e) (he : (problem I).nextVar [e] = none) :
    ∀ {i t : Nat}, Exact I s i t → s.depth < I.n →
      ∃ l T, l.Perm (Bits.iter I.n s.must) ∧ Drive I t i (l ++ [0]) T ∧ ds = visits s.depth (l ++ [0]) ∧ v = (t : Int) - T := by
  induction hr with
  | nil s => intro i t h hlt; have := nextVar_none he; omega
  | @cons s e x d ds v hx hd hr ih =>
    intro i t h hlt
    obtain ⟨j, rfl, hc, hex, hj⟩ := h.next hx hd
    have hx' := nextVar_some hx
    have hcost : (problem I).cost s ⟨x, (j : Int)⟩ = (t : Int) - leaveTime I t i j := h.cost x j
    rcases hj with ⟨hl, rfl⟩ | ⟨hl, hj⟩
    · -- back to the depot
      have hdep : ((problem I).trans s ⟨x, (0 : Nat)⟩).depth = I.n := by show s.depth + 1 = I.n; omega
      cases hr with
      | nil _ =>
        refine ⟨[], leaveTime I t i 0, ?_, .go hc (.stop _ _), ?_, ?_⟩
        · have hm := h.must_last hl hlt
          rw [hm, Bits.iter_zero]
        · simp [visits, hx'.1]
        · rw [hcost]; omega
      | cons hx2 _ _ => exact absurd hdep (nextVar_some hx2).2
    · obtain ⟨l, T, h1, h2, h3, h4⟩ := ih he hex (by show s.depth + 1 < I.n; omega)
      obtain ⟨hj1, hj2⟩ := Bits.mem_iter.1 hj
      refine ⟨j :: l, T, ?_, .go hc h2, ?_, ?_⟩
      · refine ((List.Perm.cons j h1).trans ?_)
        have : ((problem I).trans s ⟨x, (j : Int)⟩).must = Bits.clear s.must j := rfl
        rw [this]
        exact (Bits.perm_clear hj1 hj2).symm
      · rw [h3, hx'.1]; rfl
      · rw [hcost, h4]; omega

/-- By the triangle inequality, a city that is visited later could be visited at once. -/
theorem Drive.direct (htri : Triangle I) {t i : Nat} {l : List Nat} {T : Nat} (h : Drive I t i l T) : i < I.n → (∀ k ∈ l, k < I.n) →
    ∀ k ∈ l, t + I.dist i k ≤ I.latest k := by
  induction h with
  | stop t i => intro _ _ k hk; cases hk
  | @go t i j l T hc hd ih =>
    intro hi hl k hk
    rcases List.mem_cons.1 hk with rfl | hk'
    · exact hc
    · have hj := hl j (by simp)
      have h1 := ih hj (fun k hk => hl k (by simp [hk])) k hk'
      have h2 := htri i j k hi hj (hl k hk)
      have h3 : t + I.dist i j ≤ leaveTime I t i j := by unfold leaveTime; omega
      omega

/-- Conversely, with the triangle inequality, every way to finish the tour is a completion. -/
theorem Exact.complete (htri : Triangle I) : ∀ (l : List Nat) {s : State} {i t T : Nat}, Exact I s i t → s.depth < I.n → l.Perm (Bits.iter I.n s.must) →
    Drive I t i (l ++ [0]) T → Completion (problem I) s (visits s.depth (l ++ [0])) ((t : Int) - T) := by
  intro l
  induction l with
  | nil =>
    intro s i t T h hlt hp hd
    have hnil : Bits.iter I.n s.must = [] := hp.symm.eq_nil
    have hl : s.depth = I.n - 1 := by
      rcases h.cnt with h | h
      · have : Bits.count I.n s.must = 0 := by unfold Bits.count; rw [hnil]; rfl
        omega
      · omega
    cases hd with
    | go hc hd =>
      cases hd with
      | stop _ _ =>
        have h1 : (⟨s.depth, 0⟩ : Decision) ∈ (problem I).dom s.depth s := (h.dom_last _ hl).2 ⟨rfl, hc⟩
        have h2 := Run.cons (p := problem I) (nextVar_eq (by omega)) h1 (Run.nil _)
        have hcost : (problem I).cost s ⟨s.depth, 0⟩ = (t : Int) - leaveTime I t i 0 := h.cost s.depth 0
        rw [hcost] at h2
        refine ⟨_, ?_, nextVar_eq_none (s := (problem I).trans s ⟨s.depth, 0⟩) (by show s.depth + 1 = I.n; omega)⟩
        have e : (t : Int) - leaveTime I t i 0 + 0 = (t : Int) - leaveTime I t i 0 := by omega
        rw [e] at h2
        exact h2
  | cons j l ih =>
    intro s i t T h hlt hp hd
    have hj : j ∈ Bits.iter I.n s.must := hp.mem_iff.1 (by simp)
    obtain ⟨hj1, hj2⟩ := Bits.mem_iter.1 hj
    have hl : s.depth ≠ I.n - 1 := by
      intro hl; rw [h.must_last hl hlt, Bits.iter_zero] at hj; cases hj
    have hin : ∀ k ∈ (j :: l) ++ [0], k < I.n := by
      intro k hk
      rcases List.mem_append.1 hk with hk | hk
      · exact (Bits.mem_iter.1 (hp.mem_iff.1 hk)).1
      · simp at hk; omega
    have hdir := hd.direct htri h.lt hin
    have h1 : (⟨s.depth, (j : Int)⟩ : Decision) ∈ (problem I).dom s.depth s :=
      (h.dom_mid _ hl).2 ⟨fun k hk => hdir k (List.mem_append.2 (Or.inl (hp.mem_iff.2 hk))), j, hj, rfl⟩
    cases hd with
    | go hc hd =>
      have hp' : l.Perm (Bits.iter I.n (trans I s ⟨s.depth, (j : Int)⟩).must) :=
        List.Perm.cons_inv (hp.trans (Bits.perm_clear hj1 hj2))
      have hdep : (trans I s ⟨s.depth, (j : Int)⟩).depth < I.n := by show s.depth + 1 < I.n; omega
      obtain ⟨e, hr, he⟩ := ih (h.step (x := s.depth) hl hj) hdep hp' hd
      have h2 := Run.cons (p := problem I) (nextVar_eq (by omega)) h1 hr
      have hcost : (problem I).cost s ⟨s.depth, (j : Int)⟩ = (t : Int) - leaveTime I t i j := h.cost s.depth j
      rw [hcost] at h2
      have ev : (t : Int) - leaveTime I t i j + ((leaveTime I t i j : Int) - T) = (t : Int) - T := by omega
      rw [ev] at h2
      exact ⟨e, h2, he⟩

/-! ### The rough bound -/

theorem foldl_min_le {α : Type} (f : Nat → α → Nat) (hf : ∀ m a, f m a ≤ m) : ∀ (l : List α) (m : Nat), l.foldl f m ≤ m := by
  intro l
  induction l with
  | nil => intro m; exact Nat.le_refl _
  | cons a l ih => intro m; exact Nat.le_trans (ih (f m a)) (hf m a)

theorem foldl_min_mem {α : Type} (f : Nat → α → Nat) (hf : ∀ m a, f m a ≤ m) {a : α} {c : Nat} (ha : ∀ m, f m a ≤ c) :
    ∀ (l : List α) (m : Nat), a ∈ l → l.foldl f m ≤ c := by
  intro l
  induction l with
  | nil => intro m h; cases h
  | cons b l ih =>
    intro m h
    rcases List.mem_cons.1 h with rfl | h
    · exact Nat.le_trans (foldl_min_le f hf l _) (ha m)
    · exact ih _ h

theorem cheapest_le {i j : Nat} (hi : i < I.n) (h : i ≠ j) : cheapest I j ≤ I.dist i j := by
  unfold cheapest
  refine foldl_min_mem _ ?_ (a := i) ?_ _ _ (List.mem_range.2 hi)
  · intro m a; split <;> omega
  · intro m; rw [if_neg (fun e => h e.symm)]; exact Nat.min_le_right _ _

theorem back_le {l : List Nat} {k b : Nat} (h : k ∈ l) : l.foldl (fun b i => min b (I.dist i 0)) b ≤ I.dist k 0 :=
  foldl_min_mem (fun b i => min b (I.dist i 0)) (fun _ _ => Nat.min_le_left _ _) (fun _ => Nat.min_le_right _ _) _ _ h

/-- Finishing the tour takes at least the cheapest edge into each remaining city and the way home from the last one, and that arrival is in time. -/
theorem Drive.least : ∀ (l : List Nat) {t i T : Nat}, Drive I t i (l ++ [0]) T → i < I.n → (i :: l).Nodup → (∀ k ∈ l, k < I.n) →
    ∃ k ∈ i :: l, (l ≠ [] → k ∈ l) ∧ t + ((l.map (cheapest I)).sum + I.dist k 0) ≤ I.latest 0 ∧ t + ((l.map (cheapest I)).sum + I.dist k 0) ≤ T ∧
      ∀ j ∈ l, t + cheapest I j ≤ I.latest j := by
  intro l
  induction l with
  | nil =>
    intro t i T h _ _ _
    cases h with
    | go hc hd =>
      cases hd with
      | stop _ _ =>
        refine ⟨i, by simp, by simp, by simpa using hc, ?_, by simp⟩
        simp only [List.map_nil, List.sum_nil, leaveTime]; omega
  | cons j l ih =>
    intro t i T h hi hnd hl
    cases h with
    | go hc hd =>
      obtain ⟨k, h1, h2, h3, h4, h5⟩ := ih hd (hl j (by simp)) (List.nodup_cons.1 hnd).2 (fun k hk => hl k (by simp [hk]))
      have hne : i ≠ j := by
        intro e; subst e
        exact (List.nodup_cons.1 hnd).1 (by simp)
      have hch := cheapest_le (I := I) hi hne
      have hlv : t + I.dist i j ≤ leaveTime I t i j := by unfold leaveTime; omega
      refine ⟨k, List.mem_cons.2 (Or.inr h1), fun _ => h1, ?_, ?_, ?_⟩
      · simp only [List.map_cons, List.sum_cons]; omega
      · simp only [List.map_cons, List.sum_cons]; omega
      · intro q hq
        rcases List.mem_cons.1 hq with rfl | hq
        · omega
        · have := h5 q hq; omega

theorem perm_sum_map {f : Nat → Nat} {l l' : List Nat} (h : l.Perm l') : (l.map f).sum = (l'.map f).sum :=
  (h.map f).sum_nat

/-- What the estimate is on an exact state. -/
theorem Exact.estimate_eq {s : State} {i t : Nat} (h : Exact I s i t) : estimate I s =
    if (Bits.iter I.n s.must).any (fun j => decide (I.latest j < t + cheapest I j)) then isizeMin else
    let m := ((Bits.iter I.n s.must).map (cheapest I)).sum
    let b := (Bits.iter I.n s.must).foldl (fun b i => min b (I.dist i 0)) usizeMax
    let total := m + if m = 0 then min b (I.dist i 0) else b
    if I.latest 0 < t + total then isizeMin else -(total : Int) := by
  unfold Tsptw.estimate
  simp only [h.mb, h.ela, h.minDist, Elapsed.add, Elapsed.earliest]

/-- The estimate of an exact state never underestimates: no way of finishing the tour is shorter. -/
theorem Exact.estimate {s : State} {i t : Nat} (h : Exact I s i t) {l : List Nat} {T : Nat} (hp : l.Perm (Bits.iter I.n s.must))
    (hd : Drive I t i (l ++ [0]) T) : (t : Int) - T ≤ estimate I s := by
  have hnd : (i :: l).Nodup := by
    refine List.nodup_cons.2 ⟨?_, (hp.nodup_iff).2 (Bits.nodup_iter _ _)⟩
    intro hi
    have := (Bits.mem_iter.1 (hp.mem_iff.1 hi)).2
    rw [h.ni] at this; cases this
  obtain ⟨k, h1, h2, h3, h4, h5⟩ := Drive.least l hd h.lt hnd (fun k hk => (Bits.mem_iter.1 (hp.mem_iff.1 hk)).1)
  rw [h.estimate_eq, if_neg]
  · rw [perm_sum_map hp] at h3 h4
    simp only
    generalize hm : ((Bits.iter I.n s.must).map (cheapest I)).sum = m at *
    have hb : (if m = 0 then min ((Bits.iter I.n s.must).foldl (fun b i => min b (I.dist i 0)) usizeMax) (I.dist i 0)
        else (Bits.iter I.n s.must).foldl (fun b i => min b (I.dist i 0)) usizeMax) ≤ I.dist k 0 := by
      by_cases hl : l = []
      · subst hl
        have hnil := hp.symm.eq_nil
        have hm0 : m = 0 := by rw [← hm, hnil]; rfl
        rw [if_pos hm0]
        simp at h1; subst h1
        exact Nat.min_le_right _ _
      · have hk := back_le (I := I) (b := usizeMax) (hp.mem_iff.1 (h2 hl))
        split
        · exact Nat.le_trans (Nat.min_le_left _ _) hk
        · exact hk
    generalize (if m = 0 then min ((Bits.iter I.n s.must).foldl (fun b i => min b (I.dist i 0)) usizeMax) (I.dist i 0)
        else (Bits.iter I.n s.must).foldl (fun b i => min b (I.dist i 0)) usizeMax) = c at *
    rw [if_neg (by omega)]
    omega
  · simp only [Bool.not_eq_true, List.any_eq_false, decide_eq_true_eq]
    intro j hj
    have := h5 j (hp.mem_iff.2 hj)
    omega

end Verif.Tsptw
