import Verif.Spec.Barrier
import Verif.Proofs.Par.Inv
import Verif.Proofs.Mdd.ThetaFrontier
/-! Basic facts about the barrier, the counters per layer and pushes into a frontier. -/
set_option autoImplicit false

namespace Verif.Bars
open Verif
variable {σ : Type} [DecidableEq σ]

theorem lookup_filter_ne {l : List (σ × BarrierInfo)} {s t : σ} (h : t ≠ s) : (l.filter fun x => decide (x.1 ≠ s)).lookup t = l.lookup t := by
  induction l with
  | nil => rfl
  | cons a l ih =>
    obtain ⟨k, i⟩ := a
    by_cases hk : k = s
    · subst hk
      rw [List.filter_cons_of_neg (by simp), ih, List.lookup_cons, beq_false_of_ne h]
    · rw [List.filter_cons_of_pos (by simp [hk]), List.lookup_cons, List.lookup_cons, ih]

theorem length_insert {b b' : Bars σ} {d : Nat} {s : σ} {i : BarrierInfo} (h : b.insert d s i = some b') : b'.length = b.length := by
  unfold insert at h
  split at h
  · cases h
  · cases h; simp

theorem insert_total {b : Bars σ} {d : Nat} (h : d < b.length) (s : σ) (i : BarrierInfo) : ∃ b', b.insert d s i = some b' := by
  unfold insert
  rw [List.getElem?_eq_getElem h]
  exact ⟨_, rfl⟩

theorem get_insert {b b' : Bars σ} {d : Nat} {s : σ} {i : BarrierInfo} (h : b.insert d s i = some b') (d' : Nat) (s' : σ) :
    b'.get d' s' = if d' = d ∧ s' = s then some i else b.get d' s' := by
  unfold insert at h
  split at h
  · cases h
  · rename_i l hl
    cases h
    unfold get
    have hlt := (List.getElem?_eq_some_iff.1 hl).1
    by_cases hd : d' = d
    · subst hd
      have e1 : (b.set d' ((s, i) :: l.filter fun x => decide (x.1 ≠ s))).getD d' [] = (s, i) :: l.filter fun x => decide (x.1 ≠ s) := by
        simp [List.getD, List.getElem?_set_self hlt]
      have e2 : b.getD d' [] = l := by simp [List.getD, hl]
      rw [e1, e2, List.lookup_cons]
      by_cases hs : s' = s
      · subst hs; simp
      · rw [beq_false_of_ne hs, if_neg (by simp [hs])]
        exact lookup_filter_ne hs
    · rw [if_neg (by simp [hd])]
      simp [List.getD, List.getElem?_set_ne (fun h => hd h.symm)]

theorem length_clear {b b' : Bars σ} {d : Nat} (h : b.clear d = some b') : b'.length = b.length := by
  unfold clear at h; split at h
  · cases h; simp
  · cases h

theorem get_clear {b b' : Bars σ} {d : Nat} (h : b.clear d = some b') (d' : Nat) (s' : σ) :
    b'.get d' s' = if d' = d then none else b.get d' s' := by
  unfold clear at h; split at h
  · rename_i hlt
    cases h
    unfold get
    by_cases hd : d' = d
    · subst hd
      simp [List.getD, List.getElem?_set_self hlt]
    · rw [if_neg hd]
      simp [List.getD, List.getElem?_set_ne (fun h => hd h.symm)]
  · cases h

theorem tryUpdate_spec {b : Bars σ} {u : Update σ} (hu : u.depth < b.length) :
    ∃ b', b.tryUpdate u = some b' ∧ b'.length = b.length ∧
      ((b' = b ∧ improves (b.get u.depth u.state) u.theta u.explored = false) ∨
        (improves (b.get u.depth u.state) u.theta u.explored = true ∧
          ∀ d s, b'.get d s = if d = u.depth ∧ s = u.state then some ⟨u.theta, u.explored⟩ else b.get d s)) := by
  unfold tryUpdate
  rw [if_pos hu]
  cases h : improves (b.get u.depth u.state) u.theta u.explored with
  | false => exact ⟨b, by simp, rfl, Or.inl ⟨rfl, rfl⟩⟩
  | true =>
    obtain ⟨b', h1⟩ := insert_total hu u.state ⟨u.theta, u.explored⟩
    exact ⟨b', by simpa using h1, length_insert h1, Or.inr ⟨rfl, get_insert h1⟩⟩

theorem tryUpdates_spec : ∀ (us : List (Update σ)) (b : Bars σ), (∀ u ∈ us, u.depth < b.length) →
    ∃ b', b.tryUpdates us = some b' ∧ b'.length = b.length ∧
      ∀ d s i, b'.get d s = some i → b.get d s = some i ∨ ∃ u ∈ us, u.depth = d ∧ u.state = s ∧ i = ⟨u.theta, u.explored⟩ := by
  intro us
  induction us with
  | nil => intro b _; exact ⟨b, rfl, rfl, fun d s i h => Or.inl h⟩
  | cons u us ih =>
    intro b hb
    obtain ⟨b1, h1, h2, h3⟩ := tryUpdate_spec (hb u (by simp))
    obtain ⟨b2, g1, g2, g3⟩ := ih b1 (fun x hx => by rw [h2]; exact hb x (by simp [hx]))
    refine ⟨b2, by simp only [tryUpdates, h1, g1], by rw [g2, h2], ?_⟩
    intro d s i hi
    rcases g3 d s i hi with h | ⟨x, hx, h⟩
    · rcases h3 with ⟨rfl, _⟩ | ⟨_, h3⟩
      · exact Or.inl h
      · rw [h3] at h
        split at h
        · rename_i hds
          cases h
          exact Or.inr ⟨u, by simp, hds.1.symm, hds.2.symm, rfl⟩
        · exact Or.inl h
    · exact Or.inr ⟨x, by simp [hx], h⟩

end Verif.Bars

namespace Verif.Bar
open Verif Spec
variable {σ : Type} [DecidableEq σ] [Inhabited σ]

/-! ### Counters -/

theorem incAt_spec {l : List Nat} {d : Nat} (h : d < l.length) :
    ∃ l', incAt l d = some l' ∧ l'.length = l.length ∧ ∀ x, l'.getD x 0 = l.getD x 0 + if x = d then 1 else 0 := by
  unfold incAt
  rw [List.getElem?_eq_getElem h]
  refine ⟨_, rfl, by simp, ?_⟩
  intro x
  by_cases hx : x = d
  · subst hx; simp [List.getD, List.getElem?_set_self h, List.getElem?_eq_getElem h]
  · simp [List.getD, List.getElem?_set_ne (fun h => hx h.symm), hx]

theorem decAt_spec {l : List Nat} {d : Nat} (h : 0 < l.getD d 0) :
    ∃ l', decAt l d = some l' ∧ l'.length = l.length ∧ ∀ x, l'.getD x 0 = l.getD x 0 - if x = d then 1 else 0 := by
  unfold decAt
  have hlt : d < l.length := by
    by_cases hlt : d < l.length
    · exact hlt
    · simp [List.getD, List.getElem?_eq_none (Nat.le_of_not_lt hlt)] at h
  have h0 := List.getElem?_eq_getElem hlt
  have hg : l.getD d 0 = l[d] := by simp [List.getD, h0]
  rw [hg] at h
  rw [h0]
  cases hk : l[d] with
  | zero => omega
  | succ k =>
    refine ⟨_, rfl, by simp, ?_⟩
    intro x
    by_cases hx : x = d
    · subst hx; simp [List.getD, List.getElem?_set_self hlt, h0, hk]
    · simp [List.getD, List.getElem?_set_ne (fun h => hx h.symm), hx]

/-! ### Pushes -/

/-- Each node of `X` is represented in `Y` by one of the same state, at least as good; each node of `Y` has the state and value of a node of `X`
whose bound it does not lower. -/
structure Refines (X Y : List (SubProblem σ)) : Prop where
  dom : ∀ m ∈ X, ∃ m' ∈ Y, m'.state = m.state ∧ m.value ≤ m'.value ∧ m.ub ≤ m'.ub
  src : ∀ m' ∈ Y, ∃ m ∈ X, m.state = m'.state ∧ m.value = m'.value ∧ m.path = m'.path ∧ m.ub ≤ m'.ub

theorem Refines.refl (X : List (SubProblem σ)) : Refines X X :=
  ⟨fun m h => ⟨m, h, rfl, Int.le_refl _, Int.le_refl _⟩, fun m h => ⟨m, h, rfl, rfl, rfl, Int.le_refl _⟩⟩

theorem Refines.trans {X Y Z : List (SubProblem σ)} (h1 : Refines X Y) (h2 : Refines Y Z) : Refines X Z := by
  refine ⟨?_, ?_⟩
  · intro m hm
    obtain ⟨a, ha, a1, a2, a3⟩ := h1.dom m hm
    obtain ⟨b, hb, b1, b2, b3⟩ := h2.dom a ha
    exact ⟨b, hb, b1.trans a1, by omega, by omega⟩
  · intro m hm
    obtain ⟨a, ha, a1, a2, a3, a4⟩ := h2.src m hm
    obtain ⟨b, hb, b1, b2, b3, b4⟩ := h1.src a ha
    exact ⟨b, hb, b1.trans a1, by omega, b3.trans a3, by omega⟩

theorem Refines.of_perm {X Y : List (SubProblem σ)} (h : X.Perm Y) : Refines X Y :=
  ⟨fun m hm => ⟨m, h.mem_iff.1 hm, rfl, Int.le_refl _, Int.le_refl _⟩, fun m hm => ⟨m, h.mem_iff.2 hm, rfl, rfl, rfl, Int.le_refl _⟩⟩

theorem Refines.cons {X Y : List (SubProblem σ)} (n : SubProblem σ) (h : Refines X Y) : Refines (n :: X) (n :: Y) := by
  refine ⟨?_, ?_⟩
  · intro m hm
    rcases List.mem_cons.1 hm with rfl | hm
    · exact ⟨m, by simp, rfl, Int.le_refl _, Int.le_refl _⟩
    · obtain ⟨a, ha, h⟩ := h.dom m hm
      exact ⟨a, by simp [ha], h⟩
  · intro m hm
    rcases List.mem_cons.1 hm with rfl | hm
    · exact ⟨m, by simp, rfl, rfl, rfl, Int.le_refl _⟩
    · obtain ⟨a, ha, h⟩ := h.src m hm
      exact ⟨a, by simp [ha], h⟩

theorem Refines.append_left {X Y : List (SubProblem σ)} (Z : List (SubProblem σ)) (h : Refines X Y) : Refines (Z ++ X) (Z ++ Y) := by
  induction Z with
  | nil => exact h
  | cons z Z ih => exact ih.cons z

variable {φ : FrontierOps σ} (L : FrontierLaws φ)

theorem combine_facts (a b : SubProblem σ) : (combine a b).ub = max b.ub a.ub ∧
    ((combine a b).value = b.value ∧ (combine a b).path = b.path ∧ (combine a b).state = b.state ∧ a.value < b.value ∨
     (combine a b).value = a.value ∧ (combine a b).path = a.path ∧ (combine a b).state = a.state ∧ b.value ≤ a.value) := by
  unfold combine
  split
  · exact ⟨rfl, Or.inl ⟨rfl, rfl, rfl, by omega⟩⟩
  · exact ⟨rfl, Or.inr ⟨rfl, rfl, rfl, by omega⟩⟩

theorem push_refines {f f' : φ.F} {n : SubProblem σ} (hf : L.inv f) (h : φ.push f n = some f') : Refines (n :: L.holds f) (L.holds f') := by
  obtain ⟨f'', h1, h2, h3⟩ := L.push f n hf
  rw [h] at h1; cases h1
  rcases h3 with h3 | ⟨old, rest, hs, h4, h5⟩
  · exact .of_perm h3.symm
  · refine Refines.trans (.of_perm (h4.cons n)) (Refines.trans ?_ (.of_perm h5.symm))
    obtain ⟨c1, c2⟩ := combine_facts old n
    refine ⟨?_, ?_⟩
    · intro m hm
      simp only [List.mem_cons] at hm
      rcases hm with rfl | rfl | hm
      · refine ⟨_, List.mem_cons_self, ?_, ?_, by omega⟩
        · rcases c2 with c2 | c2
          · exact c2.2.2.1
          · exact c2.2.2.1.trans hs
        · rcases c2 with c2 | c2 <;> omega
      · refine ⟨_, List.mem_cons_self, ?_, ?_, by omega⟩
        · rcases c2 with c2 | c2
          · exact c2.2.2.1.trans hs.symm
          · exact c2.2.2.1
        · rcases c2 with c2 | c2 <;> omega
      · exact ⟨m, by simp [hm], rfl, Int.le_refl _, Int.le_refl _⟩
    · intro m hm
      rcases List.mem_cons.1 hm with rfl | hm
      · rcases c2 with c2 | c2
        · exact ⟨n, by simp, c2.2.2.1.symm, c2.1.symm, c2.2.1.symm, by omega⟩
        · exact ⟨old, by simp, c2.2.2.1.symm, c2.1.symm, c2.2.1.symm, by omega⟩
      · exact ⟨m, by simp [hm], rfl, rfl, rfl, Int.le_refl _⟩

/-- The nodes of depth `d`. -/
def atDepth (l : List (SubProblem σ)) (d : Nat) : Nat := l.countP fun n => decide (n.path.length = d)

theorem atDepth_perm {l l' : List (SubProblem σ)} (h : l.Perm l') (d : Nat) : atDepth l d = atDepth l' d := h.countP_eq _

theorem atDepth_cons (n : SubProblem σ) (l : List (SubProblem σ)) (d : Nat) : atDepth (n :: l) d = atDepth l d + if n.path.length = d then 1 else 0 := by
  unfold atDepth; rw [List.countP_cons]; simp

theorem push_atDepth {f f' : φ.F} {n : SubProblem σ} (hf : L.inv f) (h : φ.push f n = some f')
    (hlen : ∀ m ∈ L.holds f, m.state = n.state → m.path.length = n.path.length) (d : Nat) :
    atDepth (L.holds f') d ≤ atDepth (L.holds f) d + if n.path.length = d then 1 else 0 := by
  obtain ⟨f'', h1, h2, h3⟩ := L.push f n hf
  rw [h] at h1; cases h1
  rcases h3 with h3 | ⟨old, rest, hs, h4, h5⟩
  · rw [atDepth_perm h3, atDepth_cons]
    exact Nat.le_refl _
  · rw [atDepth_perm h5, atDepth_perm h4, atDepth_cons, atDepth_cons]
    have e := hlen old (h4.mem_iff.2 (by simp)) hs
    have : (combine old n).path.length = old.path.length := by
      rcases (combine_facts old n).2 with h | h
      · rw [h.2.1, e]
      · rw [h.2.1]
    rw [this]; omega

end Verif.Bar
