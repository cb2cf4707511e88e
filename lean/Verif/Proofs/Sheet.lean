import Verif.Proofs.Readers
import Verif.Spec.Sheet
/-! Rows of any length. -/
set_option autoImplicit false

namespace Verif.Read
open Text Files

theorem lies_append {α : Type} {n p : Nat} {done : List (List α)} {vs : List α} {v : α} :
    Lies n (done ++ [vs]) p v ↔ (n * done.length ≤ p ∧ vs[p - n * done.length]? = some v) ∨ ((n * done.length ≤ p → vs[p - n * done.length]? = none) ∧ Lies n done p v) := by
  constructor
  · rintro ⟨i, r, h1, h2, h3, h4⟩
    rcases Nat.lt_trichotomy i done.length with h | h | h
    · rw [List.getElem?_append_left h] at h1
      refine Or.inr ⟨fun hp => h4 done.length vs h (by simp) hp, i, r, h1, h2, h3, fun j r' hj hr hp => h4 j r' hj ?_ hp⟩
      have : j < done.length := (List.getElem?_eq_some_iff.1 hr).1
      rw [List.getElem?_append_left this]; exact hr
    · subst h
      simp at h1
      subst h1
      exact Or.inl ⟨h2, h3⟩
    · have : (done ++ [vs])[i]? = none := by simp; omega
      rw [this] at h1; cases h1
  · rintro (⟨h1, h2⟩ | ⟨h1, i, r, h2, h3, h4, h5⟩)
    · refine ⟨done.length, vs, by simp, h1, h2, fun j r' hj hr _ => ?_⟩
      have : (done ++ [vs])[j]? = none := by simp; omega
      rw [this] at hr; cases hr
    · have hi : i < done.length := (List.getElem?_eq_some_iff.1 h2).1
      refine ⟨i, r, by rw [List.getElem?_append_left hi]; exact h2, h3, h4, fun j r' hj hr hp => ?_⟩
      rcases Nat.lt_trichotomy j done.length with h | h | h
      · rw [List.getElem?_append_left h] at hr
        exact h5 j r' hj hr hp
      · subst h
        simp at hr
        subst hr
        exact h1 hp
      · have : (done ++ [vs])[j]? = none := by simp; omega
        rw [this] at hr; cases hr

theorem sheet_nil {α : Type} [Inhabited α] (n : Nat) : Sheet n ([] : List (List α)) fun _ _ => default := by
  intro a b _ _
  refine Or.inr ⟨?_, rfl⟩
  rintro v ⟨i, r, h, _⟩
  simp at h

theorem sheet_step {α : Type} [Inhabited α] {n : Nat} {done : List (List α)} {vs : List α} {m m' : Nat → Nat → α} (h : Sheet n done m) (h' : setCells n m done.length vs = some m') :
    Sheet n (done ++ [vs]) m' := by
  unfold setCells at h'
  split at h'
  · cases h'
    intro a b ha hb
    beta_reduce
    by_cases hc : n * done.length ≤ n * a + b ∧ n * a + b < n * done.length + vs.length
    · refine Or.inl (lies_append.2 (Or.inl ⟨hc.1, ?_⟩))
      rw [if_pos ⟨hb, hc⟩]
      have : n * a + b - n * done.length < vs.length := by omega
      simp [List.getD, List.getElem?_eq_getElem this]
    · rw [if_neg (fun h => hc h.2)]
      have hnone : n * done.length ≤ n * a + b → vs[n * a + b - n * done.length]? = none := by
        intro hp
        simp
        omega
      rcases h a b ha hb with h | ⟨h1, h2⟩
      · exact Or.inl (lies_append.2 (Or.inr ⟨hnone, h⟩))
      · refine Or.inr ⟨fun v hv => ?_, h2⟩
        rcases lies_append.1 hv with ⟨k1, k2⟩ | ⟨_, k⟩
        · rw [hnone k1] at k2; cases k2
        · exact h1 v k
  · cases h'

theorem setCells_some {α : Type} [Inhabited α] {n i : Nat} {m : Nat → Nat → α} {vs : List α} : (∃ m', setCells n m i vs = some m') ↔ n * i + vs.length ≤ n * n := by
  unfold setCells
  split <;> simp_all

theorem inside_cons {α : Type} {n : Nat} {done rows : List (List α)} {vs : List α} (h : Inside n (done ++ vs :: rows)) : n * done.length + vs.length ≤ n * n :=
  h done.length vs (by simp)

theorem Srflp.rows_sheet {n : Nat} {lens : List Int} {tf : List (List (List Char))} {flows : List (List Int)} (h : List.Forall₂ (List.Forall₂ Signed) tf flows) :
    ∀ (done : List (List Int)) (m : Nat → Nat → Int), Sheet n done m → Inside n done → done.length + flows.length ≤ n → (∀ r ∈ flows, ∀ z ∈ r, Fits z) →
      (Inside n (done ++ flows) → ∃ m', Sheet n (done ++ flows) m' ∧ Srflp.rows ⟨2 + done.length, n, lens, m⟩ tf = some ⟨2 + (done.length + flows.length), n, lens, m'⟩) ∧
      (¬ Inside n (done ++ flows) → Srflp.rows ⟨2 + done.length, n, lens, m⟩ tf = none) := by
  induction h with
  | nil =>
    intro done m hs hi _ _
    rw [List.append_nil]
    exact ⟨fun _ => ⟨m, hs, by simp [Srflp.rows]⟩, fun h => absurd hi h⟩
  | @cons t vs tf flows h _ ih =>
    intro done m hs hi h1 h2
    simp only [List.length_cons] at h1
    have e : (2 + done.length) - 2 = done.length := by omega
    rw [Srflp.rows, Srflp.row.eq_def, if_neg (by simp), if_neg (by simp; omega), if_pos (by simp; omega), parseAll_id (ok := Fits) (fun w z hw hz => parseInt_of hw hz.1 hz.2) h (h2 vs (by simp))]
    simp only [Option.bind_some, e]
    by_cases hv : n * done.length + vs.length ≤ n * n
    · obtain ⟨m1, hm⟩ := setCells_some (m := m).2 hv
      have hi' : Inside n (done ++ [vs]) := by
        intro i r hr
        rcases Nat.lt_trichotomy i done.length with h | h | h
        · rw [List.getElem?_append_left h] at hr; exact hi i r hr
        · subst h; simp at hr; subst hr; exact hv
        · have : (done ++ [vs])[i]? = none := by simp; omega
          rw [this] at hr; cases hr
      have := ih (done ++ [vs]) m1 (sheet_step hs hm) hi' (by simp; omega) fun r hr => h2 r (by simp [hr])
      simp only [List.length_append, List.length_singleton, List.append_assoc, List.singleton_append] at this
      rw [hm]
      simp only [Option.map_some, Option.bind_some, List.length_cons]
      rw [show 2 + (done.length + (flows.length + 1)) = 2 + (done.length + 1 + flows.length) by omega]
      exact this
    · have hn : setCells n m done.length vs = none := by
        unfold setCells; rw [if_neg hv]
      rw [hn]
      exact ⟨fun hI => absurd (inside_cons hI) hv, fun _ => rfl⟩

theorem Tsptw.rows_sheet {n : Nat} {ws : List (Nat × Nat)} {td : List (List (List Char))} {dist : List (List (Nat × Nat))} (h : List.Forall₂ (List.Forall₂ IsDecimal) td dist) (hn : n < u16Max) :
    ∀ (done : List (List Nat)) (m : Nat → Nat → Nat), Sheet n done m → Inside n done → done.length + dist.length ≤ n →
      (Inside n (done ++ dist.map (·.map read)) → ∃ m', Sheet n (done ++ dist.map (·.map read)) m' ∧
        Tsptw.rows ⟨1 + done.length, n, m, ws⟩ td = some ⟨1 + (done.length + dist.length), n, m', ws⟩) ∧
      (¬ Inside n (done ++ dist.map (·.map read)) → Tsptw.rows ⟨1 + done.length, n, m, ws⟩ td = none) := by
  induction h with
  | nil =>
    intro done m hs hi _
    rw [List.map_nil, List.append_nil]
    exact ⟨fun _ => ⟨m, hs, by simp [Tsptw.rows]⟩, fun h => absurd hi h⟩
  | @cons t vs td dist h _ ih =>
    intro done m hs hi h1
    simp only [List.length_cons] at h1
    have e : (1 + done.length) - 1 = done.length := by omega
    rw [Tsptw.rows, Tsptw.row, Tsptw.content'.eq_def, if_neg (by simp), if_pos (by simp; omega), parseAll_of (ok := fun _ => True) (fun w z hw _ => number_of hw) h (fun _ _ => trivial)]
    simp only [Option.bind_some, e]
    by_cases hv : n * done.length + (vs.map read).length ≤ n * n
    · obtain ⟨m1, hm⟩ := setCells_some (m := m).2 hv
      have hi' : Inside n (done ++ [vs.map read]) := by
        intro i r hr
        rcases Nat.lt_trichotomy i done.length with h | h | h
        · rw [List.getElem?_append_left h] at hr; exact hi i r hr
        · subst h; simp at hr; subst hr; exact hv
        · have : (done ++ [vs.map read])[i]? = none := by simp; omega
          rw [this] at hr; cases hr
      have := ih (done ++ [vs.map read]) m1 (sheet_step hs hm) hi' (by simp; omega)
      simp only [List.length_append, List.length_singleton, List.append_assoc, List.singleton_append] at this
      rw [hm]
      simp only [Option.map_some, Option.bind_some, List.length_cons, List.map_cons, if_pos (show 1 + done.length + 1 ≤ u16Max by omega)]
      rw [show 1 + (done.length + (dist.length + 1)) = 1 + (done.length + 1 + dist.length) by omega]
      exact this
    · have hn : setCells n m done.length (vs.map read) = none := by
        unfold setCells; rw [if_neg hv]
      rw [hn]
      exact ⟨fun hI => absurd (inside_cons (rows := dist.map (·.map read)) (by simpa using hI)) hv, fun _ => rfl⟩

/-- Complete rows overwrite what came before. -/
theorem sheet_full {α : Type} [Inhabited α] {n : Nat} {rows : List (List α)} {m : Nat → Nat → α} (h : Sheet n rows m) (hl : rows.length = n) (hr : ∀ r ∈ rows, n ≤ r.length) {a b : Nat}
    (ha : a < n) (hb : b < n) : m a b = entry rows a b := by
  have hlen : a < rows.length := by omega
  have hmem : rows[a]? = some rows[a] := List.getElem?_eq_getElem hlen
  have hle := hr _ (List.getElem_mem hlen)
  have hval : rows[a][b]? = some (entry rows a b) := by
    unfold entry
    simp [List.getD, hmem, List.getElem?_eq_getElem (show b < rows[a].length by omega)]
  have key : Lies n rows (n * a + b) (entry rows a b) := by
    refine ⟨a, _, hmem, by omega, by rw [Nat.add_sub_cancel_left]; exact hval, fun j r' hj _ hp => ?_⟩
    have : n * (a + 1) ≤ n * j := Nat.mul_le_mul_left n hj
    have : n * (a + 1) = n * a + n := Nat.mul_succ n a
    omega
  rcases h a b ha hb with ⟨i, r, h1, h2, h3, h4⟩ | ⟨h1, _⟩
  · rcases Nat.lt_trichotomy i a with h | h | h
    · have := h4 a _ h hmem (by omega)
      rw [Nat.add_sub_cancel_left, hval] at this; cases this
    · subst h
      rw [hmem] at h1; cases h1
      rw [Nat.add_sub_cancel_left, hval] at h3
      exact (Option.some.inj h3).symm
    · have : n * (a + 1) ≤ n * i := Nat.mul_le_mul_left n h
      have : n * (a + 1) = n * a + n := Nat.mul_succ n a
      omega
  · exact absurd key (h1 _)

end Verif.Read
