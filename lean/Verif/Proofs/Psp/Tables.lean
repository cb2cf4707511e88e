import Verif.Spec.Psp
/-! The tables of previous deadlines and of remaining demands. -/
set_option autoImplicit false

namespace Verif.Psp
variable {I : Inst}

/-- Number of periods before `p` in which there is a demand -/
def cnt (D : Nat → Nat) (p : Nat) : Nat := (List.range p).countP fun t => decide (0 < D t)

/-- The last period before `p` in which there is a demand, or -1 -/
def lastBefore (D : Nat → Nat) : Nat → Int
  | 0 => -1
  | p + 1 => if 0 < D p then (p : Int) else lastBefore D p

/-- -1 or a period with a demand -/
def Deadline (n : Nat) (D : Nat → Nat) (u : Int) : Prop := u = -1 ∨ ∃ t : Nat, u = t ∧ t < n ∧ 0 < D t

theorem cnt_zero (D : Nat → Nat) : cnt D 0 = 0 := rfl

theorem cnt_succ (D : Nat → Nat) (p : Nat) : cnt D (p + 1) = cnt D p + if 0 < D p then 1 else 0 := by
  unfold cnt
  rw [List.range_succ, List.countP_append, List.countP_cons, List.countP_nil]
  simp

theorem cnt_mono (D : Nat → Nat) {p q : Nat} (h : p ≤ q) : cnt D p ≤ cnt D q := by
  induction h with
  | refl => exact Nat.le_refl _
  | step _ ih => rw [cnt_succ]; omega

theorem lastBefore_spec (D : Nat → Nat) (p : Nat) : -1 ≤ lastBefore D p ∧ lastBefore D p < p ∧ cnt D (lastBefore D p + 1).toNat = cnt D p := by
  induction p with
  | zero => exact ⟨by simp [lastBefore], by simp [lastBefore], by simp [lastBefore, cnt]⟩
  | succ p ih =>
    unfold lastBefore
    rw [cnt_succ]
    by_cases h : 0 < D p
    · rw [if_pos h, if_pos h]
      refine ⟨by omega, by omega, ?_⟩
      have : ((p : Int) + 1).toNat = p + 1 := by omega
      rw [this, cnt_succ, if_pos h]
    · rw [if_neg h, if_neg h]
      obtain ⟨h1, h2, h3⟩ := ih
      exact ⟨h1, by omega, by rw [h3]; rfl⟩

theorem lastBefore_deadline {n : Nat} (D : Nat → Nat) {p : Nat} (h : p ≤ n) : Deadline n D (lastBefore D p) := by
  induction p with
  | zero => exact Or.inl rfl
  | succ p ih =>
    unfold lastBefore
    by_cases hp : 0 < D p
    · rw [if_pos hp]; exact Or.inr ⟨p, rfl, h, hp⟩
    · rw [if_neg hp]; exact ih (by omega)

/-- It is the last one. -/
theorem lastBefore_last (D : Nat → Nat) {p t : Nat} (h : t < p) (hd : 0 < D t) : (t : Int) ≤ lastBefore D p := by
  induction p with
  | zero => omega
  | succ p ih =>
    unfold lastBefore
    by_cases hp : 0 < D p
    · rw [if_pos hp]; omega
    · rw [if_neg hp]
      refine ih ?_
      rcases Nat.lt_or_ge t p with h' | h'
      · exact h'
      · have : t = p := by omega
        exact absurd (this ▸ hd) hp

theorem row_fold (n : Nat) (D : Nat → Nat) {p : Nat} (hp : p ≤ n) (hn : 1 ≤ n) :
    (List.range p).foldl (fun (r : Row) q => r.read n q (D q)) ⟨-1, [], []⟩ =
      (⟨lastBefore D p, (List.range p).map (lastBefore D) ++ (if p = n then [lastBefore D n] else []), (List.range p).map fun q => ((cnt D (q + 1) : Nat) : Int)⟩ : Row) := by
  induction p with
  | zero =>
    have : ¬ 0 = n := by omega
    simp [lastBefore, this]
  | succ p ih =>
    rw [List.range_succ, List.foldl_append, ih (by omega)]
    have hpn : ¬ p = n := by omega
    simp only [List.foldl_cons, List.foldl_nil, Row.read, if_neg hpn, List.append_nil, List.map_append, List.map_cons, List.map_nil]
    have h1 : (if 0 < p then ((List.range p).map fun q => ((cnt D (q + 1) : Nat) : Int)).getD (p - 1) 0 else 0) = ((cnt D p : Nat) : Int) := by
      by_cases h : 0 < p
      · rw [if_pos h, List.getD_eq_getElem?_getD, List.getElem?_map, List.getElem?_range (by omega)]
        have : p - 1 + 1 = p := by omega
        simp [this]
      · have : p = 0 := by omega
        subst this
        rw [if_neg h]; simp [cnt]
    rw [h1]
    congr 1
    · by_cases h : p = n - 1
      · have : p + 1 = n := by omega
        subst this
        rw [if_pos rfl, if_pos (by omega)]
        rfl
      · have : ¬ p + 1 = n := by omega
        rw [if_neg h, if_neg this]; simp
    · rw [cnt_succ]
      congr 2
      by_cases h : 0 < D p
      · rw [if_pos h, if_pos h]; simp
      · rw [if_neg h, if_neg h]; simp

theorem prevDemand_eq (hn : 1 ≤ I.periods) (i : Nat) {p : Nat} (hp : p ≤ I.periods) : prevDemand I i p = lastBefore (I.demand i) p := by
  unfold prevDemand row
  rw [row_fold _ _ (Nat.le_refl _) hn]
  simp only [if_true]
  rcases Nat.lt_or_ge p I.periods with h | h
  · rw [List.getD_eq_getElem?_getD, List.getElem?_append_left (by simpa using h), List.getElem?_map, List.getElem?_range h]
    rfl
  · have : p = I.periods := by omega
    subst this
    rw [List.getD_eq_getElem?_getD, List.getElem?_append_right (by simp)]
    simp

theorem remDemand_eq (hn : 1 ≤ I.periods) (i : Nat) {p : Nat} (hp : p < I.periods) : remDemand I i p = ((cnt (I.demand i) (p + 1) : Nat) : Int) := by
  unfold remDemand row
  rw [row_fold _ _ (Nat.le_refl _) hn]
  rw [List.getD_eq_getElem?_getD, List.getElem?_map, List.getElem?_range hp]
  rfl

/-- Units that remain to be made for `i` when the next deadline is `u` -/
def left (I : Inst) (i : Nat) (u : Int) : Nat := cnt (I.demand i) (u + 1).toNat

/-- The deadline after `u` has been met -/
def before (I : Inst) (i : Nat) (u : Int) : Int := lastBefore (I.demand i) u.toNat

theorem left_neg (i : Nat) : left I i (-1) = 0 := rfl

theorem left_mono (i : Nat) {u w : Int} (h : u ≤ w) : left I i u ≤ left I i w := cnt_mono _ (by omega)

theorem left_before {i : Nat} {u : Int} {n : Nat} (h : Deadline n (I.demand i) u) (h0 : 0 ≤ u) : left I i u = left I i (before I i u) + 1 := by
  rcases h with h | ⟨t, rfl, _, hd⟩
  · omega
  · unfold left before
    rw [(lastBefore_spec _ _).2.2]
    have : ((t : Int) + 1).toNat = t + 1 := by omega
    rw [this, cnt_succ, if_pos hd]
    rfl

theorem left_lt {i : Nat} {u w : Int} {n : Nat} (hw : Deadline n (I.demand i) w) (h : u < w) (hu : -1 ≤ u) : left I i u < left I i w := by
  rcases hw with h' | ⟨t, rfl, _, hd⟩
  · omega
  · have e : ((t : Int) + 1).toNat = t + 1 := by omega
    have h1 : left I i u ≤ cnt (I.demand i) t := cnt_mono _ (by omega)
    have h2 : left I i (t : Int) = cnt (I.demand i) t + 1 := by unfold left; rw [e, cnt_succ, if_pos hd]
    omega

theorem before_deadline {i : Nat} {u : Int} {n : Nat} (h : Deadline n (I.demand i) u) : Deadline n (I.demand i) (before I i u) := by
  unfold before
  rcases h with h | ⟨t, rfl, ht, _⟩
  · subst h; exact Or.inl rfl
  · exact lastBefore_deadline _ (by simpa using Nat.le_of_lt ht)

theorem before_lt {i : Nat} {u : Int} (h : 0 ≤ u) : before I i u < u := by
  have := (lastBefore_spec (I.demand i) u.toNat).2.1
  unfold before; omega

/-- Earlier deadlines come no later than the one before. -/
theorem le_before {i : Nat} {u w : Int} {n : Nat} (hu : Deadline n (I.demand i) u) (h : u < w) : u ≤ before I i w := by
  unfold before
  rcases hu with rfl | ⟨t, rfl, _, hd⟩
  · exact (lastBefore_spec _ _).1
  · exact lastBefore_last _ (by omega) hd

theorem before_mono {i : Nat} {u w : Int} {n : Nat} (hu : Deadline n (I.demand i) u) (h : u ≤ w) : before I i u ≤ before I i w := by
  rcases hu with rfl | ⟨t, rfl, ht, hd⟩
  · exact (lastBefore_spec _ _).1
  · exact le_before (n := n) (before_deadline (Or.inr ⟨t, rfl, ht, hd⟩)) (Int.lt_of_lt_of_le (before_lt (by omega)) h)

theorem Deadline.ge {n : Nat} {D : Nat → Nat} {u : Int} (h : Deadline n D u) : -1 ≤ u := by
  rcases h with rfl | ⟨t, rfl, _⟩ <;> omega

theorem Deadline.lt {n : Nat} {D : Nat → Nat} {u : Int} (h : Deadline n D u) (hn : 1 ≤ n) : u < n := by
  rcases h with rfl | ⟨t, rfl, _⟩ <;> omega

end Verif.Psp
