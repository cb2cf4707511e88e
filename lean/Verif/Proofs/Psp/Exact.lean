import Verif.Proofs.Psp.Tables
import Verif.Spec.Problem
/-! Completions of a state are plans for the remaining periods. -/
set_option autoImplicit false

namespace Verif.Psp
open Verif Spec
variable {I : Inst} {σ : List Edge → List Edge}

/-! ### Sums -/

/-- A sum over the items -/
def total (m : Nat) (g : Nat → Nat) : Nat := ((List.range m).map g).sum

theorem total_succ (m : Nat) (g : Nat → Nat) : total (m + 1) g = total m g + g m := by
  simp [total, List.range_succ]

theorem total_congr {m : Nat} {g h : Nat → Nat} (e : ∀ i, i < m → g i = h i) : total m g = total m h := by
  unfold total
  congr 1
  exact List.map_congr_left fun i hi => e i (List.mem_range.1 hi)

theorem total_mono {m : Nat} {g h : Nat → Nat} (e : ∀ i, i < m → g i ≤ h i) : total m g ≤ total m h := by
  induction m with
  | zero => exact Nat.le_refl _
  | succ m ih =>
    rw [total_succ, total_succ]
    have := ih fun i hi => e i (by omega)
    have := e m (by omega)
    omega

/-- Two sums that differ in one place -/
theorem total_update {m i : Nat} (hi : i < m) {g h : Nat → Nat} (e : ∀ j, j < m → j ≠ i → g j = h j) : total m g + h i = total m h + g i := by
  induction m with
  | zero => omega
  | succ m ih =>
    rw [total_succ, total_succ]
    by_cases him : i = m
    · subst him
      have := total_congr (m := i) (g := g) (h := h) fun j hj => e j (by omega) (by omega)
      omega
    · have h1 := ih (by omega) fun j hj hne => e j (by omega) hne
      have h2 := e m (by omega) (fun h => him h.symm)
      omega

theorem total_lt {m : Nat} {g h : Nat → Nat} (e : ∀ i, i < m → g i ≤ h i) {i : Nat} (hi : i < m) (hl : g i < h i) : total m g < total m h := by
  have h1 := total_update hi (g := fun j => if j = i then h i else g j) (h := g) (by intro j _ hne; simp [hne])
  have h2 : total m (fun j => if j = i then h i else g j) ≤ total m h := by
    refine total_mono fun j hj => ?_
    by_cases hj' : j = i
    · subst hj'; simp
    · simp [hj', e j hj]
  simp only [if_true] at h1
  omega

theorem total_zero {m : Nat} {g : Nat → Nat} (h : total m g = 0) {i : Nat} (hi : i < m) : g i = 0 := by
  induction m with
  | zero => omega
  | succ m ih =>
    rw [total_succ] at h
    by_cases him : i = m
    · subst him; omega
    · exact ih (by omega) (by omega)

/-! ### States -/

variable (I) in
/-- What is true of all states, merged ones included. -/
structure Ok (s : State) : Prop where
  time : s.time ≤ I.periods
  len : s.u.length = I.items
  k : s.k = -1 ∨ ∃ j : Nat, j < I.items ∧ s.k = j
  deadline : ∀ i, i < I.items → Deadline I.periods (I.demand i) (s.at i)

theorem remaining_eq (hn : 1 ≤ I.periods) {s : State} (h : Ok I s) : remaining I s = total I.items fun i => left I i (s.at i) := by
  refine total_congr fun i hi => ?_
  have hd := h.deadline i hi
  rcases hd with hd | ⟨t, hd, ht, _⟩
  · simp only [hd, left_neg]; rfl
  · have : ¬ (t : Int) < 0 := by omega
    simp only [hd, if_neg this, Int.toNat_natCast, remDemand_eq hn i ht]
    have e : ((t : Int) + 1).toNat = t + 1 := by omega
    unfold left
    rw [e]

theorem mem_dom {x : Nat} {s : State} {d : Decision} : d ∈ dom I x s ↔
    remaining I s ≤ x + 1 ∧ ((∃ i : Nat, i < I.items ∧ (x : Int) ≤ s.at i ∧ d = ⟨x, i⟩) ∨ (remaining I s < x + 1 ∧ d = ⟨x, -1⟩)) := by
  unfold dom
  split
  · rename_i h
    simp only [List.not_mem_nil, false_iff]
    intro ⟨h1, _⟩; omega
  · rename_i h
    simp only [List.mem_append, List.mem_map, List.mem_filter, List.mem_range, decide_eq_true_eq]
    constructor
    · rintro (⟨i, ⟨h1, h2⟩, rfl⟩ | h1)
      · exact ⟨by omega, Or.inl ⟨i, h1, h2, rfl⟩⟩
      · split at h1
        · rename_i h2
          simp only [List.mem_singleton] at h1
          exact ⟨by omega, Or.inr ⟨h2, h1⟩⟩
        · cases h1
    · rintro ⟨_, ⟨i, h1, h2, rfl⟩ | ⟨h1, rfl⟩⟩
      · exact Or.inl ⟨i, ⟨h1, h2⟩, rfl⟩
      · right; rw [if_pos h1]; simp

theorem nextVar_some {s : State} {x : Nat} (h : nextVar [s] = some x) : s.time = x + 1 := by
  simp only [nextVar] at h
  split at h
  · cases h; omega
  · cases h

theorem nextVar_none {s : State} (h : nextVar [s] = none) : s.time = 0 := by
  simp only [nextVar] at h
  split at h
  · cases h
  · omega

theorem nextVar_succ {s : State} {x : Nat} (h : s.time = x + 1) : nextVar [s] = some x := by
  simp [nextVar, h]

theorem nextVar_zero {s : State} (h : s.time = 0) : nextVar [s] = none := by
  simp [nextVar, h]

theorem natCast_ne_neg_one (i : Nat) : ¬ (i : Int) = -1 := by omega

theorem trans_idle (s : State) (x : Nat) : trans I s ⟨x, -1⟩ = { s with time := s.time - 1 } := rfl

theorem trans_time (s : State) (d : Decision) : (trans I s d).time = s.time - 1 := by
  unfold trans; split <;> rfl

theorem trans_item (s : State) (x i : Nat) : trans I s ⟨x, (i : Int)⟩ = ⟨s.time - 1, (i : Int), s.u.set i (prevDemand I i (s.at i).toNat)⟩ := by
  unfold trans
  rw [if_neg (natCast_ne_neg_one i)]
  rfl

theorem trans_at (hn : 1 ≤ I.periods) {s : State} (h : Ok I s) {x i : Nat} (hi : i < I.items) (j : Nat) :
    (trans I s ⟨x, (i : Int)⟩).at j = if j = i then before I i (s.at i) else s.at j := by
  rw [trans_item]
  unfold State.at
  simp only [List.getD_eq_getElem?_getD, List.getElem?_set]
  by_cases hj : j = i
  · subst hj
    have hlen : j < s.u.length := by rw [h.len]; exact hi
    simp only [if_true, hlen]
    rw [Option.getD_some]
    have hd := h.deadline j hi
    have := hd.lt hn
    have e : s.at j = s.u[j]?.getD (-1) := by unfold State.at; rw [List.getD_eq_getElem?_getD]
    rw [← e, prevDemand_eq hn j (by omega)]
    rfl
  · have hj' : ¬ i = j := fun h => hj h.symm
    simp [hj, hj']

theorem Ok.trans (hn : 1 ≤ I.periods) {s : State} (h : Ok I s) {x : Nat} {d : Decision} (hd : d ∈ dom I x s) : Ok I (trans I s d) := by
  rcases (mem_dom.1 hd).2 with ⟨i, hi, _, rfl⟩ | ⟨_, rfl⟩
  · refine ⟨?_, ?_, ?_, ?_⟩
    · rw [trans_time]; have := h.time; omega
    · rw [trans_item]; simp [h.len]
    · rw [trans_item]; exact Or.inr ⟨i, hi, rfl⟩
    · intro j hj
      rw [trans_at hn h hi]
      split
      · rename_i e; subst e; exact before_deadline (h.deadline j hi)
      · exact h.deadline j hj
  · rw [trans_idle]
    exact ⟨by have := h.time; simp only; omega, h.len, h.k, h.deadline⟩

theorem ok_init (hn : 1 ≤ I.periods) : Ok I (initial I) where
  time := Nat.le_refl _
  len := by simp [initial]
  k := Or.inl rfl
  deadline := by
    intro i hi
    have : (initial I).at i = lastBefore (I.demand i) I.periods := by
      unfold State.at initial
      rw [List.getD_eq_getElem?_getD, List.getElem?_map, List.getElem?_range hi]
      exact prevDemand_eq hn i (Nat.le_refl _)
    rw [this]
    exact lastBefore_deadline _ (Nat.le_refl _)

theorem init_at (hn : 1 ≤ I.periods) {i : Nat} (hi : i < I.items) : (initial I).at i = lastBefore (I.demand i) I.periods := by
  unfold State.at initial
  rw [List.getD_eq_getElem?_getD, List.getElem?_map, List.getElem?_range hi]
  exact prevDemand_eq hn i (Nat.le_refl _)

/-- One unit less remains after a unit is made. -/
theorem remaining_item (hn : 1 ≤ I.periods) {s : State} (h : Ok I s) {x i : Nat} (hi : i < I.items) (h0 : 0 ≤ s.at i) :
    remaining I s = remaining I (trans I s ⟨x, (i : Int)⟩) + 1 := by
  have hok : Ok I (trans I s ⟨s.time - 1, (i : Int)⟩) := by
    refine ⟨?_, ?_, ?_, ?_⟩
    · rw [trans_time]; have := h.time; omega
    · rw [trans_item]; simp [h.len]
    · rw [trans_item]; exact Or.inr ⟨i, hi, rfl⟩
    · intro j hj
      rw [trans_at hn h hi]
      split
      · rename_i e; subst e; exact before_deadline (h.deadline j hi)
      · exact h.deadline j hj
  have hok : Ok I (trans I s ⟨x, (i : Int)⟩) := by rw [trans_item] at hok ⊢; exact hok
  rw [remaining_eq hn h, remaining_eq hn hok]
  have h1 := total_update hi (g := fun j => left I j (s.at j)) (h := fun j => left I j ((trans I s ⟨x, (i : Int)⟩).at j))
    (by intro j _ hne; simp only [trans_at hn h hi, if_neg hne])
  have h2 := left_before (h.deadline i hi) h0
  simp only [trans_at hn h hi, if_true] at h1
  simp only [trans_at hn h hi]
  omega

theorem remaining_idle (s : State) (x : Nat) : remaining I (trans I s ⟨x, -1⟩) = remaining I s := rfl

/-! ### Plans -/

theorem made_succ (f : Plan) (i p : Nat) : made f i (p + 1) = made f i p + if f p = some i then 1 else 0 := by
  unfold made
  rw [List.range_succ, List.countP_append, List.countP_cons, List.countP_nil]
  simp

theorem made_zero (f : Plan) (i : Nat) : made f i 0 = 0 := rfl

/-- At most one unit is made per period. -/
theorem total_made (m : Nat) (f : Plan) (p : Nat) : total m (fun i => made f i p) ≤ p := by
  induction p with
  | zero =>
    have : total m (fun i => made f i 0) = total m fun _ => 0 := total_congr fun i _ => rfl
    rw [this]
    clear this
    induction m with
    | zero => exact Nat.le_refl _
    | succ m ih => rw [total_succ]; omega
  | succ p ih =>
    by_cases h : ∃ i, i < m ∧ f p = some i
    · obtain ⟨i, hi, hf⟩ := h
      have h1 := total_update hi (g := fun j => made f j (p + 1)) (h := fun j => made f j p) (by
        intro j _ hne
        simp only [made_succ, hf]
        rw [if_neg (by intro h; cases h; exact hne rfl)]; rfl)
      simp only [made_succ f i p, hf, if_true] at h1
      omega
    · have : total m (fun i => made f i (p + 1)) = total m fun i => made f i p := by
        refine total_congr fun i hi => ?_
        rw [made_succ, if_neg (fun hf => h ⟨i, hi, hf⟩)]; rfl
      omega

/-- Plans for the periods before `s.time` that meet the demands `s` leaves. -/
structure From (I : Inst) (s : State) (f : Plan) : Prop where
  item : ∀ t, t < s.time → ∀ i, f t = some i → i < I.items
  total : ∀ i, i < I.items → made f i s.time = left I i (s.at i)
  inTime : ∀ i, i < I.items → ∀ p, p ≤ s.time → min (cnt (I.demand i) p) (left I i (s.at i)) ≤ made f i p

/-- The sum of the periods with a demand before `p` -/
def dueSum (D : Nat → Nat) (p : Nat) : Nat := total p fun t => if 0 < D t then t else 0

/-- The sum of the periods before `p` in which `i` is made -/
def madeSum (f : Plan) (i p : Nat) : Nat := total p fun t => if f t = some i then t else 0

/-- The deadlines that remain for `i`, added up -/
def deadlines (I : Inst) (i : Nat) (u : Int) : Nat := dueSum (I.demand i) (u + 1).toNat

theorem madeSum_succ (f : Plan) (i p : Nat) : madeSum f i (p + 1) = madeSum f i p + if f p = some i then p else 0 := total_succ _ _

theorem dueSum_succ (D : Nat → Nat) (p : Nat) : dueSum D (p + 1) = dueSum D p + if 0 < D p then p else 0 := total_succ _ _

theorem dueSum_lastBefore (D : Nat → Nat) (p : Nat) : dueSum D (lastBefore D p + 1).toNat = dueSum D p := by
  induction p with
  | zero => rfl
  | succ p ih =>
    unfold lastBefore
    rw [dueSum_succ]
    by_cases h : 0 < D p
    · rw [if_pos h, if_pos h]
      have : ((p : Int) + 1).toNat = p + 1 := by omega
      rw [this, dueSum_succ, if_pos h]
    · rw [if_neg h, if_neg h, ih]; rfl

theorem deadlines_before {i : Nat} {u : Int} {n : Nat} (h : Deadline n (I.demand i) u) (h0 : 0 ≤ u) : deadlines I i u = deadlines I i (before I i u) + u.toNat := by
  rcases h with h | ⟨t, rfl, _, hd⟩
  · omega
  · unfold deadlines before
    rw [dueSum_lastBefore]
    have : ((t : Int) + 1).toNat = t + 1 := by omega
    rw [this, dueSum_succ, if_pos hd]
    rfl

/-- Stocking costs of the units that remain -/
def stockFrom (I : Inst) (s : State) (f : Plan) : Nat := total I.items fun i => I.stocking i * (deadlines I i (s.at i) - madeSum f i s.time)

/-- The items in the order in which they are made, the one that follows included -/
def sequence (s : State) (f : Plan) : List Nat := (List.range s.time).filterMap f ++ if s.k = -1 then [] else [s.k.toNat]

theorem chain_snoc (I : Inst) : ∀ (l : List Nat) (a b : Nat), chain I (l ++ [a] ++ [b]) = chain I (l ++ [a]) + I.changeover a b
  | [], a, b => by simp [chain]
  | [c], a, b => by simp [chain]
  | c :: d :: l, a, b => by
    have := chain_snoc I (d :: l) a b
    simp only [List.cons_append, chain] at this ⊢
    omega

theorem chain_singleton (I : Inst) (a : Nat) : chain I [a] = 0 := rfl

/-- No more can have been made too late than there is: the periods in which `i` is made do not exceed the deadlines. -/
theorem From.sum_le {f : Plan} {i : Nat} {u : Int} {n p : Nat} (hu : Deadline n (I.demand i) u) (h : made f i p = left I i u)
    (ht : ∀ q, q ≤ p → min (cnt (I.demand i) q) (left I i u) ≤ made f i q) : madeSum f i p ≤ deadlines I i u := by
  induction p generalizing u with
  | zero => exact Nat.zero_le _
  | succ p ih =>
    rw [made_succ] at h
    rw [madeSum_succ]
    by_cases hf : f p = some i
    · rw [if_pos hf] at h ⊢
      have h0 : 0 ≤ u := by
        rcases hu with hu | ⟨t, rfl, _⟩
        · subst hu; rw [left_neg] at h; omega
        · omega
      have hl := left_before hu h0
      have hp : (p : Int) ≤ u := by
        have := ht p (by omega)
        rcases Int.lt_or_le u p with hlt | hge
        · have : left I i u ≤ cnt (I.demand i) p := cnt_mono _ (by omega)
          omega
        · exact hge
      have hcnt : ∀ q, q ≤ p → cnt (I.demand i) q ≤ left I i (before I i u) := by
        intro q hq
        unfold left before
        rw [(lastBefore_spec _ _).2.2]
        exact cnt_mono _ (by omega)
      have := ih (before_deadline hu) (by omega) (by
        intro q hq
        have h1 := ht q (by omega)
        have h2 := hcnt q hq
        omega)
      rw [deadlines_before hu h0]
      omega
    · rw [if_neg hf] at h ⊢
      exact ih hu h fun q hq => ht q (by omega)

/-- Making `i` in the last of the remaining periods -/
theorem from_item (hn : 1 ≤ I.periods) {s : State} (h : Ok I s) {t i : Nat} (ht : s.time = t + 1) (hi : i < I.items) {f : Plan} (hf : f t = some i) :
    From I s f ↔ (t : Int) ≤ s.at i ∧ From I (trans I s ⟨t, (i : Int)⟩) f := by
  have htime : (trans I s ⟨t, (i : Int)⟩).time = t := by rw [trans_time]; omega
  have hat := trans_at hn h (x := t) hi
  constructor
  · intro hF
    have hmade := hF.total i hi
    rw [ht, made_succ, if_pos hf] at hmade
    have hd := h.deadline i hi
    have h0 : 0 ≤ s.at i := by
      rcases hd with hu | ⟨t, hu, _⟩
      · rw [hu, left_neg] at hmade; omega
      · omega
    have hl := left_before hd h0
    have hp : (t : Int) ≤ s.at i := by
      have := hF.inTime i hi t (by omega)
      rcases Int.lt_or_le (s.at i) t with hlt | hge
      · have : left I i (s.at i) ≤ cnt (I.demand i) t := cnt_mono _ (by omega)
        omega
      · exact hge
    have hcnt : ∀ q, q ≤ t → cnt (I.demand i) q ≤ left I i (before I i (s.at i)) := by
      intro q hq
      unfold left before
      rw [(lastBefore_spec _ _).2.2]
      exact cnt_mono _ (by omega)
    refine ⟨hp, ⟨?_, ?_, ?_⟩⟩
    · intro q hq; rw [htime] at hq; exact hF.item q (by omega)
    · intro j hj
      rw [htime, hat]
      by_cases hji : j = i
      · subst hji; rw [if_pos rfl]; omega
      · rw [if_neg hji]
        have := hF.total j hj
        rw [ht, made_succ, hf, if_neg (by intro h; cases h; exact hji rfl)] at this
        omega
    · intro j hj q hq
      rw [htime] at hq
      rw [hat]
      have := hF.inTime j hj q (by omega)
      by_cases hji : j = i
      · subst hji; rw [if_pos rfl]
        have := hcnt q hq
        omega
      · rw [if_neg hji]; exact this
  · rintro ⟨hp, hF⟩
    have hd := h.deadline i hi
    have h0 : 0 ≤ s.at i := by omega
    have hl := left_before hd h0
    have hcnt : ∀ q, q ≤ t → cnt (I.demand i) q ≤ left I i (before I i (s.at i)) := by
      intro q hq
      unfold left before
      rw [(lastBefore_spec _ _).2.2]
      exact cnt_mono _ (by omega)
    have htot : ∀ j, j < I.items → made f j s.time = left I j (s.at j) := by
      intro j hj
      have := hF.total j hj
      rw [htime, hat] at this
      rw [ht, made_succ, hf]
      by_cases hji : j = i
      · subst hji; rw [if_pos rfl] at this ⊢; omega
      · rw [if_neg hji] at this
        rw [if_neg (by intro h; cases h; exact hji rfl)]; omega
    refine ⟨?_, htot, ?_⟩
    · intro q hq j hj
      rcases Nat.lt_or_ge q t with h' | h'
      · exact hF.item q (by rw [htime]; exact h') j hj
      · have : q = t := by omega
        subst this; rw [hf] at hj; cases hj; exact hi
    · intro j hj q hq
      rcases Nat.lt_or_ge q s.time with h' | h'
      · have := hF.inTime j hj q (by rw [htime]; omega)
        rw [hat] at this
        by_cases hji : j = i
        · subst hji; rw [if_pos rfl] at this
          have := hcnt q (by omega)
          omega
        · rw [if_neg hji] at this; exact this
      · have : q = s.time := by omega
        subst this
        rw [htot j hj]; omega

/-- Leaving the machine idle in the last of the remaining periods -/
theorem from_idle {s : State} {t : Nat} (ht : s.time = t + 1) {f : Plan} (hf : f t = none) :
    From I s f ↔ From I (trans I s ⟨t, -1⟩) f := by
  have htime : (trans I s ⟨t, -1⟩).time = t := by rw [trans_time]; omega
  have hat : ∀ j, (trans I s ⟨t, -1⟩).at j = s.at j := fun _ => rfl
  constructor
  · intro hF
    refine ⟨?_, ?_, ?_⟩
    · intro q hq; rw [htime] at hq; exact hF.item q (by omega)
    · intro j hj
      rw [htime, hat]
      have := hF.total j hj
      rw [ht, made_succ, hf] at this
      simpa using this
    · intro j hj q hq
      rw [htime] at hq
      rw [hat]
      exact hF.inTime j hj q (by omega)
  · intro hF
    have htot : ∀ j, j < I.items → made f j s.time = left I j (s.at j) := by
      intro j hj
      have := hF.total j hj
      rw [htime, hat] at this
      rw [ht, made_succ, hf]
      simpa using this
    refine ⟨?_, htot, ?_⟩
    · intro q hq j hj
      rcases Nat.lt_or_ge q t with h' | h'
      · exact hF.item q (by rw [htime]; exact h') j hj
      · have : q = t := by omega
        subst this; rw [hf] at hj; cases hj
    · intro j hj q hq
      rcases Nat.lt_or_ge q s.time with h' | h'
      · exact hF.inTime j hj q (by rw [htime]; omega)
      · have : q = s.time := by omega
        subst this
        rw [htot j hj]; omega

/-- The cost of the plan that `s` leaves to make -/
def costFrom (I : Inst) (s : State) (f : Plan) : Nat := stockFrom I s f + chain I (sequence s f)

theorem stockFrom_item (hn : 1 ≤ I.periods) {s : State} (h : Ok I s) {t i : Nat} (ht : s.time = t + 1) (hi : i < I.items) {f : Plan} (hf : f t = some i) (hp : (t : Int) ≤ s.at i)
    (hF : From I (trans I s ⟨t, (i : Int)⟩) f) : stockFrom I s f = stockFrom I (trans I s ⟨t, (i : Int)⟩) f + I.stocking i * ((s.at i).toNat - t) := by
  have htime : (trans I s ⟨t, (i : Int)⟩).time = t := by rw [trans_time]; omega
  have hat := trans_at hn h (x := t) hi
  have h1 := total_update hi (g := fun j => I.stocking j * (deadlines I j (s.at j) - madeSum f j s.time))
    (h := fun j => I.stocking j * (deadlines I j ((trans I s ⟨t, (i : Int)⟩).at j) - madeSum f j (trans I s ⟨t, (i : Int)⟩).time)) (by
      intro j _ hne
      simp only [hat, if_neg hne, htime, ht, madeSum_succ, hf]
      rw [if_neg (by intro h; cases h; exact hne rfl)]; rfl)
  have h0 : 0 ≤ s.at i := by omega
  have h2 := deadlines_before (h.deadline i hi) h0
  have h3 : madeSum f i t ≤ deadlines I i (before I i (s.at i)) := by
    have h4 := hF.total i hi
    have h5 := hF.inTime i hi
    rw [htime, hat, if_pos rfl] at h4
    rw [htime, hat, if_pos rfl] at h5
    exact From.sum_le (before_deadline (h.deadline i hi)) h4 h5
  have h4 : I.stocking i * (deadlines I i (s.at i) - madeSum f i s.time) =
      I.stocking i * (deadlines I i (before I i (s.at i)) - madeSum f i t) + I.stocking i * ((s.at i).toNat - t) := by
    rw [← Nat.mul_add, ht, madeSum_succ, if_pos hf, h2]
    congr 1
    omega
  simp only [hat, if_true, htime] at h1
  unfold stockFrom
  simp only [hat, htime]
  omega

theorem chain_item {s : State} {t i : Nat} (ht : s.time = t + 1) {f : Plan} (hf : f t = some i) :
    chain I (sequence s f) = chain I (sequence (trans I s ⟨t, (i : Int)⟩) f) + if s.k = -1 then 0 else I.changeover i s.k.toNat := by
  have htime : (trans I s ⟨t, (i : Int)⟩).time = t := by rw [trans_time]; omega
  have hk : (trans I s ⟨t, (i : Int)⟩).k = i := by rw [trans_item]
  unfold sequence
  rw [htime, hk, ht, List.range_succ, List.filterMap_append]
  simp only [if_neg (natCast_ne_neg_one i), Int.toNat_natCast]
  have : List.filterMap f [t] = [i] := by simp [hf]
  rw [this]
  by_cases hk : s.k = -1
  · rw [if_pos hk, if_pos hk, List.append_nil]; rfl
  · rw [if_neg hk, if_neg hk, chain_snoc]

theorem costFrom_item (hn : 1 ≤ I.periods) {s : State} (h : Ok I s) {t i : Nat} (ht : s.time = t + 1) (hi : i < I.items) {f : Plan} (hf : f t = some i) (hp : (t : Int) ≤ s.at i)
    (hF : From I (trans I s ⟨t, (i : Int)⟩) f) : cost I s ⟨t, (i : Int)⟩ - (costFrom I (trans I s ⟨t, (i : Int)⟩) f : Int) = -(costFrom I s f : Int) := by
  have hstock := stockFrom_item hn h ht hi hf hp hF
  have hchain := chain_item (I := I) ht hf
  have hc : cost I s ⟨t, (i : Int)⟩ = -(((if s.k = -1 then 0 else I.changeover i s.k.toNat) + I.stocking i * ((s.at i).toNat - t) : Nat) : Int) := by
    unfold cost
    rw [if_neg (natCast_ne_neg_one i)]
    rfl
  rw [hc]
  unfold costFrom
  omega

theorem stockFrom_idle {s : State} {t : Nat} (ht : s.time = t + 1) {f : Plan} (hf : f t = none) : stockFrom I (trans I s ⟨t, -1⟩) f = stockFrom I s f := by
  have htime : (trans I s ⟨t, -1⟩).time = t := by rw [trans_time]; omega
  unfold stockFrom
  rw [htime, ht]
  refine total_congr fun j _ => ?_
  rw [madeSum_succ, hf]
  rfl

theorem costFrom_idle {s : State} {t : Nat} (ht : s.time = t + 1) {f : Plan} (hf : f t = none) : costFrom I (trans I s ⟨t, -1⟩) f = costFrom I s f := by
  have htime : (trans I s ⟨t, -1⟩).time = t := by rw [trans_time]; omega
  unfold costFrom
  rw [stockFrom_idle ht hf]
  unfold sequence
  rw [htime, ht, List.range_succ, List.filterMap_append]
  have : List.filterMap f [t] = [] := by simp [hf]
  rw [this, List.append_nil]
  rfl

theorem From.congr {s : State} {f g : Plan} (h : ∀ t, t < s.time → f t = g t) (hF : From I s f) : From I s g := by
  have hm : ∀ i p, p ≤ s.time → made f i p = made g i p := by
    intro i p hp
    unfold made
    refine List.countP_congr ?_
    intro t ht
    rw [List.mem_range] at ht
    rw [h t (by omega)]
  refine ⟨?_, ?_, ?_⟩
  · intro t ht i hi; exact hF.item t ht i (by rw [h t ht]; exact hi)
  · intro i hi; rw [← hm i _ (Nat.le_refl _)]; exact hF.total i hi
  · intro i hi p hp; rw [← hm i p hp]; exact hF.inTime i hi p hp

theorem costFrom_congr {s : State} {f g : Plan} (h : ∀ t, t < s.time → f t = g t) : costFrom I s f = costFrom I s g := by
  unfold costFrom stockFrom sequence
  congr 1
  · refine total_congr fun i _ => ?_
    congr 2
    exact total_congr fun t ht => by rw [h t ht]
  · congr 2
    have key : ∀ l : List Nat, (∀ t ∈ l, f t = g t) → l.filterMap f = l.filterMap g := by
      intro l
      induction l with
      | nil => intro _; rfl
      | cons a l ih =>
        intro hl
        rw [List.filterMap_cons, List.filterMap_cons, hl a (by simp), ih fun t ht => hl t (by simp [ht])]
    exact key _ fun t ht => h t (List.mem_range.1 ht)

theorem decisions_congr {f g : Plan} : ∀ (t : Nat), (∀ q, q < t → f q = g q) → decisions f t = decisions g t
  | 0, _ => rfl
  | t + 1, h => by
    unfold decisions
    rw [h t (by omega), decisions_congr t fun q hq => h q (by omega)]

/-- Nothing is left to do when all periods are decided. -/
def Empty (I : Inst) (s : State) : Prop := s.time = 0 → ∀ i, i < I.items → s.at i = -1

theorem empty_of_remaining (hn : 1 ≤ I.periods) {s : State} (h : Ok I s) (hr : remaining I s ≤ s.time) : Empty I s := by
  intro ht i hi
  rw [remaining_eq hn h] at hr
  have h0 := total_zero (m := I.items) (g := fun i => left I i (s.at i)) (by omega) hi
  have hd := h.deadline i hi
  rcases hd with hd | ⟨t, hd, ht, h1⟩
  · exact hd
  · exfalso
    have := left_before (h.deadline i hi) (by omega)
    omega

theorem empty_trans (hn : 1 ≤ I.periods) {s : State} (h : Ok I s) {x : Nat} {d : Decision} (hx : nextVar [s] = some x) (hd : d ∈ dom I x s) :
    Empty I (trans I s d) := by
  have ht := nextVar_some hx
  have hok := h.trans hn hd
  obtain ⟨h1, h2⟩ := mem_dom.1 hd
  refine empty_of_remaining hn hok ?_
  rw [trans_time]
  rcases h2 with ⟨i, hi, hp, rfl⟩ | ⟨hl, rfl⟩
  · have := remaining_item hn h (x := x) hi (by omega)
    omega
  · rw [remaining_idle]; omega

/-- Every completion is a plan. -/
theorem completion_plan (hn : 1 ≤ I.periods) {s e : State} {ds : List Decision} {v : Int} (hr : Run (problem I σ) s ds v e) (he : (problem I σ).nextVar [e] = none) (h : Ok I s)
    (h0 : Empty I s) : ∃ f, From I s f ∧ ds = decisions f s.time ∧ v = -(costFrom I s f : Int) := by
  induction hr with
  | nil s =>
    have ht := nextVar_none he
    refine ⟨fun _ => none, ⟨?_, ?_, ?_⟩, ?_, ?_⟩
    · intro t h; omega
    · intro i hi; rw [ht, h0 ht i hi]; rfl
    · intro i hi p hp; rw [h0 ht i hi, left_neg]; omega
    · rw [ht]; rfl
    · unfold costFrom stockFrom sequence
      have : total I.items (fun i => I.stocking i * (deadlines I i (s.at i) - madeSum (fun _ => none) i s.time)) = total I.items fun _ => 0 := by
        refine total_congr fun i hi => ?_
        rw [h0 ht i hi]
        have : deadlines I i (-1) = 0 := rfl
        rw [this]; simp
      rw [this, ht]
      have h0 : total I.items (fun _ => 0) = 0 := by
        have : ∀ m, total m (fun _ => 0) = 0 := by
          intro m; induction m with
          | zero => rfl
          | succ m ih => rw [total_succ, ih]
        exact this _
      rw [h0]
      by_cases hk : s.k = -1
      · rw [if_pos hk]; rfl
      · rw [if_neg hk]; rfl
  | @cons s e x d ds v hx hd hr ih =>
    have ht := nextVar_some hx
    obtain ⟨f, hF, hds, hv⟩ := ih he (h.trans hn hd) (empty_trans hn h hx hd)
    have htime : (trans I s d).time = x := by rw [trans_time]; omega
    rcases (mem_dom.1 hd).2 with ⟨i, hi, hp, rfl⟩ | ⟨hl, rfl⟩
    · let g : Plan := fun t => if t = x then some i else f t
      have hg : ∀ t, t < (trans I s ⟨x, (i : Int)⟩).time → f t = g t := by
        intro t ht'
        have : ¬ t = x := by omega
        simp [g, this]
      have hgx : g x = some i := by simp [g]
      have hF' : From I (trans I s ⟨x, (i : Int)⟩) g := From.congr hg hF
      refine ⟨g, (from_item hn h ht hi hgx).2 ⟨hp, hF'⟩, ?_, ?_⟩
      · rw [ht]
        unfold decisions
        rw [hgx, hds]
        show (⟨x, (i : Int)⟩ : Decision) :: decisions f (trans I s ⟨x, (i : Int)⟩).time = _
        rw [decisions_congr _ hg, htime]
      · have h1 := costFrom_item hn h ht hi hgx hp hF'
        have h2 := costFrom_congr (I := I) hg
        rw [hv]
        show cost I s ⟨x, (i : Int)⟩ + -(costFrom I (trans I s ⟨x, (i : Int)⟩) f : Int) = _
        omega
    · let g : Plan := fun t => if t = x then none else f t
      have hg : ∀ t, t < (trans I s ⟨x, -1⟩).time → f t = g t := by
        intro t ht'
        have : ¬ t = x := by omega
        simp [g, this]
      have hgx : g x = none := by simp [g]
      refine ⟨g, (from_idle ht hgx).2 (From.congr hg hF), ?_, ?_⟩
      · rw [ht]
        unfold decisions
        rw [hgx, hds]
        show (⟨x, -1⟩ : Decision) :: decisions f (trans I s ⟨x, -1⟩).time = _
        rw [decisions_congr _ hg, htime]
      · have h1 := costFrom_idle (I := I) ht hgx
        have h2 := costFrom_congr (I := I) hg
        rw [hv]
        show cost I s ⟨x, -1⟩ + -(costFrom I (trans I s ⟨x, -1⟩) f : Int) = _
        have : cost I s ⟨x, -1⟩ = 0 := rfl
        omega

/-- Every plan is a completion. -/
theorem plan_completion (hn : 1 ≤ I.periods) : ∀ (T : Nat) {s : State} {f : Plan}, s.time = T → Ok I s → From I s f →
    Completion (problem I σ) s (decisions f s.time) (-(costFrom I s f : Int)) := by
  intro T
  induction T with
  | zero =>
    intro s f ht h hF
    refine ⟨s, ?_, nextVar_zero ht⟩
    have : costFrom I s f = 0 := by
      unfold costFrom stockFrom sequence
      have h1 : total I.items (fun i => I.stocking i * (deadlines I i (s.at i) - madeSum f i s.time)) = total I.items fun _ => 0 := by
        refine total_congr fun i hi => ?_
        have h2 := hF.total i hi
        rw [ht, made_zero] at h2
        have hd := h.deadline i hi
        rcases hd with hd | ⟨t, hd, ht, h1⟩
        · rw [hd]
          have : deadlines I i (-1) = 0 := rfl
          rw [this]; simp
        · exfalso
          have := left_before (h.deadline i hi) (by omega)
          omega
      rw [h1, ht]
      have h0 : total I.items (fun _ => 0) = 0 := by
        have : ∀ m, total m (fun _ => 0) = 0 := by
          intro m; induction m with
          | zero => rfl
          | succ m ih => rw [total_succ, ih]
        exact this _
      rw [h0]
      by_cases hk : s.k = -1
      · rw [if_pos hk]; rfl
      · rw [if_neg hk]; rfl
    rw [this, ht]
    exact Run.nil s
  | succ t ih =>
    intro s f ht h hF
    have hx : (problem I σ).nextVar [s] = some t := nextVar_succ ht
    have hrem : remaining I s ≤ t + 1 := by
      rw [remaining_eq hn h, ← total_congr (fun i hi => hF.total i hi), ← ht]
      exact total_made _ _ _
    cases hf : f t with
    | some i =>
      have hi : i < I.items := hF.item t (by omega) i hf
      obtain ⟨hp, hF'⟩ := (from_item hn h ht hi hf).1 hF
      have hd : (⟨t, (i : Int)⟩ : Decision) ∈ dom I t s := mem_dom.2 ⟨hrem, Or.inl ⟨i, hi, hp, rfl⟩⟩
      have htime : (trans I s ⟨t, (i : Int)⟩).time = t := by rw [trans_time]; omega
      obtain ⟨e, h1, h2⟩ := ih htime (h.trans hn hd) hF'
      have h3 := costFrom_item hn h ht hi hf hp hF'
      refine ⟨e, ?_, h2⟩
      rw [ht]
      unfold decisions
      rw [hf, ← h3]
      rw [htime] at h1
      exact Run.cons hx hd h1
    | none =>
      have hF' := (from_idle ht hf).1 hF
      have hlt : remaining I s < t + 1 := by
        rw [remaining_eq hn h, ← total_congr (fun i hi => hF.total i hi), ht]
        have : total I.items (fun i => made f i (t + 1)) = total I.items fun i => made f i t := by
          refine total_congr fun i hi => ?_
          rw [made_succ, hf]; rfl
        rw [this]
        have := total_made I.items f t
        omega
      have hd : (⟨t, -1⟩ : Decision) ∈ dom I t s := mem_dom.2 ⟨hrem, Or.inr ⟨hlt, rfl⟩⟩
      have htime : (trans I s ⟨t, -1⟩).time = t := by rw [trans_time]; omega
      obtain ⟨e, h1, h2⟩ := ih htime (h.trans hn hd) hF'
      have h3 := costFrom_idle (I := I) ht hf
      refine ⟨e, ?_, h2⟩
      rw [ht]
      unfold decisions
      rw [hf, ← h3]
      rw [htime] at h1
      have := Run.cons (p := problem I σ) hx hd h1
      rw [show (problem I σ).cost s ⟨t, -1⟩ = 0 from rfl, Int.zero_add] at this
      exact this

end Verif.Psp
