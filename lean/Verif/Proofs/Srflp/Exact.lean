import Verif.Proofs.Srflp.Basic
/-! Layouts are the solutions of the dynamic program. -/
set_option autoImplicit false

namespace Verif.Srflp
open Verif Spec
variable {I : Inst} {F L : Nat}

/-! ### States reached without merging -/

/-- The flow from the departments of `pre` to department `i` -/
def into (I : Inst) (pre : List Nat) (i : Nat) : Int := (pre.map fun r => I.flow r i).sum

variable (I) in
/-- The state after the departments of `pre` have been placed -/
structure Exact (pre : List Nat) (s : State) : Prop where
  mb : s.maybe = none
  nodup : pre.Nodup
  lt : ∀ i ∈ pre, i < I.n
  must : ∀ i, s.must.testBit i = true ↔ i < I.n ∧ i ∉ pre
  depth : s.depth = pre.length
  cut : s.cut.length = I.n
  at_eq : ∀ i, i < I.n → s.at i = if i ∈ pre then 0 else into I pre i

theorem Exact.mb0 {pre : List Nat} {s : State} (h : Exact I pre s) : Srflp.mb s = 0 := by
  unfold Srflp.mb; rw [h.mb]; rfl

theorem exact_init : Exact I [] (initial I) where
  mb := rfl
  nodup := List.nodup_nil
  lt := by simp
  must := by intro i; show (Bits.full I.n).testBit i = true ↔ _; rw [Bits.testBit_full]; simp
  depth := rfl
  cut := by simp [initial]
  at_eq := by
    intro i hi
    simp [State.at, initial, into, hi]

theorem perm_of_mem {l m : List Nat} (hl : l.Nodup) (hm : m.Nodup) (h : ∀ i, i ∈ l ↔ i ∈ m) : l.Perm m :=
  (List.perm_ext_iff_of_nodup hl hm).2 h

theorem Exact.perm {pre : List Nat} {s : State} (h : Exact I pre s) : (pre ++ Bits.iter I.n s.must).Perm (List.range I.n) := by
  refine perm_of_mem ?_ List.nodup_range ?_
  · refine List.nodup_append.2 ⟨h.nodup, Bits.nodup_iter _ _, ?_⟩
    rintro a ha b hb rfl
    exact ((h.must a).1 (Bits.mem_iter.1 hb).2).2 ha
  · intro i
    rw [List.mem_append, Bits.mem_iter, h.must, List.mem_range]
    constructor
    · rintro (h1 | h1)
      · exact h.lt i h1
      · exact h1.1
    · intro h1
      by_cases h2 : i ∈ pre
      · exact Or.inl h2
      · exact Or.inr ⟨h1, h1, h2⟩

theorem Exact.count {pre : List Nat} {s : State} (h : Exact I pre s) : Bits.count I.n s.must + s.depth = I.n := by
  have := h.perm.length_eq
  rw [List.length_append, List.length_range] at this
  rw [h.depth]
  unfold Bits.count
  omega

theorem Exact.dom {pre : List Nat} {s : State} (h : Exact I pre s) {x : Nat} {d : Decision} : d ∈ dom I x s ↔ ∃ i : Nat, d = ⟨x, (i : Int)⟩ ∧ i ∈ Bits.iter I.n s.must := by
  rw [mem_dom, h.mb0]
  constructor
  · rintro ⟨i, rfl, h1, h2 | ⟨h2, _⟩⟩
    · exact ⟨i, rfl, Bits.mem_iter.2 ⟨h1, h2⟩⟩
    · simp at h2
  · rintro ⟨i, rfl, h1⟩
    exact ⟨i, rfl, (Bits.mem_iter.1 h1).1, Or.inl (Bits.mem_iter.1 h1).2⟩

theorem Exact.ok (hB : Bounded I F L) {pre : List Nat} {s : State} (h : Exact I pre s) : Ok I F s where
  must := fun i hi => ((h.must i).1 hi).1
  maybe := by rw [h.mb0]; exact Bits.Sub.zero _
  disj := by intro i _; rw [h.mb0]; simp
  cut := h.cut
  depth := by have := h.count; omega
  few := by have := h.count; omega
  many := by have := h.count; omega
  bound := by
    intro i hi
    unfold Free at hi
    rw [h.mb0] at hi
    simp at hi
    obtain ⟨h1, h2⟩ := (h.must i).1 hi
    rw [h.at_eq i h1, if_neg h2, h.depth]
    have key : ∀ l : List Nat, (∀ r ∈ l, r < I.n) → -((l.length * F : Nat) : Int) ≤ into I l i ∧ into I l i ≤ ((l.length * F : Nat) : Int) := by
      intro l
      induction l with
      | nil => intro _; simp [into]
      | cons a l ih =>
        intro hl
        have h3 := ih fun r hr => hl r (by simp [hr])
        have h4 := hB.flow a i (hl a (by simp)) h1
        unfold into at h3 ⊢
        rw [List.map_cons, List.sum_cons, List.length_cons, Nat.add_mul, Nat.one_mul]
        push_cast at h3 ⊢
        omega
    exact key pre h.lt

theorem Exact.step {pre : List Nat} {s : State} (h : Exact I pre s) {x i : Nat} (hi : i ∈ Bits.iter I.n s.must) : Exact I (pre ++ [i]) (trans I s ⟨x, (i : Int)⟩) := by
  obtain ⟨h1, h2⟩ := Bits.mem_iter.1 hi
  have h3 := ((h.must i).1 h2).2
  refine ⟨?_, ?_, ?_, ?_, ?_, ?_, ?_⟩
  · rw [trans_maybe, h.mb]; rfl
  · refine List.nodup_append.2 ⟨h.nodup, by simp, ?_⟩
    intro a ha b hb e
    simp at hb; subst hb; subst e
    exact h3 ha
  · intro j hj
    rcases List.mem_append.1 hj with hj | hj
    · exact h.lt j hj
    · simp at hj; omega
  · intro j
    rw [trans_must, Bits.testBit_clear, Bool.and_eq_true, h.must]
    simp only [Int.toNat_natCast, decide_eq_true_eq, List.mem_append, List.mem_singleton, not_or]
    constructor
    · rintro ⟨⟨a, b⟩, c⟩; exact ⟨a, b, fun e => c e.symm⟩
    · rintro ⟨a, b, c⟩; exact ⟨⟨a, b⟩, fun e => c e.symm⟩
  · rw [trans_depth, h.depth]; simp
  · rw [trans_cut_length]; exact h.cut
  · intro j hj
    have e : (trans I s ⟨x, (i : Int)⟩).cut = addFlows I i (Bits.iter I.n (Bits.clear s.must i)) (s.cut.set i 0) := by
      unfold trans
      rw [h.mb]
      rfl
    unfold State.at
    rw [e, addFlows_getD _ _ (Bits.nodup_iter _ _) _ (by intro k hk; rw [List.length_set, h.cut]; exact (Bits.mem_iter.1 hk).1)]
    have hmem : j ∈ Bits.iter I.n (Bits.clear s.must i) ↔ j ∉ pre ∧ j ≠ i := by
      rw [Bits.mem_iter, Bits.testBit_clear, Bool.and_eq_true, h.must]
      simp only [decide_eq_true_eq]
      constructor
      · rintro ⟨_, ⟨_, b⟩, c⟩; exact ⟨b, fun e => c e.symm⟩
      · rintro ⟨b, c⟩; exact ⟨hj, ⟨hj, b⟩, fun e => c e.symm⟩
    by_cases hji : j = i
    · subst hji
      rw [if_neg (by rw [hmem]; simp), if_pos (by simp), List.getD_eq_getElem?_getD, List.getElem?_set]
      simp [h.cut, hj]
    · rw [List.getD_eq_getElem?_getD, List.getElem?_set_ne (fun e => hji e.symm), ← List.getD_eq_getElem?_getD]
      have hs := h.at_eq j hj
      unfold State.at at hs
      rw [hs]
      have hmem' : j ∈ pre ++ [i] ↔ j ∈ pre := by simp [hji]
      simp only [hmem']
      by_cases hp : j ∈ pre
      · rw [if_pos hp, if_pos hp, if_neg (by rw [hmem]; simp [hp])]; rfl
      · rw [if_neg hp, if_neg hp, if_pos (by rw [hmem]; exact ⟨hp, hji⟩)]
        unfold into
        simp

/-! ### What placing the remaining departments costs -/

/-- The length of each department times the flow that passes over it -/
def walk (I : Inst) : List Nat → List Nat → Int
  | _, [] => 0
  | pre, d :: l => (l.map (into I pre)).sum * I.len d + walk I (pre ++ [d]) l

theorem Exact.cost (hB : Bounded I F L) {pre : List Nat} {s : State} (h : Exact I pre s) {x d : Nat} {l : List Nat} (hp : (d :: l).Perm (Bits.iter I.n s.must)) :
    Srflp.cost I s ⟨x, (d : Int)⟩ = -((l.map (into I pre)).sum * I.len d) := by
  have hd : d ∈ Bits.iter I.n s.must := hp.mem_iff.1 (by simp)
  obtain ⟨T, h1, h2, h3⟩ := cost_choice (h.ok hB) (h.dom.2 ⟨d, rfl, hd⟩ : (⟨x, (d : Int)⟩ : Decision) ∈ Srflp.dom I x s)
  rw [h3]
  have hT : T = [] := by
    rw [h.mb0] at h1
    have : Bits.clear 0 (⟨x, (d : Int)⟩ : Decision).value.toNat = 0 := by simp [Bits.clear]
    rw [this, Bits.iter_zero] at h1
    have := h1.length_le
    exact List.length_eq_zero_iff.1 (by simpa using this)
  have hm : (musts I s d).Perm l := by
    rw [musts_eq]
    exact (List.Perm.cons_inv (hp.trans (Bits.perm_clear (Bits.mem_iter.1 hd).1 (Bits.mem_iter.1 hd).2))).symm
  have ht : ((⟨x, (d : Int)⟩ : Decision).value.toNat) = d := rfl
  rw [hT, List.append_nil, ht, perm_sum (hm.map s.at)]
  congr 2
  congr 1
  refine List.map_congr_left fun j hj => ?_
  have hj' : j ∈ Bits.iter I.n s.must := hp.mem_iff.1 (by simp [hj])
  have hjb := (h.must j).1 (Bits.mem_iter.1 hj').2
  rw [h.at_eq j hjb.1, if_neg hjb.2]

theorem Exact.completion (hB : Bounded I F L) {s : State} {ds : List Decision} {v : Int} {e : State} (hr : Run (problem I) s ds v e)
    (he : (problem I).nextVar [e] = none) :
    ∀ {pre : List Nat}, Exact I pre s → ∃ l, l.Perm (Bits.iter I.n s.must) ∧ ds = places s.depth l ∧ v = -walk I pre l := by
  induction hr with
  | nil s =>
    intro pre h
    have h1 := nextVar_none he
    have h2 := h.count
    have : Bits.iter I.n s.must = [] := List.length_eq_zero_iff.1 (by unfold Bits.count at h2; omega)
    exact ⟨[], by rw [this], rfl, rfl⟩
  | @cons s e x d ds v hx hd hr ih =>
    intro pre h
    obtain ⟨rfl, hn⟩ := nextVar_some hx
    obtain ⟨i, rfl, hi⟩ := h.dom.1 hd
    obtain ⟨l, h1, h2, h3⟩ := ih he (h.step hi)
    have hp : (i :: l).Perm (Bits.iter I.n s.must) := by
      refine (h1.cons i).trans ?_
      exact (Bits.perm_clear (Bits.mem_iter.1 hi).1 (Bits.mem_iter.1 hi).2).symm
    refine ⟨i :: l, hp, ?_, ?_⟩
    · rw [h2]; rfl
    · show Srflp.cost I s ⟨s.depth, (i : Int)⟩ + v = _
      rw [h.cost hB hp, h3, walk]
      ring

theorem Exact.complete (hB : Bounded I F L) : ∀ (l : List Nat) {pre : List Nat} {s : State}, Exact I pre s → l.Perm (Bits.iter I.n s.must) →
    Completion (problem I) s (places s.depth l) (-walk I pre l) := by
  intro l
  induction l with
  | nil =>
    intro pre s h hp
    have h2 := h.count
    have : Bits.iter I.n s.must = [] := hp.symm.eq_nil
    refine ⟨s, Run.nil _, nextVar_eq_none ?_⟩
    unfold Bits.count at h2
    rw [this] at h2
    simpa using h2
  | cons d l ih =>
    intro pre s h hp
    have hd : d ∈ Bits.iter I.n s.must := hp.mem_iff.1 (by simp)
    have h2 := h.count
    have hne : s.depth ≠ I.n := by
      have := hp.length_eq
      unfold Bits.count at h2
      simp at this
      omega
    obtain ⟨e, hr, he⟩ := ih (h.step (x := s.depth) hd) (List.Perm.cons_inv (hp.trans (Bits.perm_clear (Bits.mem_iter.1 hd).1 (Bits.mem_iter.1 hd).2)))
    have := Run.cons (p := problem I) (nextVar_eq hne) (h.dom.2 ⟨d, rfl, hd⟩ : (⟨s.depth, (d : Int)⟩ : Decision) ∈ (problem I).dom s.depth s) hr
    have hc : (problem I).cost s ⟨s.depth, (d : Int)⟩ = -((l.map (into I pre)).sum * I.len d) := h.cost hB hp
    rw [hc] at this
    refine ⟨e, ?_, he⟩
    have ev : -((l.map (into I pre)).sum * I.len d) + -walk I (pre ++ [d]) l = -walk I pre (d :: l) := by rw [walk]; ring
    rw [ev] at this
    exact this

/-! ### The cost of a layout -/

theorem sum_pairsOf_perm (h : Nat → Nat → Int) (hs : ∀ i j, h i j = h j i) {l m : List Nat} (hp : l.Perm m) :
    ((pairsOf l).map fun p => h p.1 p.2).sum = ((pairsOf m).map fun p => h p.1 p.2).sum := by
  induction hp with
  | nil => rfl
  | cons a hp ih =>
    simp only [pairsOf, List.map_append, List.sum_append, List.map_map, ih]
    congr 1
    exact perm_sum (hp.map _)
  | swap a b l =>
    simp only [pairsOf, List.map_append, List.sum_append, List.map_map, List.map_cons, List.sum_cons]
    rw [hs a b]
    ring
  | trans _ _ h1 h2 => rw [h1, h2]

theorem range'_pairs (s k : Nat) : ((List.range' s k).flatMap fun i => (List.range' (i + 1) (s + k - (i + 1))).map fun j => (i, j)) = pairsOf (List.range' s k) := by
  induction k generalizing s with
  | zero => rfl
  | succ k ih =>
    rw [List.range'_succ, List.flatMap_cons, pairsOf]
    have e1 : s + (k + 1) - (s + 1) = k := by omega
    rw [e1]
    congr 1
    have := ih (s + 1)
    rw [← this]
    have e2 : s + 1 + k = s + (k + 1) := by omega
    rw [e2]

theorem pairs_eq (n : Nat) : pairs n = pairsOf (List.range n) := by
  unfold pairs
  have := range'_pairs 0 n
  rw [Nat.zero_add] at this
  rw [List.range_eq_range']
  exact this

/-- Flows from `a` to the departments of a list, times what lies between; `acc` lies before the list. -/
def rowSum (I : Inst) (a : Nat) : Int → List Nat → Int
  | _, [] => 0
  | acc, j :: l => I.flow a j * acc + rowSum I a (acc + I.len j) l

/-- Flows between the departments of a list, times what lies between -/
def betweenSum (I : Inst) : List Nat → Int
  | [] => 0
  | a :: l => rowSum I a 0 l + betweenSum I l

theorem rowSum_add (a : Nat) (x y : Int) (l : List Nat) : rowSum I a (x + y) l = x * (l.map (I.flow a)).sum + rowSum I a y l := by
  induction l generalizing y with
  | nil => simp [rowSum]
  | cons j l ih =>
    simp only [rowSum, List.map_cons, List.sum_cons]
    rw [Int.add_assoc x y, ih]
    ring

theorem sum_into (pre l : List Nat) : (l.map (into I pre)).sum = (pre.map fun r => (l.map (I.flow r)).sum).sum := by
  induction l with
  | nil =>
    simp only [List.map_nil, List.sum_nil]
    symm
    induction pre with
    | nil => rfl
    | cons a l ih => simp
  | cons j l ih =>
    rw [List.map_cons, List.sum_cons, ih]
    clear ih
    induction pre with
    | nil => simp [into]
    | cons a pre ih =>
      simp only [into, List.map_cons, List.sum_cons] at ih ⊢
      omega

theorem walk_eq (pre l : List Nat) : walk I pre l = betweenSum I l + (pre.map fun r => rowSum I r 0 l).sum := by
  induction l generalizing pre with
  | nil =>
    simp only [walk, betweenSum, rowSum]
    induction pre with
    | nil => rfl
    | cons a l ih => simp
  | cons d l ih =>
    rw [walk, ih, sum_into, List.map_append, List.sum_append, betweenSum]
    simp only [List.map_cons, List.map_nil, List.sum_cons, List.sum_nil, rowSum]
    have : ∀ pre : List Nat, (pre.map fun r => I.flow r d * 0 + rowSum I r (0 + I.len d) l).sum =
        (pre.map fun r => (l.map (I.flow r)).sum).sum * I.len d + (pre.map fun r => rowSum I r 0 l).sum := by
      intro pre
      induction pre with
      | nil => simp
      | cons a pre ih =>
        simp only [List.map_cons, List.sum_cons]
        rw [ih]
        have := rowSum_add (I := I) a (I.len d) 0 l
        rw [Int.zero_add, ← Int.add_zero (I.len d), this]
        ring
    rw [this]
    ring

theorem middle2_eq {pre suf : List Nat} {a : Nat} (h : a ∉ pre) : middle2 I (pre ++ a :: suf) a = 2 * (pre.map I.len).sum + I.len a := by
  unfold middle2
  rw [List.idxOf_append_of_notMem h, List.idxOf_cons_self, Nat.add_zero, List.take_left]

theorem map_len_nonneg (hl : Lengths I) {l : List Nat} (h : ∀ i ∈ l, i < I.n) : 0 ≤ (l.map I.len).sum :=
  sum_nonneg fun a ha => by obtain ⟨i, hi, rfl⟩ := List.mem_map.1 ha; exact hl i (h i hi)

theorem row_cost (hl : Lengths I) (pre : List Nat) (a : Nat) (rest : List Nat) : ∀ (mid : List Nat), (pre ++ a :: (mid ++ rest)).Nodup →
    (∀ i ∈ pre ++ a :: (mid ++ rest), i < I.n) →
    (rest.map fun j => I.flow a j * ((middle2 I (pre ++ a :: (mid ++ rest)) a - middle2 I (pre ++ a :: (mid ++ rest)) j).natAbs : Int)).sum =
    (rest.map fun j => I.flow a j * (I.len a + I.len j)).sum + 2 * rowSum I a (mid.map I.len).sum rest := by
  induction rest with
  | nil => intro _ _ _; simp [rowSum]
  | cons j rest ih =>
    intro mid hn hlt
    have e : pre ++ a :: (mid ++ j :: rest) = pre ++ a :: ((mid ++ [j]) ++ rest) := by simp
    have ih := ih (mid ++ [j]) (e ▸ hn) (e ▸ hlt)
    rw [← e] at ih
    simp only [List.map_cons, List.sum_cons, rowSum]
    rw [ih, List.map_append, List.sum_append]
    have ha : a ∉ pre := by
      intro h
      have := (List.nodup_append.1 hn).2.2 a h a (by simp)
      exact this rfl
    have hj : j ∉ pre ++ a :: mid := by
      intro h
      have e2 : pre ++ a :: (mid ++ j :: rest) = (pre ++ a :: mid) ++ j :: rest := by simp
      rw [e2] at hn
      exact (List.nodup_append.1 hn).2.2 j h j (by simp) rfl
    have m1 := middle2_eq (I := I) (suf := mid ++ j :: rest) ha
    have m2 := middle2_eq (I := I) (suf := rest) hj
    have e3 : (pre ++ a :: mid) ++ j :: rest = pre ++ a :: (mid ++ j :: rest) := by simp
    rw [e3] at m2
    rw [m1, m2]
    have h1 := hl a (hlt a (by simp))
    have h2 := hl j (hlt j (by simp))
    have h3 := map_len_nonneg hl (l := mid) fun i hi => hlt i (by simp [hi])
    simp only [List.map_append, List.sum_append, List.map_cons, List.sum_cons, List.map_nil, List.sum_nil]
    have h4 : ((2 * (pre.map I.len).sum + I.len a - (2 * ((pre.map I.len).sum + (I.len a + (mid.map I.len).sum)) + I.len j)).natAbs : Int) =
        I.len a + I.len j + 2 * (mid.map I.len).sum := by omega
    rw [h4, Int.add_zero]
    ring

theorem pairs_cost (hl : Lengths I) (suf : List Nat) : ∀ (pre : List Nat), (pre ++ suf).Nodup → (∀ i ∈ pre ++ suf, i < I.n) →
    ((pairsOf suf).map fun p => I.flow p.1 p.2 * ((middle2 I (pre ++ suf) p.1 - middle2 I (pre ++ suf) p.2).natAbs : Int)).sum =
    ((pairsOf suf).map fun p => I.flow p.1 p.2 * (I.len p.1 + I.len p.2)).sum + 2 * betweenSum I suf := by
  induction suf with
  | nil => intro _ _ _; simp [pairsOf, betweenSum]
  | cons a suf ih =>
    intro pre hn hlt
    have e : pre ++ a :: suf = (pre ++ [a]) ++ suf := by simp
    have h1 := ih (pre ++ [a]) (e ▸ hn) (e ▸ hlt)
    rw [← e] at h1
    have h2 := row_cost hl pre a suf [] hn hlt
    simp only [pairsOf, List.map_append, List.sum_append, List.map_map, Function.comp_def, betweenSum]
    simp only [List.nil_append, List.map_nil, List.sum_nil] at h2
    rw [h1, h2]
    ring

/-- Twice the cost of a layout: the fixed part, and the length of each department times the flow that passes over it. -/
theorem cost2_eq (hl : Lengths I) (hs : Symmetric I) {l : List Nat} (h : Layout I l) : cost2 I l = fixed2 I + 2 * walk I [] l := by
  have hlt : ∀ i ∈ l, i < I.n := fun i hi => List.mem_range.1 (h.mem_iff.1 hi)
  have h1 := pairs_cost hl l [] (h.nodup_iff.2 List.nodup_range) hlt
  rw [List.nil_append] at h1
  -- the flows, made symmetric everywhere
  let g : Nat → Nat → Int := fun i j => if i < I.n ∧ j < I.n then I.flow i j else 0
  have hg : ∀ i j, g i j = g j i := by
    intro i j
    by_cases hi : i < I.n <;> by_cases hj : j < I.n <;> simp [g, hi, hj, hs i j]
  have hmem : ∀ m : List Nat, ∀ p ∈ pairsOf m, p.1 ∈ m ∧ p.2 ∈ m := by
    intro m
    induction m with
    | nil => intro p hp; cases hp
    | cons c m ih =>
      intro p hp
      rcases List.mem_append.1 hp with hp | hp
      · obtain ⟨b, hb, rfl⟩ := List.mem_map.1 hp; simp [hb]
      · have := ih p hp; simp [this.1, this.2]
  have hgl : ∀ m : List Nat, (∀ i ∈ m, i < I.n) → ∀ f : Nat × Nat → Int, ((pairsOf m).map fun p => I.flow p.1 p.2 * f p).sum = ((pairsOf m).map fun p => g p.1 p.2 * f p).sum := by
    intro m hm f
    congr 1
    refine List.map_congr_left fun p hp => ?_
    have := hmem m p hp
    simp [g, hm p.1 this.1, hm p.2 this.2]
  have hr : ∀ i ∈ List.range I.n, i < I.n := fun i hi => List.mem_range.1 hi
  rw [walk_eq]
  simp only [List.map_nil, List.sum_nil, Int.add_zero]
  unfold cost2 fixed2
  rw [pairs_eq]
  rw [hgl l hlt, hgl l hlt] at h1
  rw [hgl _ hr (fun p => ((middle2 I l p.1 - middle2 I l p.2).natAbs : Int)), hgl _ hr]
  rw [← sum_pairsOf_perm (fun i j => g i j * ((middle2 I l i - middle2 I l j).natAbs : Int)) (by intro i j; rw [hg i j]; congr 1; omega) h,
    ← sum_pairsOf_perm (fun i j => g i j * (I.len i + I.len j)) (by intro i j; rw [hg i j]; ring) h]
  exact h1

/-- The solutions are the layouts. -/
theorem solution_iff (hB : Bounded I F L) (ds : List Decision) (v : Int) :
    Solution (problem I) ds v ↔ ∃ l, Layout I l ∧ ds = places 0 l ∧ v = -walk I [] l := by
  have hi : (Bits.iter I.n (initial I).must).Perm (List.range I.n) := by simpa using (exact_init (I := I)).perm
  constructor
  · rintro ⟨u, ⟨e, hr, he⟩, rfl⟩
    obtain ⟨l, h1, h2, h3⟩ := Exact.completion hB hr he exact_init
    refine ⟨l, h1.trans hi, h2, ?_⟩
    show (0 : Int) + u = _
    rw [h3]; omega
  · rintro ⟨l, h1, rfl, rfl⟩
    refine ⟨-walk I [] l, Exact.complete hB l exact_init (h1.trans hi.symm), ?_⟩
    show _ = (0 : Int) + _
    omega

end Verif.Srflp
