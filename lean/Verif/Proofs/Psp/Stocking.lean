import Verif.Proofs.Psp.Exact
/-! Serving the most expensive item first gives a lower bound on the stocking costs. -/
set_option autoImplicit false

namespace Verif.Psp
open Verif Spec
variable {I : Inst}

theorem total_const_zero (m : Nat) : total m (fun _ => 0) = 0 := by
  induction m with
  | zero => rfl
  | succ m ih => rw [total_succ, ih]

theorem total_eq_zero {m : Nat} {g : Nat → Nat} (h : ∀ i, i < m → g i = 0) : total m g = 0 := (total_congr h).trans (total_const_zero m)

theorem total_add (m : Nat) (g h : Nat → Nat) : total m (fun i => g i + h i) = total m g + total m h := by
  induction m with
  | zero => rfl
  | succ m ih => rw [total_succ, total_succ, total_succ, ih]; omega

theorem total_swap (m n : Nat) (g : Nat → Nat → Nat) : total m (fun i => total n (g i)) = total n fun j => total m fun i => g i j := by
  induction m with
  | zero =>
    have : (total n fun j => total 0 fun i => g i j) = total n fun _ => 0 := total_congr fun _ _ => rfl
    rw [this, total_const_zero]; rfl
  | succ m ih =>
    rw [total_succ, ih, ← total_add]
    exact total_congr fun j _ => (total_succ _ _).symm

theorem le_total {m i : Nat} (hi : i < m) (g : Nat → Nat) : g i ≤ total m g := by
  induction m with
  | zero => omega
  | succ m ih =>
    rw [total_succ]
    rcases Nat.lt_or_ge i m with h | h
    · have := ih h; omega
    · have : i = m := by omega
      subst this; omega

/-- A number of units, each counted once per step of its price -/
theorem total_steps (c q : Nat) {n : Nat} (h : c ≤ n) : c * q = total n fun j => if j < c then q else 0 := by
  induction n generalizing c with
  | zero => have : c = 0 := by omega
            subst this; simp [total]
  | succ n ih =>
    rw [total_succ]
    rcases Nat.lt_or_ge n c with hc | hc
    · have e : c = n + 1 := by omega
      subst e
      have h1 := ih n (Nat.le_refl _)
      rw [if_pos (by omega), Nat.succ_mul, h1]
      congr 1
      exact total_congr fun j hj => by rw [if_pos hj, if_pos (by omega)]
    · rw [if_neg (by omega), Nat.add_zero]
      exact ih c hc

/-- If for every price no more units cost more than it, the units cost no more. -/
theorem total_price {m : Nat} (c q q' : Nat → Nat) (h : ∀ l, total m (fun i => if l < c i then q i else 0) ≤ total m fun i => if l < c i then q' i else 0) :
    total m (fun i => c i * q i) ≤ total m fun i => c i * q' i := by
  have key : ∀ q : Nat → Nat, total m (fun i => c i * q i) = total (total m c) fun l => total m fun i => if l < c i then q i else 0 := by
    intro q
    rw [← total_swap]
    exact total_congr fun i hi => total_steps _ _ (le_total hi c)
  rw [key, key]
  exact total_mono fun l _ => h l

/-! ### Units that wait -/

/-- The units due in `t` or later among those due up to `u` -/
def late (I : Inst) (i : Nat) (u : Int) (t : Nat) : Nat := total (u + 1).toNat fun d => if 0 < I.demand i d ∧ t ≤ d then 1 else 0

/-- The periods from `t` to their deadlines -/
def wait (I : Inst) (i : Nat) (u : Int) (t : Nat) : Nat := total (u + 1).toNat fun d => if 0 < I.demand i d then d - t else 0

theorem total_lastBefore (D : Nat → Nat) (g : Nat → Nat) (hg : ∀ d, D d = 0 → g d = 0) (p : Nat) : total (lastBefore D p + 1).toNat g = total p g := by
  induction p with
  | zero => rfl
  | succ p ih =>
    unfold lastBefore
    rw [total_succ]
    by_cases h : 0 < D p
    · rw [if_pos h]
      have : ((p : Int) + 1).toNat = p + 1 := by omega
      rw [this, total_succ]
    · rw [if_neg h, ih, hg p (by omega)]; rfl

theorem total_before {i : Nat} {u : Int} {n : Nat} (h : Deadline n (I.demand i) u) (h0 : 0 ≤ u) (g : Nat → Nat) (hg : ∀ d, I.demand i d = 0 → g d = 0) :
    total (u + 1).toNat g = total (before I i u + 1).toNat g + g u.toNat := by
  unfold before
  rw [total_lastBefore _ g hg]
  have : (u + 1).toNat = u.toNat + 1 := by omega
  rw [this, total_succ]

theorem late_before {i : Nat} {u : Int} {n t : Nat} (h : Deadline n (I.demand i) u) (ht : (t : Int) ≤ u) : late I i u t = late I i (before I i u) t + 1 := by
  unfold late
  rw [total_before h (by omega) _ (by intro d hd; rw [if_neg (by omega)])]
  rcases h with h | ⟨d, rfl, _, hd⟩
  · omega
  · rw [if_pos ⟨hd, by omega⟩]

theorem wait_before {i : Nat} {u : Int} {n t : Nat} (h : Deadline n (I.demand i) u) (ht : (t : Int) ≤ u) : wait I i u t = wait I i (before I i u) t + (u.toNat - t) := by
  unfold wait
  rw [total_before h (by omega) _ (by intro d hd; rw [if_neg (by omega)])]
  rcases h with h | ⟨d, rfl, _, hd⟩
  · omega
  · have : (d : Int).toNat = d := rfl
    rw [this, if_pos hd]

theorem wait_succ (i : Nat) (u : Int) (t : Nat) : wait I i u t = wait I i u (t + 1) + late I i u (t + 1) := by
  unfold wait late
  rw [← total_add]
  refine total_congr fun d _ => ?_
  by_cases h : 0 < I.demand i d
  · rw [if_pos h, if_pos h]
    by_cases h' : t + 1 ≤ d
    · rw [if_pos ⟨h, h'⟩]; omega
    · rw [if_neg (fun e => h' e.2)]; omega
  · rw [if_neg h, if_neg h, if_neg (fun e => h e.1)]

theorem late_succ (i : Nat) (u : Int) (t : Nat) : late I i u t = late I i u (t + 1) + if 0 < I.demand i t ∧ (t : Int) ≤ u then 1 else 0 := by
  unfold late
  have key : ∀ n : Nat, (total n fun d => if 0 < I.demand i d ∧ t ≤ d then 1 else 0) =
      (total n fun d => if 0 < I.demand i d ∧ t + 1 ≤ d then 1 else 0) + if 0 < I.demand i t ∧ t < n then 1 else 0 := by
    intro n
    induction n with
    | zero => rw [if_neg (by omega)]; rfl
    | succ n ih =>
      rw [total_succ, total_succ, ih]
      by_cases h : n = t
      · subst h
        by_cases hd : 0 < I.demand i n
        · rw [if_neg (by omega), if_pos ⟨hd, Nat.le_refl _⟩, if_neg (by omega), if_pos ⟨hd, by omega⟩]
        · rw [if_neg (fun e => hd e.1), if_neg (fun e => hd e.1), if_neg (fun e => hd e.1), if_neg (fun e => hd e.1)]
      · have e1 : (if 0 < I.demand i n ∧ t ≤ n then 1 else 0) = if 0 < I.demand i n ∧ t + 1 ≤ n then 1 else 0 := by
          have : (t ≤ n) ↔ t + 1 ≤ n := by omega
          simp only [this]
        have e2 : (if 0 < I.demand i t ∧ t < n + 1 then 1 else 0) = if 0 < I.demand i t ∧ t < n then 1 else 0 := by
          have : (t < n + 1) ↔ t < n := by omega
          simp only [this]
        rw [e1, e2]; omega
  rw [key]
  have : t < (u + 1).toNat ↔ (t : Int) ≤ u := by omega
  simp only [this]

theorem late_zero {i : Nat} {u : Int} {t : Nat} (h : u < t) : late I i u t = 0 := by
  unfold late
  exact total_eq_zero fun d hd => if_neg (by omega)

/-! ### The greedy choice -/

/-- What the inner loop finds: an available item with the highest cost. -/
theorem pick_spec (u : List Int) (t : Nat) :
    (pick I u t = (-1, 0, 0) ∧ ∀ j, j < u.length → u.getD j (-1) < t) ∨
    ∃ i : Nat, i < u.length ∧ (t : Int) ≤ u.getD i (-1) ∧ pick I u t = ((i : Int), (u.getD i (-1)).toNat, I.stocking i) ∧
      ∀ j, j < u.length → (t : Int) ≤ u.getD j (-1) → I.stocking j ≤ I.stocking i := by
  unfold pick
  generalize hn : u.length = n
  have : n ≤ u.length := by omega
  clear hn
  induction n with
  | zero => exact Or.inl ⟨rfl, fun j h => absurd h (Nat.not_lt_zero _)⟩
  | succ n ih =>
    rw [List.range_succ, List.foldl_append]
    simp only [List.foldl_cons, List.foldl_nil]
    rcases ih (by omega) with ⟨h1, h2⟩ | ⟨i, h1, h2, h3, h4⟩
    · rw [h1]
      by_cases h : (t : Int) ≤ u.getD n (-1)
      · rw [if_pos ⟨h, Nat.zero_le _⟩]
        refine Or.inr ⟨n, by omega, h, rfl, ?_⟩
        intro j hj ht
        rcases Nat.lt_or_ge j n with h' | h'
        · exact absurd (h2 j h') (by omega)
        · have : j = n := by omega
          subst this; exact Nat.le_refl _
      · rw [if_neg (fun e => h e.1)]
        refine Or.inl ⟨rfl, ?_⟩
        intro j hj
        rcases Nat.lt_or_ge j n with h' | h'
        · exact h2 j h'
        · have : j = n := by omega
          subst this; omega
    · rw [h3]
      by_cases h : (t : Int) ≤ u.getD n (-1) ∧ I.stocking i ≤ I.stocking n
      · rw [if_pos h]
        refine Or.inr ⟨n, by omega, h.1, rfl, ?_⟩
        intro j hj ht
        rcases Nat.lt_or_ge j n with h' | h'
        · exact Nat.le_trans (h4 j h' ht) h.2
        · have : j = n := by omega
          subst this; exact Nat.le_refl _
      · rw [if_neg h]
        refine Or.inr ⟨i, by omega, h2, rfl, ?_⟩
        intro j hj ht
        rcases Nat.lt_or_ge j n with h' | h'
        · exact h4 j h' ht
        · have : j = n := by omega
          subst this
          have : ¬ I.stocking i ≤ I.stocking j := fun e => h ⟨ht, e⟩
          omega

/-- The costs that are stored, from the first period to the last -/
def greedy (I : Inst) : Nat → List Int → List Nat
  | 0, _ => []
  | t + 1, u => greedy I t (serve I u t).2 ++ [(serve I u t).1]

theorem greedy_length : ∀ (t : Nat) (u : List Int), (greedy I t u).length = t
  | 0, _ => rfl
  | t + 1, u => by simp [greedy, greedy_length t]

/-- The buffer afterwards: what was in its first entries does not matter. -/
theorem fill_eq : ∀ (t : Nat) (u : List Int) (buf : List Nat), t ≤ buf.length → fill I t u buf = greedy I t u ++ buf.drop t
  | 0, _, _, _ => by simp [fill, greedy]
  | t + 1, u, buf, h => by
    unfold fill greedy
    rw [fill_eq t _ _ (by simp; omega), List.append_assoc]
    congr 1
    rw [List.drop_set, if_neg (by omega)]
    rw [List.drop_eq_getElem_cons (by omega : t < buf.length), Nat.sub_self]
    rfl

/-- Sums that stop at the largest number -/
theorem cumulate_getD : ∀ (l : List Nat) (tot k : Nat), tot ≤ usizeMax → k < l.length → (cumulate tot l).getD k 0 = min (tot + (l.take (k + 1)).sum) usizeMax
  | [], _, _, _, h => absurd h (Nat.not_lt_zero _)
  | v :: l, tot, 0, _, _ => by simp [cumulate]
  | v :: l, tot, k + 1, h, hk => by
    simp only [cumulate, List.getD_cons_succ]
    rw [cumulate_getD l _ k (Nat.min_le_right _ _) (by simpa using hk), List.take_succ_cons, List.sum_cons]
    omega

theorem idealStocking_eq {t : Nat} (ht : 1 ≤ t) (u : List Int) {buf : List Nat} (h : t ≤ buf.length) :
    idealStocking I t u buf = min (greedy I t u).sum usizeMax := by
  unfold idealStocking
  rw [fill_eq t u buf h, cumulate_getD _ _ _ (Nat.zero_le _) (by rw [List.length_append, greedy_length]; omega)]
  have : t - 1 + 1 = t := by omega
  rw [this, List.take_left' (greedy_length t u), Nat.zero_add]

/-! ### The comparison with a plan -/

theorem Ok.item (hn : 1 ≤ I.periods) {s : State} (h : Ok I s) {x i : Nat} (hi : i < I.items) : Ok I (Psp.trans I s ⟨x, (i : Int)⟩) := by
  refine ⟨?_, ?_, ?_, ?_⟩
  · rw [trans_time]; have := h.time; omega
  · rw [trans_item]; simp [h.len]
  · rw [trans_item]; exact Or.inr ⟨i, hi, rfl⟩
  · intro j hj
    rw [trans_at hn h hi]
    split
    · rename_i e; subst e; exact before_deadline (h.deadline j hi)
    · exact h.deadline j hj

theorem Ok.idle {s : State} (h : Ok I s) {x : Nat} : Ok I (Psp.trans I s ⟨x, -1⟩) := by
  refine ⟨?_, h.len, h.k, h.deadline⟩
  rw [trans_time]; have := h.time; omega

/-- Units due in `t` or later that cost more than `l` -/
def above (I : Inst) (s : State) (t l : Nat) : Nat := total I.items fun i => if l < I.stocking i then late I i (s.at i) t else 0

/-- The cost of the remaining units if all are made before `t` -/
def debt (I : Inst) (s : State) (t : Nat) : Nat := total I.items fun i => I.stocking i * wait I i (s.at i) t

theorem debt_succ (s : State) (t : Nat) : debt I s t = debt I s (t + 1) + total I.items fun i => I.stocking i * late I i (s.at i) (t + 1) := by
  unfold debt
  rw [← total_add]
  exact total_congr fun i _ => by rw [wait_succ, Nat.mul_add]

theorem debt_item (hn : 1 ≤ I.periods) {s : State} (h : Ok I s) {t i : Nat} (hi : i < I.items) (ht : (t : Int) ≤ s.at i) :
    debt I s t = debt I (trans I s ⟨t, (i : Int)⟩) t + I.stocking i * ((s.at i).toNat - t) := by
  have h1 := total_update hi (g := fun j => I.stocking j * wait I j (s.at j) t) (h := fun j => I.stocking j * wait I j ((trans I s ⟨t, (i : Int)⟩).at j) t)
    (by intro j _ hne; simp only [trans_at hn h hi, if_neg hne])
  have h2 := wait_before (h.deadline i hi) ht
  simp only [trans_at hn h hi, if_true, h2, Nat.mul_add] at h1
  unfold debt
  simp only [trans_at hn h hi]
  omega

theorem above_item (hn : 1 ≤ I.periods) {s : State} (h : Ok I s) {t i : Nat} (hi : i < I.items) (ht : (t : Int) ≤ s.at i) (l : Nat) :
    above I s t l = above I (trans I s ⟨t, (i : Int)⟩) t l + if l < I.stocking i then 1 else 0 := by
  have h1 := total_update hi (g := fun j => if l < I.stocking j then late I j (s.at j) t else 0)
    (h := fun j => if l < I.stocking j then late I j ((trans I s ⟨t, (i : Int)⟩).at j) t else 0)
    (by intro j _ hne; simp only [trans_at hn h hi, if_neg hne])
  have h2 := late_before (h.deadline i hi) ht
  simp only [trans_at hn h hi, if_true, h2] at h1
  unfold above
  simp only [trans_at hn h hi]
  by_cases hl : l < I.stocking i
  · simp only [if_pos hl] at h1 ⊢; omega
  · simp only [if_neg hl] at h1 ⊢; omega

/-- The two states agree about what is due before `t`. -/
def Same (I : Inst) (g s : State) (t : Nat) : Prop := ∀ i, i < I.items → ∀ d : Nat, d < t → 0 < I.demand i d → ((d : Int) ≤ g.at i ↔ (d : Int) ≤ s.at i)

theorem still_due (hn : 1 ≤ I.periods) {s : State} (h : Ok I s) {t i : Nat} (hi : i < I.items) (ht : (t : Int) ≤ s.at i) {j d : Nat} (hd : d < t) (h1 : 0 < I.demand j d) :
    (d : Int) ≤ (trans I s ⟨t, (i : Int)⟩).at j ↔ (d : Int) ≤ s.at j := by
  rw [trans_at hn h hi]
  by_cases e : j = i
  · subst e
    rw [if_pos rfl]
    constructor
    · intro h2; have := before_lt (I := I) (i := j) (u := s.at j) (by omega); omega
    · intro _
      unfold before
      exact lastBefore_last _ (by omega) h1
  · rw [if_neg e]

theorem above_succ {g s : State} {t : Nat} (hs : Same I g s (t + 1)) {l : Nat} (h : above I g (t + 1) l ≤ above I s (t + 1) l) : above I g t l ≤ above I s t l := by
  have key : ∀ r : State, above I r t l = above I r (t + 1) l + total I.items fun i => if l < I.stocking i then (if 0 < I.demand i t ∧ (t : Int) ≤ r.at i then 1 else 0) else 0 := by
    intro r
    unfold above
    rw [← total_add]
    refine total_congr fun i _ => ?_
    by_cases hl : l < I.stocking i
    · rw [if_pos hl, if_pos hl, if_pos hl, late_succ]
    · rw [if_neg hl, if_neg hl, if_neg hl]
  rw [key, key]
  have : (total I.items fun i => if l < I.stocking i then (if 0 < I.demand i t ∧ (t : Int) ≤ g.at i then 1 else 0) else 0) =
      total I.items fun i => if l < I.stocking i then (if 0 < I.demand i t ∧ (t : Int) ≤ s.at i then 1 else 0) else 0 := by
    refine total_congr fun i hi => ?_
    by_cases hd : 0 < I.demand i t
    · have := hs i hi t (by omega) hd
      simp only [hd, true_and, this]
    · simp [hd]
  omega

theorem greedy_le (hn : 1 ≤ I.periods) {f : Plan} : ∀ (t : Nat) (g s : State), Ok I g → Ok I s → s.time = t → From I s f → Same I g s t → (∀ l, above I g t l ≤ above I s t l) →
    (greedy I t g.u).sum + debt I s t ≤ stockFrom I s f + debt I g t
  | 0, g, s, _, hs, ht, hF, _, _ => by
    have : debt I s 0 = 0 := by
      unfold debt
      refine total_eq_zero fun i hi => ?_
      have h1 := hF.total i hi
      rw [ht, made_zero] at h1
      have h2 : s.at i = -1 := by
        rcases hs.deadline i hi with h | ⟨d, h, _⟩
        · exact h
        · have := left_before (hs.deadline i hi) (by omega); omega
      rw [h2]; rfl
    simp only [greedy, List.sum_nil]
    omega
  | t + 1, g, s, hg, hs, ht, hF, hsame, hdom => by
    have hH : (total I.items fun i => I.stocking i * late I i (g.at i) (t + 1)) ≤ total I.items fun i => I.stocking i * late I i (s.at i) (t + 1) := total_price _ _ _ hdom
    have hg1 := debt_succ (I := I) g t
    have hs1 := debt_succ (I := I) s t
    -- the plan
    have hplan : ∃ s' : State, Ok I s' ∧ s'.time = t ∧ From I s' f ∧ (∀ i, i < I.items → ∀ d : Nat, d < t → 0 < I.demand i d → ((d : Int) ≤ s'.at i ↔ (d : Int) ≤ s.at i)) ∧
        (∀ l, above I s t l ≤ above I s' t l + 1) ∧ ∃ c, stockFrom I s f = stockFrom I s' f + c ∧ debt I s t = debt I s' t + c := by
      cases hf : f t with
      | none =>
        refine ⟨trans I s ⟨t, -1⟩, hs.idle, by rw [trans_time]; omega, (from_idle ht hf).1 hF, fun i _ d _ _ => Iff.rfl, fun l => Nat.le_succ _, 0, (stockFrom_idle ht hf).symm, rfl⟩
      | some i =>
        have hi : i < I.items := hF.item t (by omega) i hf
        obtain ⟨hp, hF'⟩ := (from_item hn hs ht hi hf).1 hF
        refine ⟨trans I s ⟨t, (i : Int)⟩, hs.item hn hi, by rw [trans_time]; omega, hF', fun j _ d hd h1 => still_due hn hs hi hp hd h1, ?_, _, stockFrom_item hn hs ht hi hf hp hF',
          debt_item hn hs hi hp⟩
        intro l
        have := above_item hn hs hi hp l
        split at this <;> omega
    obtain ⟨s', hs', ht', hF', hsame', hdom', c, hc1, hc2⟩ := hplan
    have hdom2 : ∀ l, above I g t l ≤ above I s t l := fun l => above_succ hsame (hdom l)
    rcases pick_spec (I := I) g.u t with ⟨h1, h2⟩ | ⟨i, h1, h2, h3, h4⟩
    · have hserve : serve I g.u t = (0, g.u) := by unfold serve; rw [h1]; simp
      have hz : ∀ l, above I g t l = 0 := by
        intro l
        unfold above
        refine total_eq_zero fun i hi => ?_
        show (if l < I.stocking i then late I i (g.u.getD i (-1)) t else 0) = 0
        rw [late_zero (h2 i (by rw [hg.len]; exact hi))]
        split <;> rfl
      have ih := greedy_le hn t g s' hg hs' ht' hF' (fun i hi d hd h0 => (hsame i hi d (by omega) h0).trans (hsame' i hi d hd h0).symm) (fun l => by rw [hz]; exact Nat.zero_le _)
      simp only [greedy, hserve, List.sum_append, List.sum_cons, List.sum_nil]
      omega
    · have hi : i < I.items := hg.len ▸ h1
      have hserve : serve I g.u t = (((g.at i).toNat - t) * I.stocking i, (trans I g ⟨t, (i : Int)⟩).u) := by
        unfold serve
        rw [h3]
        simp only [if_neg (natCast_ne_neg_one i), Int.toNat_natCast, trans_item]
        rfl
      have ih := greedy_le hn t (trans I g ⟨t, (i : Int)⟩) s' (hg.item hn hi) hs' ht' hF'
        (fun j hj d hd h0 => (still_due hn hg hi h2 hd h0).trans ((hsame j hj d (by omega) h0).trans (hsame' j hj d hd h0).symm)) (by
          intro l
          have e1 := above_item hn hg hi h2 l
          have e2 := hdom2 l
          have e3 := hdom' l
          by_cases hl : l < I.stocking i
          · rw [if_pos hl] at e1; omega
          · have hz : above I g t l = 0 := by
              unfold above
              refine total_eq_zero fun j hj => ?_
              by_cases hlj : l < I.stocking j
              · rw [if_pos hlj]
                refine late_zero ?_
                rcases Int.lt_or_le (g.at j) t with h | h
                · exact h
                · have := h4 j (by rw [hg.len]; exact hj) h; omega
              · rw [if_neg hlj]
            rw [if_neg hl] at e1
            omega)
      have e := debt_item hn hg hi h2
      simp only [greedy, hserve, List.sum_append, List.sum_cons, List.sum_nil, Nat.mul_comm _ (I.stocking i)]
      omega

theorem ideal_le (hn : 1 ≤ I.periods) {s : State} (h : Ok I s) {f : Plan} (hF : From I s f) : (greedy I s.time s.u).sum ≤ stockFrom I s f := by
  have := greedy_le hn s.time s s h h rfl hF (fun _ _ _ _ _ => Iff.rfl) fun _ => Nat.le_refl _
  omega

end Verif.Psp
