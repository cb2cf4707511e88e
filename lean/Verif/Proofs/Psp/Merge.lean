import Verif.Proofs.Psp.Exact
/-! Merged states of the production planning problem. -/
set_option autoImplicit false

namespace Verif.Psp
open Verif Spec
variable {I : Inst} {σ : List Edge → List Edge} {B : Nat}

/-! ### The merged state -/

theorem fold_time (l : List State) (a : Nat × List Int) : a.1 ≤ (l.foldl mergeStep a).1 ∧ (∀ s ∈ l, s.time ≤ (l.foldl mergeStep a).1) ∧
    ∀ k, a.1 ≤ k → (∀ s ∈ l, s.time ≤ k) → (l.foldl mergeStep a).1 ≤ k := by
  induction l generalizing a with
  | nil => exact ⟨Nat.le_refl _, by simp, fun k h _ => h⟩
  | cons s l ih =>
    obtain ⟨h1, h2, h3⟩ := ih (mergeStep a s)
    have e : (mergeStep a s).1 = max a.1 s.time := rfl
    rw [e] at h1
    simp only [List.foldl_cons]
    refine ⟨by omega, ?_, ?_⟩
    · intro t ht
      rcases List.mem_cons.1 ht with rfl | ht
      · omega
      · exact h2 t ht
    · intro k hk hl
      refine h3 k ?_ fun t ht => hl t (by simp [ht])
      rw [e]
      have := hl s (by simp)
      omega

theorem merge_time {l : List State} (hne : l ≠ []) {k : Nat} (h : ∀ s ∈ l, s.time = k) : (merge l).time = k := by
  obtain ⟨_, h2, h3⟩ := fold_time l (0, [])
  show (l.foldl mergeStep (0, [])).1 = k
  obtain ⟨s, hs⟩ := List.exists_mem_of_ne_nil l hne
  have h4 := h2 s hs
  have h5 := h3 k (Nat.zero_le _) fun s hs => Nat.le_of_eq (h s hs)
  rw [h s hs] at h4
  omega

/-- Componentwise minimum of a list that is empty at first -/
theorem fold_u {m : Nat} (l : List State) (hl : ∀ s ∈ l, s.u.length = m) (a : Nat × List Int) (ha : a.2 = [] ∨ a.2.length = m) :
    ((l.foldl mergeStep a).2 = [] ∨ (l.foldl mergeStep a).2.length = m) ∧ (l ≠ [] → (l.foldl mergeStep a).2.length = m) ∧
    ∀ i, i < m → (∀ s ∈ l, ((l.foldl mergeStep a).2.getD i (-1) ≤ s.at i)) ∧ (a.2 ≠ [] → (l.foldl mergeStep a).2.getD i (-1) ≤ a.2.getD i (-1)) ∧
      ((a.2 ≠ [] ∧ (l.foldl mergeStep a).2.getD i (-1) = a.2.getD i (-1)) ∨ (∃ s ∈ l, (l.foldl mergeStep a).2.getD i (-1) = s.at i) ∨ (a.2 = [] ∧ l = [])) := by
  induction l generalizing a with
  | nil =>
    refine ⟨ha, by simp, fun i _ => ⟨by simp, fun _ => Int.le_refl _, ?_⟩⟩
    by_cases h : a.2 = []
    · exact Or.inr (Or.inr ⟨h, rfl⟩)
    · exact Or.inl ⟨h, rfl⟩
  | cons s l ih =>
    have hs := hl s (by simp)
    have hl' : ∀ t ∈ l, t.u.length = m := fun t ht => hl t (by simp [ht])
    have hlen : (mergeStep a s).2.length = m := by
      unfold mergeStep
      simp only
      split
      · exact hs
      · rename_i hne
        rcases ha with ha | ha
        · exact absurd ha hne
        · rw [List.length_zipWith, hs, ha, Nat.min_self]
    have hval : ∀ i, i < m → (mergeStep a s).2.getD i (-1) = if a.2 = [] then s.at i else min (s.at i) (a.2.getD i (-1)) := by
      intro i hi
      unfold mergeStep State.at
      simp only
      split
      · rfl
      · rename_i hne
        rcases ha with ha | ha
        · exact absurd ha hne
        · simp only [List.getD_eq_getElem?_getD]
          rw [List.getElem?_zipWith, List.getElem?_eq_getElem (by omega), List.getElem?_eq_getElem (by omega)]
          rfl
    obtain ⟨h1, h2, h3⟩ := ih hl' (mergeStep a s) (Or.inr hlen)
    simp only [List.foldl_cons]
    have hlen' : (l.foldl mergeStep (mergeStep a s)).2.length = m := by
      by_cases hne : l = []
      · subst hne; exact hlen
      · exact h2 hne
    refine ⟨Or.inr hlen', fun _ => hlen', fun i hi => ?_⟩
    obtain ⟨g1, g2, g3⟩ := h3 i hi
    have hne : (mergeStep a s).2 ≠ [] := by
      intro h; rw [h] at hlen; simp at hlen; omega
    have g2 := g2 hne
    rw [hval i hi] at g2
    refine ⟨?_, ?_, ?_⟩
    · intro t ht
      rcases List.mem_cons.1 ht with rfl | ht
      · split at g2 <;> omega
      · exact g1 t ht
    · intro ha; rw [if_neg ha] at g2; omega
    · rcases g3 with ⟨_, g3⟩ | ⟨t, ht, g3⟩ | ⟨g3, _⟩
      · rw [hval i hi] at g3
        split at g3
        · exact Or.inr (Or.inl ⟨s, by simp, g3⟩)
        · rename_i ha
          rcases Int.le_total (s.at i) (a.2.getD i (-1)) with h | h
          · rw [Int.min_eq_left h] at g3; exact Or.inr (Or.inl ⟨s, by simp, g3⟩)
          · rw [Int.min_eq_right h] at g3; exact Or.inl ⟨ha, g3⟩
      · exact Or.inr (Or.inl ⟨t, by simp [ht], g3⟩)
      · exact absurd g3 hne

theorem merge_u {l : List State} (hne : l ≠ []) (hl : ∀ s ∈ l, s.u.length = I.items) :
    (merge l).u.length = I.items ∧ ∀ i, i < I.items → (∀ s ∈ l, (merge l).at i ≤ s.at i) ∧ ∃ s ∈ l, (merge l).at i = s.at i := by
  obtain ⟨_, h2, h3⟩ := fold_u l hl (0, []) (Or.inl rfl)
  refine ⟨h2 hne, fun i hi => ?_⟩
  obtain ⟨g1, _, g3⟩ := h3 i hi
  refine ⟨g1, ?_⟩
  rcases g3 with ⟨g, _⟩ | g | ⟨_, g⟩
  · exact absurd rfl g
  · exact g
  · exact absurd g hne

theorem merge_ok {l : List State} (hne : l ≠ []) {k : Nat} (h : ∀ s ∈ l, Ok I s ∧ s.time = k) : Ok I (merge l) ∧ (merge l).time = k := by
  have ht := merge_time hne fun s hs => (h s hs).2
  obtain ⟨h1, h2⟩ := merge_u (I := I) hne fun s hs => (h s hs).1.len
  refine ⟨⟨?_, h1, Or.inl rfl, ?_⟩, ht⟩
  · obtain ⟨s, hs⟩ := List.exists_mem_of_ne_nil l hne
    rw [ht, ← (h s hs).2]; exact (h s hs).1.time
  · intro i hi
    obtain ⟨s, hs, e⟩ := (h2 i hi).2
    rw [e]; exact (h s hs).1.deadline i hi

/-! ### Less to do -/

/-- `s'` has no more to do than `s`, and changing over to what follows costs at most `c` more. -/
structure Below (I : Inst) (c : Nat) (s s' : State) : Prop where
  time : s'.time = s.time
  le : ∀ i, i < I.items → s'.at i ≤ s.at i
  k : s'.k = -1 ∨ (s.k ≠ -1 ∧ ∀ a, a < I.items → I.changeover a s'.k.toNat ≤ I.changeover a s.k.toNat + c)

theorem Below.remaining (hn : 1 ≤ I.periods) {c : Nat} {s s' : State} (h : Ok I s) (h' : Ok I s') (hb : Below I c s s') : remaining I s' ≤ remaining I s := by
  rw [remaining_eq hn h, remaining_eq hn h']
  exact total_mono fun i hi => left_mono i (hb.le i hi)

theorem Below.run (hn : 1 ≤ I.periods) (htri : Triangle I) {s e : State} {ds : List Decision} {v : Int} (hr : Run (problem I σ) s ds v e)
    (he : (problem I σ).nextVar [e] = none) :
    ∀ {c : Nat} {s' : State}, Ok I s → Ok I s' → Below I c s s' → ∃ ds' v', Completion (problem I σ) s' ds' v' ∧ v ≤ v' + c := by
  induction hr with
  | nil s =>
    intro c s' h h' hb
    refine ⟨[], 0, ⟨s', Run.nil _, ?_⟩, by omega⟩
    have := nextVar_none he
    exact nextVar_zero (by rw [hb.time]; exact this)
  | @cons s e x d ds v hx hd hr ih =>
    intro c s' h h' hb
    have ht := nextVar_some hx
    have ht' : s'.time = x + 1 := by rw [hb.time]; exact ht
    have hx' : (problem I σ).nextVar [s'] = some x := nextVar_succ ht'
    obtain ⟨hrem, hcase⟩ := mem_dom.1 hd
    have hrem' := hb.remaining hn h h'
    have hokt := h.trans hn hd
    rcases hcase with ⟨i, hi, hp, rfl⟩ | ⟨hlt, rfl⟩
    · by_cases hp' : (x : Int) ≤ s'.at i
      · -- both make `i`
        have hd' : (⟨x, (i : Int)⟩ : Decision) ∈ dom I x s' := mem_dom.2 ⟨by omega, Or.inl ⟨i, hi, hp', rfl⟩⟩
        have hokt' := h'.trans hn hd'
        have hb' : Below I 0 (Psp.trans I s ⟨x, (i : Int)⟩) (Psp.trans I s' ⟨x, (i : Int)⟩) := by
          refine ⟨by rw [trans_time, trans_time, hb.time], ?_, Or.inr ⟨?_, ?_⟩⟩
          · intro j hj
            rw [trans_at hn h hi, trans_at hn h' hi]
            split
            · rename_i e; subst e; exact before_mono (h'.deadline j hj) (hb.le j hj)
            · exact hb.le j hj
          · rw [trans_item]; exact natCast_ne_neg_one i
          · intro a _; rw [trans_item, trans_item]; exact Nat.le_refl _
        obtain ⟨ds', v', ⟨e', h1, h2⟩, h3⟩ := ih he hokt hokt' hb'
        refine ⟨_, _, ⟨e', Run.cons hx' hd' h1, h2⟩, ?_⟩
        have hc : cost I s ⟨x, (i : Int)⟩ ≤ cost I s' ⟨x, (i : Int)⟩ + c := by
          unfold cost
          rw [if_neg (natCast_ne_neg_one i), if_neg (natCast_ne_neg_one i)]
          simp only [Int.toNat_natCast]
          have h4 : I.stocking i * ((s'.at i).toNat - x) ≤ I.stocking i * ((s.at i).toNat - x) := by
            refine Nat.mul_le_mul_left _ ?_
            have := hb.le i hi
            omega
          rcases hb.k with hk | ⟨hk, hk'⟩
          · rw [if_pos hk]; omega
          · rw [if_neg hk]
            have := hk' i hi
            split <;> omega
        show cost I s ⟨x, (i : Int)⟩ + v ≤ cost I s' ⟨x, (i : Int)⟩ + v' + c
        omega
      · -- `s'` has no need of `i` now
        have hlt : s'.at i < s.at i := by omega
        have hless : Psp.remaining I s' < Psp.remaining I s := by
          rw [remaining_eq hn h, remaining_eq hn h']
          exact total_lt (fun j hj => left_mono j (hb.le j hj)) hi (left_lt (h.deadline i hi) hlt (h'.deadline i hi).ge)
        have hd' : (⟨x, -1⟩ : Decision) ∈ dom I x s' := mem_dom.2 ⟨by omega, Or.inr ⟨by omega, rfl⟩⟩
        have hokt' := h'.trans hn hd'
        have hb' : Below I ((if s.k = -1 then 0 else I.changeover i s.k.toNat) + c) (Psp.trans I s ⟨x, (i : Int)⟩) (Psp.trans I s' ⟨x, -1⟩) := by
          refine ⟨by rw [trans_time, trans_time, hb.time], ?_, ?_⟩
          · intro j hj
            rw [trans_at hn h hi]
            show s'.at j ≤ _
            split
            · rename_i e; subst e; exact le_before (h'.deadline j hj) hlt
            · exact hb.le j hj
          · rcases hb.k with hk | ⟨hk, hk'⟩
            · exact Or.inl hk
            · right
              rw [trans_item, trans_idle]
              refine ⟨natCast_ne_neg_one i, ?_⟩
              intro a ha
              simp only [Int.toNat_natCast]
              rw [if_neg hk]
              have hk'' : s'.k.toNat < I.items ∨ s'.k = -1 := by
                rcases h'.k with h | ⟨j, hj, h⟩
                · exact Or.inr h
                · left; rw [h]; simpa using hj
              rcases hk'' with hj | hj
              · have h1 := htri a i s'.k.toNat ha hi hj
                have h2 := hk' i hi
                omega
              · rcases Nat.lt_or_ge s'.k.toNat I.items with hj' | hj'
                · have h1 := htri a i s'.k.toNat ha hi hj'
                  have h2 := hk' i hi
                  omega
                · rw [hj] at hj'
                  have : (-1 : Int).toNat = 0 := rfl
                  rw [this] at hj'
                  omega
        obtain ⟨ds', v', ⟨e', h1, h2⟩, h3⟩ := ih he hokt hokt' hb'
        refine ⟨_, _, ⟨e', Run.cons hx' hd' h1, h2⟩, ?_⟩
        have hc : cost I s ⟨x, (i : Int)⟩ + ((if s.k = -1 then 0 else I.changeover i s.k.toNat : Nat) : Int) ≤ 0 := by
          unfold cost
          rw [if_neg (natCast_ne_neg_one i)]
          simp only [Int.toNat_natCast]
          omega
        have hc' : cost I s' ⟨x, -1⟩ = 0 := rfl
        show cost I s ⟨x, (i : Int)⟩ + v ≤ cost I s' ⟨x, -1⟩ + v' + c
        omega
    · have hd' : (⟨x, -1⟩ : Decision) ∈ dom I x s' := mem_dom.2 ⟨by omega, Or.inr ⟨by omega, rfl⟩⟩
      have hb' : Below I c (Psp.trans I s ⟨x, -1⟩) (Psp.trans I s' ⟨x, -1⟩) :=
        ⟨by rw [trans_time, trans_time, hb.time], hb.le, hb.k⟩
      obtain ⟨ds', v', ⟨e', h1, h2⟩, h3⟩ := ih he hokt (h'.trans hn hd') hb'
      refine ⟨_, _, ⟨e', Run.cons hx' hd' h1, h2⟩, ?_⟩
      have hc : cost I s ⟨x, -1⟩ = 0 := rfl
      have hc' : cost I s' ⟨x, -1⟩ = 0 := rfl
      show cost I s ⟨x, -1⟩ + v ≤ cost I s' ⟨x, -1⟩ + v' + c
      omega

theorem merge_below {l : List State} {k : Nat} (h : ∀ s ∈ l, Ok I s ∧ s.time = k) {s : State} (hs : s ∈ l) : Below I 0 s (merge l) := by
  have hne : l ≠ [] := List.ne_nil_of_mem hs
  refine ⟨?_, ?_, Or.inl rfl⟩
  · rw [merge_time hne fun s hs => (h s hs).2, (h s hs).2]
  · intro i hi
    exact ((merge_u (I := I) hne fun s hs => (h s hs).1.len).2 i hi).1 s hs

/-! ### What the solver needs -/

variable (I) in
/-- The layers of the problem -/
def layering : Layering State := { ok := Ok I, lvl := fun s => I.periods - s.time, var := fun k => I.periods - 1 - k }

theorem cost_bound (hn : 1 ≤ I.periods) (hB : Bounded I B) {s : State} (h : Ok I s) {x : Nat} {d : Decision} (hd : d ∈ dom I x s) :
    -(B : Int) ≤ cost I s d ∧ cost I s d ≤ 0 := by
  rcases (mem_dom.1 hd).2 with ⟨i, hi, hp, rfl⟩ | ⟨_, rfl⟩
  · unfold cost
    rw [if_neg (natCast_ne_neg_one i)]
    simp only [Int.toNat_natCast]
    refine ⟨?_, by omega⟩
    have h1 : I.stocking i * ((s.at i).toNat - x) ≤ I.stocking i * I.periods := by
      refine Nat.mul_le_mul_left _ ?_
      have := (h.deadline i hi).lt hn
      omega
    split
    · have := hB.step i i hi hi
      omega
    · rename_i hk
      rcases h.k with h' | ⟨j, hj, h'⟩
      · exact absurd h' hk
      · rw [h']
        simp only [Int.toNat_natCast]
        have := hB.step i j hi hj
        omega
  · have : cost I s ⟨x, -1⟩ = 0 := rfl
    omega

theorem wellFormed (hn : 1 ≤ I.periods) (hB : Bounded I B) : WellFormed (problem I σ) (layering I) B where
  ok_init := ok_init hn
  ok_trans := fun s x d hs _ hd => Ok.trans hn hs hd
  lvl_init := Nat.sub_self _
  lvl_trans := by
    intro s x d hs hx hd
    have ht := nextVar_some hx
    show I.periods - (Psp.trans I s d).time = I.periods - s.time + 1
    rw [trans_time]
    have := hs.time
    omega
  next_nil := rfl
  next_var := by
    intro l k hne hl
    cases l with
    | nil => exact absurd rfl hne
    | cons s l =>
      obtain ⟨h1, h2⟩ := hl s (by simp)
      change I.periods - s.time = k at h2
      have := h1.time
      show nextVar (s :: l) = if k < I.periods then some (I.periods - 1 - k) else none
      simp only [nextVar]
      by_cases h : 0 < s.time
      · rw [if_pos h, if_pos (show k < I.periods by omega)]
        congr 1
        omega
      · rw [if_neg h, if_neg (show ¬ k < I.periods by omega)]
  init_bound := by
    show -(B : Int) ≤ 0 ∧ (0 : Int) ≤ B
    omega
  cost_bound := by
    intro s x d hs hx hd
    have := cost_bound hn hB hs hd
    constructor
    · exact this.1
    · show cost I s d ≤ B
      omega
  no_overflow := by
    have := hB.small
    have e : isizeMax = ((2 ^ 63 - 1 : Nat) : Int) := by decide
    rw [e]
    show 4 * ((I.periods : Int) + 2) * (B : Int) ≤ _
    have h2 : 4 * ((I.periods : Int) + 2) * (B : Int) = ((4 * (I.periods + 2) * B : Nat) : Int) := by push_cast; rfl
    rw [h2]
    exact_mod_cast this

theorem layered (hn : 1 ≤ I.periods) (hB : Bounded I B) : LayeredRelaxation (problem I σ) relaxation (layering I) B where
  merge_ok := by
    intro l k hne hl
    have hk : ∀ s ∈ l, Ok I s ∧ s.time = I.periods - k := by
      intro s hs
      obtain ⟨h1, h2⟩ := hl s hs
      change I.periods - s.time = k at h2
      have := h1.time
      exact ⟨h1, by omega⟩
    obtain ⟨h1, h2⟩ := merge_ok hne hk
    refine ⟨h1, ?_⟩
    show I.periods - (merge l).time = k
    obtain ⟨s, hs⟩ := List.exists_mem_of_ne_nil l hne
    have h3 := (hl s hs).2
    change I.periods - s.time = k at h3
    have := (hk s hs).2
    have := (hl s hs).1.time
    omega
  relax_cost := by
    intro l k _ s x d hs hx hd _
    have := cost_bound hn hB hs hd
    constructor
    · exact Int.le_refl _
    · show cost I s d ≤ B
      omega

theorem sound (hn : 1 ≤ I.periods) (hB : Bounded I B) (htri : Triangle I) : SoundRelaxation (problem I σ) relaxation (layering I) B := by
  refine ⟨layered hn hB, ?_⟩
  intro l k hl s x d hs hx hd hm ds v ⟨e, hr, he⟩
  have hk : ∀ s ∈ l, Ok I s ∧ s.time = I.periods - k := by
    intro s hs
    obtain ⟨h1, h2⟩ := hl s hs
    change I.periods - s.time = k at h2
    have := h1.time
    exact ⟨h1, by omega⟩
  have hne : l ≠ [] := List.ne_nil_of_mem hm
  obtain ⟨ds', v', h1, h2⟩ := Below.run hn htri hr he (hk _ hm).1 (merge_ok hne hk).1 (merge_below hk hm)
  refine ⟨ds', v', h1, ?_⟩
  show cost I s d + v ≤ cost I s d + v'
  omega

end Verif.Psp
