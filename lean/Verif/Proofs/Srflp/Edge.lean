import Verif.Proofs.Srflp.Cut
/-! The rough bound: flow between the departments that are left. -/
set_option autoImplicit false

namespace Verif.Srflp
open Verif Spec
variable {I : Inst} {F L : Nat}

/-! ### Pairs of steps -/

/-- The flow from the department of `a` that passes over that of `b` -/
def over (I : Inst) (q : Step × Step) : Int := (q.2.after.map (I.flow q.1.dep)).sum

/-- All flow that passes, as far as it starts from departments of the list -/
def total (I : Inst) (Q : List Step) : Int := ((pairsOf Q).map (over I)).sum

/-- Pairs at distance `j` -/
def diag (Q : List Step) (j : Nat) : List (Step × Step) := Q.zip (Q.drop j)

theorem diag_sum (Q : List Step) : ∀ n, Q.length ≤ n → total I Q = rsum (fun j => ((diag Q (j + 1)).map (over I)).sum) n := by
  induction Q with
  | nil =>
    intro n _
    have : ∀ n, rsum (fun _ => 0) n = 0 := by
      intro n; induction n with
      | zero => rfl
      | succ n ih => rw [rsum, ih]; rfl
    have e : (fun j => ((diag [] (j + 1)).map (over I)).sum) = fun _ => (0 : Int) := rfl
    rw [e, this]
    rfl
  | cons a Q ih =>
    intro n hn
    have hn' : Q.length ≤ n := by simp at hn; omega
    have h1 : ∀ j, ((diag (a :: Q) (j + 1)).map (over I)).sum = ((Q.drop j).head?.map (fun b => over I (a, b))).getD 0 + ((diag Q (j + 1)).map (over I)).sum := by
      intro j
      unfold diag
      rw [List.drop_succ_cons]
      cases hd : Q.drop j with
      | nil =>
        have : Q.drop (j + 1) = [] := by
          rw [← List.drop_drop, hd]; rfl
        rw [this]
        simp
      | cons b R =>
        have : Q.drop (j + 1) = R := by
          rw [← List.drop_drop, hd]; rfl
        rw [this]
        simp
    have h2 : ∀ (Q : List Step) n, Q.length ≤ n → (Q.map fun b => over I (a, b)).sum = rsum (fun j => ((Q.drop j).head?.map (fun b => over I (a, b))).getD 0) n := by
      intro Q
      induction Q with
      | nil =>
        intro n _
        simp only [List.drop_nil, List.head?_nil, Option.map_none, Option.getD_none, List.map_nil, List.sum_nil]
        induction n with
        | zero => rfl
        | succ n ih => rw [rsum, ← ih (by simp)]; rfl
      | cons b Q ih =>
        intro n hn
        cases n with
        | zero => simp at hn
        | succ n =>
          rw [rsum_succ', List.map_cons, List.sum_cons, ih n (by simpa using hn)]
          rfl
    have h3 : ∀ f g : Nat → Int, ∀ n, rsum (fun j => f j + g j) n = rsum f n + rsum g n := by
      intro f g n
      induction n with
      | zero => rfl
      | succ n ih => simp only [rsum, ih]; omega
    rw [rsum_congr fun j _ => h1 j, h3, ← h2 Q n hn', ← ih n hn']
    unfold total
    rw [pairsOf, List.map_append, List.sum_append, List.map_map]
    rfl

/-! ### The pairs of departments behind one distance -/

/-- An entry of the sorted flows -/
def entry (I : Inst) (d i : Nat) : Int × Nat × Nat := if d < i then (I.flow d i, d, i) else (I.flow i d, i, d)

/-- The entries a pair of steps is charged for -/
def entriesOf (I : Inst) (q : Step × Step) : List (Int × Nat × Nat) := q.2.after.map (entry I q.1.dep)

def entries (I : Inst) (l : List (Step × Step)) : List (Int × Nat × Nat) := l.flatMap (entriesOf I)

theorem entry_inj {d i d' i' : Nat} (h : entry I d i = entry I d' i') : (d = d' ∧ i = i') ∨ (d = i' ∧ i = d') := by
  unfold entry at h
  split at h <;> split at h <;> simp only [Prod.mk.injEq] at h <;> omega

theorem entry_fst (hs : Symmetric I) {d i : Nat} (hd : d < I.n) (hi : i < I.n) : (entry I d i).1 = I.flow d i := by
  unfold entry
  split
  · rfl
  · exact hs i d hi hd

theorem mem_sortedFlows {d i : Nat} (hd : d < I.n) (hi : i < I.n) (hne : d ≠ i) : entry I d i ∈ sortedFlows I := by
  refine (sortedFlows_perm I).mem_iff.2 ?_
  rw [pairs_eq]
  have hlt : (List.range I.n).Pairwise (· < ·) := List.pairwise_lt_range
  unfold entry
  split
  · exact List.mem_map.2 ⟨(d, i), (mem_pairsOf_of_lt hlt).2 ⟨by simpa using hd, by simpa using hi, by assumption⟩, rfl⟩
  · exact List.mem_map.2 ⟨(i, d), (mem_pairsOf_of_lt hlt).2 ⟨by simpa using hi, by simpa using hd, by omega⟩, rfl⟩

theorem mem_entries {l : List (Step × Step)} {e : Int × Nat × Nat} : e ∈ entries I l ↔ ∃ q ∈ l, ∃ i ∈ q.2.after, entry I q.1.dep i = e := by
  unfold entries entriesOf
  simp [List.mem_flatMap]

/-- What is known about the pairs at one distance -/
structure Apart (q r : Step × Step) : Prop where
  ne : q.1.dep ≠ r.1.dep
  not_mem : q.1.dep ∉ r.2.after

theorem entries_nodup {l : List (Step × Step)} (h1 : l.Pairwise Apart) (h2 : ∀ q ∈ l, q.1.dep ∉ q.2.after ∧ q.2.after.Nodup) : (entries I l).Nodup := by
  induction l with
  | nil => exact List.nodup_nil
  | cons q l ih =>
    rw [List.pairwise_cons] at h1
    have hq := h2 q (by simp)
    unfold entries at *
    rw [List.flatMap_cons]
    refine List.nodup_append.2 ⟨?_, ih h1.2 fun r hr => h2 r (by simp [hr]), ?_⟩
    · refine List.Pairwise.map _ ?_ (List.Pairwise.imp_of_mem ?_ hq.2) (R := fun i i' => i ≠ i' ∧ q.1.dep ≠ i ∧ q.1.dep ≠ i')
      · intro i i' hi e
        rcases entry_inj e with ⟨_, e⟩ | ⟨e, _⟩
        · exact hi.1 e
        · exact hi.2.2 e
      · intro i i' hi hi' hne
        exact ⟨hne, fun e => hq.1 (e ▸ hi), fun e => hq.1 (e ▸ hi')⟩
    · intro e he e' he' hee
      subst hee
      obtain ⟨i, hi, he⟩ := List.mem_map.1 he
      obtain ⟨r, hr, i', hi', he'⟩ := mem_entries.1 he'
      rw [← he'] at he
      have := h1.1 r hr
      rcases entry_inj he with ⟨e, _⟩ | ⟨e, _⟩
      · exact this.ne e
      · exact this.not_mem (e ▸ hi')

theorem diag_apart : ∀ {Q : List Step} (_ : Q.Pairwise Earlier) (j : Nat), (diag Q (j + 1)).Pairwise Apart := by
  intro Q hQ j
  have h1 : ∀ (P R : List Step), (∀ q ∈ P.zip R, ∃ a ∈ P, ∃ b ∈ R, q = (a, b)) := by
    intro P R q hq
    exact ⟨q.1, (List.of_mem_zip hq).1, q.2, (List.of_mem_zip hq).2, rfl⟩
  unfold diag
  induction Q with
  | nil => exact List.Pairwise.nil
  | cons a Q ih =>
    rw [List.pairwise_cons] at hQ
    rw [List.drop_succ_cons]
    cases hd : Q.drop j with
    | nil => exact List.Pairwise.nil
    | cons b R =>
      have hR : Q.drop (j + 1) = R := by rw [← List.drop_drop, hd]; rfl
      have ih := ih hQ.2
      rw [hR] at ih
      rw [List.zip_cons_cons]
      refine List.pairwise_cons.2 ⟨?_, ih⟩
      intro q hq
      obtain ⟨h2, h3⟩ := List.of_mem_zip hq
      have h4 : q.2 ∈ Q := List.mem_of_mem_drop (hR ▸ h3)
      exact ⟨(hQ.1 q.1 h2).ne, (hQ.1 q.2 h4).not_mem⟩

theorem diag_earlier {Q : List Step} (hQ : Q.Pairwise Earlier) (j : Nat) : ∀ q ∈ diag Q (j + 1), Earlier q.1 q.2 ∧ q.1 ∈ Q ∧ q.2 ∈ Q := by
  unfold diag
  induction Q with
  | nil => intro q hq; cases hq
  | cons a Q ih =>
    rw [List.pairwise_cons] at hQ
    rw [List.drop_succ_cons]
    intro q hq
    cases hd : Q.drop j with
    | nil => rw [hd] at hq; cases hq
    | cons b R =>
      have hR : Q.drop (j + 1) = R := by rw [← List.drop_drop, hd]; rfl
      have ih := ih hQ.2
      rw [hR] at ih
      rw [hd, List.zip_cons_cons] at hq
      rcases List.mem_cons.1 hq with rfl | hq
      · have hb : b ∈ Q := List.mem_of_mem_drop (by rw [hd]; simp)
        exact ⟨hQ.1 b hb, by simp, by simp [hb]⟩
      · obtain ⟨g1, g2, g3⟩ := ih q hq
        exact ⟨g1, by simp [g2], by simp [g3]⟩

theorem diag_fst (Q : List Step) (j : Nat) : ((diag Q j).map Prod.fst).Sublist Q := by
  unfold diag
  generalize Q.drop j = R
  induction Q generalizing R with
  | nil => exact List.Sublist.slnil
  | cons a Q ih =>
    cases R with
    | nil => exact List.nil_sublist _
    | cons b R => exact (ih R).cons_cons a

theorem diag_snd (Q : List Step) (j : Nat) : (diag Q j).map Prod.snd = Q.drop j := by
  unfold diag
  rw [List.map_snd_zip]
  simp

/-! ### One distance -/

theorem sum_flatMap {α β : Type} (f : β → Int) (g : α → List β) (l : List α) : ((l.flatMap g).map f).sum = (l.map fun a => ((g a).map f).sum).sum := by
  induction l with
  | nil => rfl
  | cons a l ih => rw [List.flatMap_cons, List.map_append, List.sum_append, ih]; rfl

theorem nat_sum_le {α : Type} {f g : α → Nat} {l : List α} (h : ∀ a ∈ l, f a ≤ g a) : (l.map f).sum ≤ (l.map g).sum := by
  induction l with
  | nil => exact Nat.le_refl _
  | cons a l ih =>
    have h1 := h a (by simp)
    have h2 := ih fun b hb => h b (by simp [hb])
    simp only [List.map_cons, List.sum_cons]
    omega

theorem nat_sum_sublist {α : Type} (f : α → Nat) {l m : List α} (h : l.Sublist m) : (l.map f).sum ≤ (m.map f).sum := by
  induction h with
  | slnil => exact Nat.le_refl _
  | cons a _ ih => simp only [List.map_cons, List.sum_cons]; omega
  | cons_cons a _ ih => simp only [List.map_cons, List.sum_cons]; omega

/-- Three kinds cover a list. -/
theorem three_kinds {β : Type} (c1 c2 c3 : β → Bool) (f : β → Int) (l : List β)
    (h : ∀ p ∈ l, (c1 p = true ∧ c2 p = false ∧ c3 p = false) ∨ (c1 p = false ∧ c2 p = true ∧ c3 p = false) ∨ (c1 p = false ∧ c2 p = false ∧ c3 p = true)) :
    l.length = (l.filter c1).length + ((l.filter c2).length + (l.filter c3).length) ∧
    (l.map f).sum = ((l.filter c1).map f).sum + (((l.filter c2).map f).sum + ((l.filter c3).map f).sum) := by
  induction l with
  | nil => exact ⟨rfl, rfl⟩
  | cons p l ih =>
    obtain ⟨h1, h2⟩ := ih fun q hq => h q (by simp [hq])
    rcases h p (by simp) with ⟨a, b, c⟩ | ⟨a, b, c⟩ | ⟨a, b, c⟩ <;> simp [a, b, c] at h1 h2 ⊢ <;> omega

/-- Everything a step refers to is free. -/
structure Inside (I : Inst) (s : State) (t : Step) : Prop where
  dep : if t.must then s.must.testBit t.dep = true else (mb s).testBit t.dep = true
  one : ∀ i ∈ t.after1, s.must.testBit i = true
  two : ∀ i ∈ t.after2, (mb s).testBit i = true
  lt : t.dep < I.n ∧ ∀ i ∈ t.after, i < I.n

theorem trace_inside {s : State} {ss : List Step} (ht : Trace (Bits.iter I.n s.must) (Bits.iter I.n (mb s)) ss) : ∀ t ∈ ss, Inside I s t := by
  intro t h
  obtain ⟨h1, h2, h3⟩ := ht.mem t h
  refine ⟨?_, fun i hi => (Bits.mem_iter.1 (h2 i hi)).2, fun i hi => (Bits.mem_iter.1 (h3 i hi)).2, ?_, ?_⟩
  · split at h1 <;> rename_i hb
    · rw [if_pos hb]; exact (Bits.mem_iter.1 h1).2
    · rw [if_neg hb]; exact (Bits.mem_iter.1 h1).2
  · split at h1
    · exact (Bits.mem_iter.1 h1).1
    · exact (Bits.mem_iter.1 h1).1
  · intro i hi
    rcases List.mem_append.1 hi with hi | hi
    · exact (Bits.mem_iter.1 (h2 i hi)).1
    · exact (Bits.mem_iter.1 (h3 i hi)).1

/-- The kind of an entry -/
theorem entry_kind {s : State} (d i : Nat) :
    both s (entry I d i) = (s.must.testBit d && s.must.testBit i) ∧
    mixed s (entry I d i) = ((s.must.testBit d && (mb s).testBit i) || ((mb s).testBit d && s.must.testBit i)) ∧
    neither s (entry I d i) = ((mb s).testBit d && (mb s).testBit i) := by
  unfold entry both mixed neither
  split
  · exact ⟨rfl, rfl, rfl⟩
  · simp only
    refine ⟨Bool.and_comm _ _, ?_, Bool.and_comm _ _⟩
    rw [Bool.or_comm, Bool.and_comm, Bool.and_comm (s.must.testBit i)]

theorem entriesOf_kinds {s : State} (h : Ok I F s) {q : Step × Step} (h1 : Inside I s q.1) (h2 : Inside I s q.2) :
    ((entriesOf I q).filter (mixed s)).length = (if q.1.must then q.2.after2.length else q.2.after1.length) ∧
    ((entriesOf I q).filter (neither s)).length = (if q.1.must then 0 else q.2.after2.length) := by
  unfold entriesOf
  rw [List.filter_map, List.length_map, List.filter_map, List.length_map]
  have e1 : (mixed s ∘ entry I q.1.dep) = fun i => (s.must.testBit q.1.dep && (mb s).testBit i) || ((mb s).testBit q.1.dep && s.must.testBit i) := by
    funext i; exact (entry_kind _ _).2.1
  have e2 : (neither s ∘ entry I q.1.dep) = fun i => ((mb s).testBit q.1.dep && (mb s).testBit i) := by
    funext i; exact (entry_kind _ _).2.2
  rw [e1, e2]
  unfold Step.after
  rw [List.filter_append, List.filter_append]
  have hdep := h1.dep
  have n1 : ∀ i ∈ q.2.after1, s.must.testBit i = true ∧ (mb s).testBit i = false := fun i hi => ⟨h2.one i hi, h.disj i (h2.one i hi)⟩
  have n2 : ∀ i ∈ q.2.after2, s.must.testBit i = false ∧ (mb s).testBit i = true := fun i hi => ⟨not_must h (h2.two i hi), h2.two i hi⟩
  have all : ∀ {l : List Nat} {p : Nat → Bool}, (∀ i ∈ l, p i = true) → (l.filter p).length = l.length := fun h => by rw [List.filter_eq_self.2 h]
  have none : ∀ {l : List Nat} {p : Nat → Bool}, (∀ i ∈ l, p i = false) → (l.filter p).length = 0 := fun h => by
    rw [List.length_eq_zero_iff, List.filter_eq_nil_iff]; intro i hi; simp [h i hi]
  cases hm : q.1.must with
  | true =>
    rw [hm] at hdep
    simp only [if_true] at hdep
    have hd2 := h.disj _ hdep
    simp only [List.length_append, if_true]
    constructor
    · rw [none (l := q.2.after1) fun i hi => by simp [hdep, hd2, n1 i hi], all (l := q.2.after2) fun i hi => by simp [hdep, n2 i hi]]; omega
    · rw [none (l := q.2.after1) fun i hi => by simp [hd2], none (l := q.2.after2) fun i hi => by simp [hd2]]
  | false =>
    rw [hm] at hdep
    simp only [Bool.false_eq_true, if_false] at hdep
    have hd2 := not_must h hdep
    simp only [List.length_append, Bool.false_eq_true, if_false]
    constructor
    · rw [all (l := q.2.after1) fun i hi => by simp [hdep, n1 i hi], none (l := q.2.after2) fun i hi => by simp [hd2, n2 i hi]]; omega
    · rw [none (l := q.2.after1) fun i hi => by simp [n1 i hi], all (l := q.2.after2) fun i hi => by simp [hdep, n2 i hi]]; omega

theorem filter_flatMap_length {α β : Type} (c : β → Bool) (g : α → List β) (l : List α) : ((l.flatMap g).filter c).length = (l.map fun a => ((g a).filter c).length).sum := by
  induction l with
  | nil => rfl
  | cons a l ih => rw [List.flatMap_cons, List.filter_append, List.length_append, ih]; rfl

theorem flows_nonneg (hf : Flows I) {s : State} (h : Ok I F s) : ∀ a ∈ flows I s, 0 ≤ a := by
  have hp : ∀ c : Int × Nat × Nat → Bool, ∀ a ∈ ((sortedFlows I).filter c).map Prod.fst, 0 ≤ a := by
    intro c a ha
    obtain ⟨e, he, rfl⟩ := List.mem_map.1 ha
    have := (sortedFlows_perm I).mem_iff.1 (List.mem_filter.1 he).1
    obtain ⟨p, hp, rfl⟩ := List.mem_map.1 this
    rw [pairs_eq] at hp
    have := (mem_pairsOf_of_lt (a := p.1) (b := p.2) List.pairwise_lt_range).1 hp
    simp only [List.mem_range] at this
    exact hf _ _ this.1 this.2.1
  intro a ha
  have := (flows_spec h).1.mem_iff.1 ha
  rcases List.mem_append.1 this with g | g
  · exact hp _ a g
  · rcases List.mem_append.1 g with g | g
    · exact hp _ a (List.mem_of_mem_take g)
    · exact hp _ a (List.mem_of_mem_take g)

theorem diag_bound (hs : Symmetric I) (hf : Flows I) {s : State} (h : Ok I F s) {ss : List Step} (ht : Trace (Bits.iter I.n s.must) (Bits.iter I.n (mb s)) ss)
    (hk : nMaybe ss = nFromMaybe I s) {Q : List Step} (hQ : Q.Sublist ss) (j : Nat) :
    smallest (flows I s) (tri (Q.length - (j + 1))) ≤ ((diag Q (j + 1)).map (over I)).sum := by
  have hnodup : (Bits.iter I.n s.must ++ Bits.iter I.n (mb s)).Nodup := by
    refine List.nodup_append.2 ⟨Bits.nodup_iter _ _, Bits.nodup_iter _ _, ?_⟩
    rintro a ha b hb rfl
    have := h.disj a (Bits.mem_iter.1 ha).2
    rw [(Bits.mem_iter.1 hb).2] at this; cases this
  obtain ⟨hp1, hp2⟩ := ht.pairwise hnodup
  have hQp := hp1.sublist hQ
  have hin := trace_inside ht
  have hearl := diag_earlier hQp j
  have hnd : (entries I (diag Q (j + 1))).Nodup := entries_nodup (diag_apart hQp j) fun q hq => by
    obtain ⟨g1, g2, g3⟩ := hearl q hq
    exact ⟨g1.not_mem, (hp2 q.2 (hQ.subset g3)).1⟩
  have hsub : (entries I (diag Q (j + 1))).Subperm (sortedFlows I) := by
    refine List.subperm_of_subset hnd ?_
    intro e he
    obtain ⟨q, hq, i, hi, rfl⟩ := mem_entries.1 he
    obtain ⟨g1, g2, g3⟩ := hearl q hq
    exact mem_sortedFlows (hin q.1 (hQ.subset g2)).lt.1 ((hin q.2 (hQ.subset g3)).lt.2 i hi) fun e => g1.not_mem (e ▸ hi)
  -- the flow is that of the entries
  have hsum : ((diag Q (j + 1)).map (over I)).sum = ((entries I (diag Q (j + 1))).map Prod.fst).sum := by
    unfold entries
    rw [sum_flatMap]
    congr 1
    refine List.map_congr_left fun q hq => ?_
    obtain ⟨g1, g2, g3⟩ := hearl q hq
    unfold over entriesOf
    rw [List.map_map]
    congr 1
    refine List.map_congr_left fun i hi => ?_
    exact (entry_fst hs (hin q.1 (hQ.subset g2)).lt.1 ((hin q.2 (hQ.subset g3)).lt.2 i hi)).symm
  -- there are many entries
  have hlen : tri (Q.length - (j + 1)) ≤ (entries I (diag Q (j + 1))).length := by
    have e : (entries I (diag Q (j + 1))).length = ((Q.drop (j + 1)).map fun t => t.after.length).sum := by
      rw [← diag_snd Q (j + 1), List.map_map]
      unfold entries
      rw [List.length_flatMap]
      congr 1
      refine List.map_congr_left fun q _ => ?_
      unfold entriesOf
      rw [List.length_map]
      rfl
    rw [e, ← List.length_drop]
    exact ht.after_length _ ((List.drop_sublist _ _).trans hQ)
  -- of the right kinds
  have hkinds : ∀ e ∈ entries I (diag Q (j + 1)), (both s e = true ∧ mixed s e = false ∧ neither s e = false) ∨
      (both s e = false ∧ mixed s e = true ∧ neither s e = false) ∨ (both s e = false ∧ mixed s e = false ∧ neither s e = true) := by
    intro e he
    obtain ⟨q, hq, i, hi, rfl⟩ := mem_entries.1 he
    obtain ⟨g1, g2, g3⟩ := hearl q hq
    obtain ⟨k1, k2, k3⟩ := entry_kind (I := I) (s := s) q.1.dep i
    rw [k1, k2, k3]
    have hd := (hin q.1 (hQ.subset g2)).dep
    have hd' : (s.must.testBit q.1.dep = true ∧ (mb s).testBit q.1.dep = false) ∨ (s.must.testBit q.1.dep = false ∧ (mb s).testBit q.1.dep = true) := by
      split at hd
      · exact Or.inl ⟨hd, h.disj _ hd⟩
      · exact Or.inr ⟨not_must h hd, hd⟩
    have hi' : (s.must.testBit i = true ∧ (mb s).testBit i = false) ∨ (s.must.testBit i = false ∧ (mb s).testBit i = true) := by
      rcases List.mem_append.1 hi with hi | hi
      · have := (hin q.2 (hQ.subset g3)).one i hi
        exact Or.inl ⟨this, h.disj _ this⟩
      · have := (hin q.2 (hQ.subset g3)).two i hi
        exact Or.inr ⟨not_must h this, this⟩
    rcases hd' with ⟨a, b⟩ | ⟨a, b⟩ <;> rcases hi' with ⟨c, d⟩ | ⟨c, d⟩ <;> simp [a, b, c, d]
  obtain ⟨t1, t2⟩ := three_kinds (both s) (mixed s) (neither s) Prod.fst _ hkinds
  -- not too many of each kind
  have hfst : ∀ f : Step → Nat, ((diag Q (j + 1)).map fun q => f q.1).sum ≤ (ss.map f).sum := by
    intro f
    have := nat_sum_sublist f ((diag_fst Q (j + 1)).trans hQ)
    rw [List.map_map] at this
    exact this
  have l2 : ((entries I (diag Q (j + 1))).filter (mixed s)).length ≤ Bits.count I.n s.must * nFromMaybe I s := by
    unfold entries
    rw [filter_flatMap_length, ← hk]
    refine Nat.le_trans (nat_sum_le (g := fun q : Step × Step => if q.1.must then q.1.after2.length else q.1.after1.length) ?_) ?_
    · intro q hq
      obtain ⟨g1, g2, g3⟩ := hearl q hq
      rw [(entriesOf_kinds h (hin _ (hQ.subset g2)) (hin _ (hQ.subset g3))).1]
      split
      · exact g1.le2
      · exact g1.le1
    · refine Nat.le_trans (hfst fun t => if t.must then t.after2.length else t.after1.length) ?_
      rw [ht.budgets.1]
      exact Nat.le_refl _
  have l3 : ((entries I (diag Q (j + 1))).filter (neither s)).length ≤ tri (nFromMaybe I s) := by
    unfold entries
    rw [filter_flatMap_length, ← hk]
    refine Nat.le_trans (nat_sum_le (g := fun q : Step × Step => if q.1.must then 0 else q.1.after2.length) ?_) ?_
    · intro q hq
      obtain ⟨g1, g2, g3⟩ := hearl q hq
      rw [(entriesOf_kinds h (hin _ (hQ.subset g2)) (hin _ (hQ.subset g3))).2]
      split
      · exact Nat.le_refl _
      · exact g1.le2
    · refine Nat.le_trans (hfst fun t => if t.must then 0 else t.after2.length) ?_
      rw [ht.budgets.2]
  obtain ⟨f1, f2⟩ := flows_spec h
  have sorted : ∀ c : Int × Nat × Nat → Bool, (((sortedFlows I).filter c).map Prod.fst).Pairwise (· ≤ ·) := fun c => (sortedFlows_sorted I).sublist (List.filter_sublist.map _)
  have hb := budget f2 f1 (sorted _) (sorted _) (sorted _) (subperm_map Prod.fst (hsub.filter (both s))) (subperm_map Prod.fst (hsub.filter (mixed s)))
    (subperm_map Prod.fst (hsub.filter (neither s))) (by rw [List.length_map]; exact l2) (by rw [List.length_map]; exact l3)
  simp only [List.length_map] at hb
  rw [← t1, ← t2] at hb
  rw [hsum]
  exact Int.le_trans (take_mono (flows_nonneg hf h) hlen) hb

/-- All distances together -/
theorem total_bound (hs : Symmetric I) (hf : Flows I) {s : State} (h : Ok I F s) {ss : List Step} (ht : Trace (Bits.iter I.n s.must) (Bits.iter I.n (mb s)) ss)
    (hk : nMaybe ss = nFromMaybe I s) {Q : List Step} (hQ : Q.Sublist ss) :
    rsum (fun m => smallest (flows I s) (tri m)) Q.length ≤ total I Q := by
  rw [diag_sum Q Q.length (Nat.le_refl _), rsum_reverse]
  have mono : ∀ (f g : Nat → Int) n, (∀ t, t < n → f t ≤ g t) → rsum f n ≤ rsum g n := by
    intro f g n
    induction n with
    | zero => intro _; exact Int.le_refl _
    | succ n ih =>
      intro hfg
      have := ih fun t ht => hfg t (by omega)
      have := hfg n (by omega)
      simp only [rsum]
      omega
  refine mono _ _ _ fun j hj => ?_
  have := diag_bound hs hf h ht hk hQ j
  have e : Q.length - 1 - j = Q.length - (j + 1) := by omega
  rw [e]
  exact this

/-! ### All steps together -/

/-- Steps with the flow that passes over them -/
def wlist (I : Inst) (g : Nat → Int) : List Step → List (Step × Int)
  | [] => []
  | t :: ss => (t, (t.after.map g).sum) :: wlist I (fun i => g i + I.flow t.dep i) ss

theorem walkCost_wlist (g : Nat → Int) (ss : List Step) : walkCost I g ss = ((wlist I g ss).map fun p => I.len p.1.dep * p.2).sum := by
  induction ss generalizing g with
  | nil => rfl
  | cons t ss ih => simp only [walkCost, wlist, List.map_cons, List.sum_cons, ih]; ring

theorem wlist_fst (g : Nat → Int) (ss : List Step) : (wlist I g ss).map Prod.fst = ss := by
  induction ss generalizing g with
  | nil => rfl
  | cons t ss ih => simp only [wlist, List.map_cons, ih]

theorem wlist_sub (hf : Flows I) (ss : List Step) : ∀ (g : Nat → Int) (R : List (Step × Int)), (∀ t ∈ ss, t.dep < I.n ∧ ∀ i ∈ t.after, i < I.n) → R.Sublist (wlist I g ss) →
    total I (R.map Prod.fst) + ((R.map Prod.fst).map fun b => (b.after.map g).sum).sum ≤ (R.map Prod.snd).sum := by
  induction ss with
  | nil =>
    intro g R _ hR
    rw [List.eq_nil_of_sublist_nil hR]
    exact Int.le_refl _
  | cons t ss ih =>
    intro g R hin hR
    have hin' : ∀ u ∈ ss, u.dep < I.n ∧ ∀ i ∈ u.after, i < I.n := fun u hu => hin u (by simp [hu])
    have split : ∀ Q : List Step, (Q.map fun b => (b.after.map fun i => g i + I.flow t.dep i).sum).sum = (Q.map fun b => (b.after.map g).sum).sum + (Q.map fun b => over I (t, b)).sum := by
      intro Q
      rw [← map_add_sum]
      congr 1
      refine List.map_congr_left fun b _ => ?_
      rw [map_add_sum]
      rfl
    simp only [wlist] at hR
    rcases List.sublist_cons_iff.1 hR with hR | ⟨R', rfl, hR⟩
    · have h1 := ih _ R hin' hR
      rw [split] at h1
      have h2 : 0 ≤ ((R.map Prod.fst).map fun b => over I (t, b)).sum := by
        refine sum_nonneg fun a ha => ?_
        obtain ⟨b, hb, rfl⟩ := List.mem_map.1 ha
        have hb' : b ∈ ss := by
          have := (hR.map Prod.fst).subset hb
          rwa [wlist_fst] at this
        refine sum_nonneg fun x hx => ?_
        obtain ⟨i, hi, rfl⟩ := List.mem_map.1 hx
        exact hf _ _ (hin t (by simp)).1 ((hin' b hb').2 i hi)
      omega
    · have hR := List.cons_sublist_cons.1 hR
      have h1 := ih _ R' hin' hR
      rw [split] at h1
      simp only [List.map_cons, List.sum_cons]
      have e : total I (t :: R'.map Prod.fst) = ((R'.map Prod.fst).map fun b => over I (t, b)).sum + total I (R'.map Prod.fst) := by
        unfold total
        rw [pairsOf, List.map_append, List.sum_append, List.map_map]
        rfl
      rw [e]
      omega

theorem rsum_list_mul {α : Type} [Inhabited α] (f g : α → Int) (l : List α) : (l.map fun a => f a * g a).sum = rsum (fun t => (l.map f).getD t 0 * (l.map g).getD t 0) l.length := by
  rw [rsum_list]
  refine rsum_congr fun t ht => ?_
  rw [getD_map _ _ ht, getD_map _ _ ht, getD_map _ _ ht]

/-- The second part of the rough bound -/
theorem edge_bound (hs : Symmetric I) (hf : Flows I) (hl : Lengths I) {s : State} (h : Ok I F s) {ss : List Step} (ht : Trace (Bits.iter I.n s.must) (Bits.iter I.n (mb s)) ss)
    (hk : nMaybe ss = nFromMaybe I s) (hca : ss.length = completeArrangement I s) :
    edgeBound (completeArrangement I s) (nFlows I s) (lengths I s).1 (flows I s) ≤ walkCost I (fun _ => 0) ss := by
  have hnf : nFlows I s = tri (completeArrangement I s) := rfl
  rw [hnf, edgeBound_eq, walkCost_wlist, ← hca]
  have hin := trace_inside ht
  -- longest departments first
  let w := Dd.sortBy (fun a b : Step × Int => decide (I.len b.1.dep ≤ I.len a.1.dep)) (wlist I (fun _ => 0) ss)
  have hw : w.Perm (wlist I (fun _ => 0) ss) := Dd.sortBy_perm _ _
  have hws : w.Pairwise fun a b => I.len b.1.dep ≤ I.len a.1.dep := by
    have := Dd.sortBy_sorted (fun a b : Step × Int => decide (I.len b.1.dep ≤ I.len a.1.dep))
      (by intro a b h; simp at h ⊢; omega) (by intro a b c h1 h2; simp at h1 h2 ⊢; omega) (wlist I (fun _ => 0) ss)
    exact this.imp fun h => by simpa using h
  have hwlen : w.length = ss.length := by
    rw [hw.length_eq, ← List.length_map (f := Prod.fst), wlist_fst]
  have hwmem : ∀ p ∈ w, p.1 ∈ ss := by
    intro p hp
    have : p.1 ∈ (wlist I (fun _ => 0) ss).map Prod.fst := List.mem_map.2 ⟨p, hw.mem_iff.1 hp, rfl⟩
    rwa [wlist_fst] at this
  rw [perm_sum (hw.symm.map _)]
  have : Inhabited (Step × Int) := ⟨(⟨0, true, [], []⟩, 0)⟩
  rw [rsum_list_mul (fun p : Step × Int => I.len p.1.dep) (fun p => p.2) w, hwlen]
  have hlens : ∀ t, t < ss.length → 0 ≤ (w.map fun p => I.len p.1.dep).getD t 0 := by
    intro t htl
    rw [getD_map _ _ (by omega)]
    exact hl _ (hin _ (hwmem _ (List.getElem_mem _))).lt.1
  -- the flow over the longest departments
  have step1 : rsum (fun t => (w.map fun p => I.len p.1.dep).getD t 0 * smallest (flows I s) (tri t)) ss.length ≤
      rsum (fun t => (w.map fun p => I.len p.1.dep).getD t 0 * (w.map fun p => p.2).getD t 0) ss.length := by
    refine abel ?_ hlens ?_
    · intro t ht1
      rw [getD_map _ _ (by omega), getD_map _ _ (by omega)]
      exact List.pairwise_iff_getElem.1 hws t (t + 1) (by omega) (by omega) (by omega)
    · intro j hj
      rw [rsum_take, ← List.map_take]
      obtain ⟨R, hR1, hR2⟩ : (w.take j).Subperm (wlist I (fun _ => 0) ss) := (List.take_sublist _ _).subperm.trans hw.subperm
      have h1 := wlist_sub hf ss (fun _ => 0) R (fun t ht => (hin t ht).lt) hR2
      have h2 := total_bound hs hf h ht hk (Q := R.map Prod.fst) (by have := hR2.map Prod.fst; rwa [wlist_fst] at this)
      have h3 : R.length = j := by rw [hR1.length_eq, List.length_take]; omega
      rw [List.length_map, h3] at h2
      have h4 : ((R.map Prod.fst).map fun b => (b.after.map fun _ => (0 : Int)).sum).sum = 0 := by
        have : ∀ l : List Nat, (l.map fun _ => (0 : Int)).sum = 0 := by
          intro l; induction l with
          | nil => rfl
          | cons a l ih => simp
        have h5 : ∀ Q : List Step, (Q.map fun b => (b.after.map fun _ => (0 : Int)).sum).sum = 0 := by
          intro Q; induction Q with
          | nil => rfl
          | cons b Q ih => rw [List.map_cons, List.sum_cons, ih, this]; rfl
        exact h5 _
      rw [h4] at h1
      have h5 := perm_sum (hR1.map Prod.snd)
      have e : (List.map (fun p => p.2) (List.take j w)).sum = (List.map Prod.snd (List.take j w)).sum := rfl
      rw [e, ← h5]
      omega
  refine Int.le_trans ?_ step1
  rw [rsum_reverse (fun t => (w.map fun p => I.len p.1.dep).getD t 0 * smallest (flows I s) (tri t))]
  -- the shortest departments
  have hmul : ∀ f g : Nat → Int, rsum (fun t => f t * g t) ss.length = rsum (fun t => g t * f t) ss.length := fun f g => rsum_congr fun t _ => Int.mul_comm _ _
  rw [hmul (fun t => (lengths I s).1.getD t 0) (fun t => smallest (flows I s) (tri (ss.length - 1 - t))),
    hmul (fun t => (w.map fun p => I.len p.1.dep).getD (ss.length - 1 - t) 0) (fun t => smallest (flows I s) (tri (ss.length - 1 - t)))]
  refine abel (w := fun t => smallest (flows I s) (tri (ss.length - 1 - t))) ?_ ?_ ?_
  · intro t ht1
    exact take_mono (flows_nonneg hf h) (tri_mono (by omega))
  · intro t _
    exact take_nonneg (flows_nonneg hf h) _
  · intro j hj
    rw [rsum_take]
    -- the last `j` members of `w`
    let P := (w.drop (ss.length - j)).map Prod.fst
    have hP : P.Subperm ss := by
      have h1 : (w.drop (ss.length - j)).Subperm (wlist I (fun _ => 0) ss) := (List.drop_sublist _ _).subperm.trans hw.subperm
      have := subperm_map Prod.fst h1
      rwa [wlist_fst] at this
    have hPlen : P.length = j := by
      simp only [P, List.length_map, List.length_drop]; omega
    have hsum : rsum (fun t => (w.map fun p => I.len p.1.dep).getD (ss.length - 1 - t) 0) j = (P.map fun t => I.len t.dep).sum := by
      have e1 : P.map (fun t => I.len t.dep) = (w.map fun p => I.len p.1.dep).drop (ss.length - j) := by
        simp only [P, List.map_map, List.map_drop]
        rfl
      have hlenl : (w.map fun p => I.len p.1.dep).length = ss.length := by rw [List.length_map, hwlen]
      rw [e1]
      generalize (w.map fun p => I.len p.1.dep) = l at hlenl
      rw [← hlenl]
      have hj' : j ≤ l.length := by omega
      rw [rsum_reverse]
      have h2 := rsum_list (fun x : Int => x) (l.drop (l.length - j))
      simp only [List.map_id'] at h2
      rw [h2, List.length_drop]
      have e2 : l.length - (l.length - j) = j := by omega
      rw [e2]
      refine rsum_congr fun t htj => ?_
      simp only [List.getD_eq_getElem?_getD, List.getElem?_drop]
      congr 2
      omega
    rw [hsum]
    obtain ⟨_, l1, l2⟩ := lengths_spec h
    -- musts and others
    have hm : ((P.filter fun t => t.must).map fun t => I.len t.dep).Subperm (mustLens I s) := by
      have h1 := subperm_map Step.dep (hP.filter fun t => t.must)
      have h2 := subperm_map I.len (h1.trans ht.musts.subperm)
      rw [List.map_map] at h2
      exact h2.trans (mustLens_perm s).symm.subperm
    have hn : ((P.filter fun t => !t.must).map fun t => I.len t.dep).Subperm (maybeLens I s) := by
      have h1 := subperm_map Step.dep (hP.filter fun t => !t.must)
      have h2 := subperm_map I.len (h1.trans ht.maybes)
      rw [List.map_map] at h2
      exact h2.trans (maybeLens_perm h).symm.subperm
    have hcount : (P.filter fun t => !t.must).length ≤ nFromMaybe I s := by
      rw [← hk]; exact (hP.filter fun t => !t.must).length_le
    have sorted : ∀ c : Int × Nat → Bool, (((sortedLengths I).filter c).map Prod.fst).Pairwise (· ≤ ·) := fun c => (sortedLengths_sorted I).sublist (List.filter_sublist.map _)
    have hb := budget (C1 := mustLens I s) (C2 := maybeLens I s) (C3 := []) (X3 := []) (b3 := 0) l2 (by simpa using l1) (sorted _) (sorted _) List.Pairwise.nil hm hn (List.Subperm.refl _)
      (by rw [List.length_map]; exact hcount) (Nat.le_refl _)
    simp only [List.length_map, List.length_nil, Nat.add_zero, List.sum_nil, Int.add_zero] at hb
    obtain ⟨t1, t2⟩ := three_kinds (fun t : Step => t.must) (fun t => !t.must) (fun _ => false) (fun t => I.len t.dep) P (by
      intro t _; cases t.must <;> simp)
    simp only [List.filter_false, List.length_nil, Nat.add_zero, List.map_nil, List.sum_nil, Int.add_zero] at t1 t2
    rw [← t1, ← t2, hPlen] at hb
    exact hb

/-- The rough bound is never below the value of a completion. -/
theorem estimate_bound (hB : Bounded I F L) (hs : Symmetric I) (hf : Flows I) (hl : Lengths I) (hprec : Precise I F L) {s : State} (h : Ok I F s) (hp : Pos s)
    {ds : List Decision} {v : Int} (hc : Completion (problem I) s ds v) : v ≤ estimate I s := by
  obtain ⟨e, hr, he⟩ := hc
  obtain ⟨ss, ht, rfl, hlen⟩ := trace_of_run hB hr he h
  have hca : ss.length = completeArrangement I s := by unfold completeArrangement; omega
  have hk : nMaybe ss = nFromMaybe I s := by
    have h1 := ht.length
    have h2 := h.split.1
    unfold Bits.count at h2
    omega
  have h1 := cut_bound hB hl hprec h hp ht hk
  have h2 := edge_bound hs hf hl h ht hk hca
  have h3 := walkCost_split (I := I) s.at (fun _ => 0) ss
  have e : (fun i => s.at i + 0) = s.at := by funext i; omega
  simp only [Int.add_zero] at h3
  unfold estimate
  have h4 : walkCost I s.at ss = cutPart I s.at ss + walkCost I (fun _ => 0) ss := h3
  omega

/-! ### What the solver needs -/

variable (I F) in
/-- The layers of the problem; no flow is negative. -/
def layeringPos : Layering State := { ok := fun s => Ok I F s ∧ Pos s, lvl := fun s => s.depth, var := fun k => k }

theorem Pos.init : Pos (initial I) := by
  intro i _
  have : (initial I).at i = 0 := by
    unfold State.at initial
    simp only [List.getD_eq_getElem?_getD, List.getElem?_replicate]
    split <;> rfl
  rw [this]

theorem Pos.trans (hf : Flows I) {s : State} (h : Ok I F s) (hp : Pos s) {x : Nat} {d : Decision} (hd : d ∈ dom I x s) : Pos (Srflp.trans I s d) := by
  intro i hi
  obtain ⟨h1, h2⟩ := free_trans.1 hi
  rw [trans_at h h1 h2]
  obtain ⟨j, rfl, hj, _⟩ := mem_dom.1 hd
  have := hp i h1
  have := hf j i hj (h.lt h1)
  show 0 ≤ s.at i + I.flow j i
  omega

theorem Pos.merge (hB : Bounded I F L) {l : List State} (hne : l ≠ []) {k : Nat} (h : ∀ s ∈ l, Ok I F s ∧ s.depth = k) (hp : ∀ s ∈ l, Pos s) : Pos (merge I l) := by
  obtain ⟨h1, h2, h3, h4, h5⟩ := merge_spec hB hne h
  obtain ⟨s, hs⟩ := List.exists_mem_of_ne_nil l hne
  intro i hi
  have hfree : ∃ t ∈ l, Free t i := by
    rcases hi with hi | hi
    · exact ⟨s, hs, Or.inl (((h3 i).1 hi).2 s hs)⟩
    · exact ((h4 i).1 hi).1
  obtain ⟨⟨t, ht, h6, h7⟩, _⟩ := h5 i hfree
  rw [h7]
  exact hp t ht i h6

theorem wellFormedPos (hB : Bounded I F L) (hf : Flows I) : WellFormed (problem I) (layeringPos I F) (costMax I F L) := by
  have w := wellFormed hB
  exact ⟨⟨w.ok_init, Pos.init⟩, fun s x d hs hx hd => ⟨w.ok_trans s x d hs.1 hx hd, Pos.trans hf hs.1 hs.2 hd⟩, w.lvl_init, fun s x d hs hx hd => w.lvl_trans s x d hs.1 hx hd,
    w.next_nil, fun l k hne hl => w.next_var l k hne fun s hs => ⟨(hl s hs).1.1, (hl s hs).2⟩, w.init_bound, fun s x d hs hx hd => w.cost_bound s x d hs.1 hx hd, w.no_overflow⟩

theorem layeredPos (hB : Bounded I F L) : LayeredRelaxation (problem I) (relaxation I) (layeringPos I F) (costMax I F L) := by
  have w := layered hB
  refine ⟨fun l k hne hl => ?_, fun l k hl s x d hs hx hd hm => w.relax_cost l k (fun s hs => ⟨(hl s hs).1.1, (hl s hs).2⟩) s x d hs.1 hx hd hm⟩
  have hl' : ∀ s ∈ l, Ok I F s ∧ s.depth = k := fun s hs => ⟨(hl s hs).1.1, (hl s hs).2⟩
  obtain ⟨h1, h2⟩ := w.merge_ok l k hne hl'
  exact ⟨⟨h1, Pos.merge hB hne hl' fun s hs => (hl s hs).1.2⟩, h2⟩

theorem soundPos (hB : Bounded I F L) (hl : Lengths I) : SoundRelaxation (problem I) (relaxation I) (layeringPos I F) (costMax I F L) :=
  ⟨layeredPos hB, fun l k hk s x d hs hx hd hm ds v hc => (sound hB hl).merge_dom l k (fun s hs => ⟨(hk s hs).1.1, (hk s hs).2⟩) s x d hs.1 hx hd hm ds v hc⟩

theorem admissible (hB : Bounded I F L) (hs : Symmetric I) (hf : Flows I) (hl : Lengths I) (hprec : Precise I F L) : Admissible (problem I) (layeringPos I F) :=
  fun _ h _ _ hc => estimate_bound hB hs hf hl hprec h.1 h.2 hc

end Verif.Srflp
