import Verif.Proofs.Srflp.Merge
import Verif.Proofs.Srflp.Exact
import Verif.Proofs.Srflp.Smith
/-! What the loops of the rough bound compute. -/
set_option autoImplicit false

namespace Verif.Srflp
open Verif Spec
variable {I : Inst} {F L : Nat}

/-! ### Taking what is allowed from a list -/

section
variable {β : Type} (c1 c2 c3 : β → Bool)

/-- All members of the first kind, the first `b2` of the second, the first `b3` of the third -/
def pick : Nat → Nat → List β → List β
  | _, _, [] => []
  | b2, b3, p :: ps =>
    if c1 p then p :: pick b2 b3 ps
    else if c2 p && decide (0 < b2) then p :: pick (b2 - 1) b3 ps
    else if c3 p && decide (0 < b3) then p :: pick b2 (b3 - 1) ps
    else pick b2 b3 ps

theorem pick_sublist (ps : List β) : ∀ b2 b3, (pick c1 c2 c3 b2 b3 ps).Sublist ps := by
  induction ps with
  | nil => intro _ _; exact List.Sublist.slnil
  | cons p ps ih =>
    intro b2 b3
    unfold pick
    split
    · exact (ih _ _).cons_cons p
    · split
      · exact (ih _ _).cons_cons p
      · split
        · exact (ih _ _).cons_cons p
        · exact (ih _ _).cons p

theorem pick_perm (hd : ∀ p, (c1 p = true → c2 p = false ∧ c3 p = false) ∧ (c2 p = true → c3 p = false)) (ps : List β) :
    ∀ b2 b3, (pick c1 c2 c3 b2 b3 ps).Perm (ps.filter c1 ++ ((ps.filter c2).take b2 ++ (ps.filter c3).take b3)) := by
  induction ps with
  | nil => intro _ _; simp [pick]
  | cons p ps ih =>
    intro b2 b3
    unfold pick
    by_cases h1 : c1 p = true
    · obtain ⟨h2, h3⟩ := (hd p).1 h1
      rw [if_pos h1, List.filter_cons_of_pos h1, List.filter_cons_of_neg (by simp [h2]), List.filter_cons_of_neg (by simp [h3])]
      exact (ih _ _).cons p
    · rw [if_neg h1, List.filter_cons_of_neg h1]
      by_cases h2 : c2 p = true
      · have h3 := (hd p).2 h2
        rw [List.filter_cons_of_pos h2, List.filter_cons_of_neg (by simp [h3])]
        by_cases hb : 0 < b2
        · obtain ⟨b, rfl⟩ := Nat.exists_eq_add_of_lt hb
          rw [if_pos (by simp [h2])]
          have e : 0 + b + 1 - 1 = b := by omega
          have e' : 0 + b + 1 = b + 1 := by omega
          rw [e, e', List.take_succ_cons, List.cons_append]
          exact ((ih _ _).cons p).trans List.perm_middle.symm
        · have : b2 = 0 := by omega
          subst this
          rw [if_neg (by simp), if_neg (by simp [h3])]
          have := ih 0 b3
          simpa using this
      · rw [if_neg (by simp [h2]), List.filter_cons_of_neg h2]
        by_cases h3 : c3 p = true
        · rw [List.filter_cons_of_pos h3]
          by_cases hb : 0 < b3
          · obtain ⟨b, rfl⟩ := Nat.exists_eq_add_of_lt hb
            rw [if_pos (by simp [h3])]
            have e : 0 + b + 1 - 1 = b := by omega
            have e' : 0 + b + 1 = b + 1 := by omega
            rw [e, e', List.take_succ_cons, ← List.append_assoc]
            refine ((ih _ _).cons p).trans ?_
            rw [← List.append_assoc]
            exact List.perm_middle.symm
          · have : b3 = 0 := by omega
            subst this
            rw [if_neg (by simp)]
            have := ih b2 0
            simpa using this
        · rw [if_neg (by simp [h3]), List.filter_cons_of_neg h3]
          exact ih _ _

end

/-! ### The lengths -/

variable (I) in
/-- Departments in the order of their lengths -/
theorem sortedLengths_perm : (sortedLengths I).Perm ((List.range I.n).map fun i => (I.len i, i)) := Dd.sortBy_perm _ _

variable (I) in
theorem sortedLengths_sorted : ((sortedLengths I).map Prod.fst).Pairwise (· ≤ ·) := by
  have := Dd.sortBy_sorted (fun a b : Int × Nat => decide (a.1 < b.1 ∨ (a.1 = b.1 ∧ a.2 ≤ b.2)))
    (by intro a b h; simp only [decide_eq_false_iff_not, decide_eq_true_eq] at *; omega)
    (by intro a b c h1 h2; simp only [decide_eq_true_eq] at *; omega) ((List.range I.n).map fun i => (I.len i, i))
  exact List.Pairwise.map _ (fun a b h => by simp only [decide_eq_true_eq] at h; omega) this

def isMust (s : State) (p : Int × Nat) : Bool := s.must.testBit p.2
def isMaybe (s : State) (p : Int × Nat) : Bool := !s.must.testBit p.2 && (mb s).testBit p.2

theorem lengthStep_eq (s : State) (a : Nat × List Int × List Int) (p : Int × Nat) : lengthStep s a p =
    if isMust s p then (a.1, a.2.1 ++ [p.1], a.2.2)
    else if isMaybe s p && decide (0 < a.1) then (a.1 - 1, a.2.1 ++ [p.1], a.2.2 ++ [p.1]) else a := by
  unfold lengthStep isMust isMaybe Bits.has mb
  by_cases h : s.must.testBit p.2 = true
  · rw [if_pos h, if_pos h]
  · rw [if_neg h, if_neg h]
    have h' : s.must.testBit p.2 = false := by simpa using h
    cases s.maybe with
    | none => simp
    | some m => simp [h']

theorem lengthStep_cases (s : State) (a : Nat × List Int × List Int) (p : Int × Nat) :
    (lengthStep s a p).2 = a.2 ∨ (lengthStep s a p).2.1.length = a.2.1.length + 1 := by
  rw [lengthStep_eq]
  split
  · right; simp
  · split
    · right; simp
    · left; rfl

theorem lengthFold_cases (s : State) (ps : List (Int × Nat)) : ∀ a, (ps.foldl (lengthStep s) a).2 = a.2 ∨ a.2.1.length < (ps.foldl (lengthStep s) a).2.1.length := by
  induction ps with
  | nil => intro a; left; rfl
  | cons p ps ih =>
    intro a
    rw [List.foldl_cons]
    rcases ih (lengthStep s a p) with h | h <;> rcases lengthStep_cases s a p with g | g
    · left; rw [h, g]
    · right; rw [h]; omega
    · right; rw [g] at h; exact h
    · right; omega

/-- Leaving the loop early makes no difference. -/
theorem lengthLoop_eq (s : State) (ca : Nat) (ps : List (Int × Nat)) : ∀ a, (ps.foldl (lengthStep s) a).2.1.length ≤ ca → (lengthLoop s ca ps a).2 = (ps.foldl (lengthStep s) a).2 := by
  induction ps with
  | nil => intro a _; rfl
  | cons p ps ih =>
    intro a h
    rw [List.foldl_cons] at h ⊢
    unfold lengthLoop
    split
    · rename_i hl
      rcases lengthFold_cases s ps (lengthStep s a p) with g | g
      · exact g.symm
      · omega
    · exact ih _ h

theorem lengthFold_eq (s : State) (ps : List (Int × Nat)) : ∀ (b : Nat) (acc macc : List Int), (ps.foldl (lengthStep s) (b, acc, macc)).2 =
    (acc ++ (pick (isMust s) (isMaybe s) (fun _ => false) b 0 ps).map Prod.fst, macc ++ ((ps.filter (isMaybe s)).take b).map Prod.fst) := by
  induction ps with
  | nil => intro b acc macc; simp [pick]
  | cons p ps ih =>
    intro b acc macc
    rw [List.foldl_cons, lengthStep_eq]
    unfold pick
    by_cases h1 : isMust s p = true
    · have h2 : isMaybe s p = false := by unfold isMaybe isMust at *; simp [h1]
      rw [if_pos h1, if_pos h1, ih, List.filter_cons_of_neg (by simp [h2])]
      simp
    · rw [if_neg h1, if_neg h1]
      by_cases h2 : isMaybe s p = true
      · rw [List.filter_cons_of_pos h2]
        by_cases hb : 0 < b
        · obtain ⟨c, rfl⟩ := Nat.exists_eq_add_of_lt hb
          have e : 0 + c + 1 - 1 = c := by omega
          rw [if_pos (by simp [h2]), if_pos (by simp [h2]), e, ih]
          simp
        · have : b = 0 := by omega
          subst this
          rw [if_neg (by simp), if_neg (by simp), if_neg (by simp), ih]
          simp
      · rw [if_neg (by simp [h2]), if_neg (by simp [h2]), if_neg (by simp), List.filter_cons_of_neg h2, ih]

/-- The departments that must be placed, with their lengths -/
def mustLens (I : Inst) (s : State) : List Int := ((sortedLengths I).filter (isMust s)).map Prod.fst

/-- The others that may be placed, with their lengths -/
def maybeLens (I : Inst) (s : State) : List Int := ((sortedLengths I).filter (isMaybe s)).map Prod.fst

theorem mustLens_perm (s : State) : (mustLens I s).Perm ((Bits.iter I.n s.must).map I.len) := by
  refine (((sortedLengths_perm I).filter _).map _).trans ?_
  rw [List.filter_map, List.map_map]
  exact List.Perm.refl _

theorem maybeLens_perm {s : State} (h : Ok I F s) : (maybeLens I s).Perm ((Bits.iter I.n (mb s)).map I.len) := by
  refine (((sortedLengths_perm I).filter _).map _).trans ?_
  rw [List.filter_map, List.map_map]
  have : List.filter (isMaybe s ∘ fun i => (I.len i, i)) (List.range I.n) = Bits.iter I.n (mb s) := by
    unfold Bits.iter
    refine List.filter_congr fun i _ => ?_
    simp only [Function.comp, isMaybe]
    cases h1 : (mb s).testBit i
    · simp
    · simp [not_must h h1]
  rw [this]
  exact List.Perm.refl _

theorem lengths_spec {s : State} (h : Ok I F s) : (lengths I s).2 = (maybeLens I s).take (nFromMaybe I s) ∧
    (lengths I s).1.Perm (mustLens I s ++ (maybeLens I s).take (nFromMaybe I s)) ∧ (lengths I s).1.Pairwise (· ≤ ·) := by
  have hfold := lengthFold_eq s (sortedLengths I) (nFromMaybe I s) [] []
  have hp := pick_perm (isMust s) (isMaybe s) (fun _ => false) (by
    intro p; unfold isMust isMaybe
    exact ⟨fun h => ⟨by simp [h], rfl⟩, fun _ => rfl⟩) (sortedLengths I) (nFromMaybe I s) 0
  have hp' := hp.map Prod.fst
  simp only [List.map_append, List.map_take, List.filter_false, List.take_nil, List.append_nil] at hp'
  have hlen : (pick (isMust s) (isMaybe s) (fun _ => false) (nFromMaybe I s) 0 (sortedLengths I)).length ≤ completeArrangement I s := by
    have h1 := hp'.length_eq
    rw [List.length_map] at h1
    rw [h1, List.length_append, List.length_take]
    have h2 := (mustLens_perm (I := I) s).length_eq
    rw [List.length_map] at h2
    unfold mustLens at h2
    rw [h2]
    have h3 := h.few
    unfold Bits.count at h3
    unfold nFromMaybe completeArrangement Bits.count
    omega
  have hloop := lengthLoop_eq s (completeArrangement I s) (sortedLengths I) (nFromMaybe I s, [], []) (by
    rw [hfold]; simpa using hlen)
  unfold lengths
  rw [hloop, hfold]
  simp only [List.nil_append]
  refine ⟨List.map_take, hp', ?_⟩
  exact (sortedLengths_sorted I).sublist ((pick_sublist _ _ _ _ _ _).map _)

/-! ### The flows -/

variable (I) in
theorem sortedFlows_perm : (sortedFlows I).Perm ((pairs I.n).map fun p => (I.flow p.1 p.2, p.1, p.2)) := Dd.sortBy_perm _ _

variable (I) in
theorem sortedFlows_sorted : ((sortedFlows I).map Prod.fst).Pairwise (· ≤ ·) := by
  have := Dd.sortBy_sorted (fun a b : Int × Nat × Nat => decide (a.1 < b.1 ∨ (a.1 = b.1 ∧ (a.2.1 < b.2.1 ∨ (a.2.1 = b.2.1 ∧ a.2.2 ≤ b.2.2)))))
    (by intro a b h; simp only [decide_eq_false_iff_not, decide_eq_true_eq] at *; omega)
    (by intro a b c h1 h2; simp only [decide_eq_true_eq] at *; omega) ((pairs I.n).map fun p => (I.flow p.1 p.2, p.1, p.2))
  exact List.Pairwise.map _ (fun a b h => by simp only [decide_eq_true_eq] at h; omega) this

/-- Both must be placed. -/
def both (s : State) (p : Int × Nat × Nat) : Bool := s.must.testBit p.2.1 && s.must.testBit p.2.2
/-- One must, the other may be placed. -/
def mixed (s : State) (p : Int × Nat × Nat) : Bool := (s.must.testBit p.2.1 && (mb s).testBit p.2.2) || ((mb s).testBit p.2.1 && s.must.testBit p.2.2)
/-- Both may be placed. -/
def neither (s : State) (p : Int × Nat × Nat) : Bool := (mb s).testBit p.2.1 && (mb s).testBit p.2.2

theorem kinds {s : State} (h : Ok I F s) (p : Int × Nat × Nat) : (both s p = true → mixed s p = false ∧ neither s p = false) ∧ (mixed s p = true → neither s p = false) := by
  unfold both mixed neither
  have h1 := h.disj p.2.1
  have h2 := h.disj p.2.2
  cases a : s.must.testBit p.2.1 <;> cases b : s.must.testBit p.2.2 <;> cases c : (mb s).testBit p.2.1 <;> cases d : (mb s).testBit p.2.2 <;> simp_all

theorem flowStep_eq (s : State) (a : Nat × Nat × List Int) (p : Int × Nat × Nat) : flowStep s a p =
    if both s p then (a.1, a.2.1, a.2.2 ++ [p.1])
    else if mixed s p && decide (0 < a.1) then (a.1 - 1, a.2.1, a.2.2 ++ [p.1])
    else if neither s p && decide (0 < a.2.1) then (a.1, a.2.1 - 1, a.2.2 ++ [p.1]) else a := by
  unfold flowStep both mixed neither Bits.has mb
  by_cases h : (s.must.testBit p.2.1 && s.must.testBit p.2.2) = true
  · rw [if_pos h, if_pos h]
  · rw [if_neg h, if_neg h]
    cases s.maybe with
    | none => simp
    | some m =>
      simp only [Option.getD_some]
      by_cases h1 : s.must.testBit p.2.1 = true <;> by_cases h2 : s.must.testBit p.2.2 = true <;> by_cases h3 : m.testBit p.2.1 = true <;>
        by_cases h4 : m.testBit p.2.2 = true <;> by_cases h5 : 0 < a.1 <;> simp [h1, h2, h3, h4, h5]

theorem flowStep_cases (s : State) (a : Nat × Nat × List Int) (p : Int × Nat × Nat) :
    (flowStep s a p).2.2 = a.2.2 ∨ (flowStep s a p).2.2.length = a.2.2.length + 1 := by
  rw [flowStep_eq]
  split
  · right; simp
  · split
    · right; simp
    · split
      · right; simp
      · left; rfl

theorem flowFold_cases (s : State) (ps : List (Int × Nat × Nat)) : ∀ a, (ps.foldl (flowStep s) a).2.2 = a.2.2 ∨ a.2.2.length < (ps.foldl (flowStep s) a).2.2.length := by
  induction ps with
  | nil => intro a; left; rfl
  | cons p ps ih =>
    intro a
    rw [List.foldl_cons]
    rcases ih (flowStep s a p) with h | h <;> rcases flowStep_cases s a p with g | g
    · left; rw [h, g]
    · right; rw [h]; omega
    · right; rw [g] at h; exact h
    · right; omega

theorem flowLoop_eq (s : State) (nf : Nat) (ps : List (Int × Nat × Nat)) : ∀ a, (ps.foldl (flowStep s) a).2.2.length ≤ nf → (flowLoop s nf ps a).2.2 = (ps.foldl (flowStep s) a).2.2 := by
  induction ps with
  | nil => intro a _; rfl
  | cons p ps ih =>
    intro a h
    rw [List.foldl_cons] at h ⊢
    unfold flowLoop
    split
    · rename_i hl
      rcases flowFold_cases s ps (flowStep s a p) with g | g
      · exact g.symm
      · omega
    · exact ih _ h

theorem flowFold_eq (s : State) (ps : List (Int × Nat × Nat)) : ∀ (b2 b3 : Nat) (acc : List Int), (ps.foldl (flowStep s) (b2, b3, acc)).2.2 =
    acc ++ (pick (both s) (mixed s) (neither s) b2 b3 ps).map Prod.fst := by
  induction ps with
  | nil => intro b2 b3 acc; simp [pick]
  | cons p ps ih =>
    intro b2 b3 acc
    rw [List.foldl_cons, flowStep_eq]
    unfold pick
    split
    · rw [ih]; simp
    · split
      · rw [ih]; simp
      · split
        · rw [ih]; simp
        · rw [ih]

def bothFlows (I : Inst) (s : State) : List Int := ((sortedFlows I).filter (both s)).map Prod.fst
def mixedFlows (I : Inst) (s : State) : List Int := ((sortedFlows I).filter (mixed s)).map Prod.fst
def neitherFlows (I : Inst) (s : State) : List Int := ((sortedFlows I).filter (neither s)).map Prod.fst

variable (I) in
/-- How many flows there are of a kind -/
theorem length_kind (c : Int × Nat × Nat → Bool) : ((sortedFlows I).filter c).length = ((pairsOf (List.range I.n)).filter fun p => c (I.flow p.1 p.2, p.1, p.2)).length := by
  rw [((sortedFlows_perm I).filter c).length_eq, pairs_eq, List.filter_map, List.length_map]
  rfl

theorem length_bothFlows (s : State) : (bothFlows I s).length = tri (Bits.count I.n s.must) := by
  unfold bothFlows
  rw [List.length_map, length_kind]
  have := filter_pairsOf (fun i => s.must.testBit i) (List.range I.n)
  unfold both
  simp only
  rw [this, length_pairsOf]
  rfl

theorem length_mixedFlows {s : State} (h : Ok I F s) : (mixedFlows I s).length = Bits.count I.n s.must * Bits.count I.n (mb s) := by
  unfold mixedFlows
  rw [List.length_map, length_kind]
  have := mixed_pairsOf (fun i => s.must.testBit i) (fun i => (mb s).testBit i) (List.range I.n) (by
    rintro a _ ⟨h1, h2⟩
    have := h.disj a h1
    rw [h2] at this; cases this)
  unfold mixed
  simp only
  rw [this]
  rfl

theorem length_neitherFlows (s : State) : (neitherFlows I s).length = tri (Bits.count I.n (mb s)) := by
  unfold neitherFlows
  rw [List.length_map, length_kind]
  have := filter_pairsOf (fun i => (mb s).testBit i) (List.range I.n)
  unfold neither
  simp only
  rw [this, length_pairsOf]
  rfl

theorem Ok.split {s : State} (h : Ok I F s) : completeArrangement I s = Bits.count I.n s.must + nFromMaybe I s ∧ nFromMaybe I s ≤ Bits.count I.n (mb s) := by
  have h1 := h.few
  have h2 := h.many
  have h3 := h.depth
  unfold nFromMaybe completeArrangement
  omega

theorem nFlows_eq {s : State} (h : Ok I F s) : nFlows I s = tri (Bits.count I.n s.must) + Bits.count I.n s.must * nFromMaybe I s + tri (nFromMaybe I s) := by
  show tri (completeArrangement I s) = _
  rw [h.split.1, tri_add]

theorem flows_spec {s : State} (h : Ok I F s) :
    (flows I s).Perm (bothFlows I s ++ ((mixedFlows I s).take (Bits.count I.n s.must * nFromMaybe I s) ++ (neitherFlows I s).take (tri (nFromMaybe I s)))) ∧
    (flows I s).Pairwise (· ≤ ·) := by
  have hp := (pick_perm (both s) (mixed s) (neither s) (kinds h) (sortedFlows I) (Bits.count I.n s.must * nFromMaybe I s) (tri (nFromMaybe I s))).map Prod.fst
  simp only [List.map_append, List.map_take] at hp
  have hfold := flowFold_eq s (sortedFlows I) (Bits.count I.n s.must * nFromMaybe I s) (tri (nFromMaybe I s)) []
  have hloop := flowLoop_eq s (nFlows I s) (sortedFlows I) (Bits.count I.n s.must * nFromMaybe I s, tri (nFromMaybe I s), []) (by
    rw [hfold, nFlows_eq h, List.nil_append, hp.length_eq, List.length_append, List.length_append, List.length_take, List.length_take]
    have := length_bothFlows (I := I) s
    unfold bothFlows at this
    rw [this]
    omega)
  have e : flows I s = (pick (both s) (mixed s) (neither s) (Bits.count I.n s.must * nFromMaybe I s) (tri (nFromMaybe I s)) (sortedFlows I)).map Prod.fst := by
    unfold flows
    rw [hfold] at hloop
    exact hloop
  rw [e]
  exact ⟨hp, (sortedFlows_sorted I).sublist ((pick_sublist _ _ _ _ _ _).map _)⟩

/-! ### Everything that is read is there -/

theorem lengths_length {s : State} (h : Ok I F s) : (lengths I s).1.length = completeArrangement I s ∧ (lengths I s).2.length = nFromMaybe I s := by
  obtain ⟨h1, h2, _⟩ := lengths_spec h
  have h3 := (mustLens_perm (I := I) s).length_eq
  have h4 := (maybeLens_perm h).length_eq
  rw [List.length_map] at h3 h4
  obtain ⟨h5, h6⟩ := h.split
  have e : (lengths I s).2.length = nFromMaybe I s := by
    rw [h1, List.length_take, h4]
    exact Nat.min_eq_left h6
  refine ⟨?_, e⟩
  rw [h2.length_eq, List.length_append, ← h1, e, h3, h5]
  rfl

theorem flows_length {s : State} (h : Ok I F s) : (flows I s).length = nFlows I s := by
  rw [(flows_spec h).1.length_eq, nFlows_eq h, List.length_append, List.length_append, List.length_take, List.length_take, length_bothFlows, length_mixedFlows h, length_neitherFlows]
  obtain ⟨_, h6⟩ := h.split
  rw [Nat.min_eq_left (Nat.mul_le_mul_left _ h6), Nat.min_eq_left (tri_mono h6)]
  omega

/-! ### The bound for the flows -/

/-- The sum of the `t` smallest flows -/
def smallest (fs : List Int) (t : Nat) : Int := (fs.take t).sum

theorem inner_fold (cum : Int) (fs : List Int) (nf idx : Nat) (eb : Int) : ∀ m, m ≤ nf - idx →
    (List.range m).foldl (fun (b : Int × Nat) _ => (b.1 + cum * fs.getD (nf - 1 - b.2) 0, b.2 + 1)) (eb, idx) =
      (eb + cum * (smallest fs (nf - idx) - smallest fs (nf - idx - m)), idx + m) := by
  intro m
  induction m with
  | zero => intro _; simp
  | succ m ih =>
    intro hm
    rw [List.range_succ, List.foldl_append, ih (by omega)]
    simp only [List.foldl_cons, List.foldl_nil]
    have e : smallest fs (nf - idx - m) = smallest fs (nf - idx - (m + 1)) + fs.getD (nf - 1 - (idx + m)) 0 := by
      unfold smallest
      have e1 : nf - idx - m = nf - idx - (m + 1) + 1 := by omega
      have e2 : nf - 1 - (idx + m) = nf - idx - (m + 1) := by omega
      rw [e2, e1, take_succ_sum]
    rw [e]
    refine Prod.ext ?_ ?_
    · simp only; ring
    · simp only; omega

theorem rsum_mul_sub (f g : Nat → Int) (c : Int) (n : Nat) : rsum (fun t => f t * (g t - c)) n = rsum (fun t => f t * g t) n - rsum f n * c := by
  induction n with
  | zero => simp [rsum]
  | succ n ih => simp only [rsum, ih]; ring

theorem edge_fold (ca : Nat) (ls fs : List Int) : ∀ i, i ≤ ca - 1 →
    (List.range i).foldl (edgeStep ca (tri ca) ls fs) (0, 0, 0) =
      (rsum (fun t => ls.getD t 0 * (smallest fs (tri (ca - 1 - t)) - smallest fs (tri (ca - i)))) i, tri ca - tri (ca - i), rsum (fun t => ls.getD t 0) i) := by
  intro i
  induction i with
  | zero => intro _; simp [rsum]
  | succ i ih =>
    intro hi
    rw [List.range_succ, List.foldl_append, ih (by omega)]
    simp only [List.foldl_cons, List.foldl_nil, edgeStep]
    obtain ⟨c, hc⟩ : ∃ c, ca - i = c + 1 := ⟨ca - i - 1, by omega⟩
    have hc' : ca - (i + 1) = c := by omega
    have htri := tri_succ c
    have hle : tri (c + 1) ≤ tri ca := tri_mono (by omega)
    have e1 : tri ca - (tri ca - tri (c + 1)) = tri (c + 1) := by omega
    have e2 : tri (c + 1) - c = tri c := by omega
    rw [hc, hc', inner_fold _ _ _ _ _ c (by omega), e1, e2]
    refine Prod.ext ?_ (Prod.ext ?_ rfl)
    · simp only [rsum]
      have e3 : ca - 1 - i = c := by omega
      rw [e3, rsum_mul_sub, rsum_mul_sub]
      ring
    · simp only; omega

theorem edgeBound_eq (ca : Nat) (ls fs : List Int) : edgeBound ca (tri ca) ls fs = rsum (fun t => ls.getD t 0 * smallest fs (tri (ca - 1 - t))) ca := by
  unfold edgeBound
  rw [edge_fold ca ls fs (ca - 1) (Nat.le_refl _)]
  cases ca with
  | zero => rfl
  | succ c =>
    simp only [Nat.add_sub_cancel, rsum]
    have e : c + 1 - c = 1 := by omega
    have e1 : tri 1 = 0 := rfl
    have e2 : tri (c - c) = 0 := by rw [Nat.sub_self]; rfl
    rw [e, e1, e2]
    simp [smallest]

end Verif.Srflp
