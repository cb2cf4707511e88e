import Verif.Proofs.Tsptw.Exact
/-! All states of the TSPTW program, merged ones included. -/
set_option autoImplicit false

namespace Verif.Tsptw
open Verif Spec
variable {I : Inst} {B : Nat}

/-! ### Meaningful states -/

/-- The salesman is somewhere. -/
def Position.Ok (n : Nat) : Position → Prop
  | .node i => i < n
  | .virt c => Bits.Sub n c ∧ ∃ i, c.testBit i = true

variable (I B) in
structure Ok (s : State) : Prop where
  pos : s.position.Ok I.n
  must : Bits.Sub I.n s.must
  maybe : ∀ m, s.maybe = some m → Bits.Sub I.n m
  depth : s.depth ≤ I.n
  early : s.elapsed.earliest ≤ s.depth * B
  late : s.elapsed.latest ≤ s.depth * B

variable (I B) in
/-- The layers of the TSPTW program. -/
def layering : Layering State := { ok := Ok I B, lvl := State.depth, var := id }

/-- The cities the salesman may be in. -/
def Position.has : Position → Nat → Bool
  | .node i, j => decide (i = j)
  | .virt c, j => c.testBit j

theorem mkElapsed_earliest (e l : Nat) : (mkElapsed e l).earliest = e := by
  unfold mkElapsed; split <;> rfl

theorem mkElapsed_latest (e l : Nat) : (mkElapsed e l).latest = l := by
  unfold mkElapsed; split
  · rename_i h; simp [Elapsed.latest, h]
  · rfl

theorem add_earliest (e : Elapsed) (x : Nat) : (e.add x).earliest = e.earliest + x := by cases e <;> rfl
theorem add_latest (e : Elapsed) (x : Nat) : (e.add x).latest = e.latest + x := by cases e <;> rfl

theorem arrival_earliest (s : State) (j : Nat) : (arrival I s j).earliest = max (s.elapsed.earliest + minDist I s j) (I.earliest j) := by
  unfold arrival
  rw [add_earliest, add_latest]
  unfold mkElapsed
  split
  · rename_i h; split at h
    · cases h; simp [Elapsed.earliest]
    · cases h
  · rename_i h; split at h
    · cases h
    · cases h
      split <;> rfl

theorem arrival_latest (s : State) (j : Nat) : (arrival I s j).latest ≤ max (s.elapsed.latest + maxDist I s j) (I.earliest j) := by
  unfold arrival
  rw [add_earliest, add_latest]
  generalize s.elapsed.latest + maxDist I s j = L
  generalize s.elapsed.earliest + minDist I s j = E
  by_cases h : E = L
  · have : mkElapsed E L = .fixed E := if_pos h
    rw [this]
    show max E (I.earliest j) ≤ _
    omega
  · have : mkElapsed E L = .fuzzy E L := if_neg h
    rw [this]
    show (mkElapsed _ _).latest ≤ _
    rw [mkElapsed_latest]
    omega

theorem min?_le {l : List Nat} {a m : Nat} (h : l.min? = some m) (ha : a ∈ l) : m ≤ a := (List.min?_eq_some_iff.1 h).2 a ha

theorem minDist_le {s : State} {i : Nat} (j : Nat) (hp : s.position.Ok I.n) (hi : s.position.has i = true) : minDist I s j ≤ I.dist i j := by
  unfold minDist
  cases hq : s.position with
  | node k => rw [hq] at hi; simp [Position.has] at hi; subst hi; exact Nat.le_refl _
  | virt c =>
    rw [hq] at hi hp
    simp only [Position.has] at hi
    have hm : I.dist i j ∈ (Bits.iter I.n c).map fun i => I.dist i j := List.mem_map.2 ⟨i, (Bits.mem_iter_sub hp.1).2 hi, rfl⟩
    cases hmin : ((Bits.iter I.n c).map fun i => I.dist i j).min? with
    | none => rw [List.min?_eq_none_iff] at hmin; rw [hmin] at hm; cases hm
    | some m =>
      simp only [hmin, Option.getD_some]
      exact min?_le hmin hm

theorem minDist_attained {s : State} (j : Nat) (hp : s.position.Ok I.n) :
    ∃ i, i < I.n ∧ s.position.has i = true ∧ minDist I s j = I.dist i j := by
  unfold minDist
  cases hq : s.position with
  | node k => rw [hq] at hp; exact ⟨k, hp, by simp [Position.has], rfl⟩
  | virt c =>
    rw [hq] at hp
    obtain ⟨hsub, i, hi⟩ := hp
    have hm : I.dist i j ∈ (Bits.iter I.n c).map fun i => I.dist i j := List.mem_map.2 ⟨i, (Bits.mem_iter_sub hsub).2 hi, rfl⟩
    cases hmin : ((Bits.iter I.n c).map fun i => I.dist i j).min? with
    | none => rw [List.min?_eq_none_iff] at hmin; rw [hmin] at hm; cases hm
    | some m =>
      obtain ⟨k, hk, rfl⟩ := List.mem_map.1 (List.min?_eq_some_iff.1 hmin).1
      obtain ⟨h1, h2⟩ := Bits.mem_iter.1 hk
      refine ⟨k, h1, h2, ?_⟩
      simp only [hmin, Option.getD_some]

theorem maxDist_attained {s : State} (j : Nat) (hp : s.position.Ok I.n) :
    ∃ i, i < I.n ∧ s.position.has i = true ∧ maxDist I s j = I.dist i j := by
  unfold maxDist
  cases hq : s.position with
  | node k => rw [hq] at hp; exact ⟨k, hp, by simp [Position.has], rfl⟩
  | virt c =>
    rw [hq] at hp
    obtain ⟨hsub, i, hi⟩ := hp
    have hm : I.dist i j ∈ (Bits.iter I.n c).map fun i => I.dist i j := List.mem_map.2 ⟨i, (Bits.mem_iter_sub hsub).2 hi, rfl⟩
    cases hmin : ((Bits.iter I.n c).map fun i => I.dist i j).max? with
    | none => rw [List.max?_eq_none_iff] at hmin; rw [hmin] at hm; cases hm
    | some m =>
      obtain ⟨k, hk, rfl⟩ := List.mem_map.1 (List.max?_eq_some_iff.1 hmin).1
      obtain ⟨h1, h2⟩ := Bits.mem_iter.1 hk
      refine ⟨k, h1, h2, ?_⟩
      simp only [hmin, Option.getD_some]

/-- Value and time are tied together: a step costs the time it takes. -/
theorem cost_eq (s : State) (d : Decision) : cost I s d = (s.elapsed.earliest : Int) - ((trans I s d).elapsed.earliest : Int) := by
  show _ = (s.elapsed.earliest : Int) - ((arrival I s d.value.toNat).earliest : Int)
  rw [arrival_earliest]
  unfold cost
  simp only
  split <;> omega

/-- Membership in the domain, whatever the state. -/
theorem mem_dom {x : Nat} {s : State} {d : Decision} : d ∈ dom I x s ↔
    (s.depth = I.n - 1 ∧ canMove I s 0 = true ∧ d = ⟨x, 0⟩) ∨
    (s.depth ≠ I.n - 1 ∧ (∀ k ∈ Bits.iter I.n s.must, canMove I s k = true) ∧ ∃ j : Nat, d = ⟨x, (j : Int)⟩ ∧
      (j ∈ Bits.iter I.n s.must ∨ ∃ m, s.maybe = some m ∧ j ∈ Bits.iter I.n m ∧ canMove I s j = true)) := by
  unfold dom
  by_cases hd : s.depth = I.n - 1
  · rw [if_pos hd]
    by_cases hc : canMove I s 0 = true <;> simp [hd, hc]
  · rw [if_neg hd]
    by_cases hc : (Bits.iter I.n s.must).all (canMove I s) = true
    · rw [if_pos hc]
      rw [List.all_eq_true] at hc
      simp only [hd, false_and, false_or, ne_eq, not_false_eq_true, true_and]
      rw [List.mem_append]
      refine ⟨?_, ?_⟩
      · rintro (h | h)
        · obtain ⟨j, hj, rfl⟩ := List.mem_map.1 h
          exact ⟨hc, j, rfl, Or.inl hj⟩
        · cases hm : s.maybe with
          | none => rw [hm] at h; cases h
          | some m =>
            rw [hm] at h
            obtain ⟨j, hj, rfl⟩ := List.mem_map.1 h
            obtain ⟨h1, h2⟩ := List.mem_filter.1 hj
            exact ⟨hc, j, rfl, Or.inr ⟨m, rfl, h1, h2⟩⟩
      · rintro ⟨_, j, rfl, hj | ⟨m, hm, h1, h2⟩⟩
        · exact Or.inl (List.mem_map.2 ⟨j, hj, rfl⟩)
        · right; rw [hm]
          exact List.mem_map.2 ⟨j, List.mem_filter.2 ⟨h1, h2⟩, rfl⟩
    · rw [if_neg hc]
      simp only [List.not_mem_nil, false_iff]
      rintro (h | ⟨_, h, _⟩)
      · exact hd h.1
      · exact hc (List.all_eq_true.2 h)

theorem dom_value {x : Nat} {s : State} {d : Decision} (hn : 1 ≤ I.n) (h : d ∈ dom I x s) : ∃ j : Nat, j < I.n ∧ d = ⟨x, (j : Int)⟩ := by
  rcases mem_dom.1 h with ⟨_, _, rfl⟩ | ⟨_, _, j, rfl, hj⟩
  · exact ⟨0, hn, rfl⟩
  · refine ⟨j, ?_, rfl⟩
    rcases hj with hj | ⟨m, _, hj, _⟩
    · exact (Bits.mem_iter.1 hj).1
    · exact (Bits.mem_iter.1 hj).1

theorem Ok.trans (hB : Bounded I B) {s : State} (h : Ok I B s) (hd : s.depth ≠ I.n) {x j : Nat} (hj : j < I.n) : Ok I B (trans I s ⟨x, (j : Int)⟩) := by
  have h1 : s.elapsed.earliest + minDist I s j ≤ s.depth * B + B ∧ I.earliest j ≤ B := by
    obtain ⟨i, hi, _, e⟩ := minDist_attained (I := I) j h.pos
    rw [e]
    have := hB.step i j hi hj
    have := h.early
    omega
  have h2 : s.elapsed.latest + maxDist I s j ≤ s.depth * B + B := by
    obtain ⟨i, hi, _, e⟩ := maxDist_attained (I := I) j h.pos
    rw [e]
    have := hB.step i j hi hj
    have := h.late
    omega
  refine ⟨hj, h.must.clear _, ?_, ?_, ?_, ?_⟩
  · intro m hm
    simp only [Tsptw.trans, Option.map_eq_some_iff] at hm
    obtain ⟨m', hm', rfl⟩ := hm
    exact (h.maybe m' hm').clear _
  · show s.depth + 1 ≤ I.n
    have := h.depth; omega
  · show (arrival I s j).earliest ≤ (s.depth + 1) * B
    rw [arrival_earliest, Nat.add_mul, Nat.one_mul]
    omega
  · show (arrival I s j).latest ≤ (s.depth + 1) * B
    refine Nat.le_trans (arrival_latest s j) ?_
    rw [Nat.add_mul, Nat.one_mul]
    omega

theorem ok_init (hn : 1 ≤ I.n) : Ok I B (initial I) where
  pos := hn
  must := (Bits.Sub.full _).clear 0
  maybe := by simp [initial]
  depth := Nat.zero_le _
  early := Nat.zero_le _
  late := Nat.zero_le _

theorem cost_bound (hB : Bounded I B) {s : State} (hp : s.position.Ok I.n) {x j : Nat} (hj : j < I.n) : -(B : Int) ≤ cost I s ⟨x, (j : Int)⟩ ∧ cost I s ⟨x, (j : Int)⟩ ≤ 0 := by
  obtain ⟨i, hi, _, e⟩ := minDist_attained (I := I) j hp
  have h1 := hB.step i j hi hj
  unfold cost
  simp only [Int.toNat_natCast, e]
  split <;> omega

theorem wellFormed (hn : 1 ≤ I.n) (hB : Bounded I B) : WellFormed (problem I) (layering I B) B where
  ok_init := ok_init hn
  ok_trans := by
    intro s x d hs hx hd
    obtain ⟨j, hj, rfl⟩ := dom_value hn hd
    exact hs.trans hB (nextVar_some hx).2 hj
  lvl_init := rfl
  lvl_trans := fun _ _ _ _ _ _ => rfl
  next_nil := rfl
  next_var := by
    intro l k hl hk
    cases l with
    | nil => exact absurd rfl hl
    | cons s l =>
      obtain ⟨h1, h2⟩ := hk s (by simp)
      have h3 : s.depth ≤ I.n := h1.depth
      change s.depth = k at h2
      show (if s.depth = I.n then none else some s.depth) = if k < I.n then some (id k) else none
      by_cases hc : s.depth = I.n
      · rw [if_pos hc, if_neg (by omega)]
      · rw [if_neg hc, if_pos (by omega), h2]; rfl
  init_bound := by
    show -(B : Int) ≤ 0 ∧ (0 : Int) ≤ B
    omega
  cost_bound := by
    intro s x d hs hx hd
    obtain ⟨j, hj, rfl⟩ := dom_value hn hd
    have := cost_bound hB hs.pos (x := x) hj
    constructor
    · exact this.1
    · have := this.2; show cost I s _ ≤ _; omega
  no_overflow := by
    have h := hB.small
    show 4 * ((I.n : Int) + 2) * B ≤ isizeMax
    have e : isizeMax = ((2 ^ 63 - 1 : Nat) : Int) := by decide
    rw [e]
    exact_mod_cast h

/-! ### Merging -/

/-- `s` may visit city `i`. -/
def State.may (s : State) (i : Nat) : Bool := s.must.testBit i || (s.maybe.getD 0).testBit i

theorem fold_pos (l : List State) (h : Helper) (i : Nat) : (l.foldl Helper.track h).position.testBit i = (h.position.testBit i || l.any (fun s => s.position.has i)) := by
  induction l generalizing h with
  | nil => simp
  | cons s l ih =>
    rw [List.foldl_cons, ih, List.any_cons, ← Bool.or_assoc]
    congr 1
    unfold Helper.track
    cases s.position with
    | node k => simp only [Bits.testBit_add, Position.has]
    | virt c => simp only [Nat.testBit_or, Position.has]

theorem fold_must (l : List State) (h : Helper) (i : Nat) : (l.foldl Helper.track h).allMust.testBit i = (h.allMust.testBit i || l.any (fun s => s.must.testBit i)) := by
  induction l generalizing h with
  | nil => simp
  | cons s l ih =>
    rw [List.foldl_cons, ih, List.any_cons, ← Bool.or_assoc]
    congr 1
    simp only [Helper.track, Nat.testBit_or]

theorem fold_agree (l : List State) (h : Helper) (i : Nat) : (l.foldl Helper.track h).allAgree.testBit i = (h.allAgree.testBit i && l.all (fun s => s.must.testBit i)) := by
  induction l generalizing h with
  | nil => simp
  | cons s l ih =>
    rw [List.foldl_cons, ih, List.all_cons, ← Bool.and_assoc]
    congr 1
    simp only [Helper.track, Nat.testBit_and]

theorem fold_maybe (l : List State) (h : Helper) (i : Nat) :
    (l.foldl Helper.track h).allMaybe.testBit i = (h.allMaybe.testBit i || l.any (fun s => (s.maybe.getD 0).testBit i)) := by
  induction l generalizing h with
  | nil => simp
  | cons s l ih =>
    rw [List.foldl_cons, ih, List.any_cons, ← Bool.or_assoc]
    congr 1
    unfold Helper.track
    cases s.maybe with
    | none => simp
    | some m => simp

theorem fold_early (l : List State) (h : Helper) : (l.foldl Helper.track h).earliest ≤ h.earliest ∧ ∀ s ∈ l, (l.foldl Helper.track h).earliest ≤ s.elapsed.earliest := by
  induction l generalizing h with
  | nil => simp
  | cons s l ih =>
    rw [List.foldl_cons]
    obtain ⟨h1, h2⟩ := ih (h.track s)
    have e : (h.track s).earliest = min h.earliest s.elapsed.earliest := rfl
    rw [e] at h1
    refine ⟨by omega, ?_⟩
    intro q hq
    rcases List.mem_cons.1 hq with rfl | hq
    · omega
    · exact h2 q hq

theorem fold_late (l : List State) (h : Helper) {c : Nat} (h0 : h.latest ≤ c) (hl : ∀ s ∈ l, s.elapsed.latest ≤ c) : (l.foldl Helper.track h).latest ≤ c := by
  induction l generalizing h with
  | nil => simpa using h0
  | cons s l ih =>
    rw [List.foldl_cons]
    refine ih _ ?_ (fun q hq => hl q (by simp [hq]))
    have := hl s (by simp)
    show max h.latest s.elapsed.latest ≤ c
    omega

theorem fold_depth (l : List State) (h : Helper) {k : Nat} (hl : ∀ s ∈ l, s.depth = k) (h0 : h.depth ≤ k) (hne : l ≠ [] ∨ h.depth = k) : (l.foldl Helper.track h).depth = k := by
  induction l generalizing h with
  | nil =>
    rcases hne with hne | hne
    · exact absurd rfl hne
    · exact hne
  | cons s l ih =>
    rw [List.foldl_cons]
    have := hl s (by simp)
    have e : (h.track s).depth = max h.depth s.depth := rfl
    refine ih _ (fun q hq => hl q (by simp [hq])) (by omega) (Or.inr (by omega))

theorem merge_pos (l : List State) : (merge I l).position = .virt (l.foldl Helper.track (Helper.new I.n)).position := rfl

theorem merge_has (l : List State) (i : Nat) : (merge I l).position.has i = l.any (fun s => s.position.has i) := by
  rw [merge_pos]
  show Nat.testBit _ _ = _
  rw [fold_pos]
  simp [Helper.new]

theorem merge_must {l : List State} (i : Nat) : (merge I l).must.testBit i = (decide (i < I.n) && l.all (fun s => s.must.testBit i)) := by
  show (List.foldl Helper.track (Helper.new I.n) l).allAgree.testBit i = _
  rw [fold_agree]
  show ((Bits.full I.n).testBit i && _) = _
  rw [Bits.testBit_full]

theorem merge_earliest {l : List State} {s : State} (hs : s ∈ l) : (merge I l).elapsed.earliest ≤ s.elapsed.earliest := by
  show (mkElapsed _ _).earliest ≤ _
  rw [mkElapsed_earliest]
  exact (fold_early l _).2 s hs

theorem merge_latest {l : List State} {c : Nat} (hl : ∀ s ∈ l, s.elapsed.latest ≤ c) : (merge I l).elapsed.latest ≤ c := by
  show (mkElapsed _ _).latest ≤ _
  rw [mkElapsed_latest]
  exact fold_late l _ (Nat.zero_le _) hl

theorem merge_depth {l : List State} {k : Nat} (hne : l ≠ []) (hl : ∀ s ∈ l, s.depth = k) : (merge I l).depth = k :=
  fold_depth l _ hl (Nat.zero_le _) (Or.inl hne)

theorem pos_has_lt {p : Position} (h : p.Ok I.n) {i : Nat} (hi : p.has i = true) : i < I.n := by
  cases p with
  | node k => simp [Position.has] at hi; subst hi; exact h
  | virt c => exact h.1 i hi

theorem pos_exists {p : Position} (h : p.Ok I.n) : ∃ i, p.has i = true := by
  cases p with
  | node k => exact ⟨k, by simp [Position.has]⟩
  | virt c => exact h.2

theorem maybe_sub {s : State} (h : Ok I B s) : Bits.Sub I.n (s.maybe.getD 0) := by
  cases hm : s.maybe with
  | none => exact Bits.Sub.zero _
  | some m => exact h.maybe m hm

/-- The set `maybe` of a merged state before it is turned into an option. -/
theorem merge_maybe {l : List State} (hne : l ≠ []) (hl : ∀ s ∈ l, Ok I B s) (i : Nat) :
    ((merge I l).maybe.getD 0).testBit i = (l.any (fun s => s.may i) && !(merge I l).must.testBit i) := by
  have hH : (merge I l).maybe = if 0 < Bits.count I.n (((l.foldl Helper.track (Helper.new I.n)).allMaybe ||| (l.foldl Helper.track (Helper.new I.n)).allMust) ^^^ (l.foldl Helper.track (Helper.new I.n)).allAgree)
      then some (((l.foldl Helper.track (Helper.new I.n)).allMaybe ||| (l.foldl Helper.track (Helper.new I.n)).allMust) ^^^ (l.foldl Helper.track (Helper.new I.n)).allAgree) else none := rfl
  have hM : ∀ i, ((l.foldl Helper.track (Helper.new I.n)).allMaybe ||| (l.foldl Helper.track (Helper.new I.n)).allMust).testBit i = l.any (fun s => s.may i) := by
    intro i
    rw [Nat.testBit_or, fold_maybe, fold_must]
    simp only [Helper.new, Nat.zero_testBit, Bool.false_or]
    rw [Bool.eq_iff_iff]
    simp only [Bool.or_eq_true, List.any_eq_true, State.may]
    constructor
    · rintro (⟨s, h1, h2⟩ | ⟨s, h1, h2⟩)
      · exact ⟨s, h1, Or.inr h2⟩
      · exact ⟨s, h1, Or.inl h2⟩
    · rintro ⟨s, h1, h2 | h2⟩
      · exact Or.inr ⟨s, h1, h2⟩
      · exact Or.inl ⟨s, h1, h2⟩
  have hA : (l.foldl Helper.track (Helper.new I.n)).allAgree = (merge I l).must := rfl
  have hsub : Bits.Sub I.n (((l.foldl Helper.track (Helper.new I.n)).allMaybe ||| (l.foldl Helper.track (Helper.new I.n)).allMust) ^^^ (l.foldl Helper.track (Helper.new I.n)).allAgree) := by
    refine Bits.Sub.xor ?_ ?_
    · intro i hi
      rw [hM] at hi
      obtain ⟨s, h1, h2⟩ := List.any_eq_true.1 hi
      simp only [State.may, Bool.or_eq_true] at h2
      rcases h2 with h2 | h2
      · exact (hl s h1).must i h2
      · exact maybe_sub (hl s h1) i h2
    · intro i hi
      rw [hA, merge_must] at hi
      simp at hi; exact hi.1
  have hbit : (((l.foldl Helper.track (Helper.new I.n)).allMaybe ||| (l.foldl Helper.track (Helper.new I.n)).allMust) ^^^ (l.foldl Helper.track (Helper.new I.n)).allAgree).testBit i
      = (l.any (fun s => s.may i) && !(merge I l).must.testBit i) := by
    rw [Nat.testBit_xor, hM, hA]
    have himp : (merge I l).must.testBit i = true → l.any (fun s => s.may i) = true := by
      intro h
      rw [merge_must] at h
      simp only [Bool.and_eq_true, List.all_eq_true] at h
      cases l with
      | nil => exact absurd rfl hne
      | cons s l => rw [List.any_cons]; simp [State.may, h.2 s (by simp)]
    cases h1 : (merge I l).must.testBit i with
    | false => simp
    | true => rw [himp h1]; rfl
  rw [hH]
  split
  · simpa using hbit
  · rename_i h
    have h0 : ((l.foldl Helper.track (Helper.new I.n)).allMaybe ||| (l.foldl Helper.track (Helper.new I.n)).allMust) ^^^ (l.foldl Helper.track (Helper.new I.n)).allAgree = 0 := by
      by_cases he : ((l.foldl Helper.track (Helper.new I.n)).allMaybe ||| (l.foldl Helper.track (Helper.new I.n)).allMust) ^^^ (l.foldl Helper.track (Helper.new I.n)).allAgree = 0
      · exact he
      · exact absurd ((Bits.count_pos hsub).2 he) h
    rw [h0] at hbit
    simpa using hbit

theorem merge_ok {l : List State} {k : Nat} (hne : l ≠ []) (hl : ∀ s ∈ l, Ok I B s ∧ s.depth = k) : Ok I B (merge I l) ∧ (merge I l).depth = k := by
  have hk := merge_depth (I := I) hne (fun s hs => (hl s hs).2)
  refine ⟨⟨?_, ?_, ?_, ?_, ?_, ?_⟩, hk⟩
  · rw [merge_pos]
    refine ⟨?_, ?_⟩
    · intro i hi
      have : (merge I l).position.has i = true := hi
      rw [merge_has] at this
      obtain ⟨s, h1, h2⟩ := List.any_eq_true.1 this
      exact pos_has_lt (hl s h1).1.pos h2
    · cases l with
      | nil => exact absurd rfl hne
      | cons s l =>
        obtain ⟨i, hi⟩ := pos_exists (hl s (by simp)).1.pos
        refine ⟨i, ?_⟩
        have : (merge I (s :: l)).position.has i = true := by rw [merge_has, List.any_cons, hi]; rfl
        exact this
  · intro i hi
    rw [merge_must] at hi
    simp at hi; exact hi.1
  · intro m hm i hi
    have h1 := merge_maybe (I := I) (B := B) hne (fun s hs => (hl s hs).1) i
    rw [hm, Option.getD_some, hi] at h1
    have h2 := h1.symm
    simp only [Bool.and_eq_true] at h2
    obtain ⟨s, h3, h4⟩ := List.any_eq_true.1 h2.1
    simp only [State.may, Bool.or_eq_true] at h4
    rcases h4 with h4 | h4
    · exact (hl s h3).1.must i h4
    · exact maybe_sub (hl s h3).1 i h4
  · rw [hk]
    cases l with
    | nil => exact absurd rfl hne
    | cons s l =>
      obtain ⟨h1, h2⟩ := hl s (by simp)
      have := h1.depth; omega
  · rw [hk]
    cases l with
    | nil => exact absurd rfl hne
    | cons s l =>
      obtain ⟨h1, h2⟩ := hl s (by simp)
      refine Nat.le_trans (merge_earliest (s := s) (by simp)) ?_
      rw [← h2]; exact h1.early
  · rw [hk]
    refine merge_latest ?_
    intro s hs
    obtain ⟨h1, h2⟩ := hl s hs
    rw [← h2]; exact h1.late

theorem layered (hn : 1 ≤ I.n) (hB : Bounded I B) : LayeredRelaxation (problem I) (relaxation I) (layering I B) B where
  merge_ok := fun l k hne hl => merge_ok hne hl
  relax_cost := by
    intro l k hl s x d hs hx hd hm
    refine ⟨Int.le_refl _, ?_⟩
    exact ((wellFormed hn hB).cost_bound s x d hs hx hd).2

/-! ### What merging preserves -/

/-- `M` allows everything that `s` allows, at least as early. -/
structure Above (M s : State) : Prop where
  depth : M.depth = s.depth
  early : M.elapsed.earliest ≤ s.elapsed.earliest
  dist : ∀ j, minDist I M j ≤ minDist I s j
  must : ∀ i, M.must.testBit i = true → s.must.testBit i = true
  may : ∀ i, s.may i = true → M.may i = true

theorem merge_above {l : List State} {k : Nat} (hl : ∀ s ∈ l, Ok I B s ∧ s.depth = k) {s : State} (hs : s ∈ l) : Above (I := I) (merge I l) s := by
  have hne : l ≠ [] := fun h => by rw [h] at hs; cases hs
  obtain ⟨hok, hk⟩ := merge_ok (I := I) (B := B) hne hl
  refine ⟨by rw [hk, (hl s hs).2], merge_earliest hs, ?_, ?_, ?_⟩
  · intro j
    obtain ⟨i, h1, h2, h3⟩ := minDist_attained (I := I) j (hl s hs).1.pos
    rw [h3]
    refine minDist_le j hok.pos ?_
    rw [merge_has]
    exact List.any_eq_true.2 ⟨s, hs, h2⟩
  · intro i hi
    rw [merge_must] at hi
    simp only [Bool.and_eq_true, List.all_eq_true] at hi
    exact hi.2 s hs
  · intro i hi
    unfold State.may
    rw [merge_maybe (B := B) hne (fun s hs => (hl s hs).1)]
    have : l.any (fun s => s.may i) = true := List.any_eq_true.2 ⟨s, hs, hi⟩
    rw [this]
    cases (merge I l).must.testBit i <;> rfl

theorem Above.canMove {M s : State} (h : Above (I := I) M s) {j : Nat} (hc : canMove I s j = true) : canMove I M j = true := by
  unfold Tsptw.canMove at *
  rw [add_earliest, decide_eq_true_iff] at *
  have := h.early
  have := h.dist j
  omega

theorem Above.dom {M s : State} (h : Above (I := I) M s) {x : Nat} {d : Decision} (hd : d ∈ dom I x s) : d ∈ dom I x M := by
  rcases mem_dom.1 hd with ⟨h1, h2, rfl⟩ | ⟨h1, h2, j, rfl, hj⟩
  · exact mem_dom.2 (Or.inl ⟨by rw [h.depth]; exact h1, h.canMove h2, rfl⟩)
  · refine mem_dom.2 (Or.inr ⟨by rw [h.depth]; exact h1, ?_, j, rfl, ?_⟩)
    · intro k hk
      obtain ⟨k1, k2⟩ := Bits.mem_iter.1 hk
      exact h.canMove (h2 k (Bits.mem_iter.2 ⟨k1, h.must k k2⟩))
    · have hmv : Tsptw.canMove I s j = true := by
        rcases hj with hj | ⟨m, _, _, hj⟩
        · exact h2 j hj
        · exact hj
      have hlt : j < I.n := by
        rcases hj with hj | ⟨m, _, hj, _⟩
        · exact (Bits.mem_iter.1 hj).1
        · exact (Bits.mem_iter.1 hj).1
      have hmay : s.may j = true := by
        unfold State.may
        rcases hj with hj | ⟨m, hm, hj, _⟩
        · rw [(Bits.mem_iter.1 hj).2]; rfl
        · rw [hm, Option.getD_some, (Bits.mem_iter.1 hj).2, Bool.or_true]
      have hM := h.may j hmay
      unfold State.may at hM
      rw [Bool.or_eq_true] at hM
      rcases hM with hM | hM
      · exact Or.inl (Bits.mem_iter.2 ⟨hlt, hM⟩)
      · right
        cases hmb : M.maybe with
        | none => rw [hmb] at hM; simp at hM
        | some m =>
          rw [hmb, Option.getD_some] at hM
          exact ⟨m, rfl, Bits.mem_iter.2 ⟨hlt, hM⟩, h.canMove hmv⟩

theorem may_trans (s : State) (d : Decision) (i : Nat) : (trans I s d).may i = (s.may i && decide (d.value.toNat ≠ i)) := by
  unfold State.may
  show ((Bits.clear s.must d.value.toNat).testBit i || ((s.maybe.map fun m => Bits.clear m d.value.toNat).getD 0).testBit i) = _
  rw [Bits.testBit_clear]
  cases s.maybe with
  | none => simp
  | some m =>
    simp only [Option.map_some, Option.getD_some, Bits.testBit_clear]
    cases s.must.testBit i <;> cases m.testBit i <;> simp

theorem Above.trans {M s : State} (h : Above (I := I) M s) (d : Decision) : Above (I := I) (trans I M d) (trans I s d) := by
  refine ⟨?_, ?_, fun j => Nat.le_refl _, ?_, ?_⟩
  · show M.depth + 1 = s.depth + 1; rw [h.depth]
  · show (arrival I M _).earliest ≤ (arrival I s _).earliest
    rw [arrival_earliest, arrival_earliest]
    have := h.early
    have := h.dist d.value.toNat
    omega
  · intro i hi
    change (Bits.clear M.must _).testBit i = true at hi
    show (Bits.clear s.must _).testBit i = true
    rw [Bits.testBit_clear] at *
    simp only [Bool.and_eq_true] at *
    exact ⟨h.must i hi.1, hi.2⟩
  · intro i hi
    rw [may_trans] at *
    simp only [Bool.and_eq_true] at *
    exact ⟨h.may i hi.1, hi.2⟩

/-- Every run of `s` is a run of a state above it. -/
theorem Above.run {s e : State} {ds : List Decision} {v : Int} (hr : Run (problem I) s ds v e) :
    ∀ {M : State}, Above (I := I) M s → ∃ v' e', Run (problem I) M ds v' e' ∧ Above (I := I) e' e := by
  induction hr with
  | nil s => intro M h; exact ⟨0, M, Run.nil _, h⟩
  | @cons s e x d ds v hx hd hr ih =>
    intro M h
    obtain ⟨v', e', h1, h2⟩ := ih (h.trans d)
    have hx' : (problem I).nextVar [M] = some x := by
      change nextVar I [s] = some x at hx
      show nextVar I [M] = some x
      rw [nextVar_single] at *
      rw [h.depth]; exact hx
    exact ⟨_, e', Run.cons hx' (h.dom hd) h1, h2⟩

/-- The value of a run is the time it takes. -/
theorem run_value {s e : State} {ds : List Decision} {v : Int} (hr : Run (problem I) s ds v e) : v = (s.elapsed.earliest : Int) - e.elapsed.earliest := by
  induction hr with
  | nil s => omega
  | @cons s e x d ds v hx hd hr ih =>
    have := cost_eq (I := I) s d
    change (problem I).cost s d = _ - (((problem I).trans s d).elapsed.earliest : Int) at this
    omega

/-- Without time windows to wait for, the value of a run is the distance travelled. -/
theorem Above.run_nowait (hw : ∀ j, I.earliest j = 0) {s e : State} {ds : List Decision} {v : Int} (hr : Run (problem I) s ds v e) :
    ∀ {M : State}, Above (I := I) M s → ∃ v' e', Run (problem I) M ds v' e' ∧ Above (I := I) e' e ∧ v ≤ v' := by
  induction hr with
  | nil s => intro M h; exact ⟨0, M, Run.nil _, h, Int.le_refl _⟩
  | @cons s e x d ds v hx hd hr ih =>
    intro M h
    obtain ⟨v', e', h1, h2, h3⟩ := ih (h.trans d)
    have hx' : (problem I).nextVar [M] = some x := by
      change nextVar I [s] = some x at hx
      show nextVar I [M] = some x
      rw [nextVar_single] at *
      rw [h.depth]; exact hx
    refine ⟨_, e', Run.cons hx' (h.dom hd) h1, h2, ?_⟩
    have := h.dist d.value.toNat
    have hc : (problem I).cost s d ≤ (problem I).cost M d := by
      show cost I s d ≤ cost I M d
      unfold cost
      simp only [hw, Nat.not_lt_zero, if_false]
      omega
    omega

theorem Above.terminal {M s : State} (h : Above (I := I) M s) (hs : (problem I).nextVar [s] = none) : (problem I).nextVar [M] = none :=
  nextVar_eq_none (by rw [h.depth]; exact nextVar_none hs)

end Verif.Tsptw
