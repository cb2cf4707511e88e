import Verif.Proofs.Problem
/-!
Dynamic programs given by a table, with the coarsest relaxation: merged states become a single state per layer which allows one decision of
the largest cost of the layer.  Used for counterexamples and to show that hypotheses can be met (this file models no code of the repository).
-/
set_option autoImplicit false

namespace Verif.Table
open Verif Spec

/-- State: number of decisions taken, identifier within the layer.  Identifier 0 is the merged state. -/
abbrev St := Nat × Nat

/-- For each layer the largest cost, and for each identifier 1, 2, ... the list of (identifier in the next layer, cost) per decision. -/
abbrev Tab := List (Int × List (List (Nat × Int)))

def top (T : Tab) (k : Nat) : Int := (T.getD k (0, [])).1

def kids (T : Tab) (s : St) : List (Nat × Int) :=
  match s.2 with
  | 0 => [(0, top T s.1)]
  | i+1 => (T.getD s.1 (0, [])).2.getD i []

def kid (T : Tab) (s : St) (d : Decision) : Nat × Int := (kids T s).getD d.value.toNat (0, 0)

def prob (T : Tab) (E : Int) : Problem St :=
  { nbVars := T.length
    init := (0, 1)
    initVal := 0
    nextVar := fun l => match l with
      | [] => none
      | s :: _ => if s.1 < T.length then some s.1 else none
    dom := fun x s => (List.range (kids T s).length).map fun i : Nat => (⟨x, (i : Int)⟩ : Decision)
    trans := fun s d => (s.1 + 1, (kid T s d).1)
    cost := fun s d => (kid T s d).2
    estimate := fun _ => E }

def relaxation : Relaxation St :=
  { merge := fun l => ((l.headD (0, 0)).1, 0)
    relax := fun _ _ _ _ c => c }

def layering : Layering St := ⟨fun _ => True, fun s => s.1, fun k => k⟩

/-- The table fits the bounds `B` on costs and `E` on completions. -/
def valid (T : Tab) (B E : Int) : Bool :=
  decide (0 ≤ B) && decide (4 * ((T.length : Int) + 2) * B ≤ isizeMax) && decide (T.length * B ≤ E) &&
  T.all fun L => decide (-B ≤ L.1) && decide (L.1 ≤ B) && L.2.all fun l => l.all fun c => decide (-B ≤ c.2) && decide (c.2 ≤ L.1)

theorem kid_mem {T : Tab} {E : Int} {x : Nat} {s : St} {d : Decision} (h : d ∈ (prob T E).dom x s) : kid T s d ∈ kids T s := by
  simp only [prob, List.mem_map, List.mem_range] at h
  obtain ⟨i, hi, rfl⟩ := h
  simp only [kid, Int.toNat_natCast, List.getD, List.getElem?_eq_getElem hi, Option.getD_some]
  exact List.getElem_mem hi

variable {T : Tab} {B E : Int}

theorem valid_spec (h : valid T B E = true) : 0 ≤ B ∧ 4 * ((T.length : Int) + 2) * B ≤ isizeMax ∧ T.length * B ≤ E ∧
    ∀ L ∈ T, (-B ≤ L.1 ∧ L.1 ≤ B) ∧ ∀ l ∈ L.2, ∀ c ∈ l, -B ≤ c.2 ∧ c.2 ≤ L.1 := by
  simp only [valid, Bool.and_eq_true, decide_eq_true_eq, List.all_eq_true] at h
  exact ⟨h.1.1.1, h.1.1.2, h.1.2, fun L hL => ⟨(h.2 L hL).1, fun l hl c hc => (h.2 L hL).2 l hl c hc⟩⟩

theorem cost_le (h : valid T B E = true) {s : St} (hs : s.1 < T.length) {x : Nat} {d : Decision} (hd : d ∈ (prob T E).dom x s) :
    -B ≤ (prob T E).cost s d ∧ (prob T E).cost s d ≤ top T s.1 ∧ top T s.1 ≤ B := by
  obtain ⟨_, _, _, h4⟩ := valid_spec h
  have hL := h4 _ (List.getElem_mem hs)
  have htop : top T s.1 = T[s.1].1 := by simp [top, List.getD, hs]
  have hk := kid_mem hd
  show -B ≤ (kid T s d).2 ∧ (kid T s d).2 ≤ top T s.1 ∧ top T s.1 ≤ B
  refine ⟨?_, ?_, by rw [htop]; exact hL.1.2⟩
  all_goals
    unfold kids at hk
    split at hk
    · rw [List.mem_singleton] at hk
      rw [hk]
      first | (rw [htop]; exact hL.1.1) | exact Int.le_refl _
    · rename_i i _
      simp only [List.getD, List.getElem?_eq_getElem hs, Option.getD_some] at hk
      cases hg : T[s.1].2[i]? with
      | none => rw [hg] at hk; cases hk
      | some l =>
        rw [hg] at hk
        have := hL.2 l (List.mem_of_getElem? hg) _ hk
        first | exact this.1 | exact htop ▸ this.2

theorem nextVar_some {l : List St} {x : Nat} (h : (prob T E).nextVar l = some x) : ∃ s l', l = s :: l' ∧ s.1 < T.length ∧ x = s.1 := by
  simp only [prob] at h
  split at h
  · cases h
  · rename_i s l'
    split at h
    · cases h; exact ⟨s, l', rfl, by assumption, rfl⟩
    · cases h

theorem wellFormed (h : valid T B E = true) : WellFormed (prob T E) layering B := by
  obtain ⟨h1, h2, h3, h4⟩ := valid_spec h
  refine ⟨trivial, fun _ _ _ _ _ _ => trivial, rfl, fun _ _ _ _ _ _ => rfl, rfl, ?_, ⟨by simp only [prob]; omega, by simp only [prob]; omega⟩, ?_, h2⟩
  · intro l k hl hk
    cases l with
    | nil => exact absurd rfl hl
    | cons s l =>
      have := (hk s (by simp)).2
      simp only [layering] at this
      simp only [prob, this, layering]
      rfl
  · intro s x d _ hx hd
    obtain ⟨s', l', he, hs, _⟩ := nextVar_some hx
    cases he
    obtain ⟨a, b, c⟩ := cost_le h hs hd
    exact ⟨a, Int.le_trans b c⟩

/-- Largest possible value of a completion after `k` decisions. -/
def tail (T : Tab) (k : Nat) : Nat → Int
  | 0 => 0
  | n+1 => top T k + tail T (k+1) n

theorem run_le (h : valid T B E = true) {s t : St} {ds : List Decision} {v : Int} (hr : Run (prob T E) s ds v t) (hn : (prob T E).nextVar [t] = none) :
    s.1 ≤ T.length → v ≤ tail T s.1 (T.length - s.1) := by
  induction hr with
  | nil s =>
    intro hs
    have : ¬ s.1 < T.length := by
      intro hlt
      simp only [prob, hlt, if_true] at hn; cases hn
    rw [show T.length - s.1 = 0 by omega]
    simp [tail]
  | @cons s t x d ds v hx hd hr ih =>
    intro _
    obtain ⟨s', l', he, hs, _⟩ := nextVar_some hx
    cases he
    have h1 := ih hn (by simp only [prob]; omega)
    have h2 := (cost_le h hs hd).2.1
    obtain ⟨m, hm⟩ : ∃ m, T.length - s.1 = m + 1 := ⟨T.length - s.1 - 1, by omega⟩
    rw [hm]
    simp only [tail]
    have h3 : ((prob T E).trans s d).1 = s.1 + 1 := rfl
    rw [h3, show T.length - (s.1 + 1) = m by omega] at h1
    omega

theorem tail_le (h : valid T B E = true) : ∀ n k, k + n ≤ T.length → tail T k n ≤ n * B := by
  obtain ⟨_, _, _, h4⟩ := valid_spec h
  intro n
  induction n with
  | zero => intro k _; simp [tail]
  | succ n ih =>
    intro k hk
    simp only [tail]
    have h1 := ih (k+1) (by omega)
    have hL := (h4 _ (List.getElem_mem (show k < T.length by omega))).1.2
    have : top T k = T[k].1 := by simp [top, List.getD, show k < T.length by omega]
    rw [this, Int.natCast_add, Int.add_mul]
    omega

theorem level_ge {s t : St} {ds : List Decision} {v : Int} (hr : Run (prob T E) s ds v t) (hs : T.length ≤ s.1) : ds = [] ∧ v = 0 ∧ t = s := by
  cases hr with
  | nil => exact ⟨rfl, rfl, rfl⟩
  | cons hx hd h =>
    obtain ⟨s', l', he, hs', _⟩ := nextVar_some hx
    cases he; omega

theorem admissible (h : valid T B E = true) : Admissible (prob T E) layering := by
  obtain ⟨h1, h2, h3, h4⟩ := valid_spec h
  intro s _ ds v ⟨t, hr, ht⟩
  have hE : (0 : Int) ≤ E := Int.le_trans (Int.mul_nonneg (by omega) h1) h3
  by_cases hs : s.1 ≤ T.length
  · have a := run_le h hr ht hs
    have b := tail_le h (T.length - s.1) s.1 (by omega)
    have c : ((T.length - s.1 : Nat) : Int) * B ≤ T.length * B := Int.mul_le_mul_of_nonneg_right (by omega) h1
    show v ≤ E
    omega
  · obtain ⟨_, hv, _⟩ := level_ge hr (by omega)
    show v ≤ E
    omega

theorem top_completion : ∀ n k, k + n = T.length → ∃ ds, Completion (prob T E) (k, 0) ds (tail T k n) := by
  intro n
  induction n with
  | zero =>
    intro k hk
    exact ⟨[], (k, 0), Run.nil _, by simp [prob]; omega⟩
  | succ n ih =>
    intro k hk
    obtain ⟨ds, t, hr, ht⟩ := ih (k+1) (by omega)
    have hd : (⟨k, 0⟩ : Decision) ∈ (prob T E).dom k (k, 0) := by simp [prob, kids]
    have hx : (prob T E).nextVar [(k, 0)] = some k := by simp [prob]; omega
    exact ⟨_, t, Run.cons hx hd hr, ht⟩

theorem soundRelaxation (h : valid T B E = true) : SoundRelaxation (prob T E) relaxation layering B := by
  have hlev : ∀ (l : List St) (s : St) k, s ∈ l → (∀ s ∈ l, layering.ok s ∧ layering.lvl s = k) → relaxation.merge l = (s.1, 0) := by
    intro l s k hs hk
    cases l with
    | nil => cases hs
    | cons a l =>
      have e1 := (hk a (by simp)).2
      have e2 := (hk s hs).2
      simp only [layering] at e1 e2
      simp only [relaxation, List.headD_cons, e1, e2]
  refine ⟨⟨?ok, ?cost⟩, ?dom⟩
  case ok =>
    intro l k hl hk
    cases l with
    | nil => exact absurd rfl hl
    | cons s l =>
      rw [hlev _ s k (by simp) hk]
      exact ⟨trivial, (hk s (by simp)).2⟩
  case dom =>
    intro l k hk s x d _ hx hd hm ds v ⟨t, hr, ht⟩
    obtain ⟨s', l', he, hs, _⟩ := nextVar_some hx
    cases he
    have e : ((prob T E).trans s d).1 = s.1 + 1 := rfl
    rw [hlev _ _ k hm hk, e]
    obtain ⟨ds', hc⟩ := top_completion (T := T) (E := E) (T.length - (s.1 + 1)) (s.1 + 1) (by omega)
    have := run_le h hr ht (by rw [e]; omega)
    rw [e] at this
    refine ⟨ds', _, hc, ?_⟩
    show (prob T E).cost s d + v ≤ (prob T E).cost s d + _
    omega
  case cost =>
    intro l k hk s x d _ hx hd hm
    obtain ⟨s', l', he, hs, _⟩ := nextVar_some hx
    cases he
    obtain ⟨a, b, c⟩ := cost_le h hs hd
    exact ⟨Int.le_refl _, Int.le_trans b c⟩

/-- An executable version of `Completion`: follow the given choices. -/
def follow (T : Tab) : St → List Nat → Option (List Decision × Int)
  | s, [] => if s.1 < T.length then none else some ([], 0)
  | s, i :: is =>
    if s.1 < T.length then
      match (kids T s)[i]? with
      | none => none
      | some c =>
        match follow T (s.1 + 1, c.1) is with
        | none => none
        | some (ds, v) => some (⟨s.1, i⟩ :: ds, c.2 + v)
    else none

theorem follow_spec : ∀ (is : List Nat) (s : St) (ds : List Decision) (v : Int), follow T s is = some (ds, v) → Completion (prob T E) s ds v := by
  intro is
  induction is with
  | nil =>
    intro s ds v h
    simp only [follow] at h
    split at h
    · cases h
    · cases h
      exact ⟨s, Run.nil _, by simp [prob]; omega⟩
  | cons i is ih =>
    intro s ds v h
    simp only [follow] at h
    split at h
    · rename_i hs
      split at h
      · cases h
      · rename_i c hc
        split at h
        · cases h
        · rename_i ds' v' hf
          cases h
          obtain ⟨t, hr, ht⟩ := ih _ _ _ hf
          have hi : i < (kids T s).length := (List.getElem?_eq_some_iff.1 hc).1
          have hd : (⟨s.1, i⟩ : Decision) ∈ (prob T E).dom s.1 s := by
            simp only [prob, List.mem_map, List.mem_range]; exact ⟨i, hi, rfl⟩
          have hk : kid T s ⟨s.1, i⟩ = c := by
            simp only [kid, Int.toNat_natCast, List.getD, hc, Option.getD_some]
          have hx : (prob T E).nextVar [s] = some s.1 := by simp [prob, hs]
          have e1 : (prob T E).trans s ⟨s.1, i⟩ = (s.1 + 1, c.1) := by simp only [prob, hk]
          have e2 : (prob T E).cost s ⟨s.1, i⟩ = c.2 := by simp only [prob, hk]
          rw [← e1] at hr
          have := Run.cons hx hd hr
          rw [e2] at this
          exact ⟨t, this, ht⟩
    · cases h

/-- The values of all completions, `n` decisions from the end. -/
def vals (T : Tab) : Nat → St → List Int
  | 0, _ => [0]
  | n+1, s => (kids T s).flatMap fun c => (vals T n (s.1 + 1, c.1)).map (c.2 + ·)

theorem mem_vals {s t : St} {ds : List Decision} {v : Int} (hr : Run (prob T E) s ds v t) (hn : (prob T E).nextVar [t] = none) :
    ∀ n, s.1 + n = T.length → v ∈ vals T n s := by
  induction hr with
  | nil s =>
    intro n h
    have : ¬ s.1 < T.length := by
      intro hlt
      simp only [prob, hlt, if_true] at hn; cases hn
    rw [show n = 0 by omega]; simp [vals]
  | @cons s t x d ds v hx hd hr ih =>
    intro n h
    obtain ⟨s', l', he, hs, _⟩ := nextVar_some hx
    cases he
    obtain ⟨m, rfl⟩ : ∃ m, n = m + 1 := ⟨n - 1, by omega⟩
    have h1 := ih hn m (by simp only [prob]; omega)
    simp only [vals, List.mem_flatMap, List.mem_map]
    exact ⟨_, kid_mem hd, v, h1, rfl⟩

theorem completion_le {s : St} {ds : List Decision} {v : Int} (h : Completion (prob T E) s ds v) (n : Nat) (hn : s.1 + n = T.length) (b : Int)
    (hb : (vals T n s).all (fun x => decide (x ≤ b)) = true) : v ≤ b := by
  obtain ⟨t, hr, ht⟩ := h
  rw [List.all_eq_true] at hb
  simpa using hb v (mem_vals hr ht n hn)

end Verif.Table
