import Verif.Examples.Table
/-!
Dynamic programs given by a table that also says how the merged state of each layer continues.  Used for counterexamples
(this file models no code of the repository).
-/
set_option autoImplicit false

namespace Verif.Grid
open Verif Spec

/-- State: number of decisions taken, identifier within the layer.  Identifier 0 is the merged state. -/
abbrev St := Nat × Nat

/-- For each layer and each identifier 0, 1, 2, ... the list of (identifier in the next layer, cost) per decision. -/
abbrev Tab := List (List (List (Nat × Int)))

def kids (T : Tab) (s : St) : List (Nat × Int) := (T.getD s.1 []).getD s.2 []

def kid (T : Tab) (s : St) (d : Decision) : Nat × Int := (kids T s).getD d.value.toNat (0, 0)

def prob (T : Tab) (E : Int) : Problem St :=
  { nbVars := T.length
    init := (0, 1)
    initVal := 0
    nextVar := fun l => match l with
      | [] => none
      | s :: _ => if s.1 < T.length then some s.1 else none
    dom := fun x s => (List.range (kids T s).length).map fun i : Nat => (⟨x, (i : Int)⟩ : Decision)
    trans := fun s d => (s.1 + 1, (kid T s d).1)
    cost := fun s d => (kid T s d).2
    estimate := fun _ => E }

/-- The values of all completions, `n` decisions from the end. -/
def vals (T : Tab) : Nat → St → List Int
  | 0, _ => [0]
  | n+1, s => (kids T s).flatMap fun c => (vals T n (s.1 + 1, c.1)).map (c.2 + ·)

/-- The table fits the bounds `B` on costs and `E` on completions, and the merged state of each layer is at least as good as any other. -/
def valid (T : Tab) (B E : Int) : Bool :=
  decide (0 ≤ B) && decide (4 * ((T.length : Int) + 2) * B ≤ isizeMax) && decide (T.length * B ≤ E) &&
  (T.all fun L => L.all fun l => l.all fun c => decide (-B ≤ c.2) && decide (c.2 ≤ B)) &&
  (List.range T.length).all fun k => (List.range (T.getD k []).length).all fun i =>
    (vals T (T.length - k) (k, i)).all fun x => (vals T (T.length - k) (k, 0)).any fun y => decide (x ≤ y)

theorem kid_mem {T : Tab} {E : Int} {x : Nat} {s : St} {d : Decision} (h : d ∈ (prob T E).dom x s) : kid T s d ∈ kids T s := by
  simp only [prob, List.mem_map, List.mem_range] at h
  obtain ⟨i, hi, rfl⟩ := h
  simp only [kid, Int.toNat_natCast, List.getD, List.getElem?_eq_getElem hi, Option.getD_some]
  exact List.getElem_mem hi

variable {T : Tab} {B E : Int}

theorem valid_spec (h : valid T B E = true) : 0 ≤ B ∧ 4 * ((T.length : Int) + 2) * B ≤ isizeMax ∧ T.length * B ≤ E ∧
    (∀ L ∈ T, ∀ l ∈ L, ∀ c ∈ l, -B ≤ c.2 ∧ c.2 ≤ B) ∧
    ∀ k, k < T.length → ∀ i, i < (T.getD k []).length → ∀ x ∈ vals T (T.length - k) (k, i), ∃ y ∈ vals T (T.length - k) (k, 0), x ≤ y := by
  simp only [valid, Bool.and_eq_true, decide_eq_true_eq, List.all_eq_true, List.any_eq_true, List.mem_range] at h
  exact ⟨h.1.1.1.1, h.1.1.1.2, h.1.1.2, h.1.2, h.2⟩

theorem cost_le (h : valid T B E = true) {s : St} {x : Nat} {d : Decision} (hd : d ∈ (prob T E).dom x s) :
    -B ≤ (prob T E).cost s d ∧ (prob T E).cost s d ≤ B := by
  obtain ⟨_, _, _, h4, _⟩ := valid_spec h
  have hk := kid_mem hd
  show -B ≤ (kid T s d).2 ∧ (kid T s d).2 ≤ B
  unfold kids at hk
  simp only [List.getD] at hk
  cases hg : T[s.1]? with
  | none => rw [hg] at hk; simp at hk
  | some L =>
    rw [hg] at hk
    simp only [Option.getD_some] at hk
    cases hl : L[s.2]? with
    | none => rw [hl] at hk; simp at hk
    | some l =>
      rw [hl] at hk
      exact h4 L (List.mem_of_getElem? hg) l (List.mem_of_getElem? hl) _ hk

theorem nextVar_some {l : List St} {x : Nat} (h : (prob T E).nextVar l = some x) : ∃ s l', l = s :: l' ∧ s.1 < T.length ∧ x = s.1 := by
  simp only [prob] at h
  split at h
  · cases h
  · rename_i s l'
    split at h
    · cases h; exact ⟨s, l', rfl, by assumption, rfl⟩
    · cases h

theorem wellFormed (h : valid T B E = true) : WellFormed (prob T E) Table.layering B := by
  obtain ⟨h1, h2, h3, h4⟩ := valid_spec h
  refine ⟨trivial, fun _ _ _ _ _ _ => trivial, rfl, fun _ _ _ _ _ _ => rfl, rfl, ?_, ⟨by simp only [prob]; omega, by simp only [prob]; omega⟩, ?_, h2⟩
  · intro l k hl hk
    cases l with
    | nil => exact absurd rfl hl
    | cons s l =>
      have := (hk s (by simp)).2
      simp only [Table.layering] at this
      simp only [prob, this, Table.layering]
      rfl
  · intro s x d _ hx hd
    exact cost_le h hd

theorem mem_vals {s t : St} {ds : List Decision} {v : Int} (hr : Run (prob T E) s ds v t) (hn : (prob T E).nextVar [t] = none) :
    ∀ n, s.1 + n = T.length → v ∈ vals T n s := by
  induction hr with
  | nil s =>
    intro n h
    have : ¬ s.1 < T.length := by
      intro hlt
      simp only [prob, hlt, if_true] at hn; cases hn
    rw [show n = 0 by omega]; simp [vals]
  | @cons s t x d ds v hx hd hr ih =>
    intro n h
    obtain ⟨s', l', he, hs, _⟩ := nextVar_some hx
    cases he
    obtain ⟨m, rfl⟩ : ∃ m, n = m + 1 := ⟨n - 1, by omega⟩
    have h1 := ih hn m (by simp only [prob]; omega)
    simp only [vals, List.mem_flatMap, List.mem_map]
    exact ⟨_, kid_mem hd, v, h1, rfl⟩

theorem vals_completion : ∀ n (s : St), s.1 + n = T.length → ∀ v ∈ vals T n s, ∃ ds, Completion (prob T E) s ds v := by
  intro n
  induction n with
  | zero =>
    intro s hs v hv
    simp only [vals, List.mem_singleton] at hv; subst hv
    exact ⟨[], s, Run.nil _, by simp [prob]; omega⟩
  | succ n ih =>
    intro s hs v hv
    simp only [vals, List.mem_flatMap, List.mem_map] at hv
    obtain ⟨c, hc, u, hu, rfl⟩ := hv
    obtain ⟨ds, t, hr, ht⟩ := ih (s.1 + 1, c.1) (by simp only; omega) u hu
    obtain ⟨i, hi, hic⟩ := List.getElem_of_mem hc
    have hd : (⟨s.1, i⟩ : Decision) ∈ (prob T E).dom s.1 s := by
      simp only [prob, List.mem_map, List.mem_range]; exact ⟨i, hi, rfl⟩
    have hk : kid T s ⟨s.1, i⟩ = c := by
      simp only [kid, Int.toNat_natCast, List.getD, List.getElem?_eq_getElem hi, Option.getD_some, hic]
    have hx : (prob T E).nextVar [s] = some s.1 := by simp [prob]; omega
    have e1 : (prob T E).trans s ⟨s.1, i⟩ = (s.1 + 1, c.1) := by simp only [prob, hk]
    have e2 : (prob T E).cost s ⟨s.1, i⟩ = c.2 := by simp only [prob, hk]
    rw [← e1] at hr
    have := Run.cons hx hd hr
    rw [e2] at this
    exact ⟨_, t, this, ht⟩

theorem level_ge {s t : St} {ds : List Decision} {v : Int} (hr : Run (prob T E) s ds v t) (hs : T.length ≤ s.1) : ds = [] ∧ v = 0 ∧ t = s := by
  cases hr with
  | nil => exact ⟨rfl, rfl, rfl⟩
  | cons hx hd h =>
    obtain ⟨s', l', he, hs', _⟩ := nextVar_some hx
    cases he; omega

theorem run_le (h : valid T B E = true) {s t : St} {ds : List Decision} {v : Int} (hr : Run (prob T E) s ds v t) : s.1 ≤ T.length → v ≤ ((T.length - s.1 : Nat) : Int) * B := by
  induction hr with
  | nil s => intro _; exact Int.mul_nonneg (by omega) (valid_spec h).1
  | @cons s t x d ds v hx hd hr ih =>
    intro _
    obtain ⟨s', l', he, hs, _⟩ := nextVar_some hx
    cases he
    have h1 := ih (by simp only [prob]; omega)
    have h2 := (cost_le h hd).2
    have h3 : ((prob T E).trans s d).1 = s.1 + 1 := rfl
    rw [h3] at h1
    have e : ((T.length - s.1 : Nat) : Int) = ((T.length - (s.1 + 1) : Nat) : Int) + 1 := by omega
    rw [e, Int.add_mul, Int.one_mul]
    omega

theorem admissible (h : valid T B E = true) : Admissible (prob T E) Table.layering := by
  obtain ⟨h1, h2, h3, h4⟩ := valid_spec h
  intro s _ ds v ⟨t, hr, ht⟩
  have hE : (0 : Int) ≤ E := Int.le_trans (Int.mul_nonneg (by omega) h1) h3
  by_cases hs : s.1 ≤ T.length
  · have a := run_le h hr hs
    have c : ((T.length - s.1 : Nat) : Int) * B ≤ T.length * B := Int.mul_le_mul_of_nonneg_right (by omega) h1
    show v ≤ E
    omega
  · obtain ⟨_, hv, _⟩ := level_ge hr (by omega)
    show v ≤ E
    omega

/-- The merged state is at least as good. -/
theorem merged_better (h : valid T B E = true) {s : St} (hs : s.1 ≤ T.length) {ds : List Decision} {v : Int} (hc : Completion (prob T E) s ds v) :
    ∃ ds' v', Completion (prob T E) (s.1, 0) ds' v' ∧ v ≤ v' := by
  obtain ⟨_, _, _, _, h5⟩ := valid_spec h
  obtain ⟨t, hr, ht⟩ := hc
  have hm := mem_vals hr ht (T.length - s.1) (by omega)
  by_cases hlt : s.1 < T.length
  · by_cases hi : s.2 < (T.getD s.1 []).length
    · obtain ⟨y, hy, hle⟩ := h5 s.1 hlt s.2 hi v hm
      obtain ⟨ds', hc'⟩ := vals_completion (E := E) (T.length - s.1) (s.1, 0) (by simp only; omega) y hy
      exact ⟨ds', y, hc', hle⟩
    · exfalso
      have : kids T s = [] := by
        unfold kids
        rw [List.getD_eq_getElem?_getD, List.getElem?_eq_none (by omega)]; rfl
      obtain ⟨m, hm'⟩ : ∃ m, T.length - s.1 = m + 1 := ⟨T.length - s.1 - 1, by omega⟩
      rw [hm'] at hm
      simp [vals, this] at hm
  · obtain ⟨_, rfl, _⟩ := level_ge hr (by omega)
    exact ⟨[], 0, ⟨(s.1, 0), Run.nil _, by simp [prob]; omega⟩, Int.le_refl _⟩

theorem soundRelaxation (h : valid T B E = true) : SoundRelaxation (prob T E) Table.relaxation Table.layering B := by
  have hlev : ∀ (l : List St) (s : St) k, s ∈ l → (∀ s ∈ l, Table.layering.ok s ∧ Table.layering.lvl s = k) → Table.relaxation.merge l = (s.1, 0) := by
    intro l s k hs hk
    cases l with
    | nil => cases hs
    | cons a l =>
      have e1 := (hk a (by simp)).2
      have e2 := (hk s hs).2
      simp only [Table.layering] at e1 e2
      simp only [Table.relaxation, List.headD_cons, e1, e2]
  refine ⟨⟨?ok, ?cost⟩, ?dom⟩
  case ok =>
    intro l k hl hk
    cases l with
    | nil => exact absurd rfl hl
    | cons s l =>
      rw [hlev _ s k (by simp) hk]
      exact ⟨trivial, (hk s (by simp)).2⟩
  case dom =>
    intro l k hk s x d _ hx hd hm ds v hc
    obtain ⟨s', l', he, hs, _⟩ := nextVar_some hx
    cases he
    have e : ((prob T E).trans s d).1 = s.1 + 1 := rfl
    rw [hlev _ _ k hm hk]
    obtain ⟨ds', v', hc', hle⟩ := merged_better h (s := (prob T E).trans s d) (by rw [e]; omega) hc
    refine ⟨ds', v', hc', ?_⟩
    show (prob T E).cost s d + v ≤ (prob T E).cost s d + _
    omega
  case cost =>
    intro l k hk s x d _ hx hd hm
    exact ⟨Int.le_refl _, (cost_le h hd).2⟩

end Verif.Grid
