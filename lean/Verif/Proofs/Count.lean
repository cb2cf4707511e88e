import Verif.Spec.Count
import Verif.Spec.Problem
/-! The partial assignments of a problem, counted level by level. -/
set_option autoImplicit false

namespace Verif.Count
open Verif Spec
variable {σ : Type} {p : Problem σ} {Q : Nat → σ → Prop} {c : Nat → Nat}

theorem sum_map_mul (a : Nat) (f : Nat → Nat) : ∀ l : List Nat, (l.map fun k => a * f k).sum = a * (l.map f).sum
  | [] => by simp
  | k :: l => by rw [List.map_cons, List.sum_cons, List.map_cons, List.sum_cons, sum_map_mul a f l, Nat.mul_add]

theorem rows_succ (n : Nat) : rows (n + 1) = 1 + (n + 1) * rows n := by
  unfold rows
  rw [List.range_succ_eq_map, List.map_cons, List.sum_cons, List.map_map]
  have : (List.range (n + 1)).map ((n + 1).descFactorial ∘ Nat.succ) = (List.range (n + 1)).map fun k => (n + 1) * n.descFactorial k :=
    List.map_congr_left fun k _ => Nat.succ_descFactorial_succ n k
  rw [this, sum_map_mul, Nat.descFactorial_zero]

theorem words_succ (b n : Nat) : words b (n + 1) = 1 + b * words b n := by
  unfold words
  rw [List.range_succ_eq_map, List.map_cons, List.sum_cons, List.map_map]
  have : (List.range (n + 1)).map ((b ^ ·) ∘ Nat.succ) = (List.range (n + 1)).map fun k => b * b ^ k :=
    List.map_congr_left fun k _ => by rw [Function.comp_apply, Nat.succ_eq_add_one, Nat.pow_succ, Nat.mul_comm]
  rw [this, sum_map_mul, Nat.pow_zero]

/-- The number of nodes of a tree whose nodes of height `k + 1` have at most `c k` children. -/
def tree (c : Nat → Nat) : Nat → Nat
  | 0 => 1
  | k + 1 => 1 + c k * tree c k

theorem tree_rows (n : Nat) : tree (· + 1) n = rows n := by
  induction n with
  | zero => rfl
  | succ n ih => rw [rows_succ, ← ih]; rfl

theorem tree_words (b n : Nat) : tree (fun _ => b) n = words b n := by
  induction n with
  | zero => rfl
  | succ n ih => rw [words_succ, ← ih]; rfl

theorem tree_tours (m : Nat) : tree (fun k => max k 1) (m + 1) = rows m + m.factorial := by
  induction m with
  | zero => rfl
  | succ m ih =>
    have e : tree (fun k => max k 1) (m + 1 + 1) = 1 + max (m + 1) 1 * tree (fun k => max k 1) (m + 1) := rfl
    rw [e, ih, rows_succ, Nat.max_eq_left (by omega), Nat.factorial_succ, Nat.mul_add, Nat.add_assoc]

/-- The partial assignments from a state, at most `k` decisions long. -/
def paths (p : Problem σ) : Nat → σ → List (List Decision)
  | 0, _ => [[]]
  | k + 1, s => [] :: match p.nextVar [s] with
    | none => []
    | some x => (p.dom x s).flatMap fun d => (paths p k (p.trans s d)).map (d :: ·)

theorem length_flatMap_le {α β : Type} {f : α → List β} {b : Nat} : ∀ {l : List α}, (∀ a ∈ l, (f a).length ≤ b) → (l.flatMap f).length ≤ l.length * b
  | [], _ => by simp
  | a :: l, h => by
    have h1 := h a (by simp)
    have h2 := length_flatMap_le (l := l) fun a ha => h a (by simp [ha])
    rw [List.flatMap_cons, List.length_append, List.length_cons, Nat.add_mul, Nat.one_mul]
    omega

theorem length_paths (hdom : ∀ k s x, Q (k + 1) s → p.nextVar [s] = some x → (p.dom x s).length ≤ c k)
    (hstep : ∀ k s x d, Q (k + 1) s → p.nextVar [s] = some x → d ∈ p.dom x s → Q k (p.trans s d)) : ∀ k s, Q k s → (paths p k s).length ≤ tree c k := by
  intro k
  induction k with
  | zero => intro s _; exact Nat.le_refl _
  | succ k ih =>
    intro s hs
    unfold paths tree
    rw [List.length_cons]
    cases hx : p.nextVar [s] with
    | none => exact Nat.le_trans (Nat.le_refl 1) (by omega)
    | some x =>
      have h1 : ((p.dom x s).flatMap fun d => (paths p k (p.trans s d)).map (d :: ·)).length ≤ (p.dom x s).length * tree c k :=
        length_flatMap_le fun d hd => by rw [List.length_map]; exact ih _ (hstep k s x d hs hx hd)
      have h2 := Nat.mul_le_mul_right (tree c k) (hdom k s x hs hx)
      show ((p.dom x s).flatMap fun d => (paths p k (p.trans s d)).map (d :: ·)).length + 1 ≤ _
      omega

theorem mem_paths (hzero : ∀ s, Q 0 s → p.nextVar [s] = none)
    (hstep : ∀ k s x d, Q (k + 1) s → p.nextVar [s] = some x → d ∈ p.dom x s → Q k (p.trans s d)) {s t : σ} {ds : List Decision} {v : Int} (h : Run p s ds v t) :
    ∀ k, Q k s → ds ∈ paths p k s := by
  induction h with
  | nil s => intro k _; cases k <;> simp [paths]
  | cons hx hd _ ih =>
    intro k hk
    cases k with
    | zero => rw [hzero _ hk] at hx; cases hx
    | succ k =>
      unfold paths
      rw [hx]
      exact List.mem_cons_of_mem _ (List.mem_flatMap.2 ⟨_, hd, List.mem_map.2 ⟨_, ih k (hstep _ _ _ _ hk hx hd), rfl⟩⟩)

/-- All partial assignments are in a list that is not too long. -/
theorem assignments {n : Nat} (h0 : Q n p.init) (hzero : ∀ s, Q 0 s → p.nextVar [s] = none)
    (hdom : ∀ k s x, Q (k + 1) s → p.nextVar [s] = some x → (p.dom x s).length ≤ c k)
    (hstep : ∀ k s x d, Q (k + 1) s → p.nextVar [s] = some x → d ∈ p.dom x s → Q k (p.trans s d)) :
    ∃ A : List (List Decision), (∀ ds t v, Reach p t ds v → ds ∈ A) ∧ A.length ≤ tree c n :=
  ⟨paths p n p.init, fun _ _ _ ⟨_, h, _⟩ => mem_paths hzero hstep h n h0, length_paths hdom hstep n _ h0⟩

end Verif.Count
