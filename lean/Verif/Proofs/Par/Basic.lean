import Verif.Spec.Solver
import Verif.Props.Mdd
/-! Basic facts about lists of threads, pushes into a frontier and covering sets of nodes. -/
set_option autoImplicit false

namespace Verif.Par
open Verif Spec
variable {σ : Type} [DecidableEq σ] [Inhabited σ]

theorem split_at {α : Type} {l : List α} {i : Nat} {t : α} (h : l[i]? = some t) :
    ∃ l1 l2, l = l1 ++ t :: l2 ∧ l1.length = i ∧ ∀ t', l.set i t' = l1 ++ t' :: l2 := by
  induction l generalizing i with
  | nil => simp at h
  | cons a l ih =>
    cases i with
    | zero => simp at h; subst h; exact ⟨[], l, rfl, rfl, fun _ => rfl⟩
    | succ i =>
      simp at h
      obtain ⟨l1, l2, h1, h2, h3⟩ := ih h
      exact ⟨a :: l1, l2, by rw [h1]; rfl, by simp [h2], fun t' => by simp [h3]⟩

/-- The node a thread works on. -/
def Pc.node : Pc σ → Option (SubProblem σ)
  | .start n => some n
  | .restr n _ => some n
  | .relb n _ => some n
  | .relx n _ _ => some n
  | _ => none

/-- The thread counts as working. -/
def Pc.busy : Pc σ → Bool
  | .idle => false
  | .waiting => false
  | .done => false
  | _ => true

/-- The lower bound a thread has read. -/
def Pc.lb : Pc σ → Option Int
  | .restr _ lb => some lb
  | .relx _ lb _ => some lb
  | _ => none

/-- The nodes threads work on. -/
def working (ts : List (Thread σ)) : List (SubProblem σ) := ts.filterMap fun t => Pc.node t.pc

def busyCount (ts : List (Thread σ)) : Nat := ts.countP fun t => Pc.busy t.pc

theorem working_split (l1 l2 : List (Thread σ)) (t : Thread σ) : working (l1 ++ t :: l2) = working l1 ++ ((Pc.node t.pc).toList ++ working l2) := by
  unfold working
  rw [List.filterMap_append, List.filterMap_cons]
  cases Pc.node t.pc <;> rfl

theorem busyCount_split (l1 l2 : List (Thread σ)) (t : Thread σ) : busyCount (l1 ++ t :: l2) = busyCount l1 + busyCount l2 + (if Pc.busy t.pc then 1 else 0) := by
  unfold busyCount
  rw [List.countP_append, List.countP_cons]
  omega

theorem working_wake (l : List (Thread σ)) : working (l.map wake) = working l := by
  unfold working
  rw [List.filterMap_map]
  congr 1
  funext t
  simp only [Function.comp, wake]
  obtain ⟨pc, m⟩ := t
  cases pc <;> rfl

theorem busyCount_wake (l : List (Thread σ)) : busyCount (l.map wake) = busyCount l := by
  unfold busyCount
  rw [List.countP_map]
  congr 1
  funext t
  simp only [Function.comp, wake]
  obtain ⟨pc, m⟩ := t
  cases pc <;> rfl

/-- Some node of the list leads to a solution of value at least `w`, and its bound does not exclude `w`. -/
def Covers (p : Problem σ) (l : List (SubProblem σ)) (w : Int) : Prop :=
  ∃ n ∈ l, w ≤ n.ub ∧ ∃ w', Through p n w' ∧ w ≤ w'

theorem Covers.mono {p : Problem σ} {l l' : List (SubProblem σ)} {w : Int} (h : Covers p l w) (hs : ∀ n ∈ l, n ∈ l') : Covers p l' w := by
  obtain ⟨n, h1, h2⟩ := h
  exact ⟨n, hs n h1, h2⟩

theorem combine_state (o n : SubProblem σ) (h : o.state = n.state) : (combine o n).state = n.state := by
  unfold combine; split <;> simp [h]

theorem combine_genuine {p : Problem σ} {o n : SubProblem σ} (ho : Genuine p o) (hn : Genuine p n) : Genuine p (combine o n) := by
  unfold combine; split
  · exact hn
  · exact ho

/-- What holds of the combined node if it covers through the old one. -/
theorem combine_through {p : Problem σ} {o n : SubProblem σ} (h : o.state = n.state) {w w' : Int} (hw : w ≤ w') :
    (w ≤ o.ub → Through p o w' → w ≤ (combine o n).ub ∧ ∃ w'', Through p (combine o n) w'' ∧ w ≤ w'') ∧
    (w ≤ n.ub → Through p n w' → w ≤ (combine o n).ub ∧ ∃ w'', Through p (combine o n) w'' ∧ w ≤ w'') := by
  have hub : (combine o n).ub = max n.ub o.ub := by unfold combine; split <;> rfl
  have hst := combine_state o n h
  have hval : o.value ≤ (combine o n).value ∧ n.value ≤ (combine o n).value := by
    unfold combine; split
    · simp only; omega
    · simp only; omega
  refine ⟨?_, ?_⟩
  · rintro h1 ⟨ds, u, hc, rfl⟩
    refine ⟨by rw [hub]; omega, (combine o n).value + u, ⟨ds, u, ?_, rfl⟩, by omega⟩
    rw [hst, ← h]; exact hc
  · rintro h1 ⟨ds, u, hc, rfl⟩
    refine ⟨by rw [hub]; omega, (combine o n).value + u, ⟨ds, u, ?_, rfl⟩, by omega⟩
    rw [hst]; exact hc

variable {φ : FrontierOps σ} (L : FrontierLaws φ)

/-- The effect of pushing one node. -/
structure PushedOne (f : φ.F) (n : SubProblem σ) (f' : φ.F) : Prop where
  inv : L.inv f'
  all : ∀ Q : SubProblem σ → Prop, (∀ a b, Q a → Q b → a.state = b.state → Q (combine a b)) → Q n → (∀ m ∈ L.holds f, Q m) → ∀ m ∈ L.holds f', Q m
  cov : ∀ (p : Problem σ) w, Covers p (n :: L.holds f) w → Covers p (L.holds f') w
  wts : ∀ {β : Type} (g : σ → β), ∃ sub : List β, (sub = [] ∨ sub = [g n.state]) ∧
    ((L.holds f').map fun m => g m.state).Perm (sub ++ (L.holds f).map fun m => g m.state)
  pw : ∀ R : SubProblem σ → SubProblem σ → Prop, (∀ a b, R a b → R b a) → (∀ a b q, R a q → R b q → R (combine a b) q) →
    (n :: L.holds f).Pairwise R → (L.holds f').Pairwise R

theorem push_one {f : φ.F} (hf : L.inv f) (n : SubProblem σ) : ∃ f', φ.push f n = some f' ∧ PushedOne L f n f' := by
  obtain ⟨f', h1, h2, h3⟩ := L.push f n hf
  refine ⟨f', h1, h2, ?_, ?_, ?_, ?_⟩
  · intro Q hQ hn hall m hm
    rcases h3 with h3 | ⟨old, rest, hs, h4, h5⟩
    · rcases List.mem_cons.1 (h3.mem_iff.1 hm) with rfl | hm
      · exact hn
      · exact hall _ hm
    · rcases List.mem_cons.1 (h5.mem_iff.1 hm) with rfl | hm
      · exact hQ _ _ (hall _ (h4.mem_iff.2 (by simp))) hn hs
      · exact hall _ (h4.mem_iff.2 (by simp [hm]))
  · rintro p w ⟨m, hm, hub, w', hth, hw⟩
    rcases h3 with h3 | ⟨old, rest, hs, h4, h5⟩
    · exact ⟨m, h3.mem_iff.2 hm, hub, w', hth, hw⟩
    · have hc := combine_through (p := p) (o := old) (n := n) hs hw
      have key : m = n ∨ m = old → Covers p (L.holds f') w := by
        rintro (rfl | rfl)
        · obtain ⟨a, b, c, d⟩ := hc.2 hub hth
          exact ⟨_, h5.mem_iff.2 (by simp), a, b, c, d⟩
        · obtain ⟨a, b, c, d⟩ := hc.1 hub hth
          exact ⟨_, h5.mem_iff.2 (by simp), a, b, c, d⟩
      rcases List.mem_cons.1 hm with hm | hm
      · exact key (Or.inl hm)
      · rcases List.mem_cons.1 (h4.mem_iff.1 hm) with hm | hm
        · exact key (Or.inr hm)
        · exact ⟨m, h5.mem_iff.2 (by simp [hm]), hub, w', hth, hw⟩
  · intro β g
    rcases h3 with h3 | ⟨old, rest, hs, h4, h5⟩
    · exact ⟨[g n.state], Or.inr rfl, by simpa using h3.map fun m => g m.state⟩
    · refine ⟨[], Or.inl rfl, ?_⟩
      have e1 := h5.map fun m => g m.state
      have e2 := h4.map fun m => g m.state
      simp only [List.map_cons, combine_state old n hs, hs] at e1 e2
      exact e1.trans e2.symm
  · intro R hsym hcomb hR
    rcases h3 with h3 | ⟨old, rest, hs, h4, h5⟩
    · exact (h3.pairwise_iff (fun h => hsym _ _ h)).2 hR
    · rw [h5.pairwise_iff (fun h => hsym _ _ h)]
      have h6 := ((h4.cons n).pairwise_iff (fun h => hsym _ _ h)).1 hR
      simp only [List.pairwise_cons, List.mem_cons, forall_eq_or_imp] at h6 ⊢
      exact ⟨fun q hq => hcomb _ _ _ (h6.2.1 q hq) (h6.1.2 q hq), h6.2.2⟩

theorem combine_ub {a b : SubProblem σ} {u : Int} (ha : a.ub ≤ u) (hb : b.ub ≤ u) : (combine a b).ub ≤ u := by
  unfold combine
  split <;> simp only <;> omega

/-- The nodes that `enqueue_cutset` pushes. -/
def toPush (bestLb ub : Int) (l : List (SubProblem σ)) : List (SubProblem σ) :=
  (l.map fun n => { n with ub := min ub n.ub }).filter fun n => decide (bestLb < n.ub)

theorem toPush_cons (bestLb ub : Int) (n : SubProblem σ) (l : List (SubProblem σ)) :
    toPush bestLb ub (n :: l) = if bestLb < min ub n.ub then { n with ub := min ub n.ub } :: toPush bestLb ub l else toPush bestLb ub l := by
  unfold toPush
  simp only [List.map_cons, List.filter_cons]
  by_cases h : bestLb < min ub n.ub <;> simp [h]

/-- The effect of pushing a list of nodes. -/
structure Pushed (f : φ.F) (l : List (SubProblem σ)) (f' : φ.F) : Prop where
  inv : L.inv f'
  all : ∀ Q : SubProblem σ → Prop, (∀ a b, Q a → Q b → a.state = b.state → Q (combine a b)) → (∀ n ∈ l, Q n) → (∀ m ∈ L.holds f, Q m) →
    ∀ m ∈ L.holds f', Q m
  cov : ∀ (p : Problem σ) w, Covers p (l ++ L.holds f) w → Covers p (L.holds f') w
  wts : ∀ {β : Type} (g : σ → β), ∃ sub : List β, (∀ x ∈ sub, ∃ n ∈ l, x = g n.state) ∧
    ((L.holds f').map fun m => g m.state).Perm (sub ++ (L.holds f).map fun m => g m.state)
  pw : ∀ R : SubProblem σ → SubProblem σ → Prop, (∀ a b, R a b → R b a) → (∀ a b q, R a q → R b q → R (combine a b) q) →
    (l ++ L.holds f).Pairwise R → (L.holds f').Pairwise R

theorem push_list (cfg : SolverCfg σ) (L : FrontierLaws cfg.fr) (bestLb ub : Int) : ∀ (l : List (SubProblem σ)) (f : cfg.fr.F), L.inv f →
    ∃ f', pushCutset cfg bestLb ub f l = some f' ∧ Pushed L f (toPush bestLb ub l) f' := by
  intro l
  induction l with
  | nil =>
    intro f hf
    exact ⟨f, rfl, hf, fun Q _ _ h => h, fun p w h => h, fun g => ⟨[], by simp, .refl _⟩, fun _ _ _ h => h⟩
  | cons n l ih =>
    intro f hf
    unfold pushCutset
    rw [toPush_cons]
    by_cases hc : bestLb < min ub n.ub
    · obtain ⟨f1, h1, h2⟩ := push_one L hf { n with ub := min ub n.ub }
      obtain ⟨f2, h3, h4⟩ := ih f1 h2.inv
      refine ⟨f2, ?_, h4.inv, ?_, ?_, ?_, ?_⟩
      · simp only [gt_iff_lt, hc, if_true, h1, h3]
      · intro Q hQ hl hall
        rw [if_pos hc] at hl
        exact h4.all Q hQ (fun m hm => hl m (by simp [hm])) (h2.all Q hQ (hl _ (by simp)) hall)
      · intro p w hcov
        rw [if_pos hc] at hcov
        apply h4.cov p w
        obtain ⟨m, hm, hrest⟩ := hcov
        simp only [List.cons_append, List.mem_cons, List.mem_append] at hm
        have base : m = { n with ub := min ub n.ub } ∨ m ∈ L.holds f → Covers p (toPush bestLb ub l ++ L.holds f1) w := by
          intro hm'
          exact (h2.cov p w ⟨m, by simpa using hm', hrest⟩).mono (by intro q hq; simp [hq])
        rcases hm with hm | hm | hm
        · exact base (Or.inl hm)
        · exact ⟨m, by simp [hm], hrest⟩
        · exact base (Or.inr hm)
      · intro β g
        obtain ⟨s1, a1, a2⟩ := h2.wts g
        obtain ⟨s2, b1, b2⟩ := h4.wts g
        refine ⟨s2 ++ s1, ?_, ?_⟩
        · intro x hx
          rw [if_pos hc]
          rcases List.mem_append.1 hx with hx | hx
          · obtain ⟨q, hq, e⟩ := b1 x hx; exact ⟨q, by simp [hq], e⟩
          · rcases a1 with rfl | rfl
            · cases hx
            · rw [List.mem_singleton] at hx; exact ⟨_, by simp, hx⟩
        · rw [List.append_assoc]
          exact b2.trans (a2.append_left _)
      · intro R hsym hcomb hR
        rw [if_pos hc, List.cons_append, List.pairwise_cons, List.pairwise_append] at hR
        obtain ⟨r1, r2, r3, r4⟩ := hR
        refine h4.pw R hsym hcomb (List.pairwise_append.2 ⟨r2, ?_, ?_⟩)
        · exact h2.pw R hsym hcomb (List.pairwise_cons.2 ⟨fun q hq => r1 q (List.mem_append.2 (Or.inr hq)), r3⟩)
        · intro a ha
          refine h2.all (R a) (fun x y hx hy _ => hsym _ _ (hcomb _ _ _ (hsym _ _ hx) (hsym _ _ hy))) ?_ (r4 a ha)
          exact hsym _ _ (r1 a (List.mem_append.2 (Or.inl ha)))
    · obtain ⟨f2, h3, h4⟩ := ih f hf
      refine ⟨f2, ?_, ?_⟩
      · simp only [gt_iff_lt, hc, if_false, h3]
      · rw [if_neg hc]; exact h4

theorem mem_toPush {bestLb ub : Int} {l : List (SubProblem σ)} {n : SubProblem σ} :
    n ∈ toPush bestLb ub l ↔ bestLb < n.ub ∧ ∃ m ∈ l, n = { m with ub := min ub m.ub } := by
  unfold toPush
  simp only [List.mem_filter, List.mem_map, decide_eq_true_eq]
  constructor
  · rintro ⟨⟨m, h1, h2⟩, h3⟩; exact ⟨h3, m, h1, h2.symm⟩
  · rintro ⟨h3, m, h1, h2⟩; exact ⟨⟨m, h1, h2.symm⟩, h3⟩

end Verif.Par
