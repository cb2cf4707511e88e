import Verif.Examples.Race
import Verif.Proofs.Par.Crash
import Verif.Proofs.Par.Inv
import Verif.Spec.Ask
/-! C116: when `interrupt()` is called.  (`src/solver/parallel.rs:297-355`) -/
set_option autoImplicit false

namespace Verif.Props
open Verif Spec Par
variable {σ : Type} [DecidableEq σ] [Inhabited σ] {cfg : SolverCfg σ}

private theorem work_calls {c c' : Crit σ cfg.fr.F} {i : Nat} {intr : Bool} {w : WorkLoad σ} (h : getWorkload cfg c i intr = some (c', w)) :
    if (c.ongoing = 0 ∧ cfg.fr.len c.fringe = 0) ∨ c.interrupted = true then c'.interrupted = c.interrupted ∧ c'.explored = c.explored
    else c'.interrupted = intr ∧ c'.explored ≤ c.explored + (if intr then 0 else 1) := by
  unfold getWorkload at h
  split at h
  · rename_i h1
    cases h
    rw [if_pos (Or.inl h1)]; exact ⟨rfl, rfl⟩
  rename_i h1
  split at h
  · rename_i h2
    cases h
    rw [if_pos (Or.inr h2)]; exact ⟨rfl, rfl⟩
  rename_i h2
  rw [if_neg (by simp only [not_or]; exact ⟨h1, h2⟩)]
  split at h
  · rename_i hi
    subst hi
    split at h
    · cases h; exact ⟨rfl, Nat.le_refl _⟩
    · split at h
      · cases h; exact ⟨rfl, Nat.le_refl _⟩
      · cases h
  · rename_i hi
    have hi : intr = false := by simpa using hi
    have h2 : c.interrupted = false := by simpa using h2
    subst hi
    split at h
    · cases h; exact ⟨h2, Nat.le_succ _⟩
    split at h
    · split at h
      · cases h; exact ⟨h2, Nat.le_succ _⟩
      · split at h
        · cases h; exact ⟨h2, Nat.le_refl _⟩
        · cases h
    · cases h

private theorem rest_calls (s : Sys σ cfg.fr.F) (i : Nat) (t : Thread σ) (hp : t.pc ≠ .idle) (intr : Bool) (o : Oracle σ) {s' : Sys σ cfg.fr.F} (h : stepThread cfg s i t intr o = .ok s') :
    s'.crit.interrupted = s.crit.interrupted ∧ s'.crit.explored = s.crit.explored := by
  have hm : ∀ D : Dd σ, (maybeUpdateBest cfg s.crit D).interrupted = s.crit.interrupted ∧ (maybeUpdateBest cfg s.crit D).explored = s.crit.explored := by
    intro D; unfold maybeUpdateBest; simp only; split <;> exact ⟨rfl, rfl⟩
  have he : ∀ (D : Dd σ) ub c, enqueueCutset cfg s.crit D ub = some c → c.interrupted = s.crit.interrupted ∧ c.explored = s.crit.explored := by
    intro D ub c hc
    unfold enqueueCutset at hc
    split at hc
    · cases hc
    · cases hc; exact ⟨rfl, rfl⟩
  unfold stepThread at h
  simp only at h
  split at h
  · cases h
  · cases h
  · rename_i e; exact absurd e hp
  · split at h <;> (cases h; exact ⟨rfl, rfl⟩)
  · split at h
    · cases h
    · cases h; exact hm _
  · cases h; exact ⟨rfl, rfl⟩
  · split at h
    · cases h
    · split at h
      · cases h; exact hm _
      · split at h
        · cases h
        · rename_i hc
          cases h; exact he _ _ _ hc
  · split at h
    · cases h
    · cases h; exact ⟨rfl, rfl⟩

private theorem idle_calls (s : Sys σ cfg.fr.F) (i : Nat) (t : Thread σ) (hp : t.pc = .idle) (intr : Bool) (o : Oracle σ) {s' : Sys σ cfg.fr.F} (h : stepThread cfg s i t intr o = .ok s') :
    if (s.crit.ongoing = 0 ∧ cfg.fr.len s.crit.fringe = 0) ∨ s.crit.interrupted = true then s'.crit.interrupted = s.crit.interrupted ∧ s'.crit.explored = s.crit.explored
    else s'.crit.interrupted = intr ∧ s'.crit.explored ≤ s.crit.explored + (if intr then 0 else 1) := by
  unfold stepThread at h
  simp only [hp] at h
  split at h
  · cases h
  all_goals (rename_i hw; cases h; exact work_calls hw)

/-- What a step does: it hears at most one answer, and hands out a node only if the answer is no. -/
private theorem step_calls {s s' : Sys σ cfg.fr.F} {l : Lbl σ} (h : step cfg s l = .ok s') :
    (heard cfg s l = [] ∧ s'.crit.interrupted = s.crit.interrupted ∧ s'.crit.explored = s.crit.explored) ∨
      (s.crit.interrupted = false ∧ ∃ intr, heard cfg s l = [intr] ∧ s'.crit.interrupted = intr ∧ s'.crit.explored ≤ s.crit.explored + (if intr then 0 else 1)) := by
  cases l with
  | spurious i =>
    left
    simp only [step] at h
    split at h
    · split at h
      · cases h; exact ⟨rfl, rfl, rfl⟩
      · cases h
    · cases h
  | run i intr o =>
    simp only [step] at h
    split at h
    · cases h
    rename_i t ht
    by_cases hp : t.pc = .idle
    · have hk := idle_calls s i t hp intr o h
      split at hk
      · rename_i hc
        left
        refine ⟨?_, hk⟩
        have : asks cfg s i = false := by
          unfold asks; rw [ht]; simp only [hp]
          rcases hc with hc | hc
          · simp [hc]
          · simp [hc]
        simp [heard, this]
      · rename_i hc
        right
        simp only [not_or] at hc
        refine ⟨by simpa using hc.2, intr, ?_, hk⟩
        have : asks cfg s i = true := by
          unfold asks; rw [ht]; simp only [hp]
          simp only [Bool.not_eq_true', Bool.or_eq_false_iff, decide_eq_false_iff_not]
          exact ⟨hc.1, by simpa using hc.2⟩
        simp [heard, this]
    · left
      refine ⟨?_, rest_calls s i t hp intr o h⟩
      have : asks cfg s i = false := by
        unfold asks; rw [ht]
        simp only
      simp [heard, this]

/-- **C116.** `interrupt()` is called just by a worker that asks for work while the search is neither complete nor interrupted. -/
theorem calls_when {s : Sys σ cfg.fr.F} {i : Nat} : asks cfg s i = true ↔
    (∃ t, s.threads[i]? = some t ∧ t.pc = .idle) ∧ s.crit.interrupted = false ∧ (0 < s.crit.ongoing ∨ 0 < cfg.fr.len s.crit.fringe) := by
  unfold asks
  constructor
  · intro h
    split at h
    · rename_i t ht
      split at h
      · rename_i hp
        simp only [Bool.not_eq_true', Bool.or_eq_false_iff, decide_eq_false_iff_not] at h
        refine ⟨⟨t, ht, hp⟩, h.2, ?_⟩
        have := h.1
        omega
      · cases h
    · cases h
  · rintro ⟨⟨t, ht, hp⟩, hi, ho⟩
    rw [ht]
    simp only [hp, hi, Bool.or_false, Bool.not_eq_true', decide_eq_false_iff_not]
    omega

/-- **C116.** In a step in which `interrupt()` is not called, its answer would change nothing. -/
theorem calls_irrelevant {s : Sys σ cfg.fr.F} {i : Nat} (h : asks cfg s i = false) (o : Oracle σ) : step cfg s (.run i true o) = step cfg s (.run i false o) := by
  simp only [step]
  split
  · rfl
  rename_i t ht
  unfold stepThread
  simp only
  split <;> try rfl
  rename_i hp
  unfold asks at h
  rw [ht] at h
  simp only [hp, Bool.not_eq_false', Bool.or_eq_true, decide_eq_true_eq] at h
  have : getWorkload cfg s.crit i true = getWorkload cfg s.crit i false := by
    unfold getWorkload
    by_cases h1 : s.crit.ongoing = 0 ∧ cfg.fr.len s.crit.fringe = 0
    · rw [if_pos h1, if_pos h1]
    · rw [if_neg h1, if_neg h1]
      have h2 := h.resolve_left h1
      rw [if_pos h2, if_pos h2]
  rw [this]

private theorem calls_after (ls : List (Lbl σ)) : ∀ {s s' : Sys σ cfg.fr.F}, s.crit.interrupted = true → runs cfg s ls = .ok s' →
    answers cfg s ls = [] ∧ s'.crit.interrupted = true ∧ s'.crit.explored = s.crit.explored := by
  induction ls with
  | nil => intro s s' h hs; cases hs; exact ⟨rfl, h, rfl⟩
  | cons l ls ih =>
    intro s s' h hs
    simp only [runs] at hs
    split at hs
    · rename_i s1 h1
      rcases step_calls h1 with ⟨g1, g2, g3⟩ | ⟨g, _⟩
      · obtain ⟨k1, k2, k3⟩ := ih (g2.trans h) hs
        refine ⟨?_, k2, k3.trans g3⟩
        simp only [answers, h1, g1, k1, List.append_nil]
      · rw [h] at g; cases g
    · cases hs
    · cases hs

/-- **C116.** Once the search is interrupted, a worker that asks for work leaves its loop at once. -/
theorem calls_leave {s s' : Sys σ cfg.fr.F} (hi : s.crit.interrupted = true) {i : Nat} {t : Thread σ} (ht : s.threads[i]? = some t) (hp : t.pc = .idle) {intr : Bool} {o : Oracle σ}
    (hs : step cfg s (.run i intr o) = .ok s') : s'.threads[i]? = some { t with pc := .done } := by
  simp only [step, ht] at hs
  unfold stepThread at hs
  simp only [hp] at hs
  have hl := (List.getElem?_eq_some_iff.1 ht).1
  have hw : ∀ {c w}, getWorkload cfg s.crit i intr = some (c, w) → w = .complete ∨ w = .interruption := by
    intro c w h
    unfold getWorkload at h
    split at h
    · cases h; exact Or.inl rfl
    · cases h; exact Or.inr rfl
  split at hs
  · cases hs
  · cases hs; exact List.getElem?_set_self hl
  · cases hs; exact List.getElem?_set_self hl
  all_goals (rename_i h; rcases hw h with e | e <;> cases e)

/-- **C116.** Once the search is interrupted, `interrupt()` is not called any more and no node is handed out any more. -/
theorem calls_no_more {s s' : Sys σ cfg.fr.F} (hi : s.crit.interrupted = true) (ls : List (Lbl σ)) (hs : runs cfg s ls = .ok s') : answers cfg s ls = [] ∧ s'.crit.explored = s.crit.explored :=
  ⟨(calls_after ls hi hs).1, (calls_after ls hi hs).2.2⟩

/-- **C116.** `interrupt()` has answered no some number of times, and then yes at most once, after which it is not called any more: yes if the search is interrupted, and not otherwise.  For every node that is
handed out it has answered no once: the number of nodes handed out is at most that of these answers. -/
theorem calls_answers {s0 s : Sys σ cfg.fr.F} (h0 : Par.init cfg = some s0) (ls : List (Lbl σ)) (hs : runs cfg s0 ls = .ok s) :
    ∃ n, s.crit.explored ≤ n ∧ answers cfg s0 ls = List.replicate n false ++ if s.crit.interrupted then [true] else [] := by
  have key : ∀ (ls : List (Lbl σ)) {s s' : Sys σ cfg.fr.F}, s.crit.interrupted = false → runs cfg s ls = .ok s' →
      ∃ n, s'.crit.explored ≤ s.crit.explored + n ∧ answers cfg s ls = List.replicate n false ++ if s'.crit.interrupted then [true] else [] := by
    intro ls
    induction ls with
    | nil => intro s s' h hs; cases hs; exact ⟨0, Nat.le_refl _, by simp [answers, h]⟩
    | cons l ls ih =>
      intro s s' h hs
      simp only [runs] at hs
      split at hs
      · rename_i s1 h1
        rcases step_calls h1 with ⟨g1, g2, g3⟩ | ⟨_, intr, g1, g2, g3⟩
        · obtain ⟨n, k1, k2⟩ := ih (g2.trans h) hs
          exact ⟨n, by omega, by simp only [answers, h1, g1, k2, List.nil_append]⟩
        · cases intr with
          | false =>
            obtain ⟨n, k1, k2⟩ := ih g2 hs
            refine ⟨n + 1, ?_, by simp only [answers, h1, g1, k2, List.replicate_succ, List.cons_append, List.nil_append]⟩
            simp only [Bool.false_eq_true, if_false] at g3
            omega
          | true =>
            obtain ⟨k1, k2, k3⟩ := calls_after ls g2 hs
            refine ⟨0, ?_, by simp [answers, h1, g1, k1, k2]⟩
            simp only [if_true] at g3
            omega
      · cases hs
      · cases hs
  have hz : s0.crit.interrupted = false ∧ s0.crit.explored = 0 := by
    unfold Par.init at h0
    split at h0
    · cases h0
    · cases h0; exact ⟨rfl, rfl⟩
  obtain ⟨n, k1, k2⟩ := key ls hz.1 hs
  exact ⟨n, by omega, k2⟩

/-- How many steps a worker can still make once the search is interrupted. -/
def stepsLeft (t : Thread σ) : Nat :=
  match t.pc with
  | .done => 0
  | .idle => 1
  | .waiting => 2
  | .fin _ => 2
  | .relx _ _ _ => 3
  | .relb _ _ => 4
  | .restr _ _ => 5
  | .start _ => 6

private theorem left_wake (ts : List (Thread σ)) : ((ts.map wake).map stepsLeft).sum ≤ (ts.map stepsLeft).sum := by
  induction ts with
  | nil => exact Nat.le_refl _
  | cons t ts ih =>
    simp only [List.map_cons, List.sum_cons]
    have : stepsLeft (wake t) ≤ stepsLeft t := by
      obtain ⟨pc, m⟩ := t
      cases pc <;> simp [wake, stepsLeft]
    omega

private theorem left_set {ts : List (Thread σ)} {i : Nat} {t : Thread σ} (ht : ts[i]? = some t) {t' : Thread σ} (hl : stepsLeft t' < stepsLeft t) :
    ((ts.set i t').map stepsLeft).sum < (ts.map stepsLeft).sum := by
  obtain ⟨l1, l2, rfl, _, hset⟩ := Par.split_at ht
  rw [hset]
  simp only [List.map_append, List.map_cons, List.sum_append, List.sum_cons]
  omega

private theorem left_step {s s' : Sys σ cfg.fr.F} (hi : s.crit.interrupted = true) {l : Lbl σ} (hs : step cfg s l = .ok s') :
    (s'.threads.map stepsLeft).sum < (s.threads.map stepsLeft).sum := by
  cases l with
  | spurious i =>
    simp only [step] at hs
    split at hs
    · rename_i t ht
      split at hs
      · rename_i hp
        cases hs
        exact left_set ht (by simp [stepsLeft, hp])
      · cases hs
    · cases hs
  | run i intr o =>
    have hs0 := hs
    simp only [step] at hs
    split at hs
    · cases hs
    rename_i t ht
    by_cases hp : t.pc = .idle
    · have hq := calls_leave hi ht hp hs0
      have hl := (List.getElem?_eq_some_iff.1 ht).1
      unfold stepThread at hs
      simp only [hp] at hs
      split at hs
      · cases hs
      all_goals (cases hs; refine left_set ht ?_; rw [List.getElem?_set_self hl] at hq; have hq' := Option.some.inj hq; first | (exfalso; have h9 := congrArg (·.pc) hq'; simp [hp] at h9; done) | (rw [hq']; simp [stepsLeft, hp]))
    · unfold stepThread at hs
      simp only at hs
      split at hs
      · cases hs
      · cases hs
      · rename_i e; exact absurd e hp
      · rename_i n e
        split at hs <;> (cases hs; exact left_set ht (by simp [stepsLeft, e]))
      · rename_i n lb e
        split at hs
        · cases hs
        · rename_i D _
          cases hs
          refine left_set ht ?_
          cases D.exact <;> simp [stepsLeft, e]
      · rename_i n dd e
        cases hs; exact left_set ht (by simp [stepsLeft, e])
      · rename_i n lb dd e
        split at hs
        · cases hs
        · split at hs
          · cases hs; exact left_set ht (by simp [stepsLeft, e])
          · split at hs
            · cases hs
            · cases hs; exact left_set ht (by simp [stepsLeft, e])
      · rename_i dd e
        split at hs
        · cases hs
        · cases hs
          exact Nat.lt_of_le_of_lt (left_wake _) (left_set ht (by simp [stepsLeft, e]))

/-- **C116.** Once the search is interrupted, the run is nearly over: at most 6 more steps per worker, spurious wake-ups included, whatever the schedule. -/
theorem calls_left (ls : List (Lbl σ)) : ∀ {s s' : Sys σ cfg.fr.F}, s.crit.interrupted = true → runs cfg s ls = .ok s' →
    ls.length + (s'.threads.map stepsLeft).sum ≤ (s.threads.map stepsLeft).sum ∧ (s.threads.map stepsLeft).sum ≤ 6 * s.threads.length := by
  have hb : ∀ ts : List (Thread σ), (ts.map stepsLeft).sum ≤ 6 * ts.length := by
    intro ts
    induction ts with
    | nil => exact Nat.le_refl _
    | cons t ts ih =>
      simp only [List.map_cons, List.sum_cons, List.length_cons]
      have : stepsLeft t ≤ 6 := by
        obtain ⟨pc, m⟩ := t
        cases pc <;> simp [stepsLeft]
      omega
  intro s s' hi hs
  refine ⟨?_, hb _⟩
  induction ls generalizing s with
  | nil => cases hs; simp
  | cons l ls ih =>
    simp only [runs] at hs
    split at hs
    · rename_i s1 h1
      have h2 := left_step hi h1
      have h3 : s1.crit.interrupted = true := by
        rcases step_calls h1 with ⟨_, g, _⟩ | ⟨g, _⟩
        · exact g.trans hi
        · rw [hi] at g; cases g
      have h4 := ih h3 hs
      simp only [List.length_cons]
      omega
    · cases hs
    · cases hs

/-- The bound is met: the first worker has just got the root when the second is told to stop, and the first then makes its 6 steps. -/
example : ∃ s0 s1 s2 ls, Par.init (Inst.kpCfg 2) = some s0 ∧ runs (Inst.kpCfg 2) s0 [.run 0 false Inst.orc, .run 1 true Inst.orc] = .ok s1 ∧ s1.crit.interrupted = true ∧
    runs (Inst.kpCfg 2) s1 ls = .ok s2 ∧ ls.length = 6 ∧ s2.threads.all (fun t => t.pc matches .done) = true := by
  have h : (match Par.init (Inst.kpCfg 2) with
    | some s0 =>
      (match Par.runs (Inst.kpCfg 2) s0 [.run 0 false Inst.orc, .run 1 true Inst.orc] with
        | .ok s1 =>
          (match Par.runs (Inst.kpCfg 2) s1 (List.replicate 6 (.run 0 true Inst.orc)) with
            | .ok s2 => s1.crit.interrupted && s2.threads.all (fun t => t.pc matches .done)
            | _ => false)
        | _ => false)
    | none => false) = true := by decide +kernel
  split at h
  · rename_i s0 h0
    split at h
    · rename_i s1 h1
      split at h
      · rename_i s2 h2
        simp only [Bool.and_eq_true] at h
        exact ⟨s0, s1, s2, _, h0, h1, h.1, h2, by simp, h.2⟩
      · cases h
    · cases h
  · cases h

/-- Two workers: the first gets the root, the second waits, the first finishes and is then told to stop. -/
example : ∃ s0 s ls, Par.init (Inst.kpCfg 2) = some s0 ∧ runs (Inst.kpCfg 2) s0 ls = .ok s ∧ answers (Inst.kpCfg 2) s0 ls = [false, false, true] ∧ s.crit.explored = 1 := by
  have h : (match Par.init (Inst.kpCfg 2) with
    | some s0 =>
      let ls : List (Lbl _) := .run 0 false Inst.orc :: .run 1 false Inst.orc :: List.replicate 6 (.run 0 true Inst.orc)
      (match Par.runs (Inst.kpCfg 2) s0 ls with
        | .ok s => decide (Par.answers (Inst.kpCfg 2) s0 ls = [false, false, true]) && decide (s.crit.explored = 1)
        | _ => false)
    | none => false) = true := by decide +kernel
  split at h
  · rename_i s0 h0
    simp only at h
    split at h
    · rename_i s hs
      simp only [Bool.and_eq_true, decide_eq_true_eq] at h
      exact ⟨s0, s, _, h0, hs, h.1, h.2⟩
    · cases h
  · cases h

end Verif.Props
