import Verif.Proofs.NoDupInv
/-!
C06 - C11: `NoDupFrontier`.  All statements quantify over every history of `push`/`pop`/`clear`/`len` calls on a
new frontier, every state type with decidable equality and every ranking that is a total preorder (`Std.TransCmp`).
-/
set_option autoImplicit false

namespace Verif.Props
open Verif Spec Proofs
variable {σ : Type} [DecidableEq σ] (rank : σ → σ → Ordering)

/-- Performs one API call; `none` is a panic or an endless loop. -/
def fexec (f : NoDup σ) : FOp σ → Option (NoDup σ × FEv σ)
  | .push n => (f.push rank n).map fun f' => (f', .pushed n)
  | .pop => (f.pop rank).map fun (f', r) => (f', .popped r)
  | .clear => some (f.clear, .cleared)
  | .len => some (f, .length f.len)

/-- Performs a list of API calls and collects the trace. -/
def frun (f : NoDup σ) : List (FOp σ) → Option (NoDup σ × List (FEv σ))
  | [] => some (f, [])
  | op :: ops => do
    let (f1, e) ← fexec rank f op
    let (f2, es) ← frun f1 ops
    return (f2, e :: es)

/-- The held nodes agree with the history. -/
private def Abs (f : NoDup σ) (h : List (FEv σ)) : Prop :=
  ∀ s, match held f s with
    | none => pending h s = []
    | some n => IsBestOf (pending h s) n

private theorem isBestOf_merge {l : List (SubProblem σ)} {o n : SubProblem σ} (hl : IsBestOf l o)
    (hs : o.state = n.state) : IsBestOf (l ++ [n]) (mergeEntry (some o) n) := by
  obtain ⟨⟨pre, m, post, h1, h2, h3, h4, h5, h6⟩, ⟨x, hx1, hx2⟩, h8⟩ := hl
  refine ⟨?_, ?_, ?_⟩
  · by_cases c : n.value > o.value
    · refine ⟨l, n, [], by simp, rfl, by simp [mergeEntry, c], by simp [mergeEntry, c], ?_, by simp⟩
      intro y hy
      rw [h1] at hy
      rcases List.mem_append.mp hy with hy | hy
      · have := h5 y hy; omega
      · rcases List.mem_cons.mp hy with rfl | hy
        · omega
        · have := h6 y hy; omega
    · refine ⟨pre, m, post ++ [n], by simp [h1], by simp [mergeEntry, h2, hs],
        by simp [mergeEntry, c, h3], by simp [mergeEntry, c, h4], h5, ?_⟩
      intro y hy
      rcases List.mem_append.mp hy with hy | hy
      · exact h6 y hy
      · simp at hy; subst hy; omega
  · by_cases c : n.ub ≤ o.ub
    · exact ⟨x, by simp [hx1], by simp only [mergeEntry]; omega⟩
    · exact ⟨n, by simp, by simp only [mergeEntry]; omega⟩
  · intro y hy
    rcases List.mem_append.mp hy with hy | hy
    · have := h8 y hy
      simp only [mergeEntry]; omega
    · simp at hy; subst hy; simp only [mergeEntry]; omega

private theorem isBestOf_single (n : SubProblem σ) : IsBestOf [n] n :=
  ⟨⟨[], n, [], rfl, rfl, rfl, rfl, by simp, by simp⟩, ⟨n, by simp⟩, by simp⟩

private theorem pending_snoc (h : List (FEv σ)) (e : FEv σ) (s : σ) :
    pending (h ++ [e]) s = pendStep s (pending h s) e := by
  simp [pending, List.foldl_append]

private theorem isBestOf_ne_nil {l : List (SubProblem σ)} {n : SubProblem σ} (h : IsBestOf l n) : l ≠ [] := by
  obtain ⟨⟨pre, m, post, h1, -⟩, -⟩ := h
  rw [h1]; simp

private theorem abs_ne {f : NoDup σ} {h : List (FEv σ)} (ha : Abs f h) (s : σ) :
    held f s ≠ none ↔ pending h s ≠ [] := by
  have := ha s
  cases hh : held f s with
  | none => rw [hh] at this; simp [this]
  | some n => rw [hh] at this; simp [isBestOf_ne_nil this]

variable [Std.TransCmp rank]

private theorem exec_spec {f : NoDup σ} {h : List (FEv σ)} (hi : Inv rank f) (ha : Abs f h) (op : FOp σ) :
    ∃ f' e, fexec rank f op = some (f', e) ∧ e.op = op ∧ Inv rank f' ∧ Abs f' (h ++ [e]) ∧ Correct h e := by
  cases op with
  | push n =>
    obtain ⟨f', h1, h2, h3⟩ := push_spec rank hi n
    refine ⟨f', .pushed n, by simp [fexec, h1], rfl, h2, ?_, trivial⟩
    intro s
    rw [h3, pending_snoc]
    simp only [pendStep]
    have hs := ha s
    by_cases hsn : s = n.state
    · subst hsn
      simp only [if_true]
      cases hh : held f n.state with
      | none => rw [hh] at hs; simp only at hs; rw [hs]; exact isBestOf_single n
      | some o =>
        rw [hh] at hs
        exact isBestOf_merge hs (hi.held_mem rank hh).1
    · rw [if_neg hsn, if_neg (fun e => hsn e.symm)]; exact hs
  | pop =>
    rcases pop_spec rank hi with ⟨h1, h2⟩ | ⟨f', n, h1, h2, h3, h4, h5, -⟩
    · refine ⟨f, .popped none, by simp [fexec, h1], rfl, hi, ?_, ?_⟩
      · intro s; rw [pending_snoc]; exact ha s
      · intro s; have := ha s; rw [h2 s] at this; exact this
    · refine ⟨f', .popped (some n), by simp [fexec, h1], rfl, h2, ?_, ?_, ?_⟩
      · intro s
        rw [h4, pending_snoc]
        simp only [pendStep]
        by_cases hsn : s = n.state
        · rw [if_pos hsn, if_pos hsn.symm]
        · rw [if_neg hsn, if_neg (fun e => hsn e.symm)]; exact ha s
      · have := ha n.state; rw [h3] at this; exact this
      · intro s m hm
        have := ha s
        cases hh : held f s with
        | none => rw [hh] at this; simp only at this; rw [this] at hm; simp at hm
        | some o =>
          rw [hh] at this
          have h6 := leO_ub rank (h5 s o hh)
          have h7 := this.2.2 m hm
          omega
  | clear =>
    refine ⟨f.clear, .cleared, rfl, rfl, new_inv rank, ?_, trivial⟩
    intro s; rw [pending_snoc]; rfl
  | len =>
    refine ⟨f, .length f.len, rfl, rfl, hi, ?_, ?_⟩
    · intro s; rw [pending_snoc]; exact ha s
    · obtain ⟨l, h1, h2, h3⟩ := len_spec rank hi
      exact ⟨l, h1, fun s => (h2 s).trans (abs_ne ha s), h3⟩

private theorem run_spec (ops : List (FOp σ)) : ∀ {f : NoDup σ} {h : List (FEv σ)}, Inv rank f → Abs f h →
    ∃ f' evs, frun rank f ops = some (f', evs) ∧ evs.map FEv.op = ops ∧ Inv rank f' ∧ Abs f' (h ++ evs) ∧
      ∀ pre e post, evs = pre ++ e :: post → Correct (h ++ pre) e := by
  induction ops with
  | nil => intro f h hi ha; exact ⟨f, [], rfl, rfl, hi, by simpa using ha, by simp⟩
  | cons op ops ih =>
    intro f h hi ha
    obtain ⟨f1, e, h1, h2, h3, h4, h5⟩ := exec_spec rank hi ha op
    obtain ⟨f2, es, g1, g2, g3, g4, g5⟩ := ih h3 h4
    refine ⟨f2, e :: es, by simp [frun, h1, g1], by simp [h2, g2], g3, by simpa using g4, ?_⟩
    intro pre x post heq
    cases pre with
    | nil => simp at heq; obtain ⟨rfl, -⟩ := heq; simpa using h5
    | cons y ys =>
      simp at heq
      obtain ⟨rfl, heq⟩ := heq
      have := g5 ys x post heq
      simpa using this

private theorem abs_new : Abs (NoDup.new : NoDup σ) [] := fun _ => rfl

/-- C10: no history of API calls makes the frontier index out of bounds or loop forever. -/
theorem noDup_never_panics (ops : List (FOp σ)) : frun rank NoDup.new ops ≠ none := by
  obtain ⟨f, evs, h, -⟩ := run_spec rank ops (new_inv rank) abs_new
  rw [h]; simp

/-- C06 - C09: the trace of every history of API calls has the calls in order, and the result of
each call is correct with respect to the history before it: `pop` returns the best node of a state (value, path, ub) whose
bound is at least that of every pending node; it returns `None` only if nothing is pending;
`len` is the number of distinct states pending. -/
theorem noDup_trace_correct (ops : List (FOp σ)) (f : NoDup σ) (evs : List (FEv σ))
    (hrun : frun rank NoDup.new ops = some (f, evs)) : evs.map FEv.op = ops ∧ GoodTrace evs := by
  obtain ⟨f', evs', h, h1, -, -, h4⟩ := run_spec rank ops (new_inv rank) abs_new
  rw [hrun] at h; cases h
  exact ⟨h1, by simpa [GoodTrace] using h4⟩

/-- C06: whatever happened before, `pop` returns a node whose bound is at least that of every
node still pending, and it returns `None` only if no node is pending. -/
theorem noDup_pop_best (ops : List (FOp σ)) (f f' : NoDup σ) (evs : List (FEv σ)) (r : Option (SubProblem σ))
    (hrun : frun rank NoDup.new ops = some (f, evs)) (hpop : f.pop rank = some (f', r)) :
    match r with
    | none => ∀ s, pending evs s = []
    | some n => (∃ m ∈ pending evs n.state, m.value = n.value ∧ m.path = n.path) ∧
        ∀ s, ∀ m ∈ pending evs s, m.ub ≤ n.ub := by
  obtain ⟨f1, evs1, h, h1, h2, h3, -⟩ := run_spec rank ops (new_inv rank) abs_new
  rw [hrun] at h; cases h
  simp only [List.nil_append] at h3
  obtain ⟨f2, e, g1, -, -, -, g5⟩ := exec_spec rank h2 h3 .pop
  simp only [fexec, hpop, Option.map_some] at g1
  cases g1
  cases r with
  | none => exact g5
  | some n =>
    refine ⟨?_, g5.2⟩
    obtain ⟨⟨pre, m, post, k1, -, k3, k4, -⟩, -⟩ := g5.1
    exact ⟨m, by rw [k1]; simp, k3, k4⟩

/-- C07: `len()` is the number of distinct states pending. -/
theorem noDup_len (ops : List (FOp σ)) (f : NoDup σ) (evs : List (FEv σ))
    (hrun : frun rank NoDup.new ops = some (f, evs)) :
    ∃ l : List σ, l.Nodup ∧ (∀ s, s ∈ l ↔ pending evs s ≠ []) ∧ l.length = f.len := by
  obtain ⟨f1, evs1, h, h1, h2, h3, -⟩ := run_spec rank ops (new_inv rank) abs_new
  rw [hrun] at h; cases h
  simp only [List.nil_append] at h3
  obtain ⟨l, g1, g2, g3⟩ := len_spec rank h2
  exact ⟨l, g1, fun s => (g2 s).trans (abs_ne h3 s), g3⟩

/-- C08: the node returned by `pop` carries the value and the path of the earliest push with the
greatest value for its state, and the greatest upper bound among the pushes of that state. -/
theorem noDup_pop_merges (ops : List (FOp σ)) (f f' : NoDup σ) (evs : List (FEv σ)) (n : SubProblem σ)
    (hrun : frun rank NoDup.new ops = some (f, evs)) (hpop : f.pop rank = some (f', some n)) :
    IsBestOf (pending evs n.state) n := by
  obtain ⟨f1, evs1, h, h1, h2, h3, -⟩ := run_spec rank ops (new_inv rank) abs_new
  rw [hrun] at h; cases h
  simp only [List.nil_append] at h3
  obtain ⟨f2, e, g1, -, -, -, g5⟩ := exec_spec rank h2 h3 .pop
  simp only [fexec, hpop, Option.map_some] at g1
  cases g1
  exact g5.1

/-- C09: `is_empty()` iff `len() == 0` iff nothing is pending, and a cleared frontier is a new one. -/
theorem noDup_empty (ops : List (FOp σ)) (f : NoDup σ) (evs : List (FEv σ))
    (hrun : frun rank NoDup.new ops = some (f, evs)) :
    (f.isEmpty = true ↔ f.len = 0) ∧ (f.len = 0 ↔ ∀ s, pending evs s = []) ∧ f.clear = NoDup.new := by
  obtain ⟨l, h1, h2, h3⟩ := noDup_len rank ops f evs hrun
  refine ⟨by simp [NoDup.isEmpty, NoDup.len], ?_, rfl⟩
  rw [← h3, List.length_eq_zero_iff]
  constructor
  · intro hl s
    have := h2 s
    rw [hl] at this
    simpa using this
  · intro hp
    cases l with
    | nil => rfl
    | cons a l => exact absurd (hp a) ((h2 a).mp (by simp))

/-- Popping `k` times. -/
def popN (f : NoDup σ) : Nat → Option (NoDup σ × List (SubProblem σ))
  | 0 => some (f, [])
  | k + 1 => do
    let (f1, r) ← f.pop rank
    match r with
    | none => return (f1, [])
    | some n =>
      let (f2, l) ← popN f1 k
      return (f2, n :: l)

private theorem popN_spec (k : Nat) : ∀ {f : NoDup σ}, Inv rank f → f.len ≤ k →
    ∃ f' l, popN rank f k = some (f', l) ∧ f'.len = 0 ∧ l.Pairwise (fun a b => b.ub ≤ a.ub) ∧
      (l.map SubProblem.state).Nodup ∧ (∀ n, n ∈ l ↔ held f n.state = some n) := by
  induction k with
  | zero =>
    intro f hi hk
    have hl : f.heap = [] := List.length_eq_zero_iff.mp (by simpa [NoDup.len] using hk)
    refine ⟨f, [], rfl, by simp [NoDup.len, hl], by simp, by simp, ?_⟩
    intro n
    simp only [List.not_mem_nil, false_iff]
    intro hh
    obtain ⟨-, id, -, -, hm⟩ := hi.held_mem rank hh
    rw [hl] at hm; simp at hm
  | succ k ih =>
    intro f hi hk
    rcases pop_spec rank hi with ⟨h1, h2⟩ | ⟨f1, n, h1, h2, h3, h4, h5, h6⟩
    · refine ⟨f, [], by simp [popN, h1], ?_, by simp, by simp, by simp [h2]⟩
      obtain ⟨l, g1, g2, g3⟩ := len_spec rank hi
      rw [← g3, List.length_eq_zero_iff]
      cases l with
      | nil => rfl
      | cons a l => exact absurd (h2 a) ((g2 a).mp (by simp))
    · obtain ⟨f2, l, g1, g2, g3, g4, g5⟩ := ih h2 (by unfold NoDup.len at *; omega)
      refine ⟨f2, n :: l, by simp [popN, h1, g1], g2, ?_, ?_, ?_⟩
      · rw [List.pairwise_cons]
        refine ⟨?_, g3⟩
        intro m hm
        have hm' := (g5 m).mp hm
        rw [h4] at hm'
        split at hm'
        · cases hm'
        · exact leO_ub rank (h5 _ _ hm')
      · rw [List.map_cons, List.nodup_cons]
        refine ⟨?_, g4⟩
        intro hc
        obtain ⟨m, hm, hms⟩ := List.mem_map.mp hc
        have hm' := (g5 m).mp hm
        rw [h4, if_pos hms] at hm'; cases hm'
      · intro m
        rw [List.mem_cons, g5 m, h4]
        constructor
        · rintro (rfl | hm)
          · exact h3
          · split at hm
            · cases hm
            · exact hm
        · intro hm
          by_cases hs : m.state = n.state
          · left; rw [hs, h3] at hm; exact (by simpa using hm.symm)
          · right; rw [if_neg hs]; exact hm

/-- C11: draining the frontier after any history empties it, yields nodes in non-increasing bound
order, each pending state exactly once, each with the best value/path/bound pushed for it. -/
theorem noDup_drain_sorted (ops : List (FOp σ)) (f : NoDup σ) (evs : List (FEv σ))
    (hrun : frun rank NoDup.new ops = some (f, evs)) :
    ∃ f' l, popN rank f f.len = some (f', l) ∧ f'.len = 0 ∧ l.Pairwise (fun a b => b.ub ≤ a.ub) ∧
      (l.map SubProblem.state).Nodup ∧ (∀ s, s ∈ l.map SubProblem.state ↔ pending evs s ≠ []) ∧
      (∀ n ∈ l, IsBestOf (pending evs n.state) n) := by
  obtain ⟨f1, evs1, h, h1, h2, h3, -⟩ := run_spec rank ops (new_inv rank) abs_new
  rw [hrun] at h; cases h
  simp only [List.nil_append] at h3
  obtain ⟨f', l, g1, g2, g3, g4, g5⟩ := popN_spec rank f.len h2 (Nat.le_refl _)
  refine ⟨f', l, g1, g2, g3, g4, ?_, ?_⟩
  · intro s
    rw [← abs_ne h3 s, List.mem_map]
    constructor
    · rintro ⟨n, hn, rfl⟩
      rw [(g5 n).mp hn]; simp
    · intro hne
      cases hh : held f s with
      | none => exact absurd hh hne
      | some n =>
        have hs := (h2.held_mem rank hh).1
        exact ⟨n, (g5 n).mpr (by rw [hs]; exact hh), hs⟩
  · intro n hn
    have := h3 n.state
    rw [(g5 n).mp hn] at this
    exact this

-- non-vacuity: duplicate state 7 pushed twice: the longest path and the largest bound survive
example : ((frun (σ := Nat) compare NoDup.new
      [.push ⟨7, 3, [⟨0, 1⟩], 10⟩, .push ⟨5, 1, [], 12⟩, .push ⟨7, 4, [⟨0, 2⟩], 9⟩, .push ⟨7, 1, [], 20⟩, .pop, .len]).map
      fun r => r.2.map fun e => match e with | .popped (some n) => (n.state, n.value, n.ub) | .length k => (k, 0, 0) | _ => (0, 0, 0))
    = some [(0, 0, 0), (0, 0, 0), (0, 0, 0), (0, 0, 0), (7, 4, 20), (1, 0, 0)] := by decide

end Verif.Props
