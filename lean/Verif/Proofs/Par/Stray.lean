import Verif.Examples.Instances
import Verif.Spec.Stray
import Verif.Proofs.Par.Crash
/-! A run with workers that have no cell is a run, with a cell for everybody, in which these panic a little later. -/
set_option autoImplicit false

namespace Verif.Par
open Verif Spec
variable {σ : Type} [DecidableEq σ] [Inhabited σ] {cfg : SolverCfg σ}

/-- The same but for the bounds. -/
structure SameC (cfg : SolverCfg σ) (c c' : Crit σ cfg.fr.F) : Prop where
  fringe : c'.fringe = c.fringe
  ongoing : c'.ongoing = c.ongoing
  explored : c'.explored = c.explored
  exploredDd : c'.exploredDd = c.exploredDd
  bestLb : c'.bestLb = c.bestLb
  bestSol : c'.bestSol = c.bestSol
  interrupted : c'.interrupted = c.interrupted
  few : c.upperBounds.length = cfg.custom
  many : c'.upperBounds.length = cfg.custom + cfg.nbThreads

/-- The workers that go on are the same. -/
structure SameT (s s' : Torn (Sys σ cfg.fr.F)) : Prop where
  crit : SameC cfg s.sys.crit s'.sys.crit
  dead : s'.dead = s.dead
  len : s'.sys.threads.length = s.sys.threads.length
  nb : s.sys.threads.length = cfg.nbThreads
  live : ∀ i, i ∉ s.dead → s'.sys.threads[i]? = s.sys.threads[i]?
  gone : ∀ i ∈ s.dead, ∀ t, s.sys.threads[i]? = some t → t.pc ≠ .done ∧ t.pc ≠ .waiting
  idle : ∀ i, cfg.custom ≤ i → ∀ t, s.sys.threads[i]? = some t → Pc.busy t.pc = false

theorem sameC_best {c c' : Crit σ cfg.fr.F} (h : SameC cfg c c') (D : Dd σ) : SameC cfg (maybeUpdateBest cfg c D) (maybeUpdateBest (roomy cfg) c' D) := by
  unfold maybeUpdateBest
  simp only [h.bestLb]
  by_cases hb : D.bestValue.getD isizeMin > c.bestLb
  · rw [if_pos hb, if_pos hb]
    exact ⟨h.fringe, h.ongoing, h.explored, h.exploredDd, rfl, rfl, h.interrupted, h.few, h.many⟩
  · rw [if_neg hb, if_neg hb]; exact h

theorem pushCutset_roomy (b ub : Int) (l : List (SubProblem σ)) : ∀ f : cfg.fr.F, pushCutset (roomy cfg) b ub f l = pushCutset cfg b ub f l := by
  induction l with
  | nil => intro f; rfl
  | cons n l ih =>
    intro f
    conv => lhs; unfold pushCutset
    conv => rhs; unfold pushCutset
    simp only [ih]
    by_cases hb : min ub n.ub > b
    · rw [if_pos hb, if_pos hb]
      cases cfg.fr.push f { n with ub := min ub n.ub } <;> rfl
    · rw [if_neg hb, if_neg hb]

/-- Closes a goal `SameC` field by field. -/
local macro "same " h:term : tactic =>
  `(tactic| constructor <;> first | rfl | exact ($h).fringe | exact ($h).ongoing | exact ($h).explored | exact ($h).exploredDd | exact ($h).bestLb | exact ($h).bestSol | exact ($h).interrupted | exact ($h).few | exact ($h).many | (simp only [List.length_set]; exact ($h).few) | (simp only [List.length_set]; exact ($h).many) | (simp only [($h).explored]))

theorem stray_getWorkload {c c' : Crit σ cfg.fr.F} (h : SameC cfg c c') {i : Nat} {intr : Bool} {c1 : Crit σ cfg.fr.F} {w : WorkLoad σ} (hg : getWorkload cfg c i intr = some (c1, w)) :
    ∃ c1', getWorkload (roomy cfg) c' i intr = some (c1', w) ∧ SameC cfg c1 c1' := by
  unfold getWorkload at hg ⊢
  simp only [h.ongoing, h.fringe, h.interrupted, h.bestLb] at hg ⊢
  split at hg
  · cases hg
    rename_i hc
    rw [if_pos hc]
    exact ⟨_, rfl, by same h⟩
  · rename_i hc
    rw [if_neg hc]
    split at hg
    · cases hg
      rename_i hi
      rw [if_pos hi]
      exact ⟨_, rfl, h⟩
    · rename_i hi
      rw [if_neg hi]
      split at hg
      · rename_i hin
        rw [if_pos hin]
        split at hg
        · rename_i ho
          cases hg
          rw [if_pos ho]
          exact ⟨_, rfl, by same h⟩
        · rename_i ho
          rw [if_neg ho]
          split at hg
          · rename_i f nn hpop
            cases hg
            exact ⟨_, rfl, by same h⟩
          · cases hg
      · rename_i hin
        rw [if_neg hin]
        split at hg
        · rename_i hl
          cases hg
          rw [if_pos hl]
          exact ⟨_, rfl, h⟩
        · rename_i hl
          rw [if_neg hl]
          split at hg
          · rename_i f nn hpop
            split at hg
            · rename_i hub
              cases hg
              rw [if_pos hub]
              exact ⟨_, rfl, by same h⟩
            · rename_i hub
              rw [if_neg hub]
              split at hg
              · rename_i hlt
                cases hg
                rw [if_pos (by rw [h.many]; rw [h.few] at hlt; omega)]
                exact ⟨_, rfl, by same h⟩
              · cases hg
          · cases hg

theorem item_cell {c c1 : Crit σ cfg.fr.F} {i : Nat} {intr : Bool} {n : SubProblem σ} (hg : getWorkload cfg c i intr = some (c1, .item n)) : i < c.upperBounds.length := by
  unfold getWorkload at hg
  split at hg
  · cases hg
  · split at hg
    · cases hg
    · split at hg
      · split at hg
        · cases hg
        · split at hg <;> cases hg
      · split at hg
        · cases hg
        · split at hg
          · split at hg
            · cases hg
            · split at hg
              · assumption
              · cases hg
          · cases hg

theorem SameT.put {s s' : Torn (Sys σ cfg.fr.F)} (h : SameT s s') {i : Nat} (hi : i ∉ s.dead) {t' : Thread σ} (hb : cfg.custom ≤ i → Pc.busy t'.pc = false) {c c' : Crit σ cfg.fr.F}
    (hc : SameC cfg c c') : SameT (cfg := cfg) ⟨⟨c, s.sys.threads.set i t'⟩, s.dead⟩ ⟨⟨c', s'.sys.threads.set i t'⟩, s'.dead⟩ := by
  refine ⟨hc, h.dead, ?_, ?_, ?_, ?_, ?_⟩
  · simp only [List.length_set]; exact h.len
  · simp only [List.length_set]; exact h.nb
  · intro j hj
    simp only [List.getElem?_set, h.len]
    split
    · rfl
    · exact h.live j hj
  · intro j hj t ht
    simp only at ht
    rw [List.getElem?_set_ne (fun e : i = j => hi (e ▸ hj))] at ht
    exact h.gone j hj t ht
  · intro j hj t ht
    simp only at ht
    by_cases e : i = j
    · subst e
      rw [List.getElem?_set] at ht
      simp only [if_true] at ht
      split at ht
      · cases ht; exact hb hj
      · cases ht
    · rw [List.getElem?_set_ne e] at ht
      exact h.idle j hj t ht

theorem stray_step {s s' : Torn (Sys σ cfg.fr.F)} (h : SameT s s') {l : Lbl σ} (hl : l.who ∉ s.dead) {x : Sys σ cfg.fr.F} (hs : step cfg s.sys l = .ok x) :
    ∃ x', step (roomy cfg) s'.sys l = .ok x' ∧ SameT (cfg := cfg) ⟨x, s.dead⟩ ⟨x', s'.dead⟩ := by
  cases l with
  | spurious i =>
    have e := h.live i hl
    simp only [step] at hs ⊢
    rw [e]
    split at hs
    · rename_i t ht
      split at hs
      · rename_i hp
        cases hs
        exact ⟨_, rfl, h.put hl (fun _ => rfl) h.crit⟩
      · cases hs
    · cases hs
  | run i intr o =>
    have e := h.live i hl
    simp only [step] at hs ⊢
    rw [e]
    split at hs
    · cases hs
    rename_i t ht
    simp only [stepThread] at hs ⊢
    have hbusy : Pc.busy t.pc = true → cfg.custom ≤ i → False := fun hb hc => by
      have := h.idle i hc t ht
      rw [hb] at this; cases this
    split at hs
    · cases hs
    · cases hs
    · rename_i hp
      cases hg : getWorkload cfg s.sys.crit i intr with
      | none => rw [hg] at hs; cases hs
      | some r =>
        obtain ⟨c1, w⟩ := r
        rw [hg] at hs
        obtain ⟨c1', hg', hc⟩ := stray_getWorkload h.crit hg
        rw [hg']
        cases w with
        | complete => cases hs; exact ⟨_, rfl, h.put hl (fun _ => rfl) hc⟩
        | interruption => cases hs; exact ⟨_, rfl, h.put hl (fun _ => rfl) hc⟩
        | starvation => cases hs; exact ⟨_, rfl, h.put hl (fun _ => by rw [hp]; rfl) hc⟩
        | wait => cases hs; exact ⟨_, rfl, h.put hl (fun _ => rfl) hc⟩
        | item n =>
          cases hs
          have := item_cell hg
          rw [h.crit.few] at this
          exact ⟨_, rfl, h.put hl (fun hc => by change cfg.custom ≤ i at hc; omega) hc⟩
    · rename_i n hp
      simp only [h.crit.bestLb]
      have hno := hbusy (by rw [hp]; rfl)
      split at hs
      · rename_i hb; cases hs; rw [if_pos hb]; exact ⟨_, rfl, h.put hl (fun hc => (hno hc).elim) h.crit⟩
      · rename_i hb; cases hs; rw [if_neg hb]; exact ⟨_, rfl, h.put hl (fun hc => (hno hc).elim) h.crit⟩
    · rename_i n lb hp
      have hno := hbusy (by rw [hp]; rfl)
      split at hs
      · cases hs
      · rename_i D hD
        cases hs
        have hD' : t.mdd.compile .all o (roomy cfg).p (roomy cfg).r (roomy cfg).rank Reads.none (input (roomy cfg) .restricted n lb) = some D := hD
        rw [hD']
        exact ⟨_, rfl, h.put hl (fun hc => (hno hc).elim) (sameC_best h.crit D)⟩
    · rename_i n dd hp
      simp only [h.crit.bestLb]
      have hno := hbusy (by rw [hp]; rfl)
      cases hs
      exact ⟨_, rfl, h.put hl (fun hc => (hno hc).elim) h.crit⟩
    · rename_i n lb dd hp
      have hno := hbusy (by rw [hp]; rfl)
      split at hs
      · cases hs
      · rename_i D hD
        have hD' : t.mdd.compile .all o (roomy cfg).p (roomy cfg).r (roomy cfg).rank Reads.none (input (roomy cfg) .relaxed n lb) = some D := hD
        rw [hD']
        simp only
        split at hs
        · rename_i hx
          cases hs
          rw [if_pos hx]
          exact ⟨_, rfl, h.put hl (fun hc => (hno hc).elim) (sameC_best h.crit D)⟩
        · rename_i hx
          rw [if_neg hx]
          unfold enqueueCutset at hs ⊢
          rw [pushCutset_roomy, h.crit.bestLb, h.crit.fringe]
          cases hpc : pushCutset cfg s.sys.crit.bestLb n.ub s.sys.crit.fringe D.drainCutset with
          | none => rw [hpc] at hs; cases hs
          | some f =>
            rw [hpc] at hs
            cases hs
            have hh := h.crit
            exact ⟨_, rfl, h.put hl (fun hc => (hno hc).elim) (by same hh)⟩
    · rename_i dd hp
      have hno := hbusy (by rw [hp]; rfl)
      split at hs
      · cases hs
      · rename_i hc
        cases hs
        have hlt : i < cfg.custom := by
          rw [h.crit.few] at hc
          exact Nat.lt_of_not_le fun hge => hno hge
        rw [if_neg (by rw [h.crit.ongoing, h.crit.many]; rw [h.crit.few] at hc; intro hh; rcases hh with hh | hh
                       · exact hc (Or.inl hh)
                       · omega)]
        have hh := h.crit
        have key := h.put (i := i) hl (t' := { t with pc := .idle }) (fun _ => rfl) h.crit
        refine ⟨_, rfl, ⟨?_, h.dead, ?_, ?_, ?_, ?_, ?_⟩⟩
        · constructor
          · exact hh.fringe
          · simp only [hh.ongoing]
          · exact hh.explored
          · simp only [hh.exploredDd]
          · exact hh.bestLb
          · exact hh.bestSol
          · exact hh.interrupted
          · simp only [List.length_set]; exact hh.few
          · simp only [List.length_set]; exact hh.many
        · simp only [List.length_map]; exact key.len
        · simp only [List.length_map]; exact key.nb
        · intro j hj
          have := key.live j hj
          simp only at this
          simp only [List.getElem?_map, this]
        · intro j hj u hu
          simp only [List.getElem?_map] at hu
          obtain ⟨w, hw, rfl⟩ := Option.map_eq_some_iff.1 hu
          obtain ⟨a, b⟩ := key.gone j hj w hw
          unfold wake
          split
          · rename_i e; exact absurd e b
          · exact ⟨a, b⟩
        · intro j hj u hu
          simp only [List.getElem?_map] at hu
          obtain ⟨w, hw, rfl⟩ := Option.map_eq_some_iff.1 hu
          have := key.idle j hj w hw
          unfold wake
          split
          · rfl
          · exact this

theorem stray_crash {s s' x : Torn (Sys σ cfg.fr.F)} (h : SameT s s') {i : Nat} (hs : tornStep cfg s (.crash i) = some x) :
    ∃ x', tornStep (roomy cfg) s' (.crash i) = some x' ∧ SameT (cfg := cfg) x x' := by
  simp only [tornStep] at hs ⊢
  split at hs
  · cases hs
  · rename_i hl
    rw [h.dead, if_neg hl, h.live i hl]
    split at hs
    · rename_i t ht
      split at hs
      · rename_i hc
        cases hs
        simp only [hc, if_true]
        refine ⟨_, rfl, ⟨h.crit, rfl, h.len, h.nb, ?_, ?_, h.idle⟩⟩
        · intro j hj
          exact h.live j fun hm => hj (List.mem_cons_of_mem _ hm)
        · intro j hj u hu
          rcases List.mem_cons.1 hj with rfl | hj
          · rw [ht] at hu; cases hu
            have := compiling_busy hc
            constructor <;> intro e <;> rw [e] at this <;> cases this
          · exact h.gone j hj u hu
      · cases hs
    · cases hs

/-- A worker that panics because it has no cell does what a worker with a cell does that takes this node, and panics when it is about to compile. -/
theorem stray_same {s s' x : Torn (Sys σ cfg.fr.F)} (h : SameT s s') {i : Nat} (hs : strayStep cfg s i = some x) :
    ∃ x', tornRuns (roomy cfg) s' [.step (.run i false Inst.orc), .step (.run i false Inst.orc), .crash i] = some x' ∧ SameT (cfg := cfg) x x' := by
  unfold strayStep at hs
  split at hs
  · cases hs
  rename_i hl
  split at hs
  · cases hs
  rename_i t ht
  split at hs
  · rename_i hp
    simp only at hs
    split at hs
    · cases hs
    rename_i hno
    simp only [not_or] at hno
    obtain ⟨n1, n2, n3, n4⟩ := hno
    split at hs
    · rename_i f nn hpop
      split at hs
      · cases hs
      rename_i hub
      cases hs
      have hlt : i < s.sys.threads.length := (List.getElem?_eq_some_iff.1 ht).1
      have ht' : s'.sys.threads[i]? = some t := (h.live i hl).trans ht
      have hl' : i ∉ s'.dead := by rw [h.dead]; exact hl
      have hg : getWorkload (roomy cfg) s'.sys.crit i false =
          some ({ s'.sys.crit with fringe := f, ongoing := s.sys.crit.ongoing + 1, explored := s.sys.crit.explored + 1, upperBounds := s'.sys.crit.upperBounds.set i nn.ub }, .item nn) := by
        have hlen : i < s'.sys.crit.upperBounds.length := by rw [h.crit.many, ← h.nb]; omega
        unfold getWorkload
        rw [h.crit.ongoing, h.crit.fringe, h.crit.interrupted, h.crit.bestLb, h.crit.explored, if_neg n1, if_neg n2, if_neg (by simp), if_neg n3, hpop]
        simp only [hub, hlen, if_true, if_false, h.crit.bestLb, h.crit.interrupted]
      have e1 : step (roomy cfg) s'.sys (.run i false Inst.orc) =
          .ok ⟨{ s'.sys.crit with fringe := f, ongoing := s.sys.crit.ongoing + 1, explored := s.sys.crit.explored + 1, upperBounds := s'.sys.crit.upperBounds.set i nn.ub },
            s'.sys.threads.set i { t with pc := .start nn }⟩ := by
        simp only [step, ht', stepThread, hp, hg]
      have hlt' : i < s'.sys.threads.length := by rw [h.len]; exact hlt
      have e2 : step (roomy cfg) ⟨{ s'.sys.crit with fringe := f, ongoing := s.sys.crit.ongoing + 1, explored := s.sys.crit.explored + 1, upperBounds := s'.sys.crit.upperBounds.set i nn.ub },
            s'.sys.threads.set i { t with pc := .start nn }⟩ (.run i false Inst.orc) =
          .ok ⟨{ s'.sys.crit with fringe := f, ongoing := s.sys.crit.ongoing + 1, explored := s.sys.crit.explored + 1, upperBounds := s'.sys.crit.upperBounds.set i nn.ub },
            (s'.sys.threads.set i { t with pc := .start nn }).set i { t with pc := .restr nn s.sys.crit.bestLb }⟩ := by
        simp only [step, List.getElem?_set_self hlt', stepThread, h.crit.bestLb]
        rw [if_neg hub]
      refine ⟨⟨⟨{ s'.sys.crit with fringe := f, ongoing := s.sys.crit.ongoing + 1, explored := s.sys.crit.explored + 1, upperBounds := s'.sys.crit.upperBounds.set i nn.ub },
            (s'.sys.threads.set i { t with pc := .start nn }).set i { t with pc := .restr nn s.sys.crit.bestLb }⟩, i :: s'.dead⟩, ?_, ?_⟩
      · simp only [tornRuns, tornStep, Lbl.who, if_neg hl', e1, e2, Option.bind_some]
        rw [List.getElem?_set_self (by simpa using hlt')]
        rfl
      · have hh := h.crit
        refine ⟨⟨rfl, rfl, rfl, hh.exploredDd, hh.bestLb, hh.bestSol, hh.interrupted, hh.few, ?_⟩, ?_, ?_, h.nb, ?_, ?_, h.idle⟩
        · simp only [List.length_set]; exact hh.many
        · simp only [h.dead]
        · simp only [List.length_set]; exact h.len
        · intro j hj
          have hne : i ≠ j := fun e => hj (e ▸ List.mem_cons_self)
          simp only
          rw [List.getElem?_set_ne hne, List.getElem?_set_ne hne]
          exact h.live j fun hm => hj (List.mem_cons_of_mem _ hm)
        · intro j hj u hu
          rcases List.mem_cons.1 hj with rfl | hj
          · simp only at hu
            rw [ht] at hu; cases hu
            rw [hp]
            exact ⟨by simp, by simp⟩
          · exact h.gone j hj u hu
    · cases hs
  · cases hs

theorem tornRuns_append (ls ks : List (Fate (Lbl σ))) : ∀ {s : Torn (Sys σ cfg.fr.F)}, tornRuns cfg s (ls ++ ks) = (tornRuns cfg s ls).bind fun s => tornRuns cfg s ks := by
  induction ls with
  | nil => intro s; rfl
  | cons l ls ih =>
    intro s
    simp only [List.cons_append, tornRuns]
    cases tornStep cfg s l with
    | none => rfl
    | some s1 => simp only [Option.bind_some]; exact ih

/-- The labels that a run with cells uses: those of the run without, or steps that nothing interrupts. -/
theorem stray_runs (ls : List (Fate (Lbl σ))) : ∀ {s s' x : Torn (Sys σ cfg.fr.F)}, SameT s s' → fallRuns cfg s ls = some x →
    ∃ ks x', tornRuns (roomy cfg) s' ks = some x' ∧ SameT (cfg := cfg) x x' ∧ ∀ l, Fate.step l ∈ ks → Fate.step l ∈ ls ∨ ∃ i, l = .run i false Inst.orc := by
  induction ls with
  | nil => intro s s' x h hs; cases hs; exact ⟨[], _, rfl, h, by simp⟩
  | cons f ls ih =>
    intro s s' x h hs
    simp only [fallRuns] at hs
    cases h1 : fallStep cfg s f with
    | none => rw [h1] at hs; cases hs
    | some s1 =>
      rw [h1] at hs
      simp only [Option.bind_some] at hs
      have key : ∃ ks s1', tornRuns (roomy cfg) s' ks = some s1' ∧ SameT (cfg := cfg) s1 s1' ∧ ∀ l, Fate.step l ∈ ks → Fate.step l = f ∨ ∃ i, l = .run i false Inst.orc := by
        cases f with
        | step l =>
          simp only [fallStep, tornStep] at h1
          split at h1
          · cases h1
          rename_i hl
          cases hx : step cfg s.sys l with
          | ok y =>
            rw [hx] at h1; cases h1
            obtain ⟨y', e, hy⟩ := stray_step h hl hx
            refine ⟨[.step l], _, ?_, hy, ?_⟩
            · simp only [tornRuns, tornStep, e]
              rw [if_neg (by rw [h.dead]; exact hl)]
              rfl
            · intro k hk
              rw [List.mem_singleton.1 hk]; exact Or.inl rfl
          | blocked => rw [hx] at h1; cases h1
          | panic => rw [hx] at h1; cases h1
        | crash i =>
          simp only [fallStep] at h1
          split at h1
          · rename_i y hy
            cases h1
            obtain ⟨y', e, hy'⟩ := stray_crash h hy
            refine ⟨[.crash i], y', ?_, hy', ?_⟩
            · simp only [tornRuns, e]; rfl
            · intro k hk; cases List.mem_singleton.1 hk
          · obtain ⟨y', e, hy'⟩ := stray_same h h1
            refine ⟨_, y', e, hy', ?_⟩
            intro k hk
            simp only [List.mem_cons, List.not_mem_nil, or_false, Fate.step.injEq, reduceCtorEq, or_self] at hk
            exact Or.inr ⟨i, hk⟩
      obtain ⟨ks, s1', e1, g1, k1⟩ := key
      obtain ⟨ks', x', e2, g2, k2⟩ := ih g1 hs
      refine ⟨ks ++ ks', x', ?_, g2, ?_⟩
      · rw [tornRuns_append, e1]; exact e2
      · intro l hl
        rcases List.mem_append.1 hl with hl | hl
        · rcases k1 l hl with e | e
          · exact Or.inl (e ▸ List.mem_cons_self)
          · exact Or.inr e
        · rcases k2 l hl with e | e
          · exact Or.inl (List.mem_cons_of_mem _ e)
          · exact Or.inr e

theorem stray_init {s0 : Sys σ cfg.fr.F} (h : Par.init cfg = some s0) : ∃ s0', Par.init (roomy cfg) = some s0' ∧ SameT (cfg := cfg) ⟨s0, []⟩ ⟨s0', []⟩ := by
  unfold Par.init at h ⊢
  split at h
  · cases h
  · rename_i f hf
    cases h
    have hf' : (roomy cfg).fr.push (roomy cfg).fr.new (rootNode (roomy cfg)) = some f := hf
    rw [hf']
    refine ⟨_, rfl, ⟨⟨rfl, rfl, rfl, rfl, rfl, rfl, rfl, ?_, ?_⟩, rfl, rfl, ?_, fun _ _ => rfl, ?_, ?_⟩⟩
    · simp
    · simp
    · simp
    · intro i hi; cases hi
    · intro i _ t ht
      have := List.eq_of_mem_replicate (List.mem_of_getElem? ht)
      rw [this]; rfl

theorem fall_torn {s : Torn (Sys σ cfg.fr.F)} (h : FallReachable cfg s) : ∃ s', TornReachable (roomy cfg) s' ∧ SameT (cfg := cfg) s s' := by
  obtain ⟨s0, ls, h1, h2, h3⟩ := h
  obtain ⟨s0', g1, g2⟩ := stray_init h1
  obtain ⟨ks, x', e1, e2, e3⟩ := stray_runs ls g2 h3
  refine ⟨x', ⟨s0', ks, g1, ?_, e1⟩, e2⟩
  intro l hl
  rcases e3 l hl with e | ⟨i, rfl⟩
  · exact h2 l e
  · exact Inst.orc_valid

theorem fall_torn_max {s : Torn (Sys σ cfg.fr.F)} (h : FallReachableMax cfg s) : ∃ s', TornReachableMax (roomy cfg) s' ∧ SameT (cfg := cfg) s s' := by
  obtain ⟨s0, ls, h1, h2, h4, h3⟩ := h
  obtain ⟨s0', g1, g2⟩ := stray_init h1
  obtain ⟨ks, x', e1, e2, e3⟩ := stray_runs ls g2 h3
  refine ⟨x', ⟨s0', ks, g1, ?_, ?_, e1⟩, e2⟩
  · intro l hl
    rcases e3 l hl with e | ⟨i, rfl⟩
    · exact h2 l e
    · exact Inst.orc_valid
  · intro i intr o hl
    rcases e3 _ hl with e | ⟨j, e⟩
    · exact h4 i intr o e
    · cases e; rfl

/-- What a worker with a cell for everybody can do it can do here, unless it panics because it has no cell. -/
theorem step_back {s s' : Torn (Sys σ cfg.fr.F)} (h : SameT s s') {i : Nat} {o : Oracle σ} (hl : i ∉ s.dead) {x' : Sys σ cfg.fr.F} (hs : step (roomy cfg) s'.sys (.run i false o) = .ok x') :
    (∃ x, step cfg s.sys (.run i false o) = .ok x) ∨ ∃ x, strayStep cfg s i = some x := by
  have e := h.live i hl
  simp only [step] at hs ⊢
  rw [e] at hs
  cases ht : s.sys.threads[i]? with
  | none => rw [ht] at hs; cases hs
  | some t =>
    rw [ht] at hs
    simp only [stepThread] at hs ⊢
    have hbusy : Pc.busy t.pc = true → i < cfg.custom := fun hb => Nat.lt_of_not_le fun hc => by
      have := h.idle i hc t ht
      rw [hb] at this; cases this
    split at hs
    · cases hs
    · cases hs
    · rename_i hp
      unfold getWorkload at hs ⊢
      rw [h.crit.ongoing, h.crit.fringe, h.crit.interrupted, h.crit.bestLb] at hs
      by_cases n1 : s.sys.crit.ongoing = 0 ∧ cfg.fr.len s.sys.crit.fringe = 0
      · rw [if_pos n1]; exact Or.inl ⟨_, rfl⟩
      rw [if_neg n1] at hs ⊢
      by_cases n2 : s.sys.crit.interrupted = true
      · rw [if_pos n2]; exact Or.inl ⟨_, rfl⟩
      rw [if_neg n2, if_neg (by simp)] at hs
      rw [if_neg n2, if_neg (by simp)]
      by_cases n3 : cfg.fr.len s.sys.crit.fringe = 0
      · rw [if_pos n3]; exact Or.inl ⟨_, rfl⟩
      rw [if_neg n3] at hs ⊢
      cases hpop : cfg.fr.pop s.sys.crit.fringe with
      | none => rw [hpop] at hs; cases hs
      | some r =>
        obtain ⟨f, o⟩ := r
        cases o with
        | none => rw [hpop] at hs; cases hs
        | some nn =>
          simp only
          by_cases hub : nn.ub ≤ s.sys.crit.bestLb
          · rw [if_pos hub]; exact Or.inl ⟨_, rfl⟩
          rw [if_neg hub]
          by_cases hc : i < s.sys.crit.upperBounds.length
          · rw [if_pos hc]; exact Or.inl ⟨_, rfl⟩
          right
          unfold strayStep
          rw [if_neg hl, ht]
          simp only [hp]
          rw [if_neg (by simp only [not_or]; exact ⟨n1, n2, n3, hc⟩), hpop]
          simp only
          rw [if_neg hub]
          exact ⟨_, rfl⟩
    · rename_i n hp
      left
      split <;> exact ⟨_, rfl⟩
    · rename_i n lb hp
      left
      split at hs
      · cases hs
      · rename_i D hD
        have hD' : t.mdd.compile .all o cfg.p cfg.r cfg.rank Reads.none (input cfg .restricted n lb) = some D := hD
        rw [hD']
        exact ⟨_, rfl⟩
    · exact Or.inl ⟨_, rfl⟩
    · rename_i n lb dd hp
      left
      split at hs
      · cases hs
      · rename_i D hD
        have hD' : t.mdd.compile .all o cfg.p cfg.r cfg.rank Reads.none (input cfg .relaxed n lb) = some D := hD
        rw [hD']
        simp only
        split
        · exact ⟨_, rfl⟩
        · rename_i hx
          rw [if_neg hx] at hs
          unfold enqueueCutset at hs ⊢
          rw [pushCutset_roomy, h.crit.bestLb, h.crit.fringe] at hs
          cases hpc : pushCutset cfg s.sys.crit.bestLb n.ub s.sys.crit.fringe D.drainCutset with
          | none => rw [hpc] at hs; cases hs
          | some f => exact ⟨_, rfl⟩
    · rename_i dd hp
      left
      have hlt := hbusy (by rw [hp]; rfl)
      split at hs
      · cases hs
      · rename_i hc
        rw [if_neg (by rw [h.crit.ongoing] at hc; rw [h.crit.few]; intro hh; rcases hh with hh | hh
                       · exact hc (Or.inl hh)
                       · omega)]
        exact ⟨_, rfl⟩

end Verif.Par
