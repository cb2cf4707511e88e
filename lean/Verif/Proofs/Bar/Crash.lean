import Verif.Spec.Crash
import Verif.Proofs.Bar.Trans
import Mathlib.Data.List.Perm.Subperm
/-! Runs in which workers panic. -/
set_option autoImplicit false

namespace Verif.Bar
open Verif Spec
variable {σ : Type} [DecidableEq σ] [Inhabited σ] {cfg : SolverCfg σ}

/-- The counter of nodes in process is right but for `k` nodes that were lost, and a worker has left its loop only if nothing was left to do. -/
structure Bal (k : Nat) (s : BSys σ cfg.fr.F) : Prop where
  ong : s.crit.ongoing = busyCount s.threads + k
  int : s.crit.interrupted = false
  done : (∃ t ∈ s.threads, t.pc = .done) → s.crit.ongoing = 0 ∧ cfg.fr.len s.crit.fringe = 0

theorem busyCount_pos {ts : List (BThread σ)} {t : BThread σ} (h : t ∈ ts) (hb : (heldDepth t).isSome = true) : 0 < busyCount ts :=
  List.countP_pos_iff.2 ⟨t, h, hb⟩

theorem busyCount_set {ts : List (BThread σ)} {i : Nat} {t : BThread σ} (h : ts[i]? = some t) (t' : BThread σ) :
    busyCount (ts.set i t') + (if (heldDepth t).isSome then 1 else 0) = busyCount ts + (if (heldDepth t').isSome then 1 else 0) := by
  obtain ⟨l1, l2, h1, _, h3⟩ := Par.split_at h
  rw [h3, h1, busyCount_split, busyCount_split]; omega

theorem Bal.mid {k : Nat} {s : BSys σ cfg.fr.F} (h : Bal k s) {i : Nat} {t t' : BThread σ} (ht : s.threads[i]? = some t) (hb : (heldDepth t).isSome = true) (hb' : (heldDepth t').isSome = true)
    {c : BCrit σ cfg.fr.F} {b : Bars σ} (ho : c.ongoing = s.crit.ongoing) (hi : c.interrupted = s.crit.interrupted) : Bal (cfg := cfg) k { crit := c, bars := b, threads := s.threads.set i t' } := by
  have h1 := busyCount_set ht t'
  rw [hb, hb'] at h1
  have h2 := busyCount_pos (List.mem_of_getElem? ht) hb
  have h3 := h.ong
  refine ⟨?_, hi.trans h.int, ?_⟩
  · show c.ongoing = busyCount (s.threads.set i t') + k; omega
  · rintro ⟨x, hx, hd⟩
    rcases List.mem_or_eq_of_mem_set hx with hx | rfl
    · have := (h.done ⟨x, hx, hd⟩).1
      omega
    · unfold heldDepth at hb'; rw [hd] at hb'; cases hb'

theorem Bal.idle {k : Nat} {s : BSys σ cfg.fr.F} (h : Bal k s) (hd : ¬ ∃ t ∈ s.threads, t.pc = .done) {i : Nat} {t t' : BThread σ} (ht : s.threads[i]? = some t) (hp : t.pc = .idle)
    (hp' : t'.pc ≠ .done) {c : BCrit σ cfg.fr.F} {b : Bars σ} (ho : c.ongoing = s.crit.ongoing + if (heldDepth t').isSome then 1 else 0) (hi : c.interrupted = s.crit.interrupted) :
    Bal (cfg := cfg) k { crit := c, bars := b, threads := s.threads.set i t' } := by
  have h1 := busyCount_set ht t'
  have e : (heldDepth t).isSome = false := by unfold heldDepth; rw [hp]; rfl
  rw [e] at h1
  have h3 := h.ong
  refine ⟨?_, hi.trans h.int, ?_⟩
  · show c.ongoing = busyCount (s.threads.set i t') + k
    simp only [Bool.false_eq_true, if_false] at h1
    omega
  · rintro ⟨x, hx, hx'⟩
    rcases List.mem_or_eq_of_mem_set hx with hx | rfl
    · exact absurd ⟨x, hx, hx'⟩ hd
    · exact absurd hx' hp'

theorem cleanup_same (fuel : Nat) : ∀ {c c' : BCrit σ cfg.fr.F} {b b' : Bars σ}, cleanup cfg fuel c b = some (c', b') →
    c'.ongoing = c.ongoing ∧ c'.interrupted = c.interrupted ∧ c'.fringe = c.fringe := by
  induction fuel with
  | zero => intro c c' b b' h; cases h
  | succ fuel ih =>
    intro c c' b b' h
    unfold cleanup at h
    split at h
    · split at h
      · split at h
        · split at h
          · cases h
          · have := ih h; exact this
        · cases h; exact ⟨rfl, rfl, rfl⟩
      · cases h
    · cases h; exact ⟨rfl, rfl, rfl⟩

theorem popLoop_kind (i : Nat) (v : Option (View σ)) (fuel : Nat) : ∀ {c c' : BCrit σ cfg.fr.F} {b b' : Bars σ} {w : WorkLoad σ}, popLoop cfg i v fuel c b = some (c', b', w) →
    c'.interrupted = c.interrupted ∧ ((w = .starvation ∧ c'.ongoing = c.ongoing) ∨ ∃ n, w = .item n ∧ c'.ongoing = c.ongoing + 1) := by
  induction fuel with
  | zero => intro c c' b b' w h; cases h
  | succ fuel ih =>
    intro c c' b b' w h
    unfold popLoop at h
    split at h
    · split at h
      · cases h; exact ⟨rfl, Or.inl ⟨rfl, rfl⟩⟩
      · split at h
        · split at h
          · cases h
          · split at h
            · split at h
              · split at h
                · cases h; exact ⟨rfl, Or.inr ⟨_, rfl, rfl⟩⟩
                · cases h
              · cases h
            · split at h
              · cases h; exact ⟨rfl, Or.inl ⟨rfl, rfl⟩⟩
              · have := ih h; exact this
        · cases h
    · cases h

theorem pushCutset_same (ub : Int) (l : List (SubProblem σ)) : ∀ {c c' : BCrit σ cfg.fr.F}, pushCutset cfg ub c l = some c' →
    c'.ongoing = c.ongoing ∧ c'.interrupted = c.interrupted := by
  induction l with
  | nil => intro c c' h; cases h; exact ⟨rfl, rfl⟩
  | cons n l ih =>
    intro c c' h
    unfold pushCutset at h
    simp only at h
    split at h
    · split at h
      · have := ih h; exact this
      · cases h
    · exact ih h

theorem maybe_same (c : BCrit σ cfg.fr.F) (D : Dd σ) : (maybeUpdateBest cfg c D).ongoing = c.ongoing ∧ (maybeUpdateBest cfg c D).interrupted = c.interrupted := by
  unfold maybeUpdateBest; simp only; split <;> exact ⟨rfl, rfl⟩

theorem bal_step {k : Nat} {s s' : BSys σ cfg.fr.F} (h : Bal k s) {l : BLbl σ} (hl : ∀ i intr o v, l = .run i intr o v → intr = false) (hs : step cfg s l = .ok s') : Bal k s' := by
  cases l with
  | spurious i =>
    simp only [step] at hs
    split at hs
    · rename_i t ht
      split at hs
      · rename_i hp
        cases hs
        have h1 := busyCount_set ht { t with pc := .idle }
        have e : (heldDepth t).isSome = false := by unfold heldDepth; rw [hp]; rfl
        rw [e] at h1
        refine ⟨h.ong.trans ?_, h.int, ?_⟩
        · simp only [heldDepth, Option.isSome_none, Bool.false_eq_true, if_false, Nat.add_zero] at h1; rw [h1]
        · rintro ⟨x, hx, hd⟩
          rcases List.mem_or_eq_of_mem_set hx with hx | rfl
          · exact h.done ⟨x, hx, hd⟩
          · cases hd
      · cases hs
    · cases hs
  | run i intr o v =>
    obtain rfl := hl i intr o v rfl
    simp only [step] at hs
    split at hs
    · cases hs
    rename_i t ht
    simp only [stepThread] at hs
    have hbz : ∀ {pc : BPc σ}, t.pc = pc → heldDepth t = heldDepth ⟨pc, t.mdd⟩ := fun e => by unfold heldDepth; rw [e]
    split at hs
    · cases hs
    · cases hs
    · rename_i hp
      have hnd : ¬ (s.crit.ongoing = 0 ∧ cfg.fr.len s.crit.fringe = 0) → ¬ ∃ t ∈ s.threads, t.pc = .done := fun hc hd => hc (h.done hd)
      unfold getWorkload at hs
      cases hcl : cleanup cfg (cfg.p.nbVars + 1) s.crit s.bars with
      | none => rw [hcl] at hs; cases hs
      | some r =>
        obtain ⟨c, b⟩ := r
        rw [hcl] at hs
        obtain ⟨e1, e2, e3⟩ := cleanup_same _ hcl
        simp only at hs
        rw [e1, e2, e3, h.int] at hs
        by_cases hc : s.crit.ongoing = 0 ∧ cfg.fr.len s.crit.fringe = 0
        · rw [if_pos hc] at hs
          cases hs
          have h1 := busyCount_set ht { t with pc := .done }
          rw [hbz hp] at h1
          refine ⟨h.ong.trans ?_, rfl, fun _ => hc⟩
          simp only [heldDepth, Option.isSome_none, Bool.false_eq_true, if_false, Nat.add_zero] at h1; rw [h1]
        · rw [if_neg hc, if_neg (by decide), if_neg (by decide)] at hs
          by_cases hl : cfg.fr.len s.crit.fringe = 0
          · rw [if_pos hl] at hs
            cases hs
            exact h.idle (hnd hc) ht hp (by simp) (by simp [heldDepth, e1]) e2
          · rw [if_neg hl] at hs
            cases hpop : popLoop cfg i v (cfg.fr.len s.crit.fringe) c b with
            | none => rw [hpop] at hs; cases hs
            | some r =>
              obtain ⟨c', b', w⟩ := r
              rw [hpop] at hs
              obtain ⟨g1, ⟨rfl, g2⟩ | ⟨n, rfl, g2⟩⟩ := popLoop_kind _ _ _ hpop
              · cases hs
                refine h.idle (hnd hc) ht hp (by rw [hp]; simp) ?_ (g1.trans e2)
                rw [hbz hp]; simp [heldDepth, g2, e1]
              · cases hs
                exact h.idle (hnd hc) ht hp (by simp) (by simp [heldDepth, g2, e1]) (g1.trans e2)
    · rename_i n hp
      split at hs <;> cases hs <;> exact h.mid ht (by rw [hbz hp]; rfl) rfl rfl rfl
    · rename_i n lb hp
      split at hs
      · cases hs
      · split at hs
        · cases hs
        · cases hs
          refine h.mid ht (by rw [hbz hp]; rfl) ?_ (maybe_same _ _).1 (maybe_same _ _).2
          unfold heldDepth; simp only; split <;> first | rfl | (rename_i hh; split at hh <;> cases hh)
    · rename_i n dd hp
      cases hs
      exact h.mid ht (by rw [hbz hp]; rfl) rfl rfl rfl
    · rename_i n lb dd hp
      split at hs
      · cases hs
      · split at hs
        · cases hs
        · cases hs
          exact h.mid ht (by rw [hbz hp]; rfl) rfl rfl rfl
    · rename_i n dd hp
      split at hs
      · cases hs
        exact h.mid ht (by rw [hbz hp]; rfl) rfl (maybe_same _ _).1 (maybe_same _ _).2
      · split at hs
        · cases hs
        · rename_i c hc
          cases hs
          obtain ⟨g1, g2⟩ := pushCutset_same _ _ hc
          exact h.mid ht (by rw [hbz hp]; rfl) rfl g1 g2
    · rename_i depth dd hp
      split at hs
      · cases hs
      · split at hs
        · cases hs
        · cases hs
          have h1 := busyCount_set ht { t with pc := .idle }
          rw [hbz hp] at h1
          have h2 := busyCount_pos (List.mem_of_getElem? ht) (by rw [hbz hp]; rfl)
          have h3 := h.ong
          refine ⟨?_, h.int, ?_⟩
          · simp only [busyCount_wake]
            simp only [heldDepth, Option.isSome_some, Option.isSome_none, if_true, Bool.false_eq_true, if_false] at h1
            omega
          · rintro ⟨x, hx, hd⟩
            obtain ⟨y, hy, rfl⟩ := List.mem_map.1 hx
            rcases List.mem_or_eq_of_mem_set hy with hy | rfl
            · have : y.pc = .done := by
                unfold wake at hd
                split at hd
                · cases hd
                · exact hd
              have := (h.done ⟨y, hy, this⟩).1
              omega
            · cases hd

/-- The workers that have panicked are workers, each counted once, and still hold their nodes. -/
structure Lost (s : Torn (BSys σ cfg.fr.F)) : Prop where
  nodup : s.dead.Nodup
  held : ∀ i ∈ s.dead, ∃ t, s.sys.threads[i]? = some t ∧ compiling t = true

theorem compiling_busy {t : BThread σ} (h : compiling t = true) : (heldDepth t).isSome = true := by
  obtain ⟨pc, m⟩ := t
  cases pc <;> first | rfl | cases h

theorem step_keeps {s s' : BSys σ cfg.fr.F} {l : BLbl σ} (hs : step cfg s l = .ok s') {j : Nat} (hj : j ≠ l.who) {t : BThread σ} (ht : s.threads[j]? = some t) (hw : wake t = t) :
    s'.threads[j]? = some t := by
  have key : ∀ t' : BThread σ, (s.threads.set l.who t')[j]? = some t := fun t' => by rw [List.getElem?_set_ne (Ne.symm hj)]; exact ht
  cases l with
  | spurious i =>
    simp only [step] at hs
    split at hs
    · split at hs
      · cases hs; exact key _
      · cases hs
    · cases hs
  | run i intr o v =>
    simp only [step] at hs
    split at hs
    · cases hs
    rename_i u hu
    simp only [stepThread] at hs
    split at hs
    · cases hs
    · cases hs
    · split at hs <;> first | cases hs; exact key _ | cases hs
    · split at hs <;> cases hs <;> exact key _
    · split at hs
      · cases hs
      · split at hs <;> cases hs; exact key _
    · cases hs; exact key _
    · split at hs
      · cases hs
      · split at hs <;> cases hs; exact key _
    · split at hs
      · cases hs; exact key _
      · split at hs <;> cases hs; exact key _
    · split at hs
      · cases hs
      · split at hs
        · cases hs
        · cases hs
          simp only [List.getElem?_map]
          rw [show (s.threads.set i _)[j]? = some t from key _]
          simp [hw]

theorem step_other {s s' : BSys σ cfg.fr.F} {l : BLbl σ} (hs : step cfg s l = .ok s') {j : Nat} (hj : j ≠ l.who) {t : BThread σ} (ht : s.threads[j]? = some t) (hc : compiling t = true) :
    s'.threads[j]? = some t := by
  refine step_keeps hs hj ht ?_
  unfold wake; split
  · rename_i hp; simp [compiling, hp] at hc
  · rfl

theorem lost_step {s s' : Torn (BSys σ cfg.fr.F)} (h : Lost s) {f : Fate (BLbl σ)} (hs : tornStep cfg s f = some s') : Lost s' := by
  cases f with
  | step l =>
    simp only [tornStep] at hs
    split at hs
    · cases hs
    · rename_i hw
      split at hs
      · rename_i x hx
        cases hs
        refine ⟨h.nodup, fun i hi => ?_⟩
        obtain ⟨t, h1, h2⟩ := h.held i hi
        exact ⟨t, step_other hx (fun e => hw (e ▸ hi)) h1 h2, h2⟩
      · cases hs
  | crash i =>
    simp only [tornStep] at hs
    split at hs
    · cases hs
    · rename_i hw
      split at hs
      · rename_i t ht
        split at hs
        · rename_i hc
          cases hs
          refine ⟨List.nodup_cons.2 ⟨hw, h.nodup⟩, fun j hj => ?_⟩
          rcases List.mem_cons.1 hj with rfl | hj
          · exact ⟨t, ht, hc⟩
          · exact h.held j hj
        · cases hs
      · cases hs

theorem torn_runs {P : Torn (BSys σ cfg.fr.F) → Prop} {Q : Fate (BLbl σ) → Prop} (hP : ∀ s f s', P s → Q f → tornStep cfg s f = some s' → P s') (ls : List (Fate (BLbl σ))) :
    ∀ {s s' : Torn (BSys σ cfg.fr.F)}, P s → (∀ f ∈ ls, Q f) → tornRuns cfg s ls = some s' → P s' := by
  induction ls with
  | nil => intro s s' h _ hs; cases hs; exact h
  | cons f ls ih =>
    intro s s' h hQ hs
    unfold tornRuns at hs
    obtain ⟨s1, h1, h2⟩ := Option.bind_eq_some_iff.1 hs
    exact ih (hP s f s1 h (hQ f (by simp)) h1) (fun g hg => hQ g (by simp [hg])) h2

theorem init_bal {s : BSys σ cfg.fr.F} (h : Bar.init cfg = some s) : Bal 0 s := by
  unfold Bar.init at h
  split at h
  · cases h
    refine ⟨?_, rfl, ?_⟩
    · show 0 = busyCount _
      unfold busyCount; symm; rw [List.countP_eq_zero]
      intro t ht
      rw [(List.mem_replicate.1 ht).2]; simp [heldDepth]
    · rintro ⟨t, ht, hd⟩
      rw [(List.mem_replicate.1 ht).2] at hd; cases hd
  · cases h

theorem Lost.length {s : Torn (BSys σ cfg.fr.F)} (h : Lost s) : s.dead.length ≤ s.sys.threads.length := by
  have h1 : ∀ i ∈ s.dead, i ∈ List.range s.sys.threads.length := fun i hi => by
    obtain ⟨t, ht, _⟩ := h.held i hi
    exact List.mem_range.2 (List.getElem?_eq_some_iff.1 ht).1
  simpa using (List.subperm_of_subset h.nodup h1).length_le

/-- Leaving out the panics, the run is a run in which the workers concerned are not scheduled any more. -/
theorem torn_sub (ls : List (Fate (BLbl σ))) : ∀ {s s' : Torn (BSys σ cfg.fr.F)}, tornRuns cfg s ls = some s' →
    ∃ ks, (∀ l ∈ ks, Fate.step l ∈ ls) ∧ runs cfg s.sys ks = .ok s'.sys := by
  induction ls with
  | nil => intro s s' h; cases h; exact ⟨[], by simp, rfl⟩
  | cons f ls ih =>
    intro s s' h
    unfold tornRuns at h
    obtain ⟨s1, h1, h2⟩ := Option.bind_eq_some_iff.1 h
    obtain ⟨ks, g1, g2⟩ := ih h2
    cases f with
    | step l =>
      simp only [tornStep] at h1
      split at h1
      · cases h1
      · split at h1
        · rename_i x hx
          cases h1
          refine ⟨l :: ks, ?_, ?_⟩
          · intro k hk
            rcases List.mem_cons.1 hk with rfl | hk
            · simp
            · simp [g1 k hk]
          · unfold runs; rw [hx]; exact g2
        · cases h1
    | crash i =>
      simp only [tornStep] at h1
      split at h1
      · cases h1
      · split at h1
        · split at h1
          · cases h1
            exact ⟨ks, fun k hk => by simp [g1 k hk], g2⟩
          · cases h1
        · cases h1

end Verif.Bar
