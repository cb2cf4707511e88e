import Verif.Spec.Crash
import Verif.Proofs.Par.Basic
import Mathlib.Data.List.Perm.Subperm
/-! Runs in which workers panic. -/
set_option autoImplicit false

namespace Verif.Par
open Verif Spec
variable {σ : Type} [DecidableEq σ] [Inhabited σ] {cfg : SolverCfg σ}

/-- The counter of nodes in process is right, and a worker has left its loop only if nothing was left to do. -/
structure Bal (s : Sys σ cfg.fr.F) : Prop where
  ong : s.crit.ongoing = busyCount s.threads
  int : s.crit.interrupted = false
  done : (∃ t ∈ s.threads, t.pc = .done) → s.crit.ongoing = 0 ∧ cfg.fr.len s.crit.fringe = 0

theorem busyCount_pos {ts : List (Thread σ)} {t : Thread σ} (h : t ∈ ts) (hb : Pc.busy t.pc = true) : 0 < busyCount ts :=
  List.countP_pos_iff.2 ⟨t, h, hb⟩

theorem busyCount_set {ts : List (Thread σ)} {i : Nat} {t : Thread σ} (h : ts[i]? = some t) (t' : Thread σ) :
    busyCount (ts.set i t') + (if Pc.busy t.pc then 1 else 0) = busyCount ts + (if Pc.busy t'.pc then 1 else 0) := by
  obtain ⟨l1, l2, h1, _, h3⟩ := split_at h
  rw [h3, h1, busyCount_split, busyCount_split]; omega

theorem Bal.mid {s : Sys σ cfg.fr.F} (h : Bal s) {i : Nat} {t t' : Thread σ} (ht : s.threads[i]? = some t) (hb : Pc.busy t.pc = true) (hb' : Pc.busy t'.pc = true)
    {c : Crit σ cfg.fr.F} (ho : c.ongoing = s.crit.ongoing) (hi : c.interrupted = s.crit.interrupted) : Bal (cfg := cfg) { crit := c, threads := s.threads.set i t' } := by
  have h1 := busyCount_set ht t'
  rw [hb, hb'] at h1
  have h2 := busyCount_pos (List.mem_of_getElem? ht) hb
  have h3 := h.ong
  refine ⟨?_, hi.trans h.int, ?_⟩
  · show c.ongoing = busyCount (s.threads.set i t'); omega
  · rintro ⟨x, hx, hd⟩
    rcases List.mem_or_eq_of_mem_set hx with hx | rfl
    · have := (h.done ⟨x, hx, hd⟩).1
      omega
    · rw [hd] at hb'; cases hb'

theorem Bal.idle {s : Sys σ cfg.fr.F} (h : Bal s) (hd : ¬ ∃ t ∈ s.threads, t.pc = .done) {i : Nat} {t t' : Thread σ} (ht : s.threads[i]? = some t) (hp : t.pc = .idle)
    (hp' : t'.pc ≠ .done) {c : Crit σ cfg.fr.F} (ho : c.ongoing = s.crit.ongoing + if Pc.busy t'.pc then 1 else 0) (hi : c.interrupted = s.crit.interrupted) :
    Bal (cfg := cfg) { crit := c, threads := s.threads.set i t' } := by
  have h1 := busyCount_set ht t'
  rw [hp] at h1
  have h3 := h.ong
  refine ⟨?_, hi.trans h.int, ?_⟩
  · show c.ongoing = busyCount (s.threads.set i t')
    have e : Pc.busy (Pc.idle : Pc σ) = false := rfl
    rw [e] at h1
    simp only [Bool.false_eq_true, if_false] at h1
    omega
  · rintro ⟨x, hx, hx'⟩
    rcases List.mem_or_eq_of_mem_set hx with hx | rfl
    · exact absurd ⟨x, hx, hx'⟩ hd
    · exact absurd hx' hp'

theorem bal_step {s s' : Sys σ cfg.fr.F} (h : Bal s) {l : Lbl σ} (hl : ∀ i intr o, l = .run i intr o → intr = false) (hs : step cfg s l = .ok s') : Bal s' := by
  cases l with
  | spurious i =>
    simp only [step] at hs
    split at hs
    · rename_i t ht
      split at hs
      · rename_i hp
        cases hs
        have h1 := busyCount_set ht { t with pc := .idle }
        rw [hp] at h1
        refine ⟨h.ong.trans ?_, h.int, ?_⟩
        · simpa [Pc.busy] using h1.symm
        · rintro ⟨x, hx, hd⟩
          rcases List.mem_or_eq_of_mem_set hx with hx | rfl
          · exact h.done ⟨x, hx, hd⟩
          · cases hd
      · cases hs
    · cases hs
  | run i intr o =>
    obtain rfl := hl i intr o rfl
    simp only [step] at hs
    split at hs
    · cases hs
    rename_i t ht
    simp only [stepThread] at hs
    split at hs
    · cases hs
    · cases hs
    · rename_i hp
      have hnd : ¬ (s.crit.ongoing = 0 ∧ cfg.fr.len s.crit.fringe = 0) → ¬ ∃ t ∈ s.threads, t.pc = .done := fun hc hd => hc (h.done hd)
      unfold getWorkload at hs
      by_cases hc : s.crit.ongoing = 0 ∧ cfg.fr.len s.crit.fringe = 0
      · rw [if_pos hc] at hs
        cases hs
        have h1 := busyCount_set ht { t with pc := .done }
        rw [hp] at h1
        refine ⟨h.ong.trans ?_, h.int, fun _ => hc⟩
        simpa [Pc.busy] using h1.symm
      · rw [if_neg hc, if_neg (by rw [h.int]; decide), if_neg (by decide)] at hs
        by_cases hl : cfg.fr.len s.crit.fringe = 0
        · rw [if_pos hl] at hs
          cases hs
          exact h.idle (hnd hc) ht hp (by simp) (by simp [Pc.busy]) rfl
        · rw [if_neg hl] at hs
          cases hpop : cfg.fr.pop s.crit.fringe with
          | none => rw [hpop] at hs; cases hs
          | some r =>
            obtain ⟨f, nn⟩ := r
            rw [hpop] at hs
            cases nn with
            | none => cases hs
            | some nn =>
              simp only at hs
              by_cases h1 : nn.ub ≤ s.crit.bestLb
              · rw [if_pos h1] at hs
                cases hs
                exact h.idle (hnd hc) ht hp (by rw [hp]; simp) (by simp [hp, Pc.busy]) rfl
              · rw [if_neg h1] at hs
                by_cases h2 : i < s.crit.upperBounds.length
                · rw [if_pos h2] at hs
                  cases hs
                  exact h.idle (hnd hc) ht hp (by simp) (by simp [Pc.busy]) rfl
                · rw [if_neg h2] at hs; cases hs
    · rename_i n hp
      split at hs <;> cases hs <;> exact h.mid ht (by rw [hp]; rfl) rfl rfl rfl
    · rename_i n lb hp
      split at hs
      · cases hs
      · cases hs
        refine h.mid ht (by rw [hp]; rfl) ?_ ?_ ?_
        · simp only; split <;> rfl
        · unfold maybeUpdateBest; simp only; split <;> rfl
        · unfold maybeUpdateBest; simp only; split <;> rfl
    · rename_i n dd hp
      cases hs
      exact h.mid ht (by rw [hp]; rfl) rfl rfl rfl
    · rename_i n lb dd hp
      split at hs
      · cases hs
      · split at hs
        · cases hs
          refine h.mid ht (by rw [hp]; rfl) rfl ?_ ?_
          · unfold maybeUpdateBest; simp only; split <;> rfl
          · unfold maybeUpdateBest; simp only; split <;> rfl
        · unfold enqueueCutset at hs
          split at hs
          · cases hs
          · rename_i c hc
            cases hs
            split at hc
            · cases hc
            · cases hc
              exact h.mid ht (by rw [hp]; rfl) rfl rfl rfl
    · rename_i dd hp
      split at hs
      · cases hs
      · cases hs
        have h1 := busyCount_set ht { t with pc := .idle }
        rw [hp] at h1
        have h2 := busyCount_pos (List.mem_of_getElem? ht) (by rw [hp]; rfl)
        have h3 := h.ong
        refine ⟨?_, h.int, ?_⟩
        · simp only [busyCount_wake]
          simp only [Pc.busy, if_true, Bool.false_eq_true, if_false] at h1
          omega
        · rintro ⟨x, hx, hd⟩
          obtain ⟨y, hy, rfl⟩ := List.mem_map.1 hx
          rcases List.mem_or_eq_of_mem_set hy with hy | rfl
          · have : y.pc = .done := by
              unfold wake at hd
              split at hd
              · cases hd
              · exact hd
            have := (h.done ⟨y, hy, this⟩).1
            omega
          · cases hd

/-- The workers that have panicked are workers, each counted once, and still hold their nodes. -/
structure Lost (s : Torn (Sys σ cfg.fr.F)) : Prop where
  nodup : s.dead.Nodup
  held : ∀ i ∈ s.dead, ∃ t, s.sys.threads[i]? = some t ∧ compiling t = true

theorem compiling_busy {t : Thread σ} (h : compiling t = true) : Pc.busy t.pc = true := by
  obtain ⟨pc, m⟩ := t
  cases pc <;> first | rfl | cases h

theorem step_keeps {s s' : Sys σ cfg.fr.F} {l : Lbl σ} (hs : step cfg s l = .ok s') {j : Nat} (hj : j ≠ l.who) {t : Thread σ} (ht : s.threads[j]? = some t) (hw : wake t = t) :
    s'.threads[j]? = some t := by
  have key : ∀ t' : Thread σ, (s.threads.set l.who t')[j]? = some t := fun t' => by rw [List.getElem?_set_ne (Ne.symm hj)]; exact ht
  cases l with
  | spurious i =>
    simp only [step] at hs
    split at hs
    · split at hs
      · cases hs; exact key _
      · cases hs
    · cases hs
  | run i intr o =>
    simp only [step] at hs
    split at hs
    · cases hs
    rename_i u hu
    simp only [stepThread] at hs
    split at hs
    · cases hs
    · cases hs
    · split at hs <;> first | cases hs; exact key _ | cases hs
    · split at hs <;> cases hs <;> exact key _
    · split at hs <;> cases hs; exact key _
    · cases hs; exact key _
    · split at hs
      · cases hs
      · split at hs
        · cases hs; exact key _
        · split at hs <;> cases hs; exact key _
    · split at hs
      · cases hs
      · cases hs
        simp only [List.getElem?_map]
        rw [show (s.threads.set i _)[j]? = some t from key _]
        simp [hw]

theorem step_other {s s' : Sys σ cfg.fr.F} {l : Lbl σ} (hs : step cfg s l = .ok s') {j : Nat} (hj : j ≠ l.who) {t : Thread σ} (ht : s.threads[j]? = some t) (hc : compiling t = true) :
    s'.threads[j]? = some t := by
  refine step_keeps hs hj ht ?_
  unfold wake; split
  · rename_i hp; simp [compiling, hp] at hc
  · rfl

theorem lost_step {s s' : Torn (Sys σ cfg.fr.F)} (h : Lost s) {f : Fate (Lbl σ)} (hs : tornStep cfg s f = some s') : Lost s' := by
  cases f with
  | step l =>
    simp only [tornStep] at hs
    split at hs
    · cases hs
    · rename_i hw
      split at hs
      · rename_i x hx
        cases hs
        refine ⟨h.nodup, fun i hi => ?_⟩
        obtain ⟨t, h1, h2⟩ := h.held i hi
        exact ⟨t, step_other hx (fun e => hw (e ▸ hi)) h1 h2, h2⟩
      · cases hs
  | crash i =>
    simp only [tornStep] at hs
    split at hs
    · cases hs
    · rename_i hw
      split at hs
      · rename_i t ht
        split at hs
        · rename_i hc
          cases hs
          refine ⟨List.nodup_cons.2 ⟨hw, h.nodup⟩, fun j hj => ?_⟩
          rcases List.mem_cons.1 hj with rfl | hj
          · exact ⟨t, ht, hc⟩
          · exact h.held j hj
        · cases hs
      · cases hs

theorem torn_runs {P : Torn (Sys σ cfg.fr.F) → Prop} {Q : Fate (Lbl σ) → Prop} (hP : ∀ s f s', P s → Q f → tornStep cfg s f = some s' → P s') (ls : List (Fate (Lbl σ))) :
    ∀ {s s' : Torn (Sys σ cfg.fr.F)}, P s → (∀ f ∈ ls, Q f) → tornRuns cfg s ls = some s' → P s' := by
  induction ls with
  | nil => intro s s' h _ hs; cases hs; exact h
  | cons f ls ih =>
    intro s s' h hQ hs
    unfold tornRuns at hs
    obtain ⟨s1, h1, h2⟩ := Option.bind_eq_some_iff.1 hs
    exact ih (hP s f s1 h (hQ f (by simp)) h1) (fun g hg => hQ g (by simp [hg])) h2

theorem init_bal {s : Sys σ cfg.fr.F} (h : Par.init cfg = some s) : Bal s := by
  unfold Par.init at h
  split at h
  · cases h
  · cases h
    refine ⟨?_, rfl, ?_⟩
    · show 0 = busyCount _
      unfold busyCount; symm; rw [List.countP_eq_zero]
      intro t ht
      rw [(List.mem_replicate.1 ht).2]; simp [Pc.busy]
    · rintro ⟨t, ht, hd⟩
      rw [(List.mem_replicate.1 ht).2] at hd; cases hd

theorem Lost.length {s : Torn (Sys σ cfg.fr.F)} (h : Lost s) : s.dead.length ≤ s.sys.threads.length := by
  have h1 : ∀ i ∈ s.dead, i ∈ List.range s.sys.threads.length := fun i hi => by
    obtain ⟨t, ht, _⟩ := h.held i hi
    exact List.mem_range.2 (List.getElem?_eq_some_iff.1 ht).1
  simpa using (List.subperm_of_subset h.nodup h1).length_le

/-- Leaving out the panics, the run is a run in which the workers concerned are not scheduled any more. -/
theorem torn_sub (ls : List (Fate (Lbl σ))) : ∀ {s s' : Torn (Sys σ cfg.fr.F)}, tornRuns cfg s ls = some s' →
    ∃ ks, (∀ l ∈ ks, Fate.step l ∈ ls) ∧ runs cfg s.sys ks = .ok s'.sys := by
  induction ls with
  | nil => intro s s' h; cases h; exact ⟨[], by simp, rfl⟩
  | cons f ls ih =>
    intro s s' h
    unfold tornRuns at h
    obtain ⟨s1, h1, h2⟩ := Option.bind_eq_some_iff.1 h
    obtain ⟨ks, g1, g2⟩ := ih h2
    cases f with
    | step l =>
      simp only [tornStep] at h1
      split at h1
      · cases h1
      · split at h1
        · rename_i x hx
          cases h1
          refine ⟨l :: ks, ?_, ?_⟩
          · intro k hk
            rcases List.mem_cons.1 hk with rfl | hk
            · simp
            · simp [g1 k hk]
          · unfold runs; rw [hx]; exact g2
        · cases h1
    | crash i =>
      simp only [tornStep] at h1
      split at h1
      · cases h1
      · split at h1
        · split at h1
          · cases h1
            exact ⟨ks, fun k hk => by simp [g1 k hk], g2⟩
          · cases h1
        · cases h1

end Verif.Par
