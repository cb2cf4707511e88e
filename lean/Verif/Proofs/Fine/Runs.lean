import Verif.Proofs.Fine.Sim
/-! Runs at the level of single accesses: they are runs of the coarse model, never get stuck and never go on for ever. -/
set_option autoImplicit false

namespace Verif.Fine
open Verif Spec Bar
variable {σ : Type} [DecidableEq σ] [Inhabited σ] {cfg : SolverCfg σ} {L : FrontierLaws cfg.fr} {S : Layering σ} {B : Int}

theorem bruns_append : ∀ (ls ls' : List (BLbl σ)) (s s' : BSys σ cfg.fr.F), Bar.runs cfg s ls = .ok s' → Bar.runs cfg s (ls ++ ls') = Bar.runs cfg s' ls'
  | [], _, _, _, h => by cases h; rfl
  | l :: ls, ls', s, s', h => by
    simp only [Bar.runs, List.cons_append] at h ⊢
    cases hs : Bar.step cfg s l with
    | ok s1 => simp only [hs] at h ⊢; exact bruns_append ls ls' s1 s' h
    | panic => simp only [hs] at h; cases h
    | blocked => simp only [hs] at h; cases h

theorem runs_append : ∀ (ls ls' : List (FLbl σ)) (s s' : FSys σ cfg.fr.F), runs cfg s ls = .ok s' → runs cfg s (ls ++ ls') = runs cfg s' ls'
  | [], _, _, _, h => by cases h; rfl
  | l :: ls, ls', s, s', h => by
    simp only [runs, List.cons_append] at h ⊢
    cases hs : step cfg s l with
    | ok s1 => simp only [hs] at h ⊢; exact runs_append ls ls' s1 s' h
    | panic => simp only [hs] at h; cases h
    | blocked => simp only [hs] at h; cases h

/-- The beginning. -/
theorem init_rel {s0 : FSys σ cfg.fr.F} (h : init cfg = some s0) : ∃ c0, Bar.init cfg = some c0 ∧ s0 = ⟨c0, none, fun _ => none⟩ := by
  unfold init at h
  cases hb : Bar.init cfg with
  | none => rw [hb] at h; cases h
  | some c0 => rw [hb] at h; cases h; exact ⟨c0, rfl, rfl⟩

theorem quiet_rel {c : BSys σ cfg.fr.F} {G : Nat → σ → BarrierInfo → Prop} (hi : Inv L c) : Rel G L S B ⟨c, none, fun _ => none⟩ c :=
  ⟨rfl, hi.len.2.2, fun _ => rfl, (fun _ _ h => by cases h), (fun _ h => by cases h), rfl, rfl⟩

/-- Every run is simulated, and none panics. -/
theorem runs_good (hg : BaseCfg cfg S B) (hn : cfg.nbThreads ≤ cfg.custom) : ∀ (ls : List (FLbl σ)) (s : FSys σ cfg.fr.F) (c : BSys σ cfg.fr.F), Rel anyG L S B s c → Inv L c →
    (∀ l ∈ ls, FValidLbl l) → runs cfg s ls ≠ .panic ∧ ∀ s', runs cfg s ls = .ok s' → ∃ (bs : List (BLbl σ)) (c' : BSys σ cfg.fr.F),
      Bar.runs cfg c bs = .ok c' ∧ Rel anyG L S B s' c' ∧ (∀ l ∈ bs, BValidLbl l) ∧ ((∀ l ∈ ls, FNoInterrupt l) → ∀ l ∈ bs, NoInterrupt l)
  | [], s, c, hr, _, _ => ⟨by simp [runs], fun s' h => ⟨[], c, rfl, by cases h; exact hr, by simp, by simp⟩⟩
  | l :: ls, s, c, hr, hi, hl => by
    have hst := step_good (L := L) hg hn hr hi (fun _ _ _ _ => trivial) (hl l (by simp))
    have hls : ∀ l ∈ ls, FValidLbl l := fun x hx => hl x (by simp [hx])
    simp only [runs]
    cases hs : step cfg s l with
    | panic => rw [hs] at hst; exact absurd hst (by simp [Good])
    | blocked => simp
    | ok s1 =>
      rw [hs] at hst
      simp only
      rcases hst with ⟨h1, -⟩ | ⟨lb, c1, g1, g2, g3, g4, -⟩
      · obtain ⟨a1, a2⟩ := runs_good hg hn ls s1 c h1 hi hls
        refine ⟨a1, fun s' hs' => ?_⟩
        obtain ⟨bs, c', b1, b2, b3, b4⟩ := a2 s' hs'
        exact ⟨bs, c', b1, b2, b3, fun h => b4 fun x hx => h x (by simp [hx])⟩
      · have hi1 : Inv L c1 := trans_inv hg ((step_trans (L := L) hg (hi.safe hn) g1).2 _ g3) hi
        obtain ⟨a1, a2⟩ := runs_good hg hn ls s1 c1 g4 hi1 hls
        refine ⟨a1, fun s' hs' => ?_⟩
        obtain ⟨bs, c', b1, b2, b3, b4⟩ := a2 s' hs'
        refine ⟨lb :: bs, c', by simp only [Bar.runs, g3]; exact b1, b2, ?_, ?_⟩
        · intro x hx
          rcases List.mem_cons.1 hx with rfl | hx
          · exact g1
          · exact b3 x hx
        · intro h x hx
          rcases List.mem_cons.1 hx with rfl | hx
          · have h0 := h l (by simp)
            cases l with
            | run i intr o =>
              cases x with
              | run j intr' o' v =>
                cases v with
                | none => exact absurd g2 (by simp [Matches])
                | some v =>
                  have h0 : intr = false := h0
                  have := g2.2
                  show intr' = false
                  cases intr' with
                  | false => rfl
                  | true => rw [h0] at this; exact absurd (this rfl) (by simp)
              | spurious j => trivial
            | spurious i =>
              cases x with
              | run j intr' o' v => exact absurd g2 (by simp [Matches])
              | spurious j => trivial
          · exact b4 (fun y hy => h y (by simp [hy])) x hx

/-- Every reachable state belongs to a reachable state of the coarse model. -/
theorem reachable_rel (L : FrontierLaws cfg.fr) (hg : BaseCfg cfg S B) (hn : cfg.nbThreads ≤ cfg.custom) {s : FSys σ cfg.fr.F} (h : FReachable cfg s) :
    ∃ c, BReachable cfg c ∧ Rel anyG L S B s c := by
  obtain ⟨s0, ls, h0, hl, hs⟩ := h
  obtain ⟨c0, hc0, rfl⟩ := init_rel h0
  obtain ⟨c1, e, hi, -⟩ := init_spec (cfg := cfg) L
  rw [hc0] at e; cases e
  obtain ⟨bs, c', h1, h2, h3, -⟩ := (runs_good (L := L) hg hn ls _ c0 (quiet_rel hi) hi hl).2 s hs
  exact ⟨c', ⟨c0, bs, hc0, h3, h1⟩, h2⟩

/-- As long as some worker has not stopped, some worker can make a step. -/
theorem progress (hg : BaseCfg cfg S B) (hn : cfg.nbThreads ≤ cfg.custom) {s : FSys σ cfg.fr.F} {c : BSys σ cfg.fr.F} (hr : Rel anyG L S B s c) (hi : Inv L c)
    {i : Nat} {t : BThread σ} (ht : s.sys.threads[i]? = some t) (h1 : t.pc ≠ .waiting) (h2 : t.pc ≠ .done) (hh : s.holder = none ∨ s.holder = some i)
    (intr : Bool) {o : Oracle σ} (ho : o.Valid) : ∃ s', step cfg s (.run i intr o) = .ok s' := by
  have hst := step_good (L := L) (l := .run i intr o) hg hn hr hi (fun _ _ _ _ => trivial) ho
  have hnb : step cfg s (.run i intr o) ≠ .blocked := by
    simp only [step, ht]
    unfold stepThread
    cases hsub : s.sub i with
    | some x =>
      obtain ⟨t1, g1, g2⟩ := hr.sub i x hsub
      rw [ht] at g1; cases g1
      simp only
      have hdw : decideWork cfg s i t intr ≠ .blocked := by
        unfold decideWork
        simp only
        repeat' split
        all_goals simp
      cases x with
      | clean =>
        unfold stepSub
        simp only
        repeat' split
        all_goals first | exact hdw | simp
      | pop =>
        unfold stepSub
        simp only
        repeat' split
        all_goals simp
      | take n f ob =>
        unfold stepSub
        simp only
        repeat' split
        all_goals simp
      | comp o' w =>
        have hhn : s.holder = none := by
          rcases hh with h | h
          · exact h
          · rcases hr.hold i h with h | h | ⟨n, f, ob, h⟩ <;> rw [hsub] at h <;> cases h
        obtain ⟨-, V, n, lb, ⟨hp, -⟩ | ⟨dd, hp, -⟩⟩ := g2
        · unfold stepSub
          simp only [hp, hhn, if_pos]
          cases stepWork cfg o' (Par.input cfg .restricted n lb) s.sys.bars w <;> simp
        · unfold stepSub
          simp only [hp]
          cases stepWork cfg o' (Par.input cfg .relaxed n lb) s.sys.bars w <;> simp
    | none =>
      simp only
      have hhn : s.holder = none := by
        rcases hh with h | h
        · exact h
        · rcases hr.hold i h with h | h | ⟨n, f, ob, h⟩ <;> rw [hsub] at h <;> cases h
      have hot : Bar.stepThread cfg s.sys i t intr o none ≠ .blocked := by
        have := not_blocked (cfg := cfg) (intr := intr) (o := o) (v := none) ht h1 h2
        simpa only [Bar.step, ht] using this
      have hot' : (if s.holder = none then
          match Bar.stepThread cfg s.sys i t intr o none with
          | .ok s' => .ok { s with sys := s' }
          | .panic => .panic
          | .blocked => .blocked
        else (.blocked : Res (FSys σ cfg.fr.F))) ≠ .blocked := by
        rw [if_pos hhn]
        cases hx : Bar.stepThread cfg s.sys i t intr o none with
        | ok s' => simp
        | panic => simp
        | blocked => exact absurd hx hot
      cases hpc : t.pc <;> first
        | exact absurd hpc h1
        | exact absurd hpc h2
        | exact hot'
        | (simp only [hhn, if_true]; simp)
        | simp
  cases hs : step cfg s (.run i intr o) with
  | ok s' => exact ⟨s', rfl⟩
  | panic => rw [hs] at hst; exact absurd hst (by simp [Good])
  | blocked => exact absurd hs hnb

/-! ### Termination -/

/-- Where the threads are. -/
def stages (cfg : SolverCfg σ) (s : FSys σ cfg.fr.F) : Fin cfg.nbThreads → Rank := fun j =>
  match s.sys.threads[j.1]? with
  | none => rank3 0 0 0
  | some t => stage cfg s.sys.crit t (s.sub j.1)

theorem closer_stages {s s' : FSys σ cfg.fr.F} {c : BSys σ cfg.fr.F} (hr : Rel anyG L S B s c) (hi : Inv L c) (h : Closer s s') : stages cfg s' < stages cfg s := by
  obtain ⟨i, t, ht, h1, h2, h3, h4⟩ := h
  have hlt : i < cfg.nbThreads := by
    rw [← hi.thr, hr.thr]; exact (List.getElem?_eq_some_iff.1 ht).1
  refine Pi.lt_def.2 ⟨?_, ⟨i, hlt⟩, ?_⟩
  · intro j
    by_cases hj : j.1 = i
    · simp only [stages, h1, hj, ht]
      exact le_of_lt h2
    · refine le_of_eq ?_
      simp only [stages, h1, h3 j.1 hj]
      cases htj : s.sys.threads[j.1]? with
      | none => rfl
      | some tj =>
        simp only
        rcases h4 with h4 | h4
        · cases hs : s.sub j.1 with
          | none => rfl
          | some x =>
            obtain ⟨t1, -, g2⟩ := hr.sub j.1 x hs
            cases x with
            | clean => rw [g2.1] at h4; cases h4; exact absurd rfl hj
            | pop => rw [g2.1] at h4; cases h4; exact absurd rfl hj
            | take n f ob => rw [g2.1] at h4; cases h4; exact absurd rfl hj
            | comp o w => rfl
        · rw [h4]
  · simp only [stages, h1, ht]
    exact h2

/-- The step is not a spurious wake-up. -/
def isFRun : FLbl σ → Bool
  | .run .. => true
  | .spurious _ => false

/-- There is no infinite run without spurious wake-ups. -/
theorem no_infinite (hg : BaseCfg cfg S B) (hn : cfg.nbThreads ≤ cfg.custom) (st : Nat → FSys σ cfg.fr.F) (ls : Nat → FLbl σ) {c0 : BSys σ cfg.fr.F}
    (h0 : Rel anyG L S B (st 0) c0) (hi0 : Inv L c0) (hv : ∀ k, FValidLbl (ls k)) (hs : ∀ k, step cfg (st k) (ls k) = .ok (st (k + 1)))
    (hr : ∀ k, isFRun (ls k) = true) : False := by
  have key : ∀ x, Acc (Prod.Lex (Relation.TransGen Par.Less) (· < ·)) x → ∀ k c, Rel anyG L S B (st k) c → Inv L c →
      (Bar.measure L S c.crit c.threads, stages cfg (st k)) = x → False := by
    intro x hx
    induction hx with
    | intro x _ ih =>
      intro k c hrel hinv hk
      have hst := step_good (L := L) hg hn hrel hinv (fun _ _ _ _ => trivial) (hv k)
      rw [hs k] at hst
      rcases hst with ⟨g1, g2⟩ | ⟨lb, c', g1, g2, g3, g4, -⟩
      · exact ih _ (by rw [← hk]; exact Prod.Lex.right _ (closer_stages hrel hinv g2)) (k + 1) c g1 hinv rfl
      · have ht := (step_trans (L := L) hg (hinv.safe hn) g1).2 _ g3
        have hrun : isRun lb = true := by
          have := hr k
          cases hl : ls k with
          | spurious i => rw [hl] at this; exact absurd this (by simp [isFRun])
          | run i intr o =>
            rw [hl] at g2
            cases lb with
            | run j intr' o' v => rfl
            | spurious j => exact absurd g2 (by simp [Matches])
        rw [hrun] at ht
        exact ih _ (by rw [← hk]; exact Prod.Lex.left _ _ (trans_less hg ht hinv)) (k + 1) c' g4 (trans_inv hg ht hinv) rfl
  exact key _ ((WellFounded.prod_lex Par.less_wf.transGen wellFounded_lt).apply _) 0 c0 h0 hi0 rfl

end Verif.Fine
