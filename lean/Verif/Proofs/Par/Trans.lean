import Verif.Proofs.Par.Basic
/-! The steps of a run, in terms of the nodes held by the frontier. -/
set_option autoImplicit false

namespace Verif.Par
open Verif Spec
variable {σ : Type} [DecidableEq σ] [Inhabited σ] (cfg : SolverCfg σ) (L : FrontierLaws cfg.fr)

/-- What happens in one step to the shared data and to the thread that performs it. -/
inductive Act (i : Nat) : Crit σ cfg.fr.F → Thread σ → Crit σ cfg.fr.F → Thread σ → Prop where
  | complete {c m} (h1 : c.ongoing = 0) (h2 : L.holds c.fringe = []) : Act i c ⟨.idle, m⟩ { c with bestUb := c.bestLb } ⟨.done, m⟩
  | stop {c m} (h1 : c.interrupted = true) (h2 : ¬ (c.ongoing = 0 ∧ L.holds c.fringe = [])) : Act i c ⟨.idle, m⟩ c ⟨.done, m⟩
  | interrupt {c m ub f} (h1 : c.interrupted = false) (hf : L.inv f) (h2 : L.holds f = [])
      (h3 : (0 < c.ongoing ∧ ub = ongoingUb c.upperBounds) ∨
        (c.ongoing = 0 ∧ ∃ n ∈ L.holds c.fringe, ub = n.ub ∧ ∀ q ∈ L.holds c.fringe, q.ub ≤ ub)) :
      Act i c ⟨.idle, m⟩ { c with interrupted := true, bestUb := ub, fringe := f } ⟨.done, m⟩
  | wait {c m} (h1 : c.interrupted = false) (h2 : 0 < c.ongoing) (h3 : L.holds c.fringe = []) : Act i c ⟨.idle, m⟩ c ⟨.waiting, m⟩
  | prune {c m n f} (h1 : c.interrupted = false) (hf : L.inv f) (h2 : L.holds f = []) (h3 : n ∈ L.holds c.fringe)
      (h4 : ∀ q ∈ L.holds c.fringe, q.ub ≤ n.ub) (h5 : n.ub ≤ c.bestLb) : Act i c ⟨.idle, m⟩ { c with fringe := f } ⟨.idle, m⟩
  | take {c m n f} (h1 : c.interrupted = false) (hf : L.inv f) (h2 : (L.holds c.fringe).Perm (n :: L.holds f))
      (h4 : ∀ q ∈ L.holds c.fringe, q.ub ≤ n.ub) (h5 : c.bestLb < n.ub) :
      Act i c ⟨.idle, m⟩ { c with fringe := f, ongoing := c.ongoing + 1, explored := c.explored + 1, upperBounds := c.upperBounds.set i n.ub } ⟨.start n, m⟩
  | skip {c m n} (h1 : n.ub ≤ c.bestLb) : Act i c ⟨.start n, m⟩ c ⟨.fin 0, m⟩
  | read1 {c m n} (h1 : c.bestLb < n.ub) : Act i c ⟨.start n, m⟩ c ⟨.restr n c.bestLb, m⟩
  | restrict {c m n lb o D} (ho : o.Valid)
      (hD : m.compile .all o cfg.p cfg.r cfg.rank Reads.none (input cfg .restricted n lb) = some D) :
      Act i c ⟨.restr n lb, m⟩ (maybeUpdateBest cfg c D) ⟨if D.exact then .fin D.explored else .relb n D.explored, D⟩
  | read2 {c m n dd} : Act i c ⟨.relb n dd, m⟩ c ⟨.relx n c.bestLb dd, m⟩
  | relaxExact {c m n lb dd o D} (ho : o.Valid)
      (hD : m.compile .all o cfg.p cfg.r cfg.rank Reads.none (input cfg .relaxed n lb) = some D) (hx : D.exact = true) :
      Act i c ⟨.relx n lb dd, m⟩ (maybeUpdateBest cfg c D) ⟨.fin (dd + D.explored), D⟩
  | relaxCut {c m n lb dd o D f} (ho : o.Valid)
      (hD : m.compile .all o cfg.p cfg.r cfg.rank Reads.none (input cfg .relaxed n lb) = some D) (hx : D.exact = false)
      (hf : Pushed L c.fringe (toPush c.bestLb n.ub D.drainCutset) f) :
      Act i c ⟨.relx n lb dd, m⟩ { c with fringe := f } ⟨.fin (dd + D.explored), { D with cutset := [] }⟩

/-- Not a spurious wake-up. -/
def isRun : Lbl σ → Bool
  | .run _ _ _ => true
  | .spurious _ => false

/-- One step of the system; `false`: a spurious wake-up. -/
inductive Trans : Bool → Sys σ cfg.fr.F → Sys σ cfg.fr.F → Prop where
  | act {c c' t t' l1 l2} (h : Act cfg L l1.length c t c' t') : Trans true ⟨c, l1 ++ t :: l2⟩ ⟨c', l1 ++ t' :: l2⟩
  | finish {c m dd l1 l2} (h : 0 < c.ongoing) : Trans true ⟨c, l1 ++ ⟨.fin dd, m⟩ :: l2⟩
      ⟨{ c with ongoing := c.ongoing - 1, upperBounds := c.upperBounds.set l1.length isizeMax, exploredDd := c.exploredDd + dd },
        (l1 ++ ⟨.idle, m⟩ :: l2).map wake⟩
  | spurious {c m l1 l2} : Trans false ⟨c, l1 ++ ⟨.waiting, m⟩ :: l2⟩ ⟨c, l1 ++ ⟨.idle, m⟩ :: l2⟩

/-- The same for the steps of the worker `i`. -/
inductive TransAt (i : Nat) : Sys σ cfg.fr.F → Sys σ cfg.fr.F → Prop where
  | act {c c' t t' l1 l2} (h : Act cfg L l1.length c t c' t') (hi : l1.length = i) : TransAt i ⟨c, l1 ++ t :: l2⟩ ⟨c', l1 ++ t' :: l2⟩
  | finish {c m dd l1 l2} (h : 0 < c.ongoing) (hi : l1.length = i) : TransAt i ⟨c, l1 ++ ⟨.fin dd, m⟩ :: l2⟩
      ⟨{ c with ongoing := c.ongoing - 1, upperBounds := c.upperBounds.set l1.length isizeMax, exploredDd := c.exploredDd + dd },
        (l1 ++ ⟨.idle, m⟩ :: l2).map wake⟩

variable {cfg L}

theorem TransAt.trans {i : Nat} {s s' : Sys σ cfg.fr.F} (h : TransAt cfg L i s s') : Trans cfg L true s s' := by
  cases h with
  | act h _ => exact .act h
  | finish h _ => exact .finish h

/-- What the absence of panics needs. -/
structure Safe (s : Sys σ cfg.fr.F) : Prop where
  inv : L.inv s.crit.fringe
  ong : s.crit.ongoing = busyCount s.threads
  ubs : s.threads.length ≤ s.crit.upperBounds.length
  gen : ∀ n ∈ working s.threads, Genuine cfg.p n

/-- Where the thread continues. -/
def afterWorkload : WorkLoad σ → Pc σ
  | .complete => .done
  | .interruption => .done
  | .starvation => .idle
  | .wait => .waiting
  | .item n => .start n

theorem getWorkload_spec {c : Crit σ cfg.fr.F} (hf : L.inv c.fringe) {i : Nat} (hi : i < c.upperBounds.length) (intr : Bool) (m : Dd σ) :
    ∃ c' w, getWorkload cfg c i intr = some (c', w) ∧
      Act cfg L i c ⟨.idle, m⟩ c' ⟨afterWorkload w, m⟩ := by
  unfold getWorkload
  have hlen := L.len c.fringe hf
  by_cases h0 : c.ongoing = 0 ∧ cfg.fr.len c.fringe = 0
  · rw [if_pos h0]
    refine ⟨_, _, rfl, Act.complete h0.1 ?_⟩
    rw [hlen] at h0; exact List.length_eq_zero_iff.1 h0.2
  · rw [if_neg h0]
    have h0' : ¬ (c.ongoing = 0 ∧ L.holds c.fringe = []) := by
      rintro ⟨a, b⟩; apply h0; refine ⟨a, ?_⟩; rw [hlen, b]; rfl
    by_cases h1 : c.interrupted = true
    · rw [if_pos h1]
      exact ⟨_, _, rfl, Act.stop h1 h0'⟩
    · rw [if_neg h1]
      have h1' : c.interrupted = false := by simpa using h1
      have hpop := L.pop c.fringe hf
      cases intr with
      | true =>
        simp only [if_true]
        by_cases h2 : c.ongoing > 0
        · rw [if_pos h2]
          have := L.clear c.fringe hf
          exact ⟨_, _, rfl, Act.interrupt h1' this.1 this.2 (Or.inl ⟨h2, rfl⟩)⟩
        · rw [if_neg h2]
          rcases hpop with ⟨f', g1, g2, g3, g4⟩ | ⟨f', n, g1, g2, g3, g4⟩
          · exact absurd ⟨by omega, g1⟩ h0'
          · rw [g1]
            have := L.clear f' g2
            exact ⟨_, _, rfl, Act.interrupt h1' this.1 this.2 (Or.inr ⟨by omega, n, g3.mem_iff.2 (by simp), rfl, g4⟩)⟩
      | false =>
        simp only [Bool.false_eq_true, if_false]
        by_cases h2 : cfg.fr.len c.fringe = 0
        · rw [if_pos h2]
          rw [hlen] at h2
          have h2 := List.length_eq_zero_iff.1 h2
          exact ⟨_, _, rfl, Act.wait h1' (by have : ¬ c.ongoing = 0 := fun h => h0' ⟨h, h2⟩; omega) h2⟩
        · rw [if_neg h2]
          rcases hpop with ⟨f', g1, g2, g3, g4⟩ | ⟨f', n, g1, g2, g3, g4⟩
          · rw [hlen, g1] at h2; exact absurd rfl h2
          · rw [g1]
            simp only
            by_cases h3 : n.ub ≤ c.bestLb
            · rw [if_pos h3]
              have := L.clear f' g2
              exact ⟨_, _, rfl, Act.prune h1' this.1 this.2 (g3.mem_iff.2 (by simp)) g4 h3⟩
            · rw [if_neg h3, if_pos hi]
              exact ⟨_, _, rfl, Act.take h1' g2 g3 g4 (by omega)⟩

/-- A step of a worker does not panic and is one of the steps listed above. -/
theorem step_at {S : Layering σ} {B : Int} (hg : BaseCfg cfg S B) {s : Sys σ cfg.fr.F} (hs : Safe (L := L) s) {i : Nat} {intr : Bool} {o : Oracle σ} (hl : o.Valid) :
    step cfg s (.run i intr o) ≠ .panic ∧ ∀ s', step cfg s (.run i intr o) = .ok s' → TransAt cfg L i s s' := by
  obtain ⟨c, ts⟩ := s
  simp only [step]
  cases hi : ts[i]? with
  | none => exact ⟨by simp, by simp⟩
  | some t =>
    have hlt : i < c.upperBounds.length := Nat.lt_of_lt_of_le (List.getElem?_eq_some_iff.1 hi).1 hs.ubs
    obtain ⟨l1, l2, rfl, hlen, hset⟩ := split_at hi
    obtain ⟨pc, m⟩ := t
    simp only [stepThread, hset]
    have hgen : ∀ n, Pc.node pc = some n → Genuine cfg.p n := by
      intro n hn
      apply hs.gen
      simp only [working_split, hn]; simp
    have done : ∀ {c' t'}, Act cfg L i c ⟨pc, m⟩ c' t' →
        (Res.ok (⟨c', l1 ++ t' :: l2⟩ : Sys σ cfg.fr.F) ≠ .panic ∧ ∀ s', Res.ok (⟨c', l1 ++ t' :: l2⟩ : Sys σ cfg.fr.F) = .ok s' →
          TransAt cfg L i ⟨c, l1 ++ ⟨pc, m⟩ :: l2⟩ s') := by
      intro c' t' h
      refine ⟨by simp, ?_⟩
      intro s' he
      cases he
      subst hlen
      exact TransAt.act h rfl
    cases pc with
    | waiting => exact ⟨by simp, by simp⟩
    | done => exact ⟨by simp, by simp⟩
    | idle =>
      obtain ⟨c', w, h1, h2⟩ := getWorkload_spec (L := L) hs.inv hlt intr m
      simp only [h1]
      cases w <;> exact done h2
    | start n =>
      simp only
      by_cases h : n.ub ≤ c.bestLb
      · rw [if_pos h]; exact done (Act.skip h)
      · rw [if_neg h]; exact done (Act.read1 (by omega))
    | restr n lb =>
      simp only
      obtain ⟨D, hD⟩ := Props.compile_total (v := .all) (o := o) (r := cfg.r) (rank := cfg.rank) (rd := Reads.none) (inp := input cfg .restricted n lb) hl hg.wf
        (by intro h; cases h) (by intro h; cases h) (hgen n rfl) m
      simp only [hD]
      exact done (Act.restrict hl hD)
    | relb n dd => exact done Act.read2
    | relx n lb dd =>
      simp only
      obtain ⟨D, hD⟩ := Props.compile_total (v := .all) (o := o) (r := cfg.r) (rank := cfg.rank) (rd := Reads.none) (inp := input cfg .relaxed n lb) hl hg.wf
        (fun _ => hg.lay) (fun _ => hg.width _) (hgen n rfl) m
      simp only [hD]
      by_cases hx : D.exact = true
      · rw [if_pos hx]; exact done (Act.relaxExact hl hD hx)
      · rw [if_neg hx]
        obtain ⟨f', h1, h2⟩ := push_list cfg L c.bestLb n.ub D.drainCutset c.fringe hs.inv
        simp only [enqueueCutset, h1]
        exact done (Act.relaxCut hl hD (by simpa using hx) h2)
    | fin dd =>
      simp only
      have hong : 0 < c.ongoing := by
        have := hs.ong
        simp only [busyCount_split, Pc.busy] at this
        rw [this]; simp
      rw [if_neg (by rintro (h | h) <;> omega)]
      refine ⟨by simp, ?_⟩
      intro s' he
      cases he
      subst hlen
      exact TransAt.finish hong rfl

/-- A step does not panic and is one of the steps listed above. -/
theorem step_trans {S : Layering σ} {B : Int} (hg : BaseCfg cfg S B) {s : Sys σ cfg.fr.F} (hs : Safe (L := L) s) {l : Lbl σ} (hl : ValidLbl l) :
    step cfg s l ≠ .panic ∧ ∀ s', step cfg s l = .ok s' → Trans cfg L (isRun l) s s' := by
  obtain ⟨c, ts⟩ := s
  cases l with
  | spurious i =>
    simp only [step]
    cases hi : ts[i]? with
    | none => exact ⟨by simp, by simp⟩
    | some t =>
      obtain ⟨l1, l2, rfl, hlen, hset⟩ := split_at hi
      obtain ⟨pc, m⟩ := t
      simp only
      cases pc with
      | waiting =>
        refine ⟨by simp, ?_⟩
        intro s' he
        rw [hset] at he
        cases he
        exact Trans.spurious
      | _ => exact ⟨by simp, by simp⟩
  | run i intr o =>
    obtain ⟨h1, h2⟩ := step_at (L := L) (i := i) (intr := intr) hg hs hl
    exact ⟨h1, fun s' he => (h2 s' he).trans⟩

end Verif.Par
