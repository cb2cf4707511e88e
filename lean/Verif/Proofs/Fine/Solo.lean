import Verif.Proofs.Fine.SoloWork
import Verif.Proofs.Fine.Runs
/-! A thread that performs a whole `get_workload` or a whole compilation without being interrupted performs a step of the coarse model that sees the barrier
as it is.  So these runs of the coarse model can happen, and with one thread nothing else can. -/
set_option autoImplicit false

namespace Verif.Fine
open Verif Spec Bar
open Verif.Par (input)
variable {σ : Type} [DecidableEq σ] [Inhabited σ] {cfg : SolverCfg σ} {L : FrontierLaws cfg.fr} {S : Layering σ} {B : Int}

/-- How far the thread `i` is with its step from `c`; `K` describes the labels of its steps. -/
def SoloSub (K : Bool → Oracle σ → Prop) (i : Nat) (s : FSys σ cfg.fr.F) (c : BSys σ cfg.fr.F) (t : BThread σ) : Option (Sub σ cfg.fr.F) → Prop
  | none => s.sys = c ∧ s.holder = none
  | some .clean => s.holder = some i ∧ t.pc = .idle ∧
      ∃ fuel, ∀ intr, getWorkload cfg c.crit c.bars i intr none = restClean cfg i none intr fuel s.sys.crit s.sys.bars
  | some .pop => s.holder = some i ∧ t.pc = .idle ∧
      ∃ intr o fuel, K intr o ∧ getWorkload cfg c.crit c.bars i intr none = popLoop cfg i none fuel s.sys.crit s.sys.bars
  | some (.take n f ob) => s.holder = some i ∧ t.pc = .idle ∧ mustExplore (s.sys.bars.get n.path.length n.state) n.value = true ∧
      ∃ intr o, K intr o ∧ getWorkload cfg c.crit c.bars i intr none = restTake cfg i n f ob s.sys.crit s.sys.bars
  | some (.comp o w) => s.holder = none ∧ c.crit = s.sys.crit ∧ ∃ intr n lb, K intr o ∧
      ((t.pc = .restr n lb ∧ Alone cfg o (input cfg .restricted n lb) t.mdd c.bars s.sys.bars w) ∨
        ∃ dd, t.pc = .relx n lb dd ∧ Alone cfg o (input cfg .relaxed n lb) t.mdd c.bars s.sys.bars w)

structure Solo (K : Bool → Oracle σ → Prop) (i : Nat) (s : FSys σ cfg.fr.F) (c : BSys σ cfg.fr.F) : Prop where
  thr : c.threads = s.sys.threads
  oth : ∀ j, j ≠ i → s.sub j = none
  sub : ∃ t, s.sys.threads[i]? = some t ∧ SoloSub K i s c t (s.sub i)

/-- Nobody is within a step of the coarse model. -/
def quiet (c : BSys σ cfg.fr.F) : FSys σ cfg.fr.F := ⟨c, none, fun _ => none⟩

/-- The step from `c` goes on, or is completed. -/
def SoloNext (K : Bool → Oracle σ → Prop) (i : Nat) (c : BSys σ cfg.fr.F) (s' : FSys σ cfg.fr.F) : Prop :=
  Solo K i s' c ∨ ∃ intr o, K intr o ∧ Bar.step cfg c (.run i intr o none) = .ok s'.sys ∧ s' = quiet s'.sys

/-- Outcome of a step. -/
def SoloGood (K : Bool → Oracle σ → Prop) (i : Nat) (c : BSys σ cfg.fr.F) : Res (FSys σ cfg.fr.F) → Prop
  | .ok s' => SoloNext K i c s'
  | _ => True

theorem solo_done {K : Bool → Oracle σ → Prop} {i : Nat} {c : BSys σ cfg.fr.F} {intr : Bool} {o : Oracle σ} (hk : K intr o) {x : BSys σ cfg.fr.F}
    (h : Bar.step cfg c (.run i intr o none) = .ok x) : SoloNext K i c ⟨x, none, fun _ => none⟩ := Or.inr ⟨intr, o, hk, h, rfl⟩

section
variable {K : Bool → Oracle σ → Prop} {i : Nat} {s : FSys σ cfg.fr.F} {c : BSys σ cfg.fr.F} {t : BThread σ}

theorem setSub_none (ho : ∀ j, j ≠ i → s.sub j = none) : setSub s.sub i none = fun _ => none := by
  funext j
  by_cases hj : j = i
  · subst hj; rw [setSub_self]
  · rw [setSub_ne _ _ hj, ho j hj]

/-- The thread releases the mutex. -/
theorem solo_release (hs : Solo K i s c) (ht : s.sys.threads[i]? = some t) (hp : t.pc = .idle) {intr : Bool} {o : Oracle σ} (hk : K intr o)
    {c' : BCrit σ cfg.fr.F} {b' : Bars σ} {w : WorkLoad σ} (h : getWorkload cfg c.crit c.bars i intr none = some (c', b', w)) :
    SoloNext K i c ⟨⟨c', b', s.sys.threads.set i { t with pc := afterWorkload w }⟩, none, setSub s.sub i none⟩ := by
  have := gw_step (o := o) (by rw [hs.thr]; exact ht) hp h
  rw [hs.thr] at this
  rw [setSub_none hs.oth]
  exact solo_done hk this

/-- The thread goes on. -/
theorem solo_keep (hs : Solo K i s c) (ht : s.sys.threads[i]? = some t) {c' : BCrit σ cfg.fr.F} {b' : Bars σ} {x : Sub σ cfg.fr.F} {h : Option Nat}
    (hx : SoloSub K i ⟨⟨c', b', s.sys.threads⟩, h, setSub s.sub i (some x)⟩ c t (some x)) : SoloNext K i c ⟨⟨c', b', s.sys.threads⟩, h, setSub s.sub i (some x)⟩ :=
  Or.inl ⟨hs.thr, fun j hj => by simp only [setSub_ne _ _ hj]; exact hs.oth j hj, t, ht, by simp only [setSub_self]; exact hx⟩

theorem solo_decide (hs : Solo K i s c) (ht : s.sys.threads[i]? = some t) (hp : t.pc = .idle) (hh : s.holder = some i) {intr : Bool} {o : Oracle σ} (hk : K intr o)
    (hq : getWorkload cfg c.crit c.bars i intr none = tail cfg i none intr s.sys.crit s.sys.bars) : SoloGood K i c (decideWork cfg s i t intr) := by
  have rel : ∀ c' w, tail cfg i none intr s.sys.crit s.sys.bars = some (c', s.sys.bars, w) →
      SoloNext K i c { sys := ⟨c', s.sys.bars, s.sys.threads.set i { t with pc := afterWorkload w }⟩, holder := none, sub := setSub s.sub i none } := by
    intro c' w h
    exact solo_release hs ht hp hk (hq.trans h)
  unfold decideWork
  unfold tail at rel hq
  simp only
  by_cases h1 : s.sys.crit.ongoing = 0 ∧ cfg.fr.len s.sys.crit.fringe = 0
  · simp only [if_pos h1] at rel ⊢
    exact rel _ _ rfl
  simp only [if_neg h1] at rel hq ⊢
  by_cases h2 : s.sys.crit.interrupted = true
  · simp only [if_pos h2] at rel ⊢
    exact rel _ _ rfl
  simp only [if_neg h2] at rel hq ⊢
  by_cases h3 : intr = true
  · simp only [if_pos h3] at rel ⊢
    by_cases h4 : s.sys.crit.ongoing > 0
    · simp only [if_pos h4] at rel ⊢
      exact rel _ _ rfl
    · simp only [if_neg h4] at rel ⊢
      cases h5 : cfg.fr.pop s.sys.crit.fringe with
      | none => trivial
      | some x =>
        obtain ⟨f, n⟩ := x
        cases n with
        | none => trivial
        | some n =>
          simp only [h5] at rel ⊢
          exact rel _ _ rfl
  simp only [if_neg h3] at rel hq ⊢
  by_cases h4 : cfg.fr.len s.sys.crit.fringe = 0
  · simp only [if_pos h4] at rel ⊢
    exact rel _ _ rfl
  simp only [if_neg h4] at hq ⊢
  exact solo_keep hs ht ⟨hh, hp, intr, o, _, hk, hq⟩

/-- A step of the thread. -/
theorem solo_sub (hgw : ∀ intr, getWorkload cfg c.crit c.bars i intr none ≠ none) (hs : Solo K i s c) (ht : s.sys.threads[i]? = some t) {x : Sub σ cfg.fr.F} (hsub : s.sub i = some x) (hx : SoloSub K i s c t (some x)) {intr : Bool}
    {o : Oracle σ} (hk : K intr o) : SoloGood K i c (stepSub cfg s i t intr x) := by
  have hse : setSub s.sub i (some x) = s.sub := setSub_id hsub
  have hset : t.pc = .idle → s.sys.threads.set i { t with pc := .idle } = s.sys.threads := by
    intro hp
    have : ({ t with pc := .idle } : BThread σ) = t := by rw [← hp]
    rw [this]; exact set_self ht
  cases x with
  | clean =>
    obtain ⟨hh, hp, fuel, hq⟩ := hx
    unfold stepSub
    simp only
    cases fuel with
    | zero =>
      exact absurd (hq intr) (hgw intr)
    | succ fuel =>
      simp only [restClean_succ] at hq
      by_cases h1 : s.sys.crit.lowest < cfg.p.nbVars
      · simp only [if_pos h1] at hq ⊢
        cases h2 : s.sys.crit.openBy[s.sys.crit.lowest]? with
        | none => trivial
        | some x =>
          cases h3 : s.sys.crit.ongoingBy[s.sys.crit.lowest]? with
          | none => trivial
          | some y =>
            simp only [h2, h3] at hq ⊢
            by_cases h4 : x + y = 0
            · simp only [if_pos h4] at hq ⊢
              cases h5 : s.sys.bars.clear s.sys.crit.lowest with
              | none => trivial
              | some b =>
                simp only [h5] at hq ⊢
                have := solo_keep (x := .clean) (h := s.holder) hs ht (c' := { s.sys.crit with lowest := s.sys.crit.lowest + 1 }) (b' := b) ⟨hh, hp, fuel, hq⟩
                rw [hse] at this
                exact this
            · simp only [if_neg h4] at hq ⊢
              exact solo_decide hs ht hp hh hk (hq intr)
      · simp only [if_neg h1] at hq ⊢
        exact solo_decide hs ht hp hh hk (hq intr)
  | pop =>
    obtain ⟨hh, hp, intr0, o0, fuel, hk0, hq⟩ := hx
    have hgw0 := hgw intr0
    rw [hq] at hgw0
    unfold stepSub
    simp only
    cases fuel with
    | zero => exact absurd rfl hgw0
    | succ fuel =>
      have hgw1 := hgw0
      have hq1 := hq
      rw [popLoop_succ] at hq1
      cases h1 : cfg.fr.pop s.sys.crit.fringe with
      | none => trivial
      | some x =>
        obtain ⟨f, n⟩ := x
        cases n with
        | none => trivial
        | some n =>
          simp only [h1] at hq1 ⊢
          by_cases h2 : n.ub ≤ s.sys.crit.bestLb
          · simp only [if_pos h2] at hq1 ⊢
            have := solo_release hs ht hp hk0 hq1
            simp only [afterWorkload, hset hp] at this
            exact this
          · simp only [if_neg h2] at hq1 ⊢
            by_cases h3 : n.path.length < s.sys.bars.length
            · simp only [if_pos h3] at hq1 ⊢
              cases h4 : decAt s.sys.crit.openBy n.path.length with
              | none => trivial
              | some ob =>
                simp only [h4] at hq1 ⊢
                by_cases h5 : mustExplore (s.sys.bars.get n.path.length n.state) n.value = true
                · have h5' : mustExplore ((seen none s.sys.bars).pop fuel n.path.length n.state) n.value = true := h5
                  simp only [if_pos h5'] at hq1
                  simp only [if_pos h5]
                  exact solo_keep hs ht ⟨hh, hp, h5, intr0, o0, hk0, hq1⟩
                · have h5' : ¬ mustExplore ((seen none s.sys.bars).pop fuel n.path.length n.state) n.value = true := h5
                  simp only [if_neg h5'] at hq1
                  simp only [if_neg h5]
                  by_cases h6 : cfg.fr.len f = 0
                  · simp only [if_pos h6] at hq1 ⊢
                    have := solo_release hs ht hp hk0 hq1
                    simp only [afterWorkload, hset hp] at this
                    exact this
                  · simp only [if_neg h6] at hq1 ⊢
                    have := solo_keep (x := .pop) (h := s.holder) hs ht (c' := { s.sys.crit with fringe := f, openBy := ob }) (b' := s.sys.bars)
                      ⟨hh, hp, intr0, o0, fuel, hk0, hq1⟩
                    rw [hse] at this
                    exact this
            · simp only [if_neg h3]
              trivial
  | take n f ob =>
    obtain ⟨hh, hp, -, intr0, o0, hk0, hq⟩ := hx
    unfold restTake at hq
    unfold stepSub
    simp only
    cases h1 : s.sys.bars.insert n.path.length n.state { theta := n.value, explored := true } with
    | none => trivial
    | some b =>
      cases h2 : incAt s.sys.crit.ongoingBy n.path.length with
      | none => trivial
      | some gb =>
        simp only [h1, h2] at hq ⊢
        by_cases h3 : i < s.sys.crit.upperBounds.length
        · simp only [if_pos h3] at hq ⊢
          exact solo_release hs ht hp hk0 hq
        · simp only [if_neg h3]
          trivial
  | comp o' w =>
    obtain ⟨hh, hc, intr0, n, lb, hk0, ⟨hp, ha⟩ | ⟨dd, hp, ha⟩⟩ := hx
    · have := stepWork_alone ha
      unfold stepSub
      simp only [hp, hh, if_true]
      generalize stepWork cfg o' (input cfg .restricted n lb) s.sys.bars w = q at this ⊢
      cases q with
      | panic => trivial
      | next w' b' => exact solo_keep hs ht ⟨rfl, hc, intr0, n, lb, hk0, Or.inl ⟨hp, this⟩⟩
      | finished D =>
        obtain ⟨g1, g2⟩ := this
        simp only [setSub_none hs.oth]
        refine solo_done hk0 ?_
        simp only [Bar.step, hs.thr, ht, Bar.stepThread, hp, seen, Option.getD_none, g1, g2, hc]
    · have := stepWork_alone ha
      unfold stepSub
      simp only [hp]
      generalize stepWork cfg o' (input cfg .relaxed n lb) s.sys.bars w = q at this ⊢
      cases q with
      | panic => trivial
      | next w' b' => exact solo_keep hs ht ⟨hh, hc, intr0, n, lb, hk0, Or.inr ⟨dd, hp, this⟩⟩
      | finished D =>
        obtain ⟨g1, g2⟩ := this
        simp only [setSub_none hs.oth, hh]
        refine solo_done hk0 ?_
        simp only [Bar.step, hs.thr, ht, Bar.stepThread, hp, seen, Option.getD_none, g1, g2, hc]

/-- A step of the thread. -/
theorem solo_step (hgw : ∀ intr, getWorkload cfg c.crit c.bars i intr none ≠ none) (hs : Solo K i s c) {intr : Bool} {o : Oracle σ} (hk : K intr o) :
    SoloGood K i c (step cfg s (.run i intr o)) := by
  obtain ⟨t, ht, hx⟩ := hs.sub
  simp only [step, ht]
  unfold stepThread
  cases hsub : s.sub i with
  | some x =>
    rw [hsub] at hx
    exact solo_sub hgw hs ht hsub hx hk
  | none =>
    rw [hsub] at hx
    obtain ⟨e, hh⟩ := hx
    have hq : s = quiet c := by
      have : s.sub = fun _ => none := by rw [← setSub_none hs.oth, setSub_id hsub]
      cases s with
      | mk a b d => simp only at e hh this; subst e hh this; rfl
    have oth : SoloGood K i c (if s.holder = none then
        match Bar.stepThread cfg s.sys i t intr o none with
        | .ok s' => .ok { s with sys := s' }
        | .panic => .panic
        | .blocked => .blocked
      else .blocked) := by
      rw [if_pos hh]
      cases h1 : Bar.stepThread cfg s.sys i t intr o none with
      | panic => trivial
      | blocked => trivial
      | ok s' =>
        subst hq
        refine solo_done hk ?_
        simp only [quiet] at h1 ht
        simp only [Bar.step, ht, h1]
    cases hpc : t.pc with
    | waiting => trivial
    | done => trivial
    | idle =>
      simp only [if_pos hh]
      exact solo_keep (x := .clean) hs ht (c' := s.sys.crit) (b' := s.sys.bars) ⟨rfl, hpc, cfg.p.nbVars + 1, fun intr => by simp only [e]; exact getWorkload_eq ..⟩
    | restr n lb =>
      exact solo_keep hs ht (c' := s.sys.crit) (b' := s.sys.bars) ⟨hh, by rw [e], intr, n, lb, hk, Or.inl ⟨hpc, by simp only [e]; exact start_alone _ _⟩⟩
    | relx n lb dd =>
      exact solo_keep hs ht (c' := s.sys.crit) (b' := s.sys.bars) ⟨hh, by rw [e], intr, n, lb, hk, Or.inr ⟨dd, hpc, by simp only [e]; exact start_alone _ _⟩⟩
    | start n => exact oth
    | relb n dd => exact oth
    | post n dd => exact oth
    | fin d dd => exact oth
end

/-- Nobody is within a step. -/
theorem quiet_solo (K : Bool → Oracle σ → Prop) {i : Nat} {c : BSys σ cfg.fr.F} {t : BThread σ} (ht : c.threads[i]? = some t) : Solo K i (quiet c) c :=
  ⟨rfl, fun _ _ => rfl, t, ht, rfl, rfl⟩

/-! ### With one thread nothing else can happen -/

/-- The labels of a run, when `interrupt()` always answers no. -/
def Allowed (m : Bool) (intr : Bool) (o : Oracle σ) : Prop := o.Valid ∧ (m = true → intr = false)

theorem single_runs (hg : BaseCfg cfg S B) (hn : cfg.nbThreads ≤ cfg.custom) (h1 : cfg.nbThreads = 1) (m : Bool) : ∀ (ls : List (FLbl σ)) (s s' : FSys σ cfg.fr.F)
    (c : BSys σ cfg.fr.F), Solo (Allowed m) 0 s c → Inv L c → (∀ l ∈ ls, FValidLbl l ∧ (m = true → FNoInterrupt l)) → runs cfg s ls = .ok s' →
    ∃ (bs : List (BLbl σ)) (c' : BSys σ cfg.fr.F), Bar.runs cfg c bs = .ok c' ∧ Solo (Allowed m) 0 s' c' ∧ (∀ l ∈ bs, BValidLbl l ∧ Sharp l ∧ (m = true → NoInterrupt l))
  | [], s, s', c, hs, _, _, h => ⟨[], c, rfl, by cases h; exact hs, by simp⟩
  | l :: ls, s, s', c, hs, hi, hl, h => by
    obtain ⟨t, ht, hx⟩ := hs.sub
    have ht' : c.threads[0]? = some t := by rw [hs.thr]; exact ht
    have hlen : ∀ j t', s.sys.threads[j]? = some t' → j = 0 := by
      intro j t' hj
      have h2 := (List.getElem?_eq_some_iff.1 hj).1
      rw [← hs.thr, hi.thr, h1] at h2
      omega
    simp only [runs] at h
    cases hst : step cfg s l with
    | panic => rw [hst] at h; cases h
    | blocked => rw [hst] at h; cases h
    | ok s1 =>
      rw [hst] at h
      simp only at h
      have hls : ∀ l ∈ ls, FValidLbl l ∧ (m = true → FNoInterrupt l) := fun x hx => hl x (by simp [hx])
      have fin : ∀ c1 lb, BValidLbl lb ∧ Sharp lb ∧ (m = true → NoInterrupt lb) → Bar.step cfg c lb = .ok c1 → Solo (Allowed m) 0 s1 c1 →
          ∃ (bs : List (BLbl σ)) (c' : BSys σ cfg.fr.F), Bar.runs cfg c bs = .ok c' ∧ Solo (Allowed m) 0 s' c' ∧
            (∀ l ∈ bs, BValidLbl l ∧ Sharp l ∧ (m = true → NoInterrupt l)) := by
        intro c1 lb g1 g2 g3
        have hi1 : Inv L c1 := trans_inv hg ((step_trans (L := L) hg (hi.safe hn) g1.1).2 _ g2) hi
        obtain ⟨bs, c', a1, a2, a3⟩ := single_runs hg hn h1 m ls s1 s' c1 g3 hi1 hls h
        refine ⟨lb :: bs, c', by simp only [Bar.runs, g2]; exact a1, a2, ?_⟩
        intro x hx
        rcases List.mem_cons.1 hx with rfl | hx
        · exact g1
        · exact a3 x hx
      cases l with
      | spurious j =>
        simp only [step] at hst
        cases htj : s.sys.threads[j]? with
        | none => simp only [htj] at hst; cases hst
        | some tj =>
          have := hlen j tj htj
          subst this
          rw [ht] at htj; cases htj
          simp only [ht] at hst
          by_cases hp : t.pc = .waiting
          · simp only [hp] at hst
            cases hst
            have hsub : s.sub 0 = none := by
              cases hsb : s.sub 0 with
              | none => rfl
              | some x =>
                rw [hsb] at hx
                cases x with
                | clean => have := hx.2.1; rw [hp] at this; cases this
                | pop => have := hx.2.1; rw [hp] at this; cases this
                | take n f ob => have := hx.2.1; rw [hp] at this; cases this
                | comp o w =>
                  obtain ⟨-, -, -, n, lb, -, ⟨g, -⟩ | ⟨dd, g, -⟩⟩ := hx <;> rw [hp] at g <;> cases g
            rw [hsub] at hx
            obtain ⟨e, hh⟩ := hx
            refine fin { c with threads := c.threads.set 0 { t with pc := .idle } } (.spurious 0) ⟨trivial, trivial, fun _ => trivial⟩ (by simp [Bar.step, ht', hp]) ?_
            refine ⟨by rw [e], hs.oth, { t with pc := .idle }, ?_, ?_⟩
            · simp only
              rw [List.getElem?_set_self (by exact (List.getElem?_eq_some_iff.1 ht).1)]
            · simp only [hsub]
              exact ⟨by rw [e], hh⟩
          · cases hpc : t.pc <;> first | exact absurd hpc hp | (simp only [hpc] at hst; cases hst)
      | run j intr o =>
        have hj : j = 0 := by
          simp only [step] at hst
          cases htj : s.sys.threads[j]? with
          | none => simp only [htj] at hst; cases hst
          | some tj => exact hlen j tj htj
        subst hj
        have hl0 := hl (.run 0 intr o) (by simp)
        have := solo_step (K := Allowed m) (i := 0) (fun intr => gw_total hg hn hi ht' intr none) hs (intr := intr) (o := o) ⟨hl0.1, fun hm => hl0.2 hm⟩
        rw [hst] at this
        rcases this with g | ⟨intr', o', g1, g2, g3⟩
        · exact single_runs hg hn h1 m ls s1 s' c g hi hls h
        · refine fin s1.sys (.run 0 intr' o' none) ⟨g1.1, rfl, fun hm => g1.2 hm⟩ g2 ?_
          have hi1 : Inv L s1.sys := trans_inv hg ((step_trans (L := L) hg (hi.safe hn) (l := .run 0 intr' o' none) g1.1).2 _ g2) hi
          have hl1 : 0 < s1.sys.threads.length := by rw [hi1.thr, h1]; omega
          rw [g3]
          exact quiet_solo _ (List.getElem?_eq_getElem hl1)

/-! ### What sees the barrier as it is can happen -/

theorem solo_complete (hg : BaseCfg cfg S B) (hn : cfg.nbThreads ≤ cfg.custom) {i : Nat} {c : BSys σ cfg.fr.F} (hic : Inv L c) {intr : Bool} {o : Oracle σ} (ho : o.Valid)
    {t : BThread σ} (hts : c.threads[i]? = some t) (hp1 : t.pc ≠ .waiting) (hp2 : t.pc ≠ .done) :
    ∀ x, Acc (Prod.Lex (Relation.TransGen Par.Less) (· < ·)) x → ∀ (s : FSys σ cfg.fr.F) (e : BSys σ cfg.fr.F), Rel anyG L S B s e → Inv L e →
      (Bar.measure L S e.crit e.threads, stages cfg s) = x → Solo (fun a b => a = intr ∧ b = o) i s c →
      ∃ (ls : List (FLbl σ)) (c' : BSys σ cfg.fr.F), (∀ l ∈ ls, l = .run i intr o) ∧ Bar.step cfg c (.run i intr o none) = .ok c' ∧ runs cfg s ls = .ok (quiet c') := by
  intro x hx
  induction hx with
  | intro x _ ih =>
    intro s e hr hi hm hs
    have hgw : ∀ intr, getWorkload cfg c.crit c.bars i intr none ≠ none := fun intr => gw_total hg hn hic hts intr none
    have ht : s.sys.threads[i]? = some t := by rw [← hs.thr]; exact hts
    have hh : s.holder = none ∨ s.holder = some i := by
      obtain ⟨t1, -, hx⟩ := hs.sub
      cases hsb : s.sub i with
      | none => rw [hsb] at hx; exact Or.inl hx.2
      | some y =>
        rw [hsb] at hx
        cases y with
        | clean => exact Or.inr hx.1
        | pop => exact Or.inr hx.1
        | take n f ob => exact Or.inr hx.1
        | comp o w => exact Or.inl hx.1
    obtain ⟨s', hs'⟩ := progress hg hn hr hi ht hp1 hp2 hh intr ho
    have hsolo := solo_step (K := fun a b => a = intr ∧ b = o) hgw hs (intr := intr) (o := o) ⟨rfl, rfl⟩
    have hst := step_good (L := L) (l := .run i intr o) hg hn hr hi (fun _ _ _ _ => trivial) ho
    rw [hs'] at hsolo hst
    rcases hsolo with g | ⟨intr', o', ⟨rfl, rfl⟩, g2, g3⟩
    · have next : ∀ e', Rel anyG L S B s' e' → Inv L e' → Prod.Lex (Relation.TransGen Par.Less) (· < ·) (Bar.measure L S e'.crit e'.threads, stages cfg s') x →
          ∃ (ls : List (FLbl σ)) (c' : BSys σ cfg.fr.F), (∀ l ∈ ls, l = .run i intr o) ∧ Bar.step cfg c (.run i intr o none) = .ok c' ∧ runs cfg s ls = .ok (quiet c') := by
        intro e' a1 a2 a3
        obtain ⟨ls, c', b1, b2, b3⟩ := ih _ a3 s' e' a1 a2 rfl g
        refine ⟨.run i intr o :: ls, c', ?_, b2, by simp only [runs, hs']; exact b3⟩
        intro l hl
        rcases List.mem_cons.1 hl with rfl | hl
        · rfl
        · exact b1 l hl
      rcases hst with ⟨a1, a2⟩ | ⟨lb, e', a1, a2, a3, a4, -⟩
      · exact next e a1 hi (by rw [← hm]; exact Prod.Lex.right _ (closer_stages hr hi a2))
      · have htr := (step_trans (L := L) hg (hi.safe hn) a1).2 _ a3
        have hrun : isRun lb = true := by
          cases lb with
          | run j intr' o' v => rfl
          | spurious j => exact absurd a2 (by simp [Matches])
        rw [hrun] at htr
        exact next e' a4 (trans_inv hg htr hi) (by rw [← hm]; exact Prod.Lex.left _ _ (trans_less hg htr hi))
    · exact ⟨[.run i intr' o'], s'.sys, by simp, g2, by simp only [runs, hs']; rw [← g3]⟩

/-- A step of the coarse model that sees the barrier as it is can be performed access by access. -/
theorem quiet_step (hg : BaseCfg cfg S B) (hn : cfg.nbThreads ≤ cfg.custom) {c c' : BSys σ cfg.fr.F} (hi : Inv L c) {l : BLbl σ} (hl : BValidLbl l) (hsh : Sharp l)
    (h : Bar.step cfg c l = .ok c') : ∃ ls : List (FLbl σ), (∀ l ∈ ls, FValidLbl l) ∧ (NoInterrupt l → ∀ l ∈ ls, FNoInterrupt l) ∧ runs cfg (quiet c) ls = .ok (quiet c') := by
  cases l with
  | spurious i =>
    refine ⟨[.spurious i], by simp [FValidLbl], by simp [FNoInterrupt], ?_⟩
    simp only [Bar.step] at h
    simp only [runs, step, quiet]
    cases ht : c.threads[i]? with
    | none => simp only [ht] at h; cases h
    | some t =>
      simp only [ht] at h
      by_cases hp : t.pc = .waiting
      · simp only [hp] at h ⊢
        cases h; rfl
      · cases hpc : t.pc <;> first | exact absurd hpc hp | (simp only [hpc] at h; cases h)
  | run i intr o v =>
    have hv : v = none := hsh
    subst hv
    cases ht : c.threads[i]? with
    | none => simp only [Bar.step, ht] at h; cases h
    | some t =>
      have hp1 : t.pc ≠ .waiting := by intro hp; simp only [Bar.step, ht, Bar.stepThread, hp] at h; cases h
      have hp2 : t.pc ≠ .done := by intro hp; simp only [Bar.step, ht, Bar.stepThread, hp] at h; cases h
      obtain ⟨ls, c1, b1, b2, b3⟩ := solo_complete (S := S) (B := B) hg hn hi (intr := intr) (o := o) hl ht hp1 hp2 _
        ((WellFounded.prod_lex Par.less_wf.transGen wellFounded_lt).apply _) (quiet c) c (quiet_rel hi) hi rfl (quiet_solo _ ht)
      rw [h] at b2; cases b2
      refine ⟨ls, ?_, ?_, b3⟩
      · intro l hl'; rw [b1 l hl']; exact hl
      · intro hni l hl'; rw [b1 l hl']; exact hni

theorem quiet_runs (hg : BaseCfg cfg S B) (hn : cfg.nbThreads ≤ cfg.custom) : ∀ (bs : List (BLbl σ)) (c c' : BSys σ cfg.fr.F), Inv L c →
    (∀ l ∈ bs, BValidLbl l ∧ Sharp l) → Bar.runs cfg c bs = .ok c' →
    ∃ ls : List (FLbl σ), (∀ l ∈ ls, FValidLbl l) ∧ ((∀ l ∈ bs, NoInterrupt l) → ∀ l ∈ ls, FNoInterrupt l) ∧ runs cfg (quiet c) ls = .ok (quiet c')
  | [], c, c', _, _, h => by cases h; exact ⟨[], by simp, by simp, rfl⟩
  | b :: bs, c, c', hi, hl, h => by
    simp only [Bar.runs] at h
    cases hs : Bar.step cfg c b with
    | panic => rw [hs] at h; cases h
    | blocked => rw [hs] at h; cases h
    | ok c1 =>
      rw [hs] at h
      have hb := hl b (by simp)
      obtain ⟨ls1, a1, a2, a3⟩ := quiet_step hg hn hi hb.1 hb.2 hs
      have hi1 : Inv L c1 := trans_inv hg ((step_trans (L := L) hg (hi.safe hn) hb.1).2 _ hs) hi
      obtain ⟨ls2, b1, b2, b3⟩ := quiet_runs hg hn bs c1 c' hi1 (fun x hx => hl x (by simp [hx])) h
      refine ⟨ls1 ++ ls2, ?_, ?_, by rw [runs_append _ _ _ _ a3]; exact b3⟩
      · intro x hx
        rcases List.mem_append.1 hx with hx | hx
        · exact a1 x hx
        · exact b1 x hx
      · intro hni x hx
        rcases List.mem_append.1 hx with hx | hx
        · exact a2 (hni b (by simp)) x hx
        · exact b2 (fun y hy => hni y (by simp [hy])) x hx

end Verif.Fine
