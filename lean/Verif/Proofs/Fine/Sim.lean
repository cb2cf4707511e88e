import Verif.Proofs.Fine.Work
import Verif.Proofs.Fine.Rest
import Verif.Proofs.Fine.Stage
import Verif.Proofs.Bar.Final
import Verif.Spec.BarrierFine
/-! Every run at the level of single accesses is a run of `Model/Barrier.lean` for suitable views. -/
set_option autoImplicit false

namespace Verif.Fine
open Verif Spec Bar
open Verif.Par (input)
variable {σ : Type} [DecidableEq σ] [Inhabited σ] {cfg : SolverCfg σ} {L : FrontierLaws cfg.fr} {S : Layering σ} {B : Int}
  {G : Nat → σ → BarrierInfo → Prop}

/-! ### The relation -/

/-- What a view shows satisfies `G`; the compilations do not see whether the threshold was stored for an explored node. -/
def ViewIn (G : Nat → σ → BarrierInfo → Prop) (v : View σ) : Prop :=
  (∀ d x i, v.get d x = some i → ∃ e, G d x ⟨i.theta, e⟩) ∧ ∀ k d x i, v.pop k d x = some i → G d x i

def ReadsIn (G : Nat → σ → BarrierInfo → Prop) (V : Reads σ) : Prop := ∀ d x y, V.theta d x = some y → ∃ e, G d x ⟨y, e⟩

def LblIn (G : Nat → σ → BarrierInfo → Prop) : BLbl σ → Prop
  | .run _ _ _ (some v) => ViewIn G v
  | _ => True

/-- What is in the barrier satisfies `G`. -/
def StoreIn (G : Nat → σ → BarrierInfo → Prop) (b : Bars σ) : Prop := ∀ d x i, b.get d x = some i → G d x i

/-- No condition. -/
abbrev anyG : Nat → σ → BarrierInfo → Prop := fun _ _ _ => True

/-- The rest of `get_workload` from `c` leads to what the whole leads to from `c0`; the contents of the barrier do not matter. -/
def CleanOK (cfg : SolverCfg σ) (i : Nat) (c0 c : BCrit σ cfg.fr.F) : Prop :=
  ∃ fuel, ∀ b : Bars σ, b.length = cfg.p.nbVars + 1 → ∃ b' : Bars σ, b'.length = cfg.p.nbVars + 1 ∧
    ∀ v intr, getWorkload cfg c0 b i intr v = restClean cfg i v intr fuel c b'

def PopOK (cfg : SolverCfg σ) (G : Nat → σ → BarrierInfo → Prop) (i : Nat) (c0 c : BCrit σ cfg.fr.F) : Prop :=
  ∃ (fuel : Nat) (P : Nat → Nat → σ → Option BarrierInfo), (∀ k d x y, P k d x = some y → G d x y) ∧ ∀ b : Bars σ, b.length = cfg.p.nbVars + 1 → ∃ b' : Bars σ, b'.length = cfg.p.nbVars + 1 ∧
    ∀ v : View σ, (∀ k, fuel ≤ k → v.pop k = P k) → getWorkload cfg c0 b i false (some v) = popLoop cfg i (some v) fuel c b'

def TakeOK (cfg : SolverCfg σ) (G : Nat → σ → BarrierInfo → Prop) (i : Nat) (n : SubProblem σ) (f : cfg.fr.F) (ob : List Nat) (c0 c : BCrit σ cfg.fr.F) : Prop :=
  ∃ v : View σ, ViewIn G v ∧ ∀ b : Bars σ, b.length = cfg.p.nbVars + 1 → ∃ b' : Bars σ, b'.length = cfg.p.nbVars + 1 ∧
    getWorkload cfg c0 b i false (some v) = restTake cfg i n f ob c b'

/-- What is known of a thread that is within a `get_workload` or a compilation. -/
def SubOK (cfg : SolverCfg σ) (G : Nat → σ → BarrierInfo → Prop) (L : FrontierLaws cfg.fr) (S : Layering σ) (B : Int) (holder : Option Nat) (c0 c : BCrit σ cfg.fr.F) (i : Nat) (t : BThread σ) : Sub σ cfg.fr.F → Prop
  | .clean => holder = some i ∧ t.pc = .idle ∧ c.fringe = c0.fringe ∧ CleanOK cfg i c0 c
  | .pop => holder = some i ∧ t.pc = .idle ∧ L.inv c.fringe ∧ PopOK cfg G i c0 c
  | .take n f ob => holder = some i ∧ t.pc = .idle ∧ TakeOK cfg G i n f ob c0 c
  | .comp o w => o.Valid ∧ ∃ V n lb, (t.pc = .restr n lb ∧ WorkOK cfg S B o (input cfg .restricted n lb) t.mdd V w ∧ ReadsIn G V) ∨
      ∃ dd, t.pc = .relx n lb dd ∧ WorkOK cfg S B o (input cfg .relaxed n lb) t.mdd V w ∧ ReadsIn G V

/-- The two states differ in the contents of the barrier and in the progress of the thread that holds the mutex only. -/
structure Rel (G : Nat → σ → BarrierInfo → Prop) (L : FrontierLaws cfg.fr) (S : Layering σ) (B : Int) (s : FSys σ cfg.fr.F) (c : BSys σ cfg.fr.F) : Prop where
  thr : c.threads = s.sys.threads
  len : s.sys.bars.length = cfg.p.nbVars + 1
  free : s.holder = none → c.crit = s.sys.crit
  sub : ∀ i x, s.sub i = some x → ∃ t, s.sys.threads[i]? = some t ∧ SubOK cfg G L S B s.holder c.crit s.sys.crit i t x
  hold : ∀ i, s.holder = some i → s.sub i = some .clean ∨ s.sub i = some .pop ∨ ∃ n f ob, s.sub i = some (.take n f ob)
  /-- during `get_workload` the incumbent does not change -/
  inc : c.crit.bestLb = s.sys.crit.bestLb ∧ c.crit.bestSol = s.sys.crit.bestSol

theorem setSub_self {α : Type} (f : Nat → Option α) (i : Nat) (x : Option α) : setSub f i x i = x := by simp [setSub]
theorem setSub_ne {α : Type} (f : Nat → Option α) {i j : Nat} (x : Option α) (h : j ≠ i) : setSub f i x j = f j := by simp [setSub, h]

theorem SubOK.comp {holder holder' : Option Nat} {c0 c c0' c' : BCrit σ cfg.fr.F} {i : Nat} {t : BThread σ} {x : Sub σ cfg.fr.F}
    (h : SubOK cfg G L S B holder c0 c i t x) (hh : holder ≠ some i) : SubOK cfg G L S B holder' c0' c' i t x := by
  cases x with
  | clean => exact absurd h.1 hh
  | pop => exact absurd h.1 hh
  | take n f ob => exact absurd h.1 hh
  | comp o w => exact h

/-- A thread that is within a compilation is not affected by a wake-up. -/
theorem SubOK.wake {holder : Option Nat} {c0 c : BCrit σ cfg.fr.F} {i : Nat} {t : BThread σ} {x : Sub σ cfg.fr.F}
    (h : SubOK cfg G L S B holder c0 c i t x) (hh : holder ≠ some i) : wake t = t := by
  cases x with
  | clean => exact absurd h.1 hh
  | pop => exact absurd h.1 hh
  | take n f ob => exact absurd h.1 hh
  | comp o w =>
    obtain ⟨-, V, n, lb, ⟨h, -⟩ | ⟨dd, h, -⟩⟩ := h <;> simp [Bar.wake, h]

theorem SubOK.pc {holder : Option Nat} {c0 c : BCrit σ cfg.fr.F} {i : Nat} {t : BThread σ} {x : Sub σ cfg.fr.F}
    (h : SubOK cfg G L S B holder c0 c i t x) : t.pc = .idle ∨ (∃ n lb, t.pc = .restr n lb) ∨ ∃ n lb dd, t.pc = .relx n lb dd := by
  cases x with
  | clean => exact Or.inl h.2.1
  | pop => exact Or.inl h.2.1
  | take n f ob => exact Or.inl h.2.1
  | comp o w =>
    obtain ⟨-, V, n, lb, ⟨h, -⟩ | ⟨dd, h, -⟩⟩ := h
    · exact Or.inr (Or.inl ⟨n, lb, h⟩)
    · exact Or.inr (Or.inr ⟨n, lb, dd, h⟩)

/-- `get_workload` does not panic. -/
theorem gw_total (hg : BaseCfg cfg S B) (hn : cfg.nbThreads ≤ cfg.custom) {c : BSys σ cfg.fr.F} (hi : Inv L c) {i : Nat} {t : BThread σ} (ht : c.threads[i]? = some t)
    (intr : Bool) (v : Option (View σ)) : getWorkload cfg c.crit c.bars i intr v ≠ none := by
  have hs := hi.safe hn
  have hlt : i < c.crit.upperBounds.length := Nat.lt_of_lt_of_le (List.getElem?_eq_some_iff.1 ht).1 (hs.ubs trivial)
  obtain ⟨c', b', w, c1, b1, h1, -⟩ := getWorkload_spec (L := L) hg.wf v hs.safeC intr (fun _ => hlt) (Dd.new .lastExactLayer)
  rw [h1]; simp

/-- The step of the coarse model that performs a `get_workload`. -/
theorem gw_step {c : BSys σ cfg.fr.F} {i : Nat} {t : BThread σ} (ht : c.threads[i]? = some t) (hp : t.pc = .idle) {intr : Bool} {o : Oracle σ} {v : Option (View σ)}
    {c' : BCrit σ cfg.fr.F} {b' : Bars σ} {w : WorkLoad σ} (h : getWorkload cfg c.crit c.bars i intr v = some (c', b', w)) :
    Bar.step cfg c (.run i intr o v) = .ok ⟨c', b', c.threads.set i { t with pc := afterWorkload w }⟩ := by
  have : t = { t with pc := .idle } := by rw [← hp]
  simp only [Bar.step, ht, Bar.stepThread, hp, h]
  cases w <;> first | rfl | (simp only [afterWorkload]; rw [← this])

/-- The label of the coarse model stands for the same thread, and `interrupt()` does not answer yes unless it does so in the other one. -/
def Matches : FLbl σ → BLbl σ → Prop
  | .run i intr _, .run j intr' _ (some _) => i = j ∧ (intr' = true → intr = true)
  | .spurious i, .spurious j => i = j
  | _, _ => False

/-- One thread comes closer to its next step of the coarse model. -/
def Closer (s s' : FSys σ cfg.fr.F) : Prop :=
  ∃ i t, s.sys.threads[i]? = some t ∧ s'.sys.threads = s.sys.threads ∧ stage cfg s'.sys.crit t (s'.sub i) < stage cfg s.sys.crit t (s.sub i) ∧
    (∀ j, j ≠ i → s'.sub j = s.sub j) ∧ (s.holder = some i ∨ s'.sys.crit = s.sys.crit)

/-- A step of the coarse model, or none, simulates the step `l` to `s'`. -/
def Simulated (G : Nat → σ → BarrierInfo → Prop) (L : FrontierLaws cfg.fr) (S : Layering σ) (B : Int) (s : FSys σ cfg.fr.F) (c : BSys σ cfg.fr.F) (l : FLbl σ) (s' : FSys σ cfg.fr.F) : Prop :=
  (Rel G L S B s' c ∧ Closer s s') ∨ ∃ lb c', BValidLbl lb ∧ Matches l lb ∧ Bar.step cfg c lb = .ok c' ∧ Rel G L S B s' c' ∧ LblIn G lb

/-- Outcome of a step. -/
def Good (G : Nat → σ → BarrierInfo → Prop) (L : FrontierLaws cfg.fr) (S : Layering σ) (B : Int) (s : FSys σ cfg.fr.F) (c : BSys σ cfg.fr.F) (l : FLbl σ) : Res (FSys σ cfg.fr.F) → Prop
  | .panic => False
  | .blocked => True
  | .ok s' => Simulated G L S B s c l s'

theorem set_self {α : Type} {l : List α} {i : Nat} {a : α} (h : l[i]? = some a) : l.set i a = l := by
  obtain ⟨h1, h2⟩ := List.getElem?_eq_some_iff.1 h
  rw [← h2]; exact List.set_getElem_self h1

/-- The thread that holds the mutex releases it. -/
theorem release {s : FSys σ cfg.fr.F} {c : BSys σ cfg.fr.F} (hr : Rel G L S B s c) {i : Nat} {t : BThread σ}
    (ht : s.sys.threads[i]? = some t) (hp : t.pc = .idle) (hh : s.holder = some i) {intr intr' : Bool} (hint : intr' = true → intr = true) {o : Oracle σ} (ho : o.Valid) {v : View σ}
    {c' : BCrit σ cfg.fr.F} {b' : Bars σ} {w : WorkLoad σ} (h : getWorkload cfg c.crit c.bars i intr' (some v) = some (c', b', w)) (hvi : ViewIn G v) {b : Bars σ}
    (hb : b.length = cfg.p.nbVars + 1) :
    Simulated G L S B s c (.run i intr o) { sys := ⟨c', b, s.sys.threads.set i { t with pc := afterWorkload w }⟩, holder := none, sub := setSub s.sub i none } := by
  right
  have ht' : c.threads[i]? = some t := by rw [hr.thr]; exact ht
  refine ⟨.run i intr' o (some v), _, ho, ⟨rfl, hint⟩, gw_step ht' hp h, ?_, hvi⟩
  refine ⟨by simp only [hr.thr], hb, fun _ => rfl, ?_, (fun j hj => by cases hj), rfl, rfl⟩
  intro j x hx
  simp only at hx
  by_cases hj : j = i
  · subst hj; rw [setSub_self] at hx; cases hx
  · rw [setSub_ne _ _ hj] at hx
    obtain ⟨tj, h1, h2⟩ := hr.sub j x hx
    refine ⟨tj, ?_, h2.comp (by rw [hh]; intro e; cases e; exact hj rfl)⟩
    simp only [List.getElem?_set_ne (Ne.symm hj)]
    exact h1

/-- The thread that holds the mutex goes on. -/
theorem keep {s : FSys σ cfg.fr.F} {c : BSys σ cfg.fr.F} (hr : Rel G L S B s c) {i : Nat} {t : BThread σ}
    (ht : s.sys.threads[i]? = some t) (hh : s.holder = some i) {l : FLbl σ} {c' : BCrit σ cfg.fr.F} {b : Bars σ} (hb : b.length = cfg.p.nbVars + 1)
    {x : Sub σ cfg.fr.F} (hx : x = .clean ∨ x = .pop ∨ ∃ n f ob, x = .take n f ob) (hs : SubOK cfg G L S B (some i) c.crit c' i t x)
    (hc : stage cfg c' t (some x) < stage cfg s.sys.crit t (s.sub i))
    (he : c'.bestLb = s.sys.crit.bestLb ∧ c'.bestSol = s.sys.crit.bestSol) :
    Simulated G L S B s c l { sys := ⟨c', b, s.sys.threads⟩, holder := s.holder, sub := setSub s.sub i (some x) } := by
  refine Or.inl ⟨?_, i, t, ht, rfl, by simp only [setSub_self]; exact hc, fun j hj => setSub_ne _ _ hj, Or.inl hh⟩
  refine ⟨hr.thr, hb, (fun h => by simp only [hh] at h; cases h), ?_, ?_, ?_⟩
  · intro j y hy
    simp only at hy
    by_cases hj : j = i
    · subst hj
      rw [setSub_self] at hy
      cases hy
      exact ⟨t, ht, by rw [hh]; exact hs⟩
    · rw [setSub_ne _ _ hj] at hy
      obtain ⟨tj, h1, h2⟩ := hr.sub j y hy
      exact ⟨tj, h1, h2.comp (by rw [hh]; intro e; cases e; exact hj rfl)⟩
  · intro j hj
    simp only [hh] at hj
    cases hj
    simp only [setSub_self]
    rcases hx with rfl | rfl | ⟨n, f, ob, rfl⟩
    · exact Or.inl rfl
    · exact Or.inr (Or.inl rfl)
    · exact Or.inr (Or.inr ⟨n, f, ob, rfl⟩)
  · exact ⟨hr.inc.1.trans he.1.symm, hr.inc.2.trans he.2.symm⟩

/-- The view in which the looks of `get_workload` see what `P` says. -/
def popView (P : Nat → Nat → σ → Option BarrierInfo) : View σ := ⟨fun _ => true, fun _ _ => none, P⟩

omit [DecidableEq σ] [Inhabited σ] in
theorem viewIn_none : ViewIn G (popView fun _ _ _ => none) := ⟨(fun _ _ _ h => by cases h), (fun _ _ _ _ h => by cases h)⟩

section steps
variable (hg : BaseCfg cfg S B) (hn : cfg.nbThreads ≤ cfg.custom)
include hg hn

/-- After the clean-up. -/
theorem decide_good {s : FSys σ cfg.fr.F} {c : BSys σ cfg.fr.F} (hr : Rel G L S B s c) (hi : Inv L c) {i : Nat} {t : BThread σ} (ht : s.sys.threads[i]? = some t)
    (hp : t.pc = .idle) (hh : s.holder = some i) (hfr : s.sys.crit.fringe = c.crit.fringe) (hsub : s.sub i = some .clean) (intr : Bool) {o : Oracle σ} (ho : o.Valid)
    (hq : ∀ b : Bars σ, b.length = cfg.p.nbVars + 1 → ∃ b' : Bars σ, b'.length = cfg.p.nbVars + 1 ∧
      ∀ v intr, getWorkload cfg c.crit b i intr v = tail cfg i v intr s.sys.crit b') :
    Good G L S B s c (.run i intr o) (decideWork cfg s i t intr) := by
  have ht' : c.threads[i]? = some t := by rw [hr.thr]; exact ht
  obtain ⟨b', hb', hgw⟩ := hq c.bars hi.len.2.2
  have hne := gw_total hg hn hi ht' intr (some (popView fun _ _ _ => none))
  rw [hgw] at hne
  have hgi := hgw (some (popView fun _ _ _ => none)) intr
  have rel : ∀ c' w, tail cfg i (some (popView fun _ _ _ => none)) intr s.sys.crit b' = some (c', b', w) →
      Simulated G L S B s c (.run i intr o) { sys := ⟨c', s.sys.bars, s.sys.threads.set i { t with pc := afterWorkload w }⟩, holder := none, sub := setSub s.sub i none } := by
    intro c' w h
    exact release hr ht hp hh id ho (hgi.trans h) viewIn_none hr.len
  unfold decideWork
  unfold tail at hne rel
  simp only
  by_cases h1 : s.sys.crit.ongoing = 0 ∧ cfg.fr.len s.sys.crit.fringe = 0
  · simp only [if_pos h1] at rel ⊢
    exact rel _ _ rfl
  simp only [if_neg h1] at rel hne ⊢
  by_cases h2 : s.sys.crit.interrupted = true
  · simp only [if_pos h2] at rel ⊢
    exact rel _ _ rfl
  simp only [if_neg h2] at rel hne ⊢
  by_cases h3 : intr = true
  · simp only [if_pos h3] at rel hne ⊢
    by_cases h4 : s.sys.crit.ongoing > 0
    · simp only [if_pos h4] at rel ⊢
      exact rel _ _ rfl
    · simp only [if_neg h4] at rel hne ⊢
      cases h5 : cfg.fr.pop s.sys.crit.fringe with
      | none => simp only [h5] at hne; exact hne rfl
      | some x =>
        obtain ⟨f, n⟩ := x
        cases n with
        | none => simp only [h5] at hne; exact hne rfl
        | some n =>
          simp only [h5] at rel ⊢
          exact rel _ _ rfl
  simp only [if_neg h3] at rel hne ⊢
  by_cases h4 : cfg.fr.len s.sys.crit.fringe = 0
  · simp only [if_pos h4] at rel ⊢
    exact rel _ _ rfl
  simp only [if_neg h4] at rel hne ⊢
  refine keep hr ht hh hr.len (Or.inr (Or.inl rfl)) ⟨rfl, hp, by rw [hfr]; exact hi.inv, cfg.fr.len s.sys.crit.fringe, fun _ _ _ => none, (fun _ _ _ _ h => by cases h), ?_⟩ (by rw [hsub]; simp [stage, rank3_lt]) ⟨rfl, rfl⟩
  intro b hb
  obtain ⟨b', g1, g2⟩ := hq b hb
  refine ⟨b', g1, ?_⟩
  intro v _
  rw [g2]
  unfold tail
  simp only [if_neg h1, if_neg h2, Bool.false_eq_true, if_false, if_neg h4]

theorem clean_good {s : FSys σ cfg.fr.F} {c : BSys σ cfg.fr.F} (hr : Rel G L S B s c) (hi : Inv L c) {i : Nat} {t : BThread σ} (ht : s.sys.threads[i]? = some t)
    (hsub : s.sub i = some .clean)
    (hs : SubOK cfg G L S B s.holder c.crit s.sys.crit i t .clean) (intr : Bool) {o : Oracle σ} (ho : o.Valid) :
    Good G L S B s c (.run i intr o) (stepSub cfg s i t intr .clean) := by
  obtain ⟨hh, hp, hfr, fuel, hq⟩ := hs
  have ht' : c.threads[i]? = some t := by rw [hr.thr]; exact ht
  obtain ⟨b0, hb0, hgw⟩ := hq c.bars hi.len.2.2
  have hne := gw_total hg hn hi ht' intr none
  rw [hgw] at hne
  cases fuel with
  | zero => exact absurd rfl hne
  | succ fuel =>
    simp only [restClean_succ] at hq hne
    unfold stepSub
    simp only
    by_cases h1 : s.sys.crit.lowest < cfg.p.nbVars
    · simp only [if_pos h1] at hq hne ⊢
      cases h2 : s.sys.crit.openBy[s.sys.crit.lowest]? with
      | none => simp only [h2] at hne; exact absurd rfl hne
      | some x =>
        cases h3 : s.sys.crit.ongoingBy[s.sys.crit.lowest]? with
        | none => simp only [h2, h3] at hne; exact absurd rfl hne
        | some y =>
          simp only [h2, h3] at hq hne ⊢
          by_cases h4 : x + y = 0
          · simp only [if_pos h4] at hq hne ⊢
            have hc : ∀ b : Bars σ, b.length = cfg.p.nbVars + 1 → ∃ b', b.clear s.sys.crit.lowest = some b' ∧ b'.length = cfg.p.nbVars + 1 := by
              intro b hb
              refine ⟨b.set s.sys.crit.lowest [], ?_, by simpa using hb⟩
              unfold Bars.clear
              rw [if_pos (by omega)]
            obtain ⟨b', g1, g2⟩ := hc _ hr.len
            simp only [g1]
            have hk := keep (l := .run i intr o) hr ht hh g2 (x := .clean) (c' := { s.sys.crit with lowest := s.sys.crit.lowest + 1 }) (Or.inl rfl) ⟨rfl, hp, hfr, fuel, by
              intro b hb
              obtain ⟨b1, k1, k2⟩ := hq b hb
              obtain ⟨b2, k3, k4⟩ := hc b1 k1
              refine ⟨b2, k4, ?_⟩
              intro v intr'
              rw [k2, k3]⟩ (by rw [hsub]; exact rank3_lt.2 (Or.inr ⟨rfl, Or.inl (by simp only; omega)⟩)) ⟨rfl, rfl⟩
            have hse : setSub s.sub i (some .clean) = s.sub := by
              funext j
              by_cases hj : j = i
              · subst hj; rw [setSub_self, hsub]
              · rw [setSub_ne _ _ hj]
            rw [hse] at hk
            exact hk
          · simp only [if_neg h4] at hq ⊢
            exact decide_good hg hn hr hi ht hp hh hfr hsub intr ho hq
    · simp only [if_neg h1] at hq ⊢
      exact decide_good hg hn hr hi ht hp hh hfr hsub intr ho hq

theorem pop_good {s : FSys σ cfg.fr.F} {c : BSys σ cfg.fr.F} (hr : Rel G L S B s c) (hi : Inv L c) {i : Nat} {t : BThread σ} (ht : s.sys.threads[i]? = some t)
    (hsub : s.sub i = some .pop)
    (hs : SubOK cfg G L S B s.holder c.crit s.sys.crit i t .pop) (hG : StoreIn G s.sys.bars) (intr : Bool) {o : Oracle σ} (ho : o.Valid) :
    Good G L S B s c (.run i intr o) (stepSub cfg s i t intr .pop) := by
  obtain ⟨hh, hp, hinv, fuel, P, hPG, hq⟩ := hs
  have ht' : c.threads[i]? = some t := by rw [hr.thr]; exact ht
  have hse : setSub s.sub i (some .pop) = s.sub := by
    funext j
    by_cases hj : j = i
    · subst hj; rw [setSub_self, hsub]
    · rw [setSub_ne _ _ hj]
  have hset : s.sys.threads.set i { t with pc := .idle } = s.sys.threads := by
    have : ({ t with pc := .idle } : BThread σ) = t := by rw [← hp]
    rw [this]; exact set_self ht
  cases fuel with
  | zero =>
    obtain ⟨b0, hb0, hgw⟩ := hq c.bars hi.len.2.2
    have hne := gw_total hg hn hi ht' false (some (popView P))
    rw [hgw _ (fun _ _ => rfl)] at hne
    exact absurd rfl hne
  | succ fuel =>
    -- the view that sees, in this iteration, what the barrier contains
    obtain ⟨P', hP'⟩ : ∃ P' : Nat → Nat → σ → Option BarrierInfo, P' = fun k => if k = fuel then s.sys.bars.get else P k := ⟨_, rfl⟩
    have hP1 : P' fuel = s.sys.bars.get := by simp [hP']
    have hPG' : ∀ k d x y, P' k d x = some y → G d x y := by
      intro k d x y h
      simp only [hP'] at h
      split at h
      · exact hG d x y h
      · exact hPG k d x y h
    have hvi : ViewIn G (popView P') := ⟨(fun _ _ _ h => by cases h), hPG'⟩
    have hP2 : ∀ v : View σ, (∀ k, fuel ≤ k → v.pop k = P' k) → (∀ k, fuel + 1 ≤ k → v.pop k = P k) ∧ v.pop fuel = s.sys.bars.get := by
      intro v hv
      refine ⟨?_, (hv fuel (Nat.le_refl _)).trans hP1⟩
      intro k hk
      rw [hv k (by omega), hP']
      simp [show k ≠ fuel by omega]
    have hq' : ∀ b : Bars σ, b.length = cfg.p.nbVars + 1 → ∃ b' : Bars σ, b'.length = cfg.p.nbVars + 1 ∧
        ∀ v : View σ, (∀ k, fuel ≤ k → v.pop k = P' k) → getWorkload cfg c.crit b i false (some v) = popLoop cfg i (some v) (fuel + 1) s.sys.crit b' := by
      intro b hb
      obtain ⟨b', g1, g2⟩ := hq b hb
      exact ⟨b', g1, fun v hv => g2 v (hP2 v hv).1⟩
    obtain ⟨b0, hb0, hgw⟩ := hq' c.bars hi.len.2.2
    have hgp := hgw (popView P') (fun _ _ => rfl)
    have hne := gw_total hg hn hi ht' false (some (popView P'))
    rw [hgp] at hne
    simp only [popLoop_succ, seen, Option.getD_some] at hq' hne hgp
    have hpv : (popView P').pop fuel = s.sys.bars.get := hP1
    simp only [hpv] at hne hgp
    unfold stepSub
    simp only
    cases h1 : cfg.fr.pop s.sys.crit.fringe with
    | none => simp only [h1] at hne; exact absurd rfl hne
    | some x =>
      obtain ⟨f, n⟩ := x
      cases n with
      | none => simp only [h1] at hne; exact absurd rfl hne
      | some n =>
        obtain ⟨hfi, hfl⟩ : L.inv f ∧ cfg.fr.len f < cfg.fr.len s.sys.crit.fringe := by
          rcases L.pop _ hinv with ⟨f', -, e, -⟩ | ⟨f', n', e, e1, e2, -⟩
          · rw [h1] at e; cases e
          · rw [h1] at e; cases e
            refine ⟨e1, ?_⟩
            rw [L.len _ e1, L.len _ hinv, e2.length_eq]; simp
        simp only [h1] at hq' hne hgp ⊢
        by_cases h2 : n.ub ≤ s.sys.crit.bestLb
        · simp only [if_pos h2] at hgp ⊢
          have := release (L := L) (S := S) (B := B) hr ht hp hh (intr := intr) (by simp) ho hgp hvi hr.len
          simp only [afterWorkload, hset] at this
          exact this
        · simp only [if_neg h2] at hq' hne hgp ⊢
          by_cases h3 : n.path.length < b0.length
          · have h3' : n.path.length < s.sys.bars.length := by rw [hr.len, ← hb0]; exact h3
            simp only [if_pos h3] at hne hgp
            simp only [if_pos h3']
            cases h4 : decAt s.sys.crit.openBy n.path.length with
            | none => simp only [h4] at hne; exact absurd rfl hne
            | some ob =>
              simp only [h4] at hq' hgp ⊢
              by_cases h5 : mustExplore (s.sys.bars.get n.path.length n.state) n.value = true
              · rw [if_pos h5]
                refine keep hr ht hh hr.len (Or.inr (Or.inr ⟨n, f, ob, rfl⟩)) ⟨rfl, hp, popView P', hvi, ?_⟩ (by rw [hsub]; simp [stage, rank3_lt]) ⟨rfl, rfl⟩
                intro b hb
                obtain ⟨b', g1, g2⟩ := hq' b hb
                refine ⟨b', g1, ?_⟩
                rw [g2 (popView P') (fun _ _ => rfl), if_pos (by omega)]
                simp only [hpv, if_pos h5]
              · rw [if_neg h5] at hgp ⊢
                by_cases h6 : cfg.fr.len f = 0
                · rw [if_pos h6] at hgp ⊢
                  have := release (L := L) (S := S) (B := B) hr ht hp hh (intr := intr) (by simp) ho hgp hvi hr.len
                  simp only [afterWorkload, hset] at this
                  exact this
                · rw [if_neg h6]
                  have hk := keep (l := .run i intr o) hr ht hh hr.len (x := .pop) (c' := { s.sys.crit with fringe := f, openBy := ob }) (Or.inr (Or.inl rfl))
                    ⟨rfl, hp, hfi, fuel, P', hPG', by
                      intro b hb
                      obtain ⟨b', g1, g2⟩ := hq' b hb
                      refine ⟨b', g1, ?_⟩
                      intro v hv
                      rw [g2 v hv, if_pos (by omega)]
                      simp only [(hP2 v hv).2, if_neg h5, if_neg h6]⟩ (by rw [hsub]; exact rank3_lt.2 (Or.inr ⟨rfl, Or.inl (by simp only; omega)⟩)) ⟨rfl, rfl⟩
                  rw [hse] at hk
                  exact hk
          · simp only [if_neg h3] at hne
            exact absurd rfl hne

theorem take_good {s : FSys σ cfg.fr.F} {c : BSys σ cfg.fr.F} (hr : Rel G L S B s c) (hi : Inv L c) {i : Nat} {t : BThread σ} (ht : s.sys.threads[i]? = some t)
    {n : SubProblem σ} {f : cfg.fr.F} {ob : List Nat}
    (hs : SubOK cfg G L S B s.holder c.crit s.sys.crit i t (.take n f ob)) (intr : Bool) {o : Oracle σ} (ho : o.Valid) :
    Good G L S B s c (.run i intr o) (stepSub cfg s i t intr (.take n f ob)) := by
  obtain ⟨hh, hp, v, hvi, hq⟩ := hs
  have ht' : c.threads[i]? = some t := by rw [hr.thr]; exact ht
  obtain ⟨b0, hb0, hgw⟩ := hq c.bars hi.len.2.2
  have hne := gw_total hg hn hi ht' false (some v)
  rw [hgw] at hne
  unfold restTake at hne hgw
  unfold stepSub
  simp only
  cases h1 : b0.insert n.path.length n.state ⟨n.value, true⟩ with
  | none => simp only [h1] at hne; exact absurd rfl hne
  | some b1 =>
    have hlt : n.path.length < b0.length := by
      by_cases h : n.path.length < b0.length
      · exact h
      · have hx : b0[n.path.length]? = none := List.getElem?_eq_none (by omega)
        simp [Bars.insert, hx] at h1
    obtain ⟨b2, h2⟩ := Bars.insert_total (b := s.sys.bars) (d := n.path.length) (by rw [hr.len]; omega) n.state ⟨n.value, true⟩
    simp only [h1] at hne hgw
    simp only [h2]
    cases h3 : incAt s.sys.crit.ongoingBy n.path.length with
    | none => simp only [h3] at hne; exact absurd rfl hne
    | some gb =>
      simp only [h3] at hne hgw ⊢
      by_cases h4 : i < s.sys.crit.upperBounds.length
      · simp only [if_pos h4] at hgw ⊢
        exact release hr ht hp hh (by simp) ho hgw hvi (by rw [Bars.length_insert h2]; exact hr.len)
      · simp only [if_neg h4] at hne
        exact absurd rfl hne

end steps

/-! ### Steps that do not concern the mutex, or that happen while nobody holds it -/

theorem setSub_id {α : Type} {f : Nat → Option α} {i : Nat} {x : Option α} (h : f i = x) : setSub f i x = f := by
  funext j
  by_cases hj : j = i
  · subst hj; rw [setSub_self, h]
  · rw [setSub_ne _ _ hj]

/-- A thread that does not hold the mutex performs a step of the coarse model. -/
theorem advance {s : FSys σ cfg.fr.F} {c c2 : BSys σ cfg.fr.F} (hr : Rel G L S B s c) {i : Nat} (hne : s.holder ≠ some i) {l : FLbl σ} {lb : BLbl σ}
    (hv : BValidLbl lb) (hm : Matches l lb) (hst : Bar.step cfg c lb = .ok c2) (hlb : LblIn G lb) {c' : BCrit σ cfg.fr.F} {b : Bars σ} {ts : List (BThread σ)}
    (hb : b.length = cfg.p.nbVars + 1) (h1 : c2.threads = ts) (h2 : (s.holder = none ∧ c2.crit = c') ∨ (c' = s.sys.crit ∧ c2.crit = c.crit))
    (h3 : ∀ j x tj, j ≠ i → s.sub j = some x → s.sys.threads[j]? = some tj → SubOK cfg G L S B s.holder c.crit s.sys.crit j tj x → ts[j]? = some tj) :
    Simulated G L S B s c l ⟨⟨c', b, ts⟩, s.holder, setSub s.sub i none⟩ := by
  refine Or.inr ⟨lb, c2, hv, hm, hst, ⟨h1, hb, ?_, ?_, ?_, ?_⟩, hlb⟩
  · intro hh
    rcases h2 with h2 | h2
    · exact h2.2
    · simp only [h2.1, h2.2]; exact hr.free hh
  · intro j x hx
    simp only at hx ⊢
    by_cases hj : j = i
    · subst hj; rw [setSub_self] at hx; cases hx
    · rw [setSub_ne _ _ hj] at hx
      obtain ⟨tj, g1, g2⟩ := hr.sub j x hx
      refine ⟨tj, h3 j x tj hj hx g1 g2, ?_⟩
      rcases h2 with h2 | h2
      · exact g2.comp (by rw [h2.1]; simp)
      · rw [h2.1, h2.2]; exact g2
  · intro j hj
    have hji : j ≠ i := by intro e; subst e; exact hne hj
    simp only [setSub_ne _ _ hji]
    exact hr.hold j hj
  · rcases h2 with h2 | h2
    · simp [h2.2]
    · simp only [h2.1, h2.2]; exact hr.inc

/-- A thread that does not hold the mutex accesses the barrier or begins a compilation. -/
theorem onward {s : FSys σ cfg.fr.F} {c : BSys σ cfg.fr.F} (hr : Rel G L S B s c) {i : Nat} {t : BThread σ} (ht : s.sys.threads[i]? = some t)
    (hne : s.holder ≠ some i) {l : FLbl σ} {b : Bars σ} (hb : b.length = cfg.p.nbVars + 1) {x : Sub σ cfg.fr.F}
    (hs : SubOK cfg G L S B s.holder c.crit s.sys.crit i t x) (hc : stage cfg s.sys.crit t (some x) < stage cfg s.sys.crit t (s.sub i)) :
    Simulated G L S B s c l ⟨⟨s.sys.crit, b, s.sys.threads⟩, s.holder, setSub s.sub i (some x)⟩ := by
  refine Or.inl ⟨⟨hr.thr, hb, hr.free, ?_, ?_, hr.inc⟩, i, t, ht, rfl, by simp only [setSub_self]; exact hc, fun j hj => setSub_ne _ _ hj, Or.inr rfl⟩
  · intro j y hy
    simp only at hy
    by_cases hj : j = i
    · subst hj
      rw [setSub_self] at hy
      cases hy
      exact ⟨t, ht, hs⟩
    · rw [setSub_ne _ _ hj] at hy
      exact hr.sub j y hy
  · intro j hj
    have hji : j ≠ i := by intro e; subst e; exact hne hj
    simp only [setSub_ne _ _ hji]
    exact hr.hold j hj

omit [DecidableEq σ] [Inhabited σ] in
theorem working_mem {ts : List (BThread σ)} {t : BThread σ} {n : SubProblem σ} (ht : t ∈ ts) (hp : Pc.node t.pc = some n) : n ∈ working ts :=
  List.mem_filterMap.2 ⟨t, ht, hp⟩

/-- The view in which a compilation sees what `V` says. -/
def readView (V : Reads σ) : View σ := ⟨V.isEmpty, fun d s => (V.theta d s).map fun y => ⟨y, false⟩, fun _ _ _ => none⟩

theorem readView_reads (V : Reads σ) : (readView V).reads = V := by
  cases V with
  | mk e th =>
    simp only [readView, View.reads]
    congr 1
    funext d s
    cases h : th d s <;> simp

omit [DecidableEq σ] [Inhabited σ] in
theorem viewIn_reads {V : Reads σ} (h : ReadsIn G V) : ViewIn G (readView V) := by
  refine ⟨?_, (fun _ _ _ _ h => by cases h)⟩
  intro d x i hi
  simp only [readView, Option.map_eq_some_iff] at hi
  obtain ⟨y, h1, rfl⟩ := hi
  exact h d x y h1

theorem readsIn_next {V V' : Reads σ} {b : Bars σ} (hG : StoreIn G b) (h : ReadsIn G V)
    (hV : ∀ d x y, V'.theta d x = some y → V.theta d x = some y ∨ b.view.reads.theta d x = some y) : ReadsIn G V' := by
  intro d x y hy
  rcases hV d x y hy with h1 | h1
  · exact h d x y h1
  · simp only [Bars.view, View.reads, Option.map_eq_some_iff] at h1
    obtain ⟨i, h1, rfl⟩ := h1
    exact ⟨i.explored, hG d x i h1⟩

section steps
variable (hg : BaseCfg cfg S B) (hn : cfg.nbThreads ≤ cfg.custom)
include hg

/-- A step of a compilation. -/
theorem work_good {o' : Oracle σ} {n : SubProblem σ} {ct : CompilationType} {lb : Int} {m : Dd σ} {V : Reads σ} {w : Work σ} {b : Bars σ} (ho' : o'.Valid)
    (hgen : Genuine cfg.p n) (h : WorkOK cfg S B o' (input cfg ct n lb) m V w) (hb : b.length = cfg.p.nbVars + 1) :
    StepOK cfg S B o' (input cfg ct n lb) m V b (stepWork cfg o' (input cfg ct n lb) b w) :=
  stepWork_ok ho' hg.wf (Par.inp_rel hg) (Par.inp_width hg) (fun _ _ hD _ hu => (dd_updates hg hgen ho' hD hu).2.2.2.2) h hb

include hn

theorem comp_good {s : FSys σ cfg.fr.F} {c : BSys σ cfg.fr.F} (hr : Rel G L S B s c) (hi : Inv L c) {i : Nat} {t : BThread σ} (ht : s.sys.threads[i]? = some t)
    {o' : Oracle σ} {w : Work σ} (hsub : s.sub i = some (.comp o' w)) (hs : SubOK cfg G L S B s.holder c.crit s.sys.crit i t (.comp o' w)) (hG : StoreIn G s.sys.bars) (intr : Bool) (o : Oracle σ) :
    Good G L S B s c (.run i intr o) (stepSub cfg s i t intr (.comp o' w)) := by
  have ht' : c.threads[i]? = some t := by rw [hr.thr]; exact ht
  have hne : s.holder ≠ some i := by
    intro h
    rcases hr.hold i h with h | h | ⟨n, f, ob, h⟩ <;> rw [hsub] at h <;> cases h
  have hoth : ∀ (t' : BThread σ) (j : Nat) (tj : BThread σ), j ≠ i → s.sys.threads[j]? = some tj → (s.sys.threads.set i t')[j]? = some tj := by
    intro t' j tj hj h
    rw [List.getElem?_set_ne (Ne.symm hj)]; exact h
  obtain ⟨ho', V, n, lb, ⟨hp, hw, hV⟩ | ⟨dd, hp, hw, hV⟩⟩ := hs
  · have hgen : Genuine cfg.p n := hi.genW n (working_mem (List.mem_of_getElem? ht') (by rw [hp]; rfl))
    have hk := work_good hg ho' hgen hw hr.len
    unfold stepSub
    simp only [hp]
    generalize hq : stepWork cfg o' (input cfg .restricted n lb) s.sys.bars w = q at hk ⊢
    cases q with
    | panic => exact hk
    | next w' b' =>
      obtain ⟨g1, V', g0, g2⟩ := hk
      exact onward hr ht hne (g1.trans hr.len) ⟨ho', V', n, lb, Or.inl ⟨hp, g2, readsIn_next hG hV g0⟩⟩ (by rw [hsub]; exact stepWork_stage hq)
    | finished D =>
      simp only [StepOK] at hk
      by_cases hh : s.holder = none
      · simp only [if_pos hh]
        obtain ⟨c2, hc2⟩ := enabled (L := L) hg hn hi ht' (by rw [hp]; simp) (by rw [hp]; simp) false ho' (some (readView V))
        have hc2' := hc2
        simp only [Bar.step, ht', Bar.stepThread, hp, seen, Option.getD_some, readView_reads, hk] at hc2
        cases hu : c.bars.tryUpdates D.updates with
        | none => simp only [hu] at hc2; cases hc2
        | some b2 =>
          simp only [hu, Res.ok.injEq] at hc2
          subst hc2
          exact advance (l := .run i intr o) (lb := .run i false o' (some (readView V))) hr hne ho' ⟨rfl, by simp⟩ hc2' (viewIn_reads hV) hr.len (by simp only [hr.thr]) (Or.inl ⟨hh, by simp only [hr.free hh]⟩)
            (fun j x tj hj _ h _ => hoth _ j tj hj h)
      · simp only [if_neg hh]
        trivial
  · have hgen : Genuine cfg.p n := hi.genW n (working_mem (List.mem_of_getElem? ht') (by rw [hp]; rfl))
    have hk := work_good hg ho' hgen hw hr.len
    unfold stepSub
    simp only [hp]
    generalize hq : stepWork cfg o' (input cfg .relaxed n lb) s.sys.bars w = q at hk ⊢
    cases q with
    | panic => exact hk
    | next w' b' =>
      obtain ⟨g1, V', g0, g2⟩ := hk
      exact onward hr ht hne (g1.trans hr.len) ⟨ho', V', n, lb, Or.inr ⟨dd, hp, g2, readsIn_next hG hV g0⟩⟩ (by rw [hsub]; exact stepWork_stage hq)
    | finished D =>
      simp only [StepOK] at hk
      obtain ⟨c2, hc2⟩ := enabled (L := L) hg hn hi ht' (by rw [hp]; simp) (by rw [hp]; simp) false ho' (some (readView V))
      have hc2' := hc2
      simp only [Bar.step, ht', Bar.stepThread, hp, seen, Option.getD_some, readView_reads, hk] at hc2
      cases hu : c.bars.tryUpdates D.updates with
      | none => simp only [hu] at hc2; cases hc2
      | some b2 =>
        simp only [hu, Res.ok.injEq] at hc2
        subst hc2
        exact advance (l := .run i intr o) (lb := .run i false o' (some (readView V))) hr hne ho' ⟨rfl, by simp⟩ hc2' (viewIn_reads hV) hr.len (by simp only [hr.thr]) (Or.inr ⟨rfl, rfl⟩)
          (fun j x tj hj _ h _ => hoth _ j tj hj h)

theorem other_good {s : FSys σ cfg.fr.F} {c : BSys σ cfg.fr.F} (hr : Rel G L S B s c) (hi : Inv L c) {i : Nat} {t : BThread σ} (ht : s.sys.threads[i]? = some t)
    (hsub : s.sub i = none) (hh : s.holder = none) (hp1 : t.pc ≠ .idle) (hp2 : ∀ n lb, t.pc ≠ .restr n lb) (hp3 : ∀ n lb dd, t.pc ≠ .relx n lb dd)
    (hp4 : t.pc ≠ .waiting) (hp5 : t.pc ≠ .done) (intr : Bool) {o : Oracle σ} (ho : o.Valid) :
    ∃ s', Bar.stepThread cfg s.sys i t intr o none = .ok s' ∧ Simulated G L S B s c (.run i intr o) { s with sys := s' } := by
  have ht' : c.threads[i]? = some t := by rw [hr.thr]; exact ht
  have hcr := hr.free hh
  have hne : s.holder ≠ some i := by rw [hh]; simp
  have hoth : ∀ (t' : BThread σ) (j : Nat) (tj : BThread σ), j ≠ i → s.sys.threads[j]? = some tj → (s.sys.threads.set i t')[j]? = some tj := by
    intro t' j tj hj h
    rw [List.getElem?_set_ne (Ne.symm hj)]; exact h
  have adv : ∀ (c' : BCrit σ cfg.fr.F) (ts : List (BThread σ)) (c2 : BSys σ cfg.fr.F), Bar.step cfg c (.run i intr o (some (popView fun _ _ _ => none))) = .ok c2 →
      c2.threads = ts → c2.crit = c' →
      (∀ j x tj, j ≠ i → s.sub j = some x → s.sys.threads[j]? = some tj → SubOK cfg G L S B s.holder c.crit s.sys.crit j tj x → ts[j]? = some tj) →
      Simulated G L S B s c (.run i intr o) { s with sys := ⟨c', s.sys.bars, ts⟩ } := by
    intro c' ts c2 h1 h2 h3 h4
    have := advance (l := .run i intr o) (lb := .run i intr o (some (popView fun _ _ _ => none))) hr hne ho ⟨rfl, id⟩ h1 viewIn_none hr.len h2 (Or.inl ⟨hh, h3⟩) h4
    rw [setSub_id hsub] at this
    exact this
  obtain ⟨c2, hc2⟩ := enabled (L := L) hg hn hi ht' hp4 hp5 intr ho (some (popView fun _ _ _ => none))
  have hc2' := hc2
  simp only [Bar.step, ht'] at hc2
  unfold Bar.stepThread at hc2 ⊢
  simp only [hcr, hr.thr] at hc2 ⊢
  cases hpc : t.pc with
  | waiting => exact absurd hpc hp4
  | done => exact absurd hpc hp5
  | idle => exact absurd hpc hp1
  | restr n lb => exact absurd hpc (hp2 n lb)
  | relx n lb dd => exact absurd hpc (hp3 n lb dd)
  | start n =>
    simp only [hpc] at hc2 ⊢
    by_cases h1 : n.ub ≤ s.sys.crit.bestLb
    · simp only [if_pos h1, Res.ok.injEq] at hc2 ⊢
      subst hc2
      exact ⟨_, rfl, adv _ _ _ hc2' rfl rfl (fun j x tj hj _ h _ => hoth _ j tj hj h)⟩
    · simp only [if_neg h1, Res.ok.injEq] at hc2 ⊢
      subst hc2
      exact ⟨_, rfl, adv _ _ _ hc2' rfl rfl (fun j x tj hj _ h _ => hoth _ j tj hj h)⟩
  | relb n dd =>
    simp only [hpc, Res.ok.injEq] at hc2 ⊢
    subst hc2
    exact ⟨_, rfl, adv _ _ _ hc2' rfl rfl (fun j x tj hj _ h _ => hoth _ j tj hj h)⟩
  | post n dd =>
    simp only [hpc] at hc2 ⊢
    by_cases h1 : t.mdd.exact = true
    · simp only [if_pos h1, Res.ok.injEq] at hc2 ⊢
      subst hc2
      exact ⟨_, rfl, adv _ _ _ hc2' rfl rfl (fun j x tj hj _ h _ => hoth _ j tj hj h)⟩
    · simp only [if_neg h1] at hc2 ⊢
      cases h2 : pushCutset cfg n.ub s.sys.crit t.mdd.drainCutset with
      | none => simp only [h2] at hc2; cases hc2
      | some c1 =>
        simp only [h2, Res.ok.injEq] at hc2 ⊢
        subst hc2
        exact ⟨_, rfl, adv _ _ _ hc2' rfl rfl (fun j x tj hj _ h _ => hoth _ j tj hj h)⟩
  | fin d dd =>
    simp only [hpc] at hc2 ⊢
    by_cases h1 : s.sys.crit.ongoing = 0 ∨ ¬ i < s.sys.crit.upperBounds.length
    · simp only [if_pos h1] at hc2; cases hc2
    · simp only [if_neg h1] at hc2 ⊢
      cases h2 : decAt s.sys.crit.ongoingBy d with
      | none => simp only [h2] at hc2; cases hc2
      | some gb =>
        simp only [h2, Res.ok.injEq] at hc2 ⊢
        subst hc2
        refine ⟨_, rfl, adv _ _ _ hc2' rfl rfl ?_⟩
        intro j x tj hj _ h h5
        rw [List.getElem?_map, hoth _ j tj hj h, Option.map_some, h5.wake (by rw [hh]; simp)]

/-- Every step is simulated, and none panics. -/
theorem step_good {s : FSys σ cfg.fr.F} {c : BSys σ cfg.fr.F} (hr : Rel G L S B s c) (hi : Inv L c) (hG : StoreIn G s.sys.bars) {l : FLbl σ} (hl : FValidLbl l) : Good G L S B s c l (Fine.step cfg s l) := by
  cases l with
  | spurious i =>
    unfold Fine.step
    simp only
    cases ht : s.sys.threads[i]? with
    | none => trivial
    | some t =>
      have ht' : c.threads[i]? = some t := by rw [hr.thr]; exact ht
      simp only
      by_cases hp : t.pc = .waiting
      · simp only [hp]
        have hsub : s.sub i = none := by
          cases hx : s.sub i with
          | none => rfl
          | some x =>
            obtain ⟨t1, g1, g2⟩ := hr.sub i x hx
            rw [ht] at g1; cases g1
            rcases g2.pc with h | ⟨n, lb, h⟩ | ⟨n, lb, dd, h⟩ <;> rw [hp] at h <;> cases h
        have hne : s.holder ≠ some i := by
          intro h
          rcases hr.hold i h with h | h | ⟨n, f, ob, h⟩ <;> rw [hsub] at h <;> cases h
        have hst : Bar.step cfg c (.spurious i) = .ok { c with threads := c.threads.set i { t with pc := .idle } } := by simp [Bar.step, ht', hp]
        have := advance (L := L) (S := S) (B := B) (l := .spurious i) (lb := .spurious i) (c' := s.sys.crit) (b := s.sys.bars) hr hne trivial rfl hst trivial hr.len (ts := s.sys.threads.set i { t with pc := .idle }) (by simp only [hr.thr]) (Or.inr ⟨rfl, rfl⟩)
          (fun j x tj hj _ h _ => by rw [List.getElem?_set_ne (Ne.symm hj)]; exact h)
        rw [setSub_id hsub] at this
        exact this
      · cases hpc : t.pc <;> first | exact absurd hpc hp | trivial
  | run i intr o =>
    have ho : o.Valid := hl
    unfold Fine.step
    simp only
    cases ht : s.sys.threads[i]? with
    | none => trivial
    | some t =>
      have ht' : c.threads[i]? = some t := by rw [hr.thr]; exact ht
      simp only
      unfold Fine.stepThread
      cases hsub : s.sub i with
      | some x =>
        obtain ⟨t1, g1, g2⟩ := hr.sub i x hsub
        rw [ht] at g1; cases g1
        simp only
        cases x with
        | clean => exact clean_good hg hn hr hi ht hsub g2 intr ho
        | pop => exact pop_good hg hn hr hi ht hsub g2 hG intr ho
        | take n f ob => exact take_good hg hn hr hi ht g2 intr ho
        | comp o' w => exact comp_good hg hn hr hi ht hsub g2 hG intr o
      | none =>
        simp only
        have hne : s.holder ≠ some i := by
          intro h
          rcases hr.hold i h with h | h | ⟨n, f, ob, h⟩ <;> rw [hsub] at h <;> cases h
        have oth : t.pc ≠ .idle → (∀ n lb, t.pc ≠ .restr n lb) → (∀ n lb dd, t.pc ≠ .relx n lb dd) → t.pc ≠ .waiting → t.pc ≠ .done →
            Good G L S B s c (.run i intr o) (if s.holder = none then
              match Bar.stepThread cfg s.sys i t intr o none with
              | .ok s' => .ok { s with sys := s' }
              | .panic => .panic
              | .blocked => .blocked
            else .blocked) := by
          intro a1 a2 a3 a4 a5
          by_cases hh : s.holder = none
          · rw [if_pos hh]
            obtain ⟨s', h1, h2⟩ := other_good hg hn hr hi ht hsub hh a1 a2 a3 a4 a5 intr ho
            rw [h1]
            exact h2
          · rw [if_neg hh]; trivial
        cases hpc : t.pc with
        | waiting => trivial
        | done => trivial
        | idle =>
          simp only
          by_cases hh : s.holder = none
          · rw [if_pos hh]
            refine Or.inl ⟨⟨hr.thr, hr.len, (fun h => by cases h), ?_, ?_, hr.inc⟩, i, t, ht, rfl, by simp [setSub_self, hsub, stage, hpc, rank3_lt], fun j hj => setSub_ne _ _ hj, Or.inr rfl⟩
            · intro j y hy
              simp only at hy ⊢
              by_cases hj : j = i
              · subst hj
                rw [setSub_self] at hy
                cases hy
                refine ⟨t, ht, rfl, hpc, by rw [hr.free hh], cfg.p.nbVars + 1, ?_⟩
                intro b hb
                refine ⟨b, hb, fun v intr => ?_⟩
                rw [hr.free hh]
                exact getWorkload_eq ..
              · rw [setSub_ne _ _ hj] at hy
                obtain ⟨tj, h1, h2⟩ := hr.sub j y hy
                exact ⟨tj, h1, h2.comp (by rw [hh]; simp)⟩
            · intro j hj
              cases hj
              simp [setSub_self]
          · rw [if_neg hh]; trivial
        | restr n lb =>
          have hgen : Genuine cfg.p n := hi.genW n (working_mem (List.mem_of_getElem? ht') (by rw [hpc]; rfl))
          exact onward hr ht hne hr.len ⟨ho, Reads.none, n, lb, Or.inl ⟨hpc, start_ok (hgen.rootOK hg.wf) t.mdd, (fun _ _ _ h => by cases h)⟩⟩ (by rw [hsub]; simp [stage, hpc, workStage, rank3_lt])
        | relx n lb dd =>
          have hgen : Genuine cfg.p n := hi.genW n (working_mem (List.mem_of_getElem? ht') (by rw [hpc]; rfl))
          exact onward hr ht hne hr.len ⟨ho, Reads.none, n, lb, Or.inr ⟨dd, hpc, start_ok (hgen.rootOK hg.wf) t.mdd, (fun _ _ _ h => by cases h)⟩⟩ (by rw [hsub]; simp [stage, hpc, workStage, rank3_lt])
        | start n => exact oth (by rw [hpc]; simp) (by rw [hpc]; simp) (by rw [hpc]; simp) (by rw [hpc]; simp) (by rw [hpc]; simp)
        | relb n dd => exact oth (by rw [hpc]; simp) (by rw [hpc]; simp) (by rw [hpc]; simp) (by rw [hpc]; simp) (by rw [hpc]; simp)
        | post n dd => exact oth (by rw [hpc]; simp) (by rw [hpc]; simp) (by rw [hpc]; simp) (by rw [hpc]; simp) (by rw [hpc]; simp)
        | fin d dd => exact oth (by rw [hpc]; simp) (by rw [hpc]; simp) (by rw [hpc]; simp) (by rw [hpc]; simp) (by rw [hpc]; simp)

end steps

end Verif.Fine
