import Verif.Proofs.Bar.Basic
/-! The steps of a run, in terms of the nodes held by the frontier. -/
set_option autoImplicit false

namespace Verif.Bar
open Verif Spec
open Verif.Par (split_at toPush toPush_cons mem_toPush input push_one rootNode)
variable {σ : Type} [DecidableEq σ] [Inhabited σ]

/-- The node a thread works on, until its cutset has been computed. -/
def Pc.node : BPc σ → Option (SubProblem σ)
  | .start n => some n
  | .restr n _ => some n
  | .relb n _ => some n
  | .relx n _ _ => some n
  | _ => none

/-- The lower bound a thread has read. -/
def Pc.lb : BPc σ → Option Int
  | .restr _ lb => some lb
  | .relx _ lb _ => some lb
  | _ => none

/-- The nodes threads work on. -/
def working (ts : List (BThread σ)) : List (SubProblem σ) := ts.filterMap fun t => Pc.node t.pc

def busyCount (ts : List (BThread σ)) : Nat := ts.countP fun t => (heldDepth t).isSome

/-- The number of threads that hold a node of depth `d`. -/
def heldAt (ts : List (BThread σ)) (d : Nat) : Nat := ts.countP fun t => decide (heldDepth t = some d)

theorem busyCount_split (l1 l2 : List (BThread σ)) (t : BThread σ) :
    busyCount (l1 ++ t :: l2) = busyCount l1 + busyCount l2 + (if (heldDepth t).isSome then 1 else 0) := by
  unfold busyCount
  rw [List.countP_append, List.countP_cons]
  omega

theorem heldAt_split (l1 l2 : List (BThread σ)) (t : BThread σ) (d : Nat) :
    heldAt (l1 ++ t :: l2) d = heldAt l1 d + heldAt l2 d + (if heldDepth t = some d then 1 else 0) := by
  unfold heldAt
  rw [List.countP_append, List.countP_cons]
  simp only [decide_eq_true_eq]
  omega

theorem held_wake (t : BThread σ) : heldDepth (wake t) = heldDepth t := by
  unfold wake
  obtain ⟨pc, m⟩ := t
  cases pc <;> rfl

theorem node_wake (t : BThread σ) : Pc.node (wake t).pc = Pc.node t.pc := by
  unfold wake
  obtain ⟨pc, m⟩ := t
  cases pc <;> rfl

theorem busyCount_wake (l : List (BThread σ)) : busyCount (l.map wake) = busyCount l := by
  unfold busyCount
  rw [List.countP_map]
  congr 1
  funext t
  simp only [Function.comp, held_wake]

theorem heldAt_wake (l : List (BThread σ)) (d : Nat) : heldAt (l.map wake) d = heldAt l d := by
  unfold heldAt
  rw [List.countP_map]
  congr 1
  funext t
  simp only [Function.comp, held_wake]

theorem working_wake (l : List (BThread σ)) : working (l.map wake) = working l := by
  unfold working
  rw [List.filterMap_map]
  congr 1
  funext t
  simp only [Function.comp, node_wake]

theorem mem_working {l1 l2 : List (BThread σ)} {t : BThread σ} {n : SubProblem σ} :
    n ∈ working (l1 ++ t :: l2) ↔ n ∈ working (l1 ++ l2) ∨ Pc.node t.pc = some n := by
  unfold working
  simp only [List.mem_filterMap, Par.mem_split]
  constructor
  · rintro ⟨x, h1 | rfl, h2⟩
    · exact Or.inl ⟨x, h1, h2⟩
    · exact Or.inr h2
  · rintro (⟨x, h1, h2⟩ | h)
    · exact ⟨x, Or.inl h1, h2⟩
    · exact ⟨t, Or.inr rfl, h⟩

variable (cfg : SolverCfg σ) (L : FrontierLaws cfg.fr)

/-- The effect of pushing the cutset. -/
structure Pushed (c : BCrit σ cfg.fr.F) (l : List (SubProblem σ)) (f : cfg.fr.F) (ob : List Nat) : Prop where
  inv : L.inv f
  ref : Refines (l ++ L.holds c.fringe) (L.holds f)
  len : ob.length = c.openBy.length
  cnt : (∀ d, atDepth (L.holds c.fringe) d ≤ c.openBy.getD d 0) → ∀ d, atDepth (L.holds f) d ≤ ob.getD d 0
  mono : ∀ d, c.openBy.getD d 0 ≤ ob.getD d 0
  wts : ∀ {β : Type} (g : σ → β), ∃ sub : List β, (∀ x ∈ sub, ∃ n ∈ l, x = g n.state) ∧
    ((L.holds f).map fun m => g m.state).Perm (sub ++ (L.holds c.fringe).map fun m => g m.state)
  ubs : ∀ u, (∀ n ∈ l, n.ub ≤ u) → (∀ n ∈ L.holds c.fringe, n.ub ≤ u) → ∀ n ∈ L.holds f, n.ub ≤ u
  pw : ∀ R : SubProblem σ → SubProblem σ → Prop, (∀ a b, R a b → R b a) → (∀ a b q, R a q → R b q → R (combine a b) q) →
    (l ++ L.holds c.fringe).Pairwise R → (L.holds f).Pairwise R

theorem push_list {S : Layering σ} {B : Int} (hwf : WellFormed cfg.p S B) (ub : Int) : ∀ (l : List (SubProblem σ)) (c : BCrit σ cfg.fr.F), L.inv c.fringe →
    (∀ n ∈ l, Genuine cfg.p n) → (∀ n ∈ L.holds c.fringe, Genuine cfg.p n) → c.openBy.length = cfg.p.nbVars + 1 →
    ∃ f ob, pushCutset cfg ub c l = some { c with fringe := f, openBy := ob } ∧ Pushed cfg L c (toPush c.bestLb ub l) f ob := by
  intro l
  induction l with
  | nil =>
    intro c hf _ _ _
    exact ⟨c.fringe, c.openBy, rfl, hf, .refl _, rfl, id, fun _ => Nat.le_refl _, fun g => ⟨[], by simp, .refl _⟩, fun _ _ h => h, fun _ _ _ h => h⟩
  | cons n l ih =>
    intro c hf hl hh hlen
    unfold pushCutset
    rw [toPush_cons]
    by_cases hc : c.bestLb < min ub n.ub
    · obtain ⟨f1, h1, h2⟩ := push_one L hf { n with ub := min ub n.ub }
      have hgn := hl n (by simp)
      have hroot := hgn.rootOK hwf
      obtain ⟨ob1, k1, k2, k3⟩ := incAt_spec (l := c.openBy) (d := n.path.length) (by have := hroot.le; omega)
      have hgen1 : ∀ m ∈ L.holds f1, Genuine cfg.p m :=
        h2.all (Genuine cfg.p) (fun a b ha hb _ => Par.combine_genuine ha hb) hgn hh
      obtain ⟨f2, ob2, h3, h4⟩ := ih { c with fringe := f1, openBy := ob1 } h2.inv (fun m hm => hl m (by simp [hm])) hgen1 (by simp only; rw [k2, hlen])
      refine ⟨f2, ob2, ?_, h4.inv, ?_, ?_, ?_, ?_, ?_, ?_, ?_⟩
      · simp only [gt_iff_lt, hc, if_true, h1, k1, h3]
      · rw [if_pos hc]
        refine Refines.trans (.of_perm ?_) (Refines.trans ((push_refines L hf h1).append_left (toPush c.bestLb ub l)) h4.ref)
        exact (List.perm_middle (a := ({ n with ub := min ub n.ub } : SubProblem σ)) (l₁ := toPush c.bestLb ub l) (l₂ := L.holds c.fringe)).symm
      · rw [h4.len]; exact k2
      · intro hcnt
        apply h4.cnt
        intro d
        have := push_atDepth L hf h1 (fun m hm hs => by
          have a1 := (hh m hm).rootOK hwf
          have e1 := a1.lvl
          have e2 := hroot.lvl
          simp only at hs ⊢
          rw [hs] at e1; omega) d
        simp only at this ⊢
        rw [k3 d]
        have h5 := hcnt d
        by_cases hd : n.path.length = d
        · rw [if_pos hd] at this; rw [if_pos hd.symm]; omega
        · rw [if_neg hd] at this; rw [if_neg fun h => hd h.symm]; omega
      · intro d
        have := h4.mono d
        simp only [k3 d] at this
        omega
      · intro β g
        obtain ⟨s1, a1, a2⟩ := h2.wts g
        obtain ⟨s2, b1, b2⟩ := h4.wts g
        refine ⟨s2 ++ s1, ?_, ?_⟩
        · intro x hx
          rw [if_pos hc]
          rcases List.mem_append.1 hx with hx | hx
          · obtain ⟨q, hq, e⟩ := b1 x hx; exact ⟨q, by simp only at hq; simp [hq], e⟩
          · rcases a1 with rfl | rfl
            · cases hx
            · rw [List.mem_singleton] at hx; exact ⟨_, by simp, hx⟩
        · rw [List.append_assoc]
          exact b2.trans (a2.append_left _)
      · intro u h5 h6
        rw [if_pos hc] at h5
        exact h4.ubs u (fun m hm => h5 m (List.mem_cons_of_mem _ hm)) (h2.all (fun m => m.ub ≤ u) (fun a b ha hb _ => Par.combine_ub ha hb) (h5 _ (List.mem_cons_self ..)) h6)
      · intro R hsym hcomb hR
        rw [if_pos hc, List.cons_append, List.pairwise_cons, List.pairwise_append] at hR
        obtain ⟨r1, r2, r3, r4⟩ := hR
        refine h4.pw R hsym hcomb (List.pairwise_append.2 ⟨r2, ?_, ?_⟩)
        · exact h2.pw R hsym hcomb (List.pairwise_cons.2 ⟨fun q hq => r1 q (List.mem_append.2 (Or.inr hq)), r3⟩)
        · intro a ha
          refine h2.all (R a) (fun x y hx hy _ => hsym _ _ (hcomb _ _ _ (hsym _ _ hx) (hsym _ _ hy))) ?_ (r4 a ha)
          exact hsym _ _ (r1 a (List.mem_append.2 (Or.inl ha)))
    · obtain ⟨f2, ob, h3, h4⟩ := ih c hf (fun m hm => hl m (by simp [hm])) hh hlen
      refine ⟨f2, ob, ?_, ?_⟩
      · simp only [gt_iff_lt, hc, if_false, h3]
      · rw [if_neg hc]; exact h4

/-- What happens in `get_workload` before the outcome is decided: a layer is cleaned up, a node of the frontier is skipped. -/
inductive Mic (v : Option (View σ)) : BCrit σ cfg.fr.F → Bars σ → BCrit σ cfg.fr.F → Bars σ → Prop where
  | clean {c b b'} (h1 : c.lowest < cfg.p.nbVars) (h2 : c.openBy.getD c.lowest 0 = 0) (h3 : c.ongoingBy.getD c.lowest 0 = 0)
      (hb : b.clear c.lowest = some b') : Mic v c b { c with lowest := c.lowest + 1 } b'
  | skip {c b n f ob k} (h1 : c.interrupted = false) (hf : L.inv f) (h2 : (L.holds c.fringe).Perm (n :: L.holds f)) (h4 : ∀ q ∈ L.holds c.fringe, q.ub ≤ n.ub)
      (h5 : c.bestLb < n.ub) (h6 : mustExplore ((seen v b).pop k n.path.length n.state) n.value = false)
      (ho : decAt c.openBy n.path.length = some ob) : Mic v c b { c with fringe := f, openBy := ob } b

inductive Mics (v : Option (View σ)) : BCrit σ cfg.fr.F → Bars σ → BCrit σ cfg.fr.F → Bars σ → Prop where
  | nil {c b} : Mics v c b c b
  | cons {c b c1 b1 c2 b2} (h : Mic cfg L v c b c1 b1) (hs : Mics v c1 b1 c2 b2) : Mics v c b c2 b2

/-- The diagram `D` is the outcome of a relaxed compilation for `n`. -/
def Compiled (n : SubProblem σ) (D : Dd σ) : Prop :=
  ∃ (o : Oracle σ) (lb : Int) (v : View σ) (m : Dd σ), o.Valid ∧ m.compile .barrier o cfg.p cfg.r cfg.rank v.reads (input cfg .relaxed n lb) = some D

/-- What happens in one step to the shared data and to the thread that performs it. -/
inductive Act (v : Option (View σ)) (i : Nat) : BCrit σ cfg.fr.F → Bars σ → BThread σ → BCrit σ cfg.fr.F → Bars σ → BThread σ → Prop where
  | complete {c b m} (h1 : c.ongoing = 0) (h2 : L.holds c.fringe = []) : Act v i c b ⟨.idle, m⟩ { c with bestUb := c.bestLb } b ⟨.done, m⟩
  | stop {c b m} (h1 : c.interrupted = true) : Act v i c b ⟨.idle, m⟩ c b ⟨.done, m⟩
  | interrupt {c b m ub f} (h1 : c.interrupted = false) (hf : L.inv f) (h2 : L.holds f = [])
      (h3 : (0 < c.ongoing ∧ ub = Par.ongoingUb c.upperBounds) ∨
        (c.ongoing = 0 ∧ ∃ n ∈ L.holds c.fringe, ub = n.ub ∧ ∀ q ∈ L.holds c.fringe, q.ub ≤ ub)) :
      Act v i c b ⟨.idle, m⟩ { c with interrupted := true, bestUb := ub, fringe := f } b ⟨.done, m⟩
  | wait {c b m} (h1 : c.interrupted = false) (h2 : 0 < c.ongoing) (h3 : L.holds c.fringe = []) : Act v i c b ⟨.idle, m⟩ c b ⟨.waiting, m⟩
  | prune {c b m n f} (h1 : c.interrupted = false) (hf : L.inv f) (h2 : L.holds f = []) (h3 : n ∈ L.holds c.fringe)
      (h4 : ∀ q ∈ L.holds c.fringe, q.ub ≤ n.ub) (h5 : n.ub ≤ c.bestLb) :
      Act v i c b ⟨.idle, m⟩ { c with fringe := f, openBy := c.openBy.map fun _ => 0 } b ⟨.idle, m⟩
  | drop {c b m n f ob k} (h1 : c.interrupted = false) (hf : L.inv f) (h2 : (L.holds c.fringe).Perm (n :: L.holds f)) (h4 : ∀ q ∈ L.holds c.fringe, q.ub ≤ n.ub)
      (h5 : c.bestLb < n.ub) (h6 : mustExplore ((seen v b).pop k n.path.length n.state) n.value = false)
      (ho : decAt c.openBy n.path.length = some ob) (h7 : L.holds f = []) : Act v i c b ⟨.idle, m⟩ { c with fringe := f, openBy := ob } b ⟨.idle, m⟩
  | take {c b m n f ob gb b' k} (h1 : c.interrupted = false) (hf : L.inv f) (h2 : (L.holds c.fringe).Perm (n :: L.holds f))
      (h4 : ∀ q ∈ L.holds c.fringe, q.ub ≤ n.ub) (h5 : c.bestLb < n.ub) (h6 : mustExplore ((seen v b).pop k n.path.length n.state) n.value = true)
      (ho : decAt c.openBy n.path.length = some ob) (hg : incAt c.ongoingBy n.path.length = some gb)
      (hb : b.insert n.path.length n.state ⟨n.value, true⟩ = some b') :
      Act v i c b ⟨.idle, m⟩
        { c with
          fringe := f
          ongoing := c.ongoing + 1
          explored := c.explored + 1
          upperBounds := c.upperBounds.set i n.ub
          openBy := ob
          ongoingBy := gb } b' ⟨.start n, m⟩
  | early {c b m n} (h1 : n.ub ≤ c.bestLb) : Act v i c b ⟨.start n, m⟩ c b ⟨.fin n.path.length 0, m⟩
  | read1 {c b m n} (h1 : c.bestLb < n.ub) : Act v i c b ⟨.start n, m⟩ c b ⟨.restr n c.bestLb, m⟩
  | restrict {c b m n lb o D} (ho : o.Valid)
      (hD : m.compile .barrier o cfg.p cfg.r cfg.rank (seen v b).reads (input cfg .restricted n lb) = some D) (hu : D.updates = []) :
      Act v i c b ⟨.restr n lb, m⟩ (maybeUpdateBest cfg c D) b ⟨if D.exact then .fin n.path.length D.explored else .relb n D.explored, D⟩
  | read2 {c b m n dd} : Act v i c b ⟨.relb n dd, m⟩ c b ⟨.relx n c.bestLb dd, m⟩
  | relax {c b m n lb dd o D b'} (ho : o.Valid)
      (hD : m.compile .barrier o cfg.p cfg.r cfg.rank (seen v b).reads (input cfg .relaxed n lb) = some D) (hb : b.tryUpdates D.updates = some b') :
      Act v i c b ⟨.relx n lb dd, m⟩ c b' ⟨.post n (dd + D.explored), D⟩
  | postExact {c b D n dd} (hx : D.exact = true) : Act v i c b ⟨.post n dd, D⟩ (maybeUpdateBest cfg c D) b ⟨.fin n.path.length dd, D⟩
  | postCut {c b D n dd f ob} (hx : D.exact = false) (hf : Pushed cfg L c (toPush c.bestLb n.ub D.drainCutset) f ob) :
      Act v i c b ⟨.post n dd, D⟩ { c with fringe := f, openBy := ob } b ⟨.fin n.path.length dd, { D with cutset := [] }⟩

/-- Not a spurious wake-up. -/
def isRun : BLbl σ → Bool
  | .run _ _ _ _ => true
  | .spurious _ => false

/-- What a label says about the barrier. -/
def lblView : BLbl σ → Option (View σ)
  | .run _ _ _ v => v
  | .spurious _ => none

/-- One step of the system; `false`: a spurious wake-up. -/
inductive Trans (v : Option (View σ)) : Bool → BSys σ cfg.fr.F → BSys σ cfg.fr.F → Prop where
  | act {c b c1 b1 c' b' t t' l1 l2} (hm : Mics cfg L v c b c1 b1) (hi : t.pc = .idle ∨ (c1 = c ∧ b1 = b)) (h : Act cfg L v l1.length c1 b1 t c' b' t') :
      Trans v true ⟨c, b, l1 ++ t :: l2⟩ ⟨c', b', l1 ++ t' :: l2⟩
  | finish {c b m d dd gb l1 l2} (h : 0 < c.ongoing) (hg : decAt c.ongoingBy d = some gb) : Trans v true ⟨c, b, l1 ++ ⟨.fin d dd, m⟩ :: l2⟩
      ⟨{ c with
          ongoing := c.ongoing - 1
          upperBounds := c.upperBounds.set l1.length isizeMax
          ongoingBy := gb
          exploredDd := c.exploredDd + dd }, b,
        (l1 ++ ⟨.idle, m⟩ :: l2).map wake⟩
  | spurious {c b m l1 l2} : Trans v false ⟨c, b, l1 ++ ⟨.waiting, m⟩ :: l2⟩ ⟨c, b, l1 ++ ⟨.idle, m⟩ :: l2⟩

/-- The same for the steps of the worker `i`. -/
inductive TransAt (v : Option (View σ)) (i : Nat) : BSys σ cfg.fr.F → BSys σ cfg.fr.F → Prop where
  | act {c b c1 b1 c' b' t t' l1 l2} (hm : Mics cfg L v c b c1 b1) (hi : t.pc = .idle ∨ (c1 = c ∧ b1 = b)) (h : Act cfg L v l1.length c1 b1 t c' b' t')
      (he : l1.length = i) : TransAt v i ⟨c, b, l1 ++ t :: l2⟩ ⟨c', b', l1 ++ t' :: l2⟩
  | finish {c b m d dd gb l1 l2} (h : 0 < c.ongoing) (hg : decAt c.ongoingBy d = some gb) (he : l1.length = i) : TransAt v i ⟨c, b, l1 ++ ⟨.fin d dd, m⟩ :: l2⟩
      ⟨{ c with
          ongoing := c.ongoing - 1
          upperBounds := c.upperBounds.set l1.length isizeMax
          ongoingBy := gb
          exploredDd := c.exploredDd + dd }, b,
        (l1 ++ ⟨.idle, m⟩ :: l2).map wake⟩

variable {cfg L}

theorem TransAt.trans {v : Option (View σ)} {i : Nat} {s s' : BSys σ cfg.fr.F} (h : TransAt cfg L v i s s') : Trans cfg L v true s s' := by
  cases h with
  | act hm hi h _ => exact .act hm hi h
  | finish h hg _ => exact .finish h hg

/-- What the absence of panics needs; `room`: every worker has a cell for its bound; `k`: the number of nodes that were taken and lost. -/
structure Safe (s : BSys σ cfg.fr.F) (room : Prop := True) (k : Nat := 0) : Prop where
  inv : L.inv s.crit.fringe
  ong : s.crit.ongoing = busyCount s.threads + k
  ubs : room → s.threads.length ≤ s.crit.upperBounds.length
  genF : ∀ n ∈ L.holds s.crit.fringe, Genuine cfg.p n
  genW : ∀ n ∈ working s.threads, Genuine cfg.p n
  len : s.crit.openBy.length = cfg.p.nbVars + 1 ∧ s.crit.ongoingBy.length = cfg.p.nbVars + 1 ∧ s.bars.length = cfg.p.nbVars + 1
  cntO : ∀ d, atDepth (L.holds s.crit.fringe) d ≤ s.crit.openBy.getD d 0
  low : s.crit.lowest ≤ cfg.p.nbVars
  cntG : ∀ d, s.crit.ongoingBy.getD d 0 = heldAt s.threads d
  post : ∀ t ∈ s.threads, ∀ n dd, t.pc = .post n dd → Genuine cfg.p n ∧ Compiled cfg n t.mdd

/-- The part of `Safe` that the micro steps change. -/
structure SafeC (c : BCrit σ cfg.fr.F) (b : Bars σ) : Prop where
  inv : L.inv c.fringe
  gen : ∀ n ∈ L.holds c.fringe, Genuine cfg.p n
  len : c.openBy.length = cfg.p.nbVars + 1 ∧ c.ongoingBy.length = cfg.p.nbVars + 1 ∧ b.length = cfg.p.nbVars + 1
  cntO : ∀ d, atDepth (L.holds c.fringe) d ≤ c.openBy.getD d 0
  low : c.lowest ≤ cfg.p.nbVars

theorem mic_safe {v : Option (View σ)} {c c' : BCrit σ cfg.fr.F} {b b' : Bars σ} (h : SafeC (L := L) c b) (hm : Mic cfg L v c b c' b') :
    SafeC (L := L) c' b' ∧ c'.ongoing = c.ongoing ∧ c'.upperBounds = c.upperBounds ∧ c'.ongoingBy = c.ongoingBy ∧ c'.interrupted = c.interrupted := by
  cases hm with
  | clean h1 h2 h3 hb =>
    exact ⟨⟨h.inv, h.gen, ⟨h.len.1, h.len.2.1, by rw [Bars.length_clear hb]; exact h.len.2.2⟩, h.cntO, h1⟩, rfl, rfl, rfl, rfl⟩
  | @skip n f ob k h1 hf h2 h4 h5 h6 ho =>
    have hc := h.cntO n.path.length
    rw [atDepth_perm h2, atDepth_cons, if_pos rfl] at hc
    obtain ⟨ob', k1, k2, k3⟩ := decAt_spec (l := c.openBy) (d := n.path.length) (by omega)
    rw [ho] at k1; cases k1
    refine ⟨⟨hf, fun q hq => h.gen q (h2.mem_iff.2 (by simp [hq])), ⟨by rw [k2]; exact h.len.1, h.len.2.1, h.len.2.2⟩, ?_, h.low⟩, rfl, rfl, rfl, rfl⟩
    intro d
    have h7 := h.cntO d
    rw [atDepth_perm h2, atDepth_cons] at h7
    simp only
    rw [k3 d]
    by_cases hd : n.path.length = d
    · rw [if_pos hd] at h7; rw [if_pos hd.symm]; omega
    · rw [if_neg hd] at h7; rw [if_neg fun h => hd h.symm]; omega

theorem mics_safe {v : Option (View σ)} {c c' : BCrit σ cfg.fr.F} {b b' : Bars σ} (hm : Mics cfg L v c b c' b') (h : SafeC (L := L) c b) :
    SafeC (L := L) c' b' ∧ c'.ongoing = c.ongoing ∧ c'.upperBounds = c.upperBounds ∧ c'.ongoingBy = c.ongoingBy ∧ c'.interrupted = c.interrupted := by
  induction hm with
  | nil => exact ⟨h, rfl, rfl, rfl, rfl⟩
  | cons h1 _ ih =>
    obtain ⟨a1, a2, a3, a4, a5⟩ := mic_safe h h1
    obtain ⟨b1, b2, b3, b4, b5⟩ := ih a1
    exact ⟨b1, b2.trans a2, b3.trans a3, b4.trans a4, b5.trans a5⟩

theorem Mics.trans {v : Option (View σ)} {c c1 c2 : BCrit σ cfg.fr.F} {b b1 b2 : Bars σ} (h1 : Mics cfg L v c b c1 b1) (h2 : Mics cfg L v c1 b1 c2 b2) :
    Mics cfg L v c b c2 b2 := by
  induction h1 with
  | nil => exact h2
  | cons h _ ih => exact .cons h (ih h2)

theorem cleanup_spec (v : Option (View σ)) : ∀ (fuel : Nat) (c : BCrit σ cfg.fr.F) (b : Bars σ), SafeC (L := L) c b → cfg.p.nbVars < fuel + c.lowest →
    ∃ c' b', cleanup cfg fuel c b = some (c', b') ∧ Mics cfg L v c b c' b' ∧ c'.fringe = c.fringe := by
  intro fuel
  induction fuel with
  | zero =>
    intro c b h hf
    have := h.low
    omega
  | succ fuel ih =>
    intro c b h hf
    unfold cleanup
    by_cases hl : c.lowest < cfg.p.nbVars
    · rw [if_pos hl]
      have e1 : c.openBy[c.lowest]? = some (c.openBy.getD c.lowest 0) := by
        rw [List.getElem?_eq_getElem (by rw [h.len.1]; omega)]
        simp [List.getD, List.getElem?_eq_getElem (show c.lowest < c.openBy.length by rw [h.len.1]; omega)]
      have e2 : c.ongoingBy[c.lowest]? = some (c.ongoingBy.getD c.lowest 0) := by
        rw [List.getElem?_eq_getElem (by rw [h.len.2.1]; omega)]
        simp [List.getD, List.getElem?_eq_getElem (show c.lowest < c.ongoingBy.length by rw [h.len.2.1]; omega)]
      rw [e1, e2]
      simp only
      by_cases hz : c.openBy.getD c.lowest 0 + c.ongoingBy.getD c.lowest 0 = 0
      · rw [if_pos hz]
        have hcl : b.clear c.lowest = some (b.set c.lowest []) := by
          unfold Bars.clear; rw [if_pos (by rw [h.len.2.2]; omega)]
        rw [hcl]
        have hm : Mic cfg L v c b { c with lowest := c.lowest + 1 } (b.set c.lowest []) := .clean hl (by omega) (by omega) hcl
        obtain ⟨c', b', h1, h2, h3⟩ := ih { c with lowest := c.lowest + 1 } (b.set c.lowest []) (mic_safe h hm).1 (by simp only; omega)
        exact ⟨c', b', h1, .cons hm h2, h3⟩
      · rw [if_neg hz]; exact ⟨c, b, rfl, .nil, rfl⟩
    · rw [if_neg hl]; exact ⟨c, b, rfl, .nil, rfl⟩

/-- Where the thread continues. -/
def afterWorkload : WorkLoad σ → BPc σ
  | .complete => .done
  | .interruption => .done
  | .starvation => .idle
  | .wait => .waiting
  | .item n => .start n

theorem popLoop_spec {S : Layering σ} {B : Int} (hwf : WellFormed cfg.p S B) (v : Option (View σ)) {i : Nat} (m : Dd σ) :
    ∀ (fuel : Nat) (c : BCrit σ cfg.fr.F) (b : Bars σ), SafeC (L := L) c b → (popLoop cfg i v fuel c b = none → i < c.upperBounds.length) → c.interrupted = false →
    0 < (L.holds c.fringe).length → (L.holds c.fringe).length ≤ fuel →
    ∃ c' b' w c1 b1, popLoop cfg i v fuel c b = some (c', b', w) ∧ Mics cfg L v c b c1 b1 ∧ Act cfg L v i c1 b1 ⟨.idle, m⟩ c' b' ⟨afterWorkload w, m⟩ := by
  intro fuel
  induction fuel with
  | zero => intro c b _ _ _ h1 h2; omega
  | succ fuel ih =>
    intro c b h hi hint hpos hlen
    unfold popLoop at hi ⊢
    rcases L.pop c.fringe h.inv with ⟨f', g1, g2, g3, g4⟩ | ⟨f', n, g1, g2, g3, g4⟩
    · rw [g1] at hpos; simp at hpos
    · rw [g1] at hi ⊢
      simp only at hi ⊢
      by_cases h3 : n.ub ≤ c.bestLb
      · rw [if_pos h3]
        have := L.clear f' g2
        exact ⟨_, _, _, c, b, rfl, .nil, Act.prune hint this.1 this.2 (g3.mem_iff.2 (by simp)) g4 h3⟩
      · rw [if_neg h3] at hi ⊢
        have hn : n ∈ L.holds c.fringe := g3.mem_iff.2 (by simp)
        have hroot := (h.gen n hn).rootOK hwf
        have hle := hroot.le
        have hlt : n.path.length < b.length := by rw [h.len.2.2]; omega
        rw [if_pos hlt] at hi ⊢
        have hc := h.cntO n.path.length
        rw [atDepth_perm g3, atDepth_cons, if_pos rfl] at hc
        obtain ⟨ob, k1, k2, k3⟩ := decAt_spec (l := c.openBy) (d := n.path.length) (by omega)
        rw [k1] at hi ⊢
        simp only at hi ⊢
        cases h6 : mustExplore ((seen v b).pop fuel n.path.length n.state) n.value with
        | true =>
          rw [h6, if_pos rfl] at hi
          rw [if_pos rfl]
          obtain ⟨b', j1⟩ := Bars.insert_total (b := b) (d := n.path.length) (by rw [h.len.2.2]; omega) n.state ⟨n.value, true⟩
          obtain ⟨gb, j2, _, _⟩ := incAt_spec (l := c.ongoingBy) (d := n.path.length) (by rw [h.len.2.1]; omega)
          rw [j1, j2] at hi ⊢
          simp only at hi ⊢
          have hi' : i < c.upperBounds.length := by
            by_cases hc : i < c.upperBounds.length
            · exact hc
            · exact hi (if_neg hc)
          rw [if_pos hi']
          exact ⟨_, _, _, c, b, rfl, .nil, Act.take hint g2 g3 g4 (by omega) h6 k1 j2 j1⟩
        | false =>
          simp only [h6, Bool.false_eq_true, if_false] at hi ⊢
          have hl := L.len f' g2
          by_cases hz : cfg.fr.len f' = 0
          · rw [if_pos hz]
            refine ⟨_, _, _, c, b, rfl, .nil, Act.drop hint g2 g3 g4 (by omega) h6 k1 ?_⟩
            rw [hl] at hz; exact List.length_eq_zero_iff.1 hz
          · rw [if_neg hz] at hi ⊢
            have hm : Mic cfg L v c b { c with fringe := f', openBy := ob } b := .skip hint g2 g3 g4 (by omega) h6 k1
            have hlen' := g3.length_eq
            simp only [List.length_cons] at hlen'
            obtain ⟨c', b', w, c1, b1, q1, q2, q3⟩ := ih { c with fringe := f', openBy := ob } b (mic_safe h hm).1 hi hint (by simp only; omega) (by simp only; omega)
            exact ⟨c', b', w, c1, b1, q1, .cons hm q2, q3⟩

theorem getWorkload_spec {S : Layering σ} {B : Int} (hwf : WellFormed cfg.p S B) (v : Option (View σ)) {c : BCrit σ cfg.fr.F} {b : Bars σ}
    (h : SafeC (L := L) c b) {i : Nat} (intr : Bool) (hi : getWorkload cfg c b i intr v = none → i < c.upperBounds.length) (m : Dd σ) :
    ∃ c' b' w c1 b1, getWorkload cfg c b i intr v = some (c', b', w) ∧ Mics cfg L v c b c1 b1 ∧
      Act cfg L v i c1 b1 ⟨.idle, m⟩ c' b' ⟨afterWorkload w, m⟩ := by
  unfold getWorkload at hi ⊢
  obtain ⟨c1, b1, e1, hm, hfr⟩ := cleanup_spec (L := L) v (cfg.p.nbVars + 1) c b h (by omega)
  obtain ⟨h', _, e2, _, _⟩ := mics_safe hm h
  rw [e1] at hi ⊢
  simp only at hi ⊢
  have hlen := L.len c1.fringe h'.inv
  by_cases h0 : c1.ongoing = 0 ∧ cfg.fr.len c1.fringe = 0
  · rw [if_pos h0]
    refine ⟨_, _, _, c1, b1, rfl, hm, Act.complete h0.1 ?_⟩
    rw [hlen] at h0; exact List.length_eq_zero_iff.1 h0.2
  · rw [if_neg h0] at hi ⊢
    have h0' : ¬ (c1.ongoing = 0 ∧ L.holds c1.fringe = []) := by
      rintro ⟨a, b⟩; apply h0; refine ⟨a, ?_⟩; rw [hlen, b]; rfl
    by_cases h1 : c1.interrupted = true
    · rw [if_pos h1]
      exact ⟨_, _, _, c1, b1, rfl, hm, Act.stop h1⟩
    · rw [if_neg h1] at hi ⊢
      have h1' : c1.interrupted = false := by simpa using h1
      have hpop := L.pop c1.fringe h'.inv
      cases intr with
      | true =>
        simp only [if_true]
        by_cases h2 : c1.ongoing > 0
        · rw [if_pos h2]
          have := L.clear c1.fringe h'.inv
          exact ⟨_, _, _, c1, b1, rfl, hm, Act.interrupt h1' this.1 this.2 (Or.inl ⟨h2, rfl⟩)⟩
        · rw [if_neg h2]
          rcases hpop with ⟨f', g1, g2, g3, g4⟩ | ⟨f', n, g1, g2, g3, g4⟩
          · exact absurd ⟨by omega, g1⟩ h0'
          · rw [g1]
            have := L.clear f' g2
            exact ⟨_, _, _, c1, b1, rfl, hm, Act.interrupt h1' this.1 this.2 (Or.inr ⟨by omega, n, g3.mem_iff.2 (by simp), rfl, g4⟩)⟩
      | false =>
        simp only [Bool.false_eq_true, if_false] at hi ⊢
        by_cases h2 : cfg.fr.len c1.fringe = 0
        · rw [if_pos h2]
          rw [hlen] at h2
          have h2 := List.length_eq_zero_iff.1 h2
          exact ⟨_, _, _, c1, b1, rfl, hm, Act.wait h1' (by have : ¬ c1.ongoing = 0 := fun h => h0' ⟨h, h2⟩; omega) h2⟩
        · rw [if_neg h2] at hi ⊢
          obtain ⟨c', b', w, c2, b2, q1, q2, q3⟩ := popLoop_spec (L := L) hwf v m (cfg.fr.len c1.fringe) c1 b1 h' (by rw [e2]; exact hi) h1' (by omega) (by omega)
          exact ⟨c', b', w, c2, b2, q1, hm.trans q2, q3⟩

section mdd
variable {S : Layering σ} {B : Int} {o : Oracle σ} {n : SubProblem σ} {lb : Int} {m D : Dd σ} {t : CompilationType} {rd : Reads σ}

theorem dd_updates (hg : BaseCfg cfg S B) (hn : Genuine cfg.p n) (ho : o.Valid)
    (hD : m.compile .barrier o cfg.p cfg.r cfg.rank rd (input cfg t n lb) = some D) {x : Update σ} (hx : x ∈ D.updates) :
    t = .relaxed ∧ S.ok x.state ∧ S.lvl x.state = x.depth ∧ n.path.length ≤ x.depth ∧ x.depth ≤ cfg.p.nbVars := by
  have hroot := hn.rootOK hg.wf
  obtain ⟨m', k, jx, P, L', h, hd⟩ := Dd.compile_done (v := .barrier) (o := o) (rank := cfg.rank) (rd := rd) (inp := input cfg t n lb) ho hg.wf
    (Par.inp_rel hg) (Par.inp_width hg) hroot m
  rw [h] at hD; cases hD
  exact hd.upd_range ho hroot hx

end mdd

theorem Safe.safeC {s : BSys σ cfg.fr.F} {room : Prop} {k : Nat} (h : Safe (L := L) s room k) : SafeC (L := L) s.crit s.bars := ⟨h.inv, h.genF, h.len, h.cntO, h.low⟩

/-- A step of a worker does not panic, unless for want of a cell, and is one of the steps listed above. -/
theorem step_at_room {S : Layering σ} {B : Int} (hg : BaseCfg cfg S B) {s : BSys σ cfg.fr.F} {room : Prop} {k : Nat} (hs : Safe (L := L) s room k) {i : Nat} {intr : Bool} {o : Oracle σ} {v : Option (View σ)}
    (hl : o.Valid) (hp : step cfg s (.run i intr o v) = .panic → i < s.crit.upperBounds.length) : step cfg s (.run i intr o v) ≠ .panic ∧ ∀ s', step cfg s (.run i intr o v) = .ok s' → TransAt cfg L v i s s' := by
  have hsc := hs.safeC
  obtain ⟨c, b, ts⟩ := s
  simp only [step] at hp ⊢
  cases hi : ts[i]? with
  | none => exact ⟨by simp, by simp⟩
  | some t =>
    have hmem : t ∈ ts := List.mem_of_getElem? hi
    simp only [hi] at hp
    obtain ⟨l1, l2, rfl, hlen, hset⟩ := split_at hi
    obtain ⟨pc, m⟩ := t
    simp only [stepThread, hset] at hp ⊢
    have hgen : ∀ n, Pc.node pc = some n → Genuine cfg.p n := by
      intro n hn
      apply hs.genW
      exact mem_working.2 (Or.inr hn)
    have done' : ∀ {c1 b1 c' b' t'}, Mics cfg L v c b c1 b1 → (pc = .idle ∨ (c1 = c ∧ b1 = b)) → Act cfg L v i c1 b1 ⟨pc, m⟩ c' b' t' →
        (Res.ok (⟨c', b', l1 ++ t' :: l2⟩ : BSys σ cfg.fr.F) ≠ .panic ∧ ∀ s', Res.ok (⟨c', b', l1 ++ t' :: l2⟩ : BSys σ cfg.fr.F) = .ok s' →
          TransAt cfg L v i ⟨c, b, l1 ++ ⟨pc, m⟩ :: l2⟩ s') := by
      intro c1 b1 c' b' t' hm hpc h
      refine ⟨by simp, ?_⟩
      intro s' he
      cases he
      subst hlen
      exact TransAt.act hm hpc h rfl
    have done : ∀ {c' b' t'}, Act cfg L v i c b ⟨pc, m⟩ c' b' t' →
        (Res.ok (⟨c', b', l1 ++ t' :: l2⟩ : BSys σ cfg.fr.F) ≠ .panic ∧ ∀ s', Res.ok (⟨c', b', l1 ++ t' :: l2⟩ : BSys σ cfg.fr.F) = .ok s' →
          TransAt cfg L v i ⟨c, b, l1 ++ ⟨pc, m⟩ :: l2⟩ s') := fun h => done' .nil (Or.inr ⟨rfl, rfl⟩) h
    cases pc with
    | waiting => exact ⟨by simp, by simp⟩
    | done => exact ⟨by simp, by simp⟩
    | idle =>
      obtain ⟨c', b', w, c1, b1, h1, h2, h3⟩ := getWorkload_spec (L := L) hg.wf v hsc (i := i) intr (fun hw => hp (by simp only [hw])) m
      simp only at h1 h2
      simp only [h1]
      cases w <;> exact done' h2 (Or.inl rfl) h3
    | start n =>
      simp only
      by_cases h : n.ub ≤ c.bestLb
      · rw [if_pos h]; exact done (Act.early h)
      · rw [if_neg h]; exact done (Act.read1 (by omega))
    | restr n lb =>
      simp only
      obtain ⟨D, hD⟩ := Props.compile_total (v := .barrier) (o := o) (r := cfg.r) (rank := cfg.rank) (rd := (seen v b).reads)
        (inp := input cfg .restricted n lb) hl hg.wf (by intro h; cases h) (by intro h; cases h) (hgen n rfl) m
      simp only [hD]
      have hu : D.updates = [] := by
        cases hu : D.updates with
        | nil => rfl
        | cons x l =>
          have := (dd_updates hg (hgen n rfl) hl hD (x := x) (by rw [hu]; simp)).1
          cases this
      simp only [hu, Bars.tryUpdates]
      exact done (Act.restrict hl hD hu)
    | relb n dd => exact done Act.read2
    | relx n lb dd =>
      simp only
      obtain ⟨D, hD⟩ := Props.compile_total (v := .barrier) (o := o) (r := cfg.r) (rank := cfg.rank) (rd := (seen v b).reads)
        (inp := input cfg .relaxed n lb) hl hg.wf (fun _ => hg.lay) (fun _ => hg.width _) (hgen n rfl) m
      simp only [hD]
      obtain ⟨b', k1, _⟩ := Bars.tryUpdates_spec D.updates b (fun x hx => by
        have h1 := (dd_updates hg (hgen n rfl) hl hD hx).2.2.2.2
        have h2 : b.length = cfg.p.nbVars + 1 := hs.len.2.2
        omega)
      simp only [k1]
      exact done (Act.relax hl hD k1)
    | post n dd =>
      simp only
      obtain ⟨hn, hcomp⟩ := hs.post _ hmem n dd rfl
      by_cases hx : m.exact = true
      · rw [if_pos hx]; exact done (Act.postExact hx)
      · rw [if_neg hx]
        obtain ⟨o', lb, v', m0, ho', hD⟩ := hcomp
        obtain ⟨f', ob, h1, h2⟩ := push_list cfg L hg.wf n.ub m.drainCutset c hs.inv
          (fun q hq => (Props.cutset_genuine ho' hg.wf (Par.inp_rel hg) (Par.inp_width hg) hn m0 hD hq).1) hs.genF hs.len.1
        simp only [h1]
        exact done (Act.postCut (by simpa using hx) h2)
    | fin d dd =>
      simp only
      have hong : 0 < c.ongoing := by
        have := hs.ong
        simp only [busyCount_split, heldDepth] at this
        rw [this]; simp; omega
      have hlt : i < c.upperBounds.length := by
        by_cases hc : i < c.upperBounds.length
        · exact hc
        · exact hp (by simp only; rw [if_pos (by omega)])
      rw [if_neg (by rintro (h | h) <;> omega)]
      have hgb := hs.cntG d
      simp only [heldAt_split, heldDepth, if_true] at hgb
      obtain ⟨gb, k1, _, _⟩ := decAt_spec (l := c.ongoingBy) (d := d) (by omega)
      simp only [k1]
      refine ⟨by simp, ?_⟩
      intro s' he
      cases he
      subst hlen
      exact TransAt.finish hong k1 rfl

/-- A step of a worker does not panic and is one of the steps listed above. -/
theorem step_at {S : Layering σ} {B : Int} (hg : BaseCfg cfg S B) {s : BSys σ cfg.fr.F} {k : Nat} (hs : Safe (L := L) s True k) {i : Nat} {intr : Bool} {o : Oracle σ} {v : Option (View σ)}
    (hl : o.Valid) : step cfg s (.run i intr o v) ≠ .panic ∧ ∀ s', step cfg s (.run i intr o v) = .ok s' → TransAt cfg L v i s s' := by
  refine step_at_room hg hs hl fun hp => ?_
  have hi : i < s.threads.length := by
    by_cases hc : i < s.threads.length
    · exact hc
    · simp only [step, List.getElem?_eq_none (Nat.le_of_not_lt hc)] at hp; cases hp
  exact Nat.lt_of_lt_of_le hi (hs.ubs trivial)

/-- A step does not panic and is one of the steps listed above. -/
theorem step_trans {S : Layering σ} {B : Int} (hg : BaseCfg cfg S B) {s : BSys σ cfg.fr.F} {k : Nat} (hs : Safe (L := L) s True k) {l : BLbl σ} (hl : BValidLbl l) :
    step cfg s l ≠ .panic ∧ ∀ s', step cfg s l = .ok s' → Trans cfg L (lblView l) (isRun l) s s' := by
  cases l with
  | spurious i =>
    obtain ⟨c, b, ts⟩ := s
    simp only [step]
    cases hi : ts[i]? with
    | none => exact ⟨by simp, by simp⟩
    | some t =>
      obtain ⟨l1, l2, rfl, hlen, hset⟩ := split_at hi
      obtain ⟨pc, m⟩ := t
      simp only
      cases pc with
      | waiting =>
        refine ⟨by simp, ?_⟩
        intro s' he
        rw [hset] at he
        cases he
        exact Trans.spurious
      | _ => exact ⟨by simp, by simp⟩
  | run i intr o v =>
    obtain ⟨h1, h2⟩ := step_at (L := L) (i := i) (intr := intr) (v := v) hg hs (show o.Valid from hl)
    exact ⟨h1, fun s' he => (h2 s' he).trans⟩

end Verif.Bar
