import Verif.Model.Mdd
/-! Left-over contents of `prev_l` have no influence. -/
set_option autoImplicit false

namespace Verif.Dd
open Verif
variable {σ : Type} [DecidableEq σ] [Inhabited σ]

/-- The diagram before the bottom-up pass. -/
def fin0 (o : Oracle σ) (inp : Input σ) (m : Dd σ) : Dd σ :=
  let m1 : Dd σ := { m with bestN := m.maxByValue ((o.hashOrd m.nextL).map (·.2)) }
  { m1 with exact := m1.isExactDd inp.compType }

/-- Replace the contents of `prev_l`. -/
def setPrev (x : List Nat) (m : Dd σ) : Dd σ := { m with prevL := x }

theorem foldl_comm {α β γ : Type} (s : α → β) (g : α → γ → α) (g' : β → γ → β) (h : ∀ a c, g' (s a) c = s (g a c)) :
    ∀ (l : List γ) (a : α), l.foldl g' (s a) = s (l.foldl g a) := by
  intro l
  induction l with
  | nil => intro a; rfl
  | cons c l ih => intro a; simp only [List.foldl_cons, h, ih]

variable (x : List Nat)

theorem setPrev_boundEdge (i : Nat) (a : Dd σ × List Nat) (e : Nat) :
    boundEdge i (setPrev x a.1, a.2) e = (setPrev x (boundEdge i a e).1, (boundEdge i a e).2) := by
  obtain ⟨m, vis⟩ := a
  obtain ⟨m1, hm1⟩ : ∃ m1, m1 = m.modNode (m.edge e).src fun n => { n with valueBot := max n.valueBot (satAdd (m.node i).valueBot (m.edge e).cost) } := ⟨_, rfl⟩
  have h1 : (setPrev x m).modNode ((setPrev x m).edge e).src (fun n => { n with valueBot := max n.valueBot (satAdd ((setPrev x m).node i).valueBot ((setPrev x m).edge e).cost) }) =
      setPrev x m1 := by rw [hm1]; rfl
  simp only [boundEdge]
  rw [h1, ← hm1]
  have e1 : ((setPrev x m).edge e) = m.edge e := rfl
  have e2 : ∀ q, (setPrev x m1).node q = m1.node q := fun _ => rfl
  rw [e1, e2]
  by_cases hm : (m1.node (m.edge e).src).flags.isMarked = true
  · simp only [hm, if_true]
    rw [e2, e2]
    have e3 : (setPrev x m1).cutsetType = m1.cutsetType := rfl
    rw [e3]
    split <;> rfl
  · simp only [hm]
    obtain ⟨m2, hm2⟩ : ∃ m2, m2 = m1.modNode (m.edge e).src fun n => { n with flags := n.flags.setMarked true } := ⟨_, rfl⟩
    have h2 : (setPrev x m1).modNode (m.edge e).src (fun n => { n with flags := n.flags.setMarked true }) = setPrev x m2 := by rw [hm2]; rfl
    rw [h2, ← hm2]
    have e4 : ∀ q, (setPrev x m2).node q = m2.node q := fun _ => rfl
    have e5 : (setPrev x m2).cutsetType = m2.cutsetType := rfl
    simp only [Bool.false_eq_true, if_false]
    rw [e4, e4, e5]
    split <;> rfl

theorem setPrev_boundRound (m : Dd σ) (l : List Nat) : (setPrev x m).boundRound l = (setPrev x (m.boundRound l).1, (m.boundRound l).2) := by
  unfold boundRound
  exact foldl_comm (fun a : Dd σ × List Nat => (setPrev x a.1, a.2)) _ _ (fun a i =>
    foldl_comm (fun a : Dd σ × List Nat => (setPrev x a.1, a.2)) _ _ (fun a e => setPrev_boundEdge x i a e) _ a) l (m, [])

theorem setPrev_boundLoop (fuel : Nat) : ∀ (m : Dd σ) (l : List Nat), boundLoop fuel (setPrev x m) l = setPrev x (boundLoop fuel m l) := by
  induction fuel with
  | zero => intro m l; rfl
  | succ fuel ih =>
    intro m l
    simp only [boundLoop]
    split
    · rfl
    · rw [setPrev_boundRound]; exact ih _ _

theorem setPrev_thetaEdge (i : Nat) (m : Dd σ) (e : Nat) : thetaEdge i (setPrev x m) e = setPrev x (thetaEdge i m e) := by
  simp only [thetaEdge]
  have e1 : (setPrev x m).edge e = m.edge e := rfl
  have e2 : ∀ q, (setPrev x m).node q = m.node q := fun _ => rfl
  rw [e1, e2]
  obtain ⟨m1, hm1⟩ : ∃ m1, m1 = if (m.node i).flags.isMarked then
      m.modNode (m.edge e).src fun n => { n with valueBot := max n.valueBot (satAdd (m.node i).valueBot (m.edge e).cost), flags := n.flags.setMarked true }
      else m := ⟨_, rfl⟩
  have h1 : (if (m.node i).flags.isMarked then
      (setPrev x m).modNode (m.edge e).src fun n => { n with valueBot := max n.valueBot (satAdd (m.node i).valueBot (m.edge e).cost), flags := n.flags.setMarked true }
      else setPrev x m) = setPrev x m1 := by rw [hm1]; split <;> rfl
  rw [h1, ← hm1]
  have e3 : (setPrev x m1).node i = m1.node i := rfl
  rw [e3]
  obtain ⟨m2, hm2⟩ : ∃ m2, m2 = m1.modNode (m.edge e).src fun n => { n with theta := min n.theta (satSub (m1.node i).theta (m.edge e).cost) } := ⟨_, rfl⟩
  have h2 : (setPrev x m1).modNode (m.edge e).src (fun n => { n with theta := min n.theta (satSub (m1.node i).theta (m.edge e).cost) }) = setPrev x m2 := by
    rw [hm2]; rfl
  rw [h2, ← hm2]
  have e4 : ∀ q, (setPrev x m2).node q = m2.node q := fun _ => rfl
  have e5 : (setPrev x m2).cutsetType = m2.cutsetType := rfl
  rw [e4, e4, e5]
  split <;> rfl

theorem setPrev_tryUpdate (m : Dd σ) (d : Nat) (s : σ) (t : Int) (b : Bool) : (setPrev x m).tryUpdate d s t b = setPrev x (m.tryUpdate d s t b) := by
  simp only [tryUpdate]
  have e5 : (setPrev x m).cutsetType = m.cutsetType := rfl
  have e6 : (setPrev x m).lelDepth = m.lelDepth := rfl
  rw [e5, e6]
  split <;> rfl

theorem setPrev_thetaNode (lb : Int) (m : Dd σ) (i : Nat) : thetaNode lb (setPrev x m) i = setPrev x (thetaNode lb m i) := by
  simp only [thetaNode]
  have e2 : (setPrev x m).node i = m.node i := rfl
  rw [e2]
  by_cases hd : (m.node i).flags.isDeleted = true
  · simp only [hd, if_true]
  · simp only [hd]
    obtain ⟨m1, hm1⟩ : ∃ m1, m1 = m.modNode i (cutsetTheta lb) := ⟨_, rfl⟩
    have h1 : (setPrev x m).modNode i (cutsetTheta lb) = setPrev x m1 := by rw [hm1]; rfl
    rw [h1, ← hm1]
    have e3 : (setPrev x m1).node i = m1.node i := rfl
    rw [e3, setPrev_tryUpdate]
    obtain ⟨m2, hm2⟩ : ∃ m2, m2 = if (m1.node i).flags.isExact = true ∧ (m1.node i).flags.isPrunedByBarrier = false then
        m1.tryUpdate (m1.node i).depth (m1.node i).state (m1.node i).theta (!(m1.node i).flags.isCutset) else m1 := ⟨_, rfl⟩
    have h2 : (if (m1.node i).flags.isExact = true ∧ (m1.node i).flags.isPrunedByBarrier = false then
        setPrev x (m1.tryUpdate (m1.node i).depth (m1.node i).state (m1.node i).theta (!(m1.node i).flags.isCutset)) else setPrev x m1) = setPrev x m2 := by
      rw [hm2]; split <;> rfl
    simp only [Bool.false_eq_true, if_false]
    rw [h2, ← hm2]
    have e4 : (setPrev x m2).inIds i = m2.inIds i := rfl
    rw [e4]
    exact foldl_comm (setPrev x) _ _ (fun a e => setPrev_thetaEdge x i a e) _ m2

theorem setPrev_initTerminal (m : Dd σ) (i : Nat) : (setPrev x m).initTerminal i = setPrev x (m.initTerminal i) := by
  simp only [initTerminal]
  obtain ⟨m1, hm1⟩ : ∃ m1, m1 = m.modNode i fun n => { n with valueBot := 0, flags := n.flags.setMarked true } := ⟨_, rfl⟩
  have h1 : (setPrev x m).modNode i (fun n => { n with valueBot := 0, flags := n.flags.setMarked true }) = setPrev x m1 := by rw [hm1]; rfl
  rw [h1, ← hm1]
  have e3 : (setPrev x m1).node i = m1.node i := rfl
  have e5 : (setPrev x m1).cutsetType = m1.cutsetType := rfl
  have e6 : (setPrev x m1).approximate = m1.approximate := rfl
  rw [e3, e5, e6]
  split
  · rfl
  · split <;> rfl

theorem setPrev_hasExact (m : Dd σ) : ∀ f o, (setPrev x m).hasExactBestPath f o = m.hasExactBestPath f o := by
  intro f
  induction f with
  | zero => intro o; rfl
  | succ f ih =>
    intro o
    cases o with
    | none => rfl
    | some i => simp only [hasExactBestPath, ih]; rfl

theorem setPrev_finish (v : Variant) (o : Oracle σ) (inp : Input σ) (m : Dd σ) : (setPrev x m).finish v o inp = setPrev x (m.finish v o inp) := by
  have h0 : (setPrev x m).fin0 o inp = setPrev x (m.fin0 o inp) := by
    unfold fin0
    simp only [isExactDd]
    rw [show ({ setPrev x m with bestN := (setPrev x m).maxByValue ((o.hashOrd (setPrev x m).nextL).map (·.2)) } : Dd σ) =
      setPrev x { m with bestN := m.maxByValue ((o.hashOrd m.nextL).map (·.2)) } from rfl, setPrev_hasExact]
    rfl
  have hf : ∀ m : Dd σ, m.finish v o inp = match inp.compType with
      | .relaxed => (match v with | .all => (m.fin0 o inp).computeLocalBounds o | .barrier => (m.fin0 o inp).computeLocalBoundsAndTheta o inp.bestLb)
      | _ => m.fin0 o inp := fun _ => rfl
  rw [hf, hf, h0]
  generalize m.fin0 o inp = m2
  cases inp.compType with
  | exact => rfl
  | restricted => rfl
  | relaxed =>
    cases v with
    | all =>
      simp only [computeLocalBounds]
      have e1 : (setPrev x m2).exact = m2.exact := rfl
      have e2 : (setPrev x m2).nextL = m2.nextL := rfl
      rw [e1, e2]
      split
      · rfl
      · rw [foldl_comm (setPrev x) (fun m i => m.modNode i fun n => { n with valueBot := 0, flags := n.flags.setMarked true }) _ (fun _ _ => rfl)]
        exact setPrev_boundLoop x _ _ _
    | barrier =>
      simp only [computeLocalBoundsAndTheta]
      have e2 : (setPrev x m2).nextL = m2.nextL := rfl
      rw [e2, foldl_comm (setPrev x) (fun m i => m.initTerminal i) _ (fun a i => setPrev_initTerminal x a i)]
      exact foldl_comm (setPrev x) _ _ (fun a i => setPrev_thetaNode x inp.bestLb a i) _ _

/-- Two diagram objects with the same cutset type start from the same diagram, but for `prev_l`. -/
theorem start_reuse (m m' : Dd σ) (inp : Input σ) (h : m.cutsetType = m'.cutsetType) : m'.start inp = setPrev m'.prevL (m.start inp) := by
  unfold start setPrev clear
  rw [h]

theorem compile_reuse (v : Variant) (o : Oracle σ) (p : Problem σ) (r : Relaxation σ) (rank : σ → σ → Ordering) (rd : Reads σ) (m m' : Dd σ)
    (inp : Input σ) (h : m.cutsetType = m'.cutsetType) :
    (m'.compile v o p r rank rd inp).map (setPrev []) = (m.compile v o p r rank rd inp).map (setPrev []) := by
  have e : ∀ q, (setPrev q (m.start inp)).nextL = (m.start inp).nextL := fun _ => rfl
  simp only [compile, start_reuse m m' inp h]
  simp only [loop, e]
  cases hn : p.nextVar ((o.hashOrd (m.start inp).nextL).map (·.1)) with
  | none =>
    simp only [Option.map_some, setPrev_finish]
    try rfl
  | some x => rfl

end Verif.Dd
