import Verif.Proofs.Bar.Inv
/-! With one worker that sees the barrier as it is, no solution is lost (last exact layer as cutset, or a single terminal state). -/
set_option autoImplicit false

namespace Verif.Bar
open Verif Spec
open Verif.Par (split_at toPush toPush_cons mem_toPush input push_one rootNode mem_split root_genuine)
variable {σ : Type} [DecidableEq σ] [Inhabited σ]

/-! ### Open nodes and thresholds -/

section abstract
variable {p : Problem σ} {S : Layering σ} {B : Int}

/-- `m` may still lead to a solution worth at least `w`. -/
def Leads (p : Problem σ) (m : SubProblem σ) (w : Int) : Prop := w ≤ m.ub ∧ ∃ w', Through p m w' ∧ w ≤ w'

/-- A solution worth `w` that a threshold `⟨θ, e⟩` for the state `s` at depth `d` cuts off is known, or is matched below an open node: a deeper one,
or one of the state itself that the threshold does not discard. -/
def Backed (p : Problem σ) (lb : Int) (F : List (SubProblem σ)) (W : Option (SubProblem σ)) (d : Nat) (s : σ) (i : BarrierInfo) (w : Int) : Prop :=
  w ≤ lb ∨ ∃ m, (m ∈ F ∨ W = some m) ∧ Leads p m w ∧
    (d < m.path.length ∨ (m.path.length = d ∧ m.state = s ∧ i.theta ≤ m.value ∧ (i.explored = false ∨ W = some m)))

/-- Nothing is lost: `F` the nodes that wait, `W` the node that is worked on, `b` the thresholds, `lb` the incumbent's value. -/
structure Cov (p : Problem σ) (B : Int) (root : SubProblem σ) (lb : Int) (F : List (SubProblem σ)) (W : Option (SubProblem σ)) (b : Bars σ) : Prop where
  cov : ∀ w, Through p root w → w ≤ lb ∨ ∃ m, (m ∈ F ∨ W = some m) ∧ Leads p m w
  thr : ∀ d s i, b.get d s = some i → ∀ y ds u, -(((d : Int) + 1) * B) ≤ y → y ≤ ((d : Int) + 1) * B → y ≤ i.theta → Completion p s ds u →
    Backed p lb F W d s i (y + u)

theorem Leads.le {m : SubProblem σ} {w w' : Int} (h : Leads p m w') (hw : w ≤ w') : Leads p m w := by
  obtain ⟨h1, x, h2, h3⟩ := h
  exact ⟨by omega, x, h2, by omega⟩

theorem Backed.le {lb : Int} {F : List (SubProblem σ)} {W : Option (SubProblem σ)} {d : Nat} {s : σ} {i : BarrierInfo} {w w' : Int}
    (h : Backed p lb F W d s i w') (hw : w ≤ w') : Backed p lb F W d s i w := by
  rcases h with h | ⟨m, h1, h2, h3⟩
  · exact Or.inl (by omega)
  · exact Or.inr ⟨m, h1, h2.le hw, h3⟩

variable {root : SubProblem σ} {lb lb' : Int} {F F' : List (SubProblem σ)} {W : Option (SubProblem σ)} {b b' : Bars σ}

/-- A better incumbent, fewer thresholds, more nodes. -/
theorem Cov.mono (h : Cov p B root lb F W b) (hlb : lb ≤ lb') (hF : ∀ m ∈ F, m ∈ F') (hb : ∀ d s i, b'.get d s = some i → b.get d s = some i) :
    Cov p B root lb' F' W b' := by
  refine ⟨?_, ?_⟩
  · intro w hw
    rcases h.cov w hw with h1 | ⟨m, h1, h2⟩
    · exact Or.inl (by omega)
    · exact Or.inr ⟨m, h1.imp (hF m) id, h2⟩
  · intro d s i hi y ds u a1 a2 a3 a4
    rcases h.thr d s i (hb d s i hi) y ds u a1 a2 a3 a4 with h1 | ⟨m, h1, h2⟩
    · exact Or.inl (by omega)
    · exact Or.inr ⟨m, h1.imp (hF m) id, h2⟩

/-- Every open node may be replaced by the incumbent or by nodes that are deeper. -/
theorem Cov.done {n : SubProblem σ} (h : Cov p B root lb F (some n) b) (hlb : lb ≤ lb') (hF : ∀ m ∈ F, m ∈ F')
    (hn : ∀ w, Through p n w → w ≤ n.ub → w ≤ lb' ∨ ∃ m ∈ F', Leads p m w ∧ n.path.length < m.path.length) (hub : ∀ w, Through p n w → w ≤ lb ∨ w ≤ n.ub) :
    Cov p B root lb' F' none b := by
  have key : ∀ w, Leads p n w → w ≤ lb' ∨ ∃ m ∈ F', Leads p m w ∧ n.path.length < m.path.length := by
    rintro w ⟨h1, w', h2, h3⟩
    rcases hub w' h2 with h4 | h4
    · exact Or.inl (by omega)
    · rcases hn w' h2 h4 with h5 | ⟨m, h5, h6, h7⟩
      · exact Or.inl (by omega)
      · exact Or.inr ⟨m, h5, h6.le h3, h7⟩
  refine ⟨?_, ?_⟩
  · intro w hw
    rcases h.cov w hw with h1 | ⟨m, h1 | h1, h2⟩
    · exact Or.inl (by omega)
    · exact Or.inr ⟨m, Or.inl (hF m h1), h2⟩
    · cases h1
      rcases key w h2 with h3 | ⟨q, h3, h4, _⟩
      · exact Or.inl h3
      · exact Or.inr ⟨q, Or.inl h3, h4⟩
  · intro d s i hi y ds u a1 a2 a3 a4
    rcases h.thr d s i hi y ds u a1 a2 a3 a4 with h1 | ⟨m, h1, h2, h3⟩
    · exact Or.inl (by omega)
    · have viaN : m = n → Backed p lb' F' none d s i (y + u) := by
        rintro rfl
        rcases key _ h2 with h4 | ⟨q, h4, h5, h6⟩
        · exact Or.inl h4
        · refine Or.inr ⟨q, Or.inl h4, h5, Or.inl ?_⟩
          rcases h3 with h3 | h3 <;> omega
      by_cases hmn : m = n
      · exact viaN hmn
      · rcases h1 with h1 | h1
        · refine Or.inr ⟨m, Or.inl (hF m h1), h2, ?_⟩
          rcases h3 with h3 | ⟨h3, h4, h5, h6 | h6⟩
          · exact Or.inl h3
          · exact Or.inr ⟨h3, h4, h5, Or.inl h6⟩
          · cases h6; exact absurd rfl hmn
        · cases h1; exact absurd rfl hmn

/-- A threshold cuts off what it cuts off: what a compilation loses by it. -/
theorem Cov.pruned (h : Cov p B root lb F W b) {d0 : Nat} {w : Int} (hp : PrunedBelow p S B b.view.reads d0 w) :
    w ≤ lb ∨ ∃ m, (m ∈ F ∨ W = some m) ∧ Leads p m w ∧ d0 < m.path.length := by
  obtain ⟨d, s, θ, y, ds, u, h1, _, _, _, h5, h6, h7, h8, h9, h10⟩ := hp
  simp only [View.reads, Bars.view] at h5
  obtain ⟨i, h11, rfl⟩ := Option.map_eq_some_iff.1 h5
  rcases h.thr d s i h11 y ds u h7 h8 h6 h9 with h12 | ⟨m, h12, h13, h14⟩
  · exact Or.inl (by omega)
  · exact Or.inr ⟨m, h12, h13.le h10, by rcases h14 with h14 | h14 <;> omega⟩

/-- A waiting node that a threshold cuts off may be discarded. -/
theorem Cov.discard {n : SubProblem σ} (hF : F.Perm (n :: F')) (h : Cov p B root lb F W b)
    (hbnd : -(((n.path.length : Int) + 1) * B) ≤ n.value ∧ n.value ≤ ((n.path.length : Int) + 1) * B)
    (hx : mustExplore (b.get n.path.length n.state) n.value = false) : Cov p B root lb F' W b := by
  have mem : ∀ m ∈ F, m ≠ n → m ∈ F' := by
    intro m hm hne
    rcases List.mem_cons.1 (hF.mem_iff.1 hm) with h1 | h1
    · exact absurd h1 hne
    · exact h1
  by_cases hW : W = some n
  · -- the same node is worked on
    have mem' : ∀ m, (m ∈ F ∨ W = some m) → m ∈ F' ∨ W = some m := by
      rintro m (h1 | h1)
      · by_cases hmn : m = n
        · subst hmn; exact Or.inr hW
        · exact Or.inl (mem m h1 hmn)
      · exact Or.inr h1
    refine ⟨?_, ?_⟩
    · intro w hw
      rcases h.cov w hw with h1 | ⟨m, h1, h2⟩
      · exact Or.inl h1
      · exact Or.inr ⟨m, mem' m h1, h2⟩
    · intro d s j hj y ds u a1 a2 a3 a4
      rcases h.thr d s j hj y ds u a1 a2 a3 a4 with h1 | ⟨m, h1, h2⟩
      · exact Or.inl h1
      · exact Or.inr ⟨m, mem' m h1, h2⟩
  unfold mustExplore at hx
  cases hi : b.get n.path.length n.state with
  | none => rw [hi] at hx; simp at hx
  | some i =>
    rw [hi] at hx
    have hx' : n.value < i.theta ∨ (n.value = i.theta ∧ i.explored = true) := by
      simp at hx
      obtain ⟨h1, h2⟩ := hx
      by_cases he : n.value = i.theta
      · exact Or.inr ⟨he, h2 he⟩
      · exact Or.inl (by omega)
    -- what `n` leads to is matched elsewhere
    have key : ∀ w, Leads p n w → w ≤ lb ∨ ∃ m, (m ∈ F' ∨ W = some m) ∧ Leads p m w ∧ n.path.length ≤ m.path.length := by
      rintro w ⟨_, w', ⟨ds, u, h2, rfl⟩, h3⟩
      rcases h.thr _ _ i hi n.value ds u hbnd.1 hbnd.2 (by omega) h2 with h4 | ⟨m, h4 | h4, h5, h6⟩
      · exact Or.inl (by omega)
      · refine Or.inr ⟨m, Or.inl (mem m h4 ?_), h5.le h3, by rcases h6 with h6 | h6 <;> omega⟩
        rintro rfl
        rcases h6 with h6 | ⟨_, _, h6, h7 | h7⟩
        · omega
        · rcases hx' with hx' | hx'
          · omega
          · rw [h7] at hx'; cases hx'.2
        · exact hW h7
      · exact Or.inr ⟨m, Or.inr h4, h5.le h3, by rcases h6 with h6 | h6 <;> omega⟩
    refine ⟨?_, ?_⟩
    · intro w hw
      rcases h.cov w hw with h1 | ⟨m, h1 | h1, h2⟩
      · exact Or.inl h1
      · by_cases hmn : m = n
        · subst hmn
          rcases key w h2 with h3 | ⟨q, h3, h4, _⟩
          · exact Or.inl h3
          · exact Or.inr ⟨q, h3, h4⟩
        · exact Or.inr ⟨m, Or.inl (mem m h1 hmn), h2⟩
      · exact Or.inr ⟨m, Or.inr h1, h2⟩
    · intro d s j hj y ds u a1 a2 a3 a4
      rcases h.thr d s j hj y ds u a1 a2 a3 a4 with h1 | ⟨m, h1 | h1, h2, h3⟩
      · exact Or.inl h1
      · by_cases hmn : m = n
        · subst hmn
          have hd : d < m.path.length := by
            rcases h3 with h3 | ⟨h3, h4, h5, h6 | h6⟩
            · exact h3
            · subst h3 h4
              rw [hi] at hj; cases hj
              rcases hx' with hx' | hx'
              · omega
              · rw [h6] at hx'; cases hx'.2
            · exact absurd h6 hW
          rcases key _ h2 with h7 | ⟨q, h7, h8, h9⟩
          · exact Or.inl h7
          · exact Or.inr ⟨q, h7, h8, Or.inl (by omega)⟩
        · exact Or.inr ⟨m, Or.inl (mem m h1 hmn), h2, h3⟩
      · exact Or.inr ⟨m, Or.inr h1, h2, h3⟩

/-- A waiting node that no threshold cuts off is taken, and gets a threshold itself. -/
theorem Cov.take {n : SubProblem σ} (hF : F.Perm (n :: F')) (h : Cov p B root lb F none b)
    (hub : ∀ w, Through p n w → w ≤ lb ∨ w ≤ n.ub)
    (hb : b.insert n.path.length n.state ⟨n.value, true⟩ = some b') : Cov p B root lb F' (some n) b' := by
  have mem : ∀ m ∈ F, m ∈ F' ∨ some n = some m := by
    intro m hm
    rcases List.mem_cons.1 (hF.mem_iff.1 hm) with h1 | h1
    · exact Or.inr (by rw [h1])
    · exact Or.inl h1
  refine ⟨?_, ?_⟩
  · intro w hw
    rcases h.cov w hw with h1 | ⟨m, h1 | h1, h2⟩
    · exact Or.inl h1
    · exact Or.inr ⟨m, mem m h1, h2⟩
    · cases h1
  · intro d s i hi y ds u a1 a2 a3 a4
    rw [Bars.get_insert hb] at hi
    split at hi
    · rename_i hds
      obtain ⟨rfl, rfl⟩ := hds
      cases hi
      simp only at a3
      rcases hub (n.value + u) ⟨ds, u, a4, rfl⟩ with h1 | h1
      · exact Or.inl (by omega)
      · exact Or.inr ⟨n, Or.inr rfl, ⟨by omega, n.value + u, ⟨ds, u, a4, rfl⟩, by omega⟩, Or.inr ⟨rfl, rfl, Int.le_refl _, Or.inr rfl⟩⟩
    · rcases h.thr d s i hi y ds u a1 a2 a3 a4 with h1 | ⟨m, h1 | h1, h2, h3⟩
      · exact Or.inl h1
      · refine Or.inr ⟨m, mem m h1, h2, ?_⟩
        rcases h3 with h3 | ⟨h3, h4, h5, h6 | h6⟩
        · exact Or.inl h3
        · exact Or.inr ⟨h3, h4, h5, Or.inl h6⟩
        · cases h6
      · cases h1

/-- Nodes of the same state may be put together. -/
theorem Cov.refines (h : Cov p B root lb F none b) (hr : Refines F F') (hl : ∀ m ∈ F, ∀ m' ∈ F', m.state = m'.state → m.path.length = m'.path.length) :
    Cov p B root lb F' none b := by
  have key : ∀ m ∈ F, ∀ w, Leads p m w → ∃ m' ∈ F', Leads p m' w ∧ m'.path.length = m.path.length ∧ m'.state = m.state ∧ m.value ≤ m'.value := by
    rintro m hm w ⟨h1, w', ⟨ds, u, h2, rfl⟩, h3⟩
    obtain ⟨m', k1, k2, k3, k4⟩ := hr.dom m hm
    exact ⟨m', k1, ⟨by omega, m'.value + u, ⟨ds, u, by rw [k2]; exact h2, rfl⟩, by omega⟩, (hl m hm m' k1 k2.symm).symm, k2, k3⟩
  refine ⟨?_, ?_⟩
  · intro w hw
    rcases h.cov w hw with h1 | ⟨m, h1 | h1, h2⟩
    · exact Or.inl h1
    · obtain ⟨m', k1, k2, _⟩ := key m h1 w h2
      exact Or.inr ⟨m', Or.inl k1, k2⟩
    · cases h1
  · intro d s i hi y ds u a1 a2 a3 a4
    rcases h.thr d s i hi y ds u a1 a2 a3 a4 with h1 | ⟨m, h1 | h1, h2, h3⟩
    · exact Or.inl h1
    · obtain ⟨m', k1, k2, k3, k4, k5⟩ := key m h1 _ h2
      refine Or.inr ⟨m', Or.inl k1, k2, ?_⟩
      rcases h3 with h3 | ⟨h3, h4, h5, h6 | h6⟩
      · exact Or.inl (by omega)
      · exact Or.inr ⟨by omega, k4.trans h4, by omega, Or.inl h6⟩
      · cases h6
    · cases h1

/-- Nodes that cannot improve on the incumbent may be dropped. -/
theorem Cov.drop (h : Cov p B root lb F W b) (hF : ∀ m ∈ F, m.ub ≤ lb ∨ m ∈ F') : Cov p B root lb F' W b := by
  refine ⟨?_, ?_⟩
  · intro w hw
    rcases h.cov w hw with h1 | ⟨m, h1 | h1, h2⟩
    · exact Or.inl h1
    · rcases hF m h1 with h3 | h3
      · exact Or.inl (Int.le_trans h2.1 h3)
      · exact Or.inr ⟨m, Or.inl h3, h2⟩
    · exact Or.inr ⟨m, Or.inr h1, h2⟩
  · intro d s i hi y ds u a1 a2 a3 a4
    rcases h.thr d s i hi y ds u a1 a2 a3 a4 with h1 | ⟨m, h1 | h1, h2, h3⟩
    · exact Or.inl h1
    · rcases hF m h1 with h4 | h4
      · exact Or.inl (Int.le_trans h2.1 h4)
      · exact Or.inr ⟨m, Or.inl h4, h2, h3⟩
    · exact Or.inr ⟨m, Or.inr h1, h2, h3⟩

end abstract

variable {cfg : SolverCfg σ} {L : FrontierLaws cfg.fr} {S : Layering σ} {B : Int}

/-- A solution through a genuine node is a solution. -/
theorem through_real (hwf : WellFormed cfg.p S B) {n : SubProblem σ} (hn : Genuine cfg.p n) {w : Int} (h : Through cfg.p n w) : Through cfg.p (rootNode cfg) w := by
  obtain ⟨ds, _, u, h1, h2⟩ := hn
  obtain ⟨ds', u', ⟨t, h3, h4⟩, rfl⟩ := h
  exact ⟨ds ++ ds', u + u', ⟨t, h1.append h3, h4⟩, by simp only [rootNode]; omega⟩

/-- The nodes still to be explored when the worker is in the state `t`. -/
def openNodes (L : FrontierLaws cfg.fr) (c : BCrit σ cfg.fr.F) (t : BThread σ) : List (SubProblem σ) :=
  match t.pc with
  | .post n _ => if t.mdd.exact then L.holds c.fringe else toPush c.bestLb n.ub t.mdd.drainCutset ++ L.holds c.fringe
  | _ => L.holds c.fringe

/-- The best value found so far, including one that is about to be recorded. -/
def effLb (c : BCrit σ cfg.fr.F) (t : BThread σ) : Int :=
  match t.pc with
  | .post _ _ => if t.mdd.exact then max c.bestLb (t.mdd.bestValue.getD isizeMin) else c.bestLb
  | _ => c.bestLb

/-- The bound of the node the worker holds does not exclude any solution better than the incumbent. -/
def HeldBound (c : BCrit σ cfg.fr.F) (t : BThread σ) : Prop :=
  ∀ n, Pc.node t.pc = some n → ∀ w, Through cfg.p (rootNode cfg) w → w ≤ c.bestLb ∨ w ≤ n.ub

variable (L B) in
structure Covered1 (c : BCrit σ cfg.fr.F) (b : Bars σ) (t : BThread σ) : Prop where
  cov : Cov cfg.p B (rootNode cfg) (effLb c t) (openNodes L c t) (Pc.node t.pc) b
  bnd : HeldBound c t

section mdd
variable {o : Oracle σ} {n : SubProblem σ} {lb : Int} {m D : Dd σ} {rd : Reads σ}

theorem dd_promise (hg : GoodCfg cfg S B) (hco : CutOK cfg S) (hm : m.cutsetType = cfg.cutset) (hn : Genuine cfg.p n) (ho : o.Valid)
    (hD : m.compile .barrier o cfg.p cfg.r cfg.rank rd (input cfg .relaxed n lb) = some D) {x : Update σ} (hx : x ∈ D.updates)
    (ds : List Decision) (y u : Int) (h1 : -(((x.depth : Int) + 1) * B) ≤ y) (h2 : y ≤ ((x.depth : Int) + 1) * B) (h3 : y ≤ x.theta)
    (h4 : Completion cfg.p x.state ds u) : n.path.length ≤ x.depth ∧ Dd.Promise cfg.p S B rd lb D x (y + u) := by
  have hroot := hn.rootOK hg.wf
  obtain ⟨m', k, jx, P, L', h, hd⟩ := Dd.compile_done (v := .barrier) (o := o) (rank := cfg.rank) (rd := rd) (inp := input cfg .relaxed n lb) ho hg.wf
    (Par.inp_rel hg.base) (Par.inp_width hg.base) hroot m
  rw [h] at hD; cases hD
  have hmc : m'.cutsetType = cfg.cutset := by rw [hd.head.core.misc.2.2.2]; exact hm
  obtain ⟨_, _, a3, _, a5⟩ := hco.elim (fun hlel => hd.promise (o := o) hg.wf ho hroot hg.adm (fun _ => hg.rel) rfl (hmc.trans hlel) hx) (fun hut => by
    cases hcc : cfg.cutset with
    | lastExactLayer => exact hd.promise (o := o) hg.wf ho hroot hg.adm (fun _ => hg.rel) rfl (hmc.trans hcc) hx
    | frontier => exact hd.promise_frontier (o := o) hg.wf ho hroot hg.adm (fun _ => hg.rel) hut rfl (hmc.trans hcc) hx)
  have hc : ((x.depth + 1 : Nat) : Int) = (x.depth : Int) + 1 := by omega
  rw [hc] at a5
  exact ⟨a3, a5 ds y u h1 h2 h3 h4⟩

/-- The cutset of an inexact diagram covers every improving solution that no threshold cut off. -/
theorem dd_cover (hg : GoodCfg cfg S B) (hco : CutOK cfg S) (hm : m.cutsetType = cfg.cutset) (hn : Genuine cfg.p n) (ho : o.Valid)
    (hD : m.compile .barrier o cfg.p cfg.r cfg.rank rd (input cfg .relaxed n lb) = some D) (hx : D.exact = false) {w : Int} (ht : Through cfg.p n w)
    (hlb : lb < w) : (∃ q ∈ D.drainCutset, ∃ w', Through cfg.p q w' ∧ w ≤ w' ∧ w' ≤ q.ub) ∨ PrunedAt cfg.p S B rd (input cfg .relaxed n lb) w := by
  have hroot := hn.rootOK hg.wf
  obtain ⟨m', k, jx, P, L', h, hd⟩ := Dd.compile_done (v := .barrier) (o := o) (rank := cfg.rank) (rd := rd) (inp := input cfg .relaxed n lb) ho hg.wf
    (Par.inp_rel hg.base) (Par.inp_width hg.base) hroot m
  rw [h] at hD; cases hD
  have hmc : m'.cutsetType = cfg.cutset := by rw [hd.head.core.misc.2.2.2]; exact hm
  have lel := fun hcc : m'.cutsetType = .lastExactLayer =>
    hd.cover_lel hg.wf ho hroot hg.adm (fun _ => hg.rel) rfl hcc (Or.inr hx) (hd.inexact hg.wf ho hroot hx).1 ht hlb
  rcases hco with hlel | hut
  · exact lel (hmc.trans hlel)
  · cases hcc : cfg.cutset with
    | lastExactLayer => exact lel (hmc.trans hcc)
    | frontier => exact hd.cover_unique hg.wf ho hroot hg.adm (fun _ => hg.rel) hut rfl (hmc.trans hcc) hx ht hlb

end mdd
end Verif.Bar
