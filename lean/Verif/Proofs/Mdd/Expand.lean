import Verif.Proofs.Mdd.Build
import Verif.Proofs.Mdd.Explored
/-! Expansion of a whole layer. -/
set_option autoImplicit false

namespace Verif.Dd
open Verif Spec
variable {σ : Type} [DecidableEq σ] [Inhabited σ]

/-- Changing only `rub`/`theta` of an old node, the statistics or the log does not disturb the construction. -/
theorem Build.same {p : Problem σ} {B : Int} {m0 m m' : Dd σ} {x D : Nat} {cur : List Nat}
    {done : List (Nat × Decision)} (hb : Build p B m0 m x D cur done) (hcur : CurOK p B m0 x D cur)
    (hedges : m'.edges = m.edges) (hlen : m'.nodes.length = m.nodes.length) (hrest : m'.rest = m.rest)
    (hag : ∀ j, j < m0.nodes.length → Agree (m.node j) (m'.node j) ∧
      (m'.node j).flags.isCutset = (m.node j).flags.isCutset)
    (hnew : ∀ j, m0.nodes.length ≤ j → m'.node j = m.node j) : Build p B m0 m' x D cur done := by
  have hnl : m'.nextL = m.nextL := congrArg Rest.nextL hrest
  have hpre : m.edges <+: m'.edges := by rw [hedges]; exact List.prefix_rfl
  have hall : ∀ j, Agree (m.node j) (m'.node j) := fun j => by
    by_cases h : j < m0.nodes.length
    · exact (hag j h).1
    · rw [hnew j (by omega)]; exact Agree.refl _
  have hin : ∀ j, m'.inIds j = m.inIds j := fun j => by unfold inIds; rw [hedges, (hall j).inbound]
  have hed : ∀ e, m'.edge e = m.edge e := fun e => by unfold edge; rw [hedges]
  refine
    { chain := chainOK_of_same hb.chain hedges hlen (fun j => (hall j).inbound), len := by rw [hlen]; exact hb.len,
      pre := by rw [hedges]; exact hb.pre,
      frame := fun j hj => (hb.frame j hj).trans (hall j), cutsetFlag := fun j hj => (hag j hj).2.trans (hb.cutsetFlag j hj),
      rest := ?_, keys := by rw [hnl]; exact hb.keys, ids := by rw [hnl]; exact hb.ids, rng := ?_, all := ?_, node := ?_, allreal := ?_,
      clean := ?_, nrel := ?_, allex := ?_, child := ?_ }
  · rw [← hb.rest]
    have h1 := congrArg Rest.rootPa hrest
    have h2 := congrArg Rest.prevL hrest
    have h3 := congrArg Rest.cutset hrest
    have h4 := congrArg Rest.lelDepth hrest
    have h5 := congrArg Rest.bestN hrest
    have h6 := congrArg Rest.exact hrest
    have h7 := congrArg Rest.approximate hrest
    have h8 := congrArg Rest.cutsetType hrest
    simp only [Dd.rest] at h1 h2 h3 h4 h5 h6 h7 h8 ⊢
    rw [h1, h2, h3, h4, h5, h6, h7, h8]
  · intro q hq; rw [hnl] at hq
    obtain ⟨h1, h2, h3⟩ := hb.rng q hq
    exact ⟨h1, by omega, by rw [hnew _ h1]; exact h3⟩
  · intro i h1 h2; rw [hnl]; exact hb.all i h1 (by omega)
  · intro q hq; rw [hnl] at hq
    exact (hb.node q hq).frame hb.chain (hb.rng q hq).2.1 hpre (hall _) (fun j _ => hall j)
  · intro q hq e he
    rw [hnl] at hq; rw [hin] at he
    have := hb.allreal q hq e he
    unfold RealEdge at this ⊢
    rw [hed, (hall _).state, (hall _).state]; exact this
  · intro q hq; rw [hnl] at hq
    rw [hnew _ (hb.rng q hq).1]; exact hb.clean q hq
  · intro hn q hq; rw [hnl] at hq
    rw [hnew _ (hb.rng q hq).1]; exact hb.nrel hn q hq
  · intro hn q hq; rw [hnl] at hq
    rw [hnew _ (hb.rng q hq).1]; exact hb.allex hn q hq
  · intro z hz
    obtain ⟨q, hq, h1, e, he, h2⟩ := hb.child z hz
    exact ⟨q, by rw [hnl]; exact hq, h1, e, by rw [hin]; exact he, by rw [hed]; exact h2⟩

/-- `ub > best_lb` for node `n` -/
def Promising (p : Problem σ) (lb : Int) (n : Node σ) : Prop := satAdd (p.estimate n.state) n.value > lb

instance (p : Problem σ) (lb : Int) (n : Node σ) : Decidable (Promising p lb n) := inferInstanceAs (Decidable (_ > _))

/-- The barrier updates requested while node `n` of a layer at depth `D` is expanded. -/
def expandLog (v : Variant) (p : Problem σ) (inp : Input σ) (c : CutsetType) (lel : Option Nat) (D : Nat) (n : Node σ) :
    List (Update σ) :=
  if v = .barrier ∧ inp.compType = .relaxed ∧ n.flags.isExact = true ∧
      ¬ (c = .lastExactLayer ∧ (lel.any fun l => D > l) = true) then
    [⟨D, n.state, if Promising p inp.bestLb n then n.value else satSub inp.bestLb (p.estimate n.state), false⟩]
  else []

/-- The threshold a node of an expanded layer starts with. -/
def expandTheta (v : Variant) (p : Problem σ) (inp : Input σ) (n : Node σ) : Int :=
  if v = .barrier ∧ ¬ Promising p inp.bestLb n then satSub inp.bestLb (p.estimate n.state) else n.theta

/-- Everything known after the nodes `pr` of layer `cur` have been expanded. -/
structure Expanded (v : Variant) (p : Problem σ) (B : Int) (inp : Input σ) (m0 m : Dd σ) (x D : Nat) (cur pr : List Nat) :
    Prop where
  build : ∃ done, Build p B m0 m x D cur done ∧
    ∀ i ∈ pr, Promising p inp.bestLb (m0.node i) → ∀ d ∈ p.dom x (m0.node i).state, (i, d) ∈ done
  rub : ∀ i ∈ pr, (m.node i).rub = p.estimate (m0.node i).state ∧ (m.node i).theta = expandTheta v p inp (m0.node i)
  same : ∀ j, j < m0.nodes.length → j ∉ pr → (m.node j).rub = (m0.node j).rub ∧ (m.node j).theta = (m0.node j).theta
  log : m.updates = m0.updates ++ pr.flatMap fun i => expandLog v p inp m0.cutsetType m0.lelDepth D (m0.node i)
  src : ∀ q ∈ m.nextL, ∀ e ∈ m.inIds q.2, (m.edge e).src ∈ pr ∧ Promising p inp.bestLb (m0.node (m.edge e).src)
  esrc : ∀ e ∈ m.edges, e ∈ m0.edges ∨ (e.src ∈ pr ∧ Promising p inp.bestLb (m0.node e.src))
  expl : m.explored = m0.explored + pr.countP fun i => decide (Promising p inp.bestLb (m0.node i))

theorem foldl_branchOn {v : Variant} {p : Problem σ} {B : Int} {m0 : Dd σ} {x D : Nat} {cur : List Nat}
    (hcur : CurOK p B m0 x D cur) {i : Nat} (hi : i ∈ cur) :
    ∀ (ds : List Decision) (m : Dd σ) (done : List (Nat × Decision)), Build p B m0 m x D cur done →
      (∀ d ∈ ds, d ∈ p.dom x (m0.node i).state) →
      ∃ done', Build p B m0 (ds.foldl (fun m d => m.branchOn v p i d) m) x D cur done' ∧
        (∀ z ∈ done, z ∈ done') ∧ ∀ d ∈ ds, (i, d) ∈ done' := by
  intro ds
  induction ds with
  | nil => intro m done h _; exact ⟨done, h, fun _ h => h, by simp⟩
  | cons d ds ih =>
    intro m done h hds
    have h1 := branchOn_build (v := v) h hcur hi (hds d (by simp))
    obtain ⟨done', h2, h3, h4⟩ := ih _ _ h1 (fun d' hd' => hds d' (by simp [hd']))
    refine ⟨done', h2, fun z hz => h3 z (by simp [hz]), ?_⟩
    intro d' hd'
    rcases List.mem_cons.1 hd' with rfl | hd'
    · exact h3 _ (by simp)
    · exact h4 d' hd'

/-- `branchOn` never touches `rub`, `theta` of old nodes, nor the log. -/
theorem branchOn_old {v : Variant} {p : Problem σ} {m : Dd σ} {i : Nat} {d : Decision} {b : Nat}
    (hb : ∀ q ∈ m.nextL, b ≤ q.2) (hlen : b ≤ m.nodes.length) :
    (∀ j, j < b → (m.branchOn v p i d).node j = m.node j) ∧ (m.branchOn v p i d).updates = m.updates ∧
    (∀ q ∈ (m.branchOn v p i d).nextL, b ≤ q.2) ∧ b ≤ (m.branchOn v p i d).nodes.length := by
  cases hl : lookup m.nextL (p.trans (m.node i).state d) with
  | none =>
    unfold branchOn; simp only [hl]
    refine ⟨fun j hj => getD_append_lt _ _ _ (by omega), by trivial, ?_, by simp; omega⟩
    intro q hq
    simp only [List.mem_append, List.mem_singleton] at hq
    rcases hq with hq | rfl
    · exact hb q hq
    · exact hlen
  | some k =>
    have hk := hb _ (lookup_some hl)
    simp only at hk
    cases v <;>
    · unfold branchOn; simp only [hl]
      refine ⟨fun j hj => ?_, by rfl, hb, by simpa using hlen⟩
      rw [node_modNode_ne _ _ (by omega)]; rfl

theorem foldl_branchOn_old {v : Variant} {p : Problem σ} {i : Nat} {b : Nat} :
    ∀ (ds : List Decision) (m : Dd σ), (∀ q ∈ m.nextL, b ≤ q.2) → b ≤ m.nodes.length →
      (∀ j, j < b → (ds.foldl (fun m d => m.branchOn v p i d) m).node j = m.node j) ∧
      (ds.foldl (fun m d => m.branchOn v p i d) m).updates = m.updates := by
  intro ds
  induction ds with
  | nil => intro m _ _; exact ⟨fun _ _ => rfl, rfl⟩
  | cons d ds ih =>
    intro m h1 h2
    obtain ⟨a1, a2, a3, a4⟩ := branchOn_old (v := v) (p := p) (i := i) (d := d) h1 h2
    obtain ⟨b1, b2⟩ := ih _ a3 a4
    exact ⟨fun j hj => (b1 j hj).trans (a1 j hj), b2.trans a2⟩

/-- After branching from `i`, an edge into the next layer is an old one or starts at `i`. -/
theorem branchOn_src {v : Variant} {p : Problem σ} {B : Int} {m0 m : Dd σ} {x D : Nat} {cur : List Nat}
    {done : List (Nat × Decision)} (hb : Build p B m0 m x D cur done) {i : Nat} {d : Decision} {P : Nat → Prop}
    (hPi : P i) (h : ∀ q ∈ m.nextL, ∀ e ∈ m.inIds q.2, P (m.edge e).src) :
    ∀ q ∈ (m.branchOn v p i d).nextL, ∀ e ∈ (m.branchOn v p i d).inIds q.2, P ((m.branchOn v p i d).edge e).src := by
  cases hl : lookup m.nextL (p.trans (m.node i).state d) with
  | none =>
    unfold branchOn; simp only [hl]
    change ∀ q ∈ (({ m with
      edges := m.edges ++ [{ src := i, decision := d, cost := p.cost (m.node i).state d, next := none }]
      nodes := m.nodes ++ [childNode p m i d]
      nextL := m.nextL ++ [(p.trans (m.node i).state d, m.nodes.length)] } : Dd σ)).nextL, _
    generalize hm' : ({ m with
      edges := m.edges ++ [{ src := i, decision := d, cost := p.cost (m.node i).state d, next := none }]
      nodes := m.nodes ++ [childNode p m i d]
      nextL := m.nextL ++ [(p.trans (m.node i).state d, m.nodes.length)] } : Dd σ) = m'
    change ∀ q ∈ m'.nextL, ∀ e ∈ (Dd.mk _ _ _ _ _ _ _ _ _ _ _ _ _ : Dd σ).inIds q.2, _
    have hm2 := hm'
    simp only [childNode] at hm2
    rw [hm2]
    have hedges : m'.edges = m.edges ++ [{ src := i, decision := d, cost := p.cost (m.node i).state d, next := none }] := by
      rw [← hm']
    have hpre : m.edges <+: m'.edges := ⟨_, hedges.symm⟩
    have hold : ∀ j, j < m.nodes.length → m'.node j = m.node j := by
      intro j hj; rw [← hm']; exact getD_append_lt _ _ _ hj
    have heq : m'.edge m.edges.length = { src := i, decision := d, cost := p.cost (m.node i).state d, next := none } := by
      unfold edge; rw [hedges]; exact getD_append_len _ _ _
    have hnew : m'.node m.nodes.length = childNode p m i d := by rw [← hm']; exact getD_append_len _ _ _
    have hinNew : m'.inIds m.nodes.length = [m.edges.length] := by
      rw [inIds_link hb.chain hedges (by simp) (by rw [hnew]; rfl), chain_none]
    intro q hq e he
    have hq' : q ∈ m.nextL ∨ q = (p.trans (m.node i).state d, m.nodes.length) := by
      rw [← hm'] at hq; simpa using hq
    rcases hq' with hq' | rfl
    · have h2 := (hb.rng q hq').2.1
      rw [inIds_frame hb.chain h2 hpre (by rw [hold _ h2])] at he
      rw [edge_frame hpre (inIds_lt hb.chain h2 he)]
      exact h q hq' e he
    · simp only [hinNew, List.mem_singleton] at he
      subst he; rw [heq]; exact hPi
  | some k =>
    have hmem := lookup_some hl
    have hk := (hb.rng _ hmem).2.1
    simp only at hk
    have key : ∀ m' : Dd σ, m'.nextL = m.nextL →
        m'.edges = m.edges ++ [{ src := i, decision := d, cost := p.cost (m.node i).state d, next := (m.node k).inbound }] →
        (m'.node k).inbound = some m.edges.length → (∀ j, j ≠ k → m'.node j = m.node j) →
        ∀ q ∈ m'.nextL, ∀ e ∈ m'.inIds q.2, P (m'.edge e).src := by
      intro m' hnl hedges hinb hold q hq e he
      rw [hnl] at hq
      have hpre : m.edges <+: m'.edges := ⟨_, hedges.symm⟩
      have heq : m'.edge m.edges.length = { src := i, decision := d, cost := p.cost (m.node i).state d, next := (m.node k).inbound } := by
        unfold edge; rw [hedges]; exact getD_append_len _ _ _
      have h2 := (hb.rng q hq).2.1
      by_cases hqk : q.2 = k
      · rw [hqk, inIds_link hb.chain hedges (hb.chain.inb k hk) hinb] at he
        rcases List.mem_cons.1 he with rfl | he
        · rw [heq]; exact hPi
        · have he' : e ∈ m.inIds k := he
          rw [edge_frame hpre (inIds_lt hb.chain hk he')]
          exact h _ hmem e he'
      · rw [inIds_frame hb.chain h2 hpre (by rw [hold _ hqk])] at he
        rw [edge_frame hpre (inIds_lt hb.chain h2 he)]
        exact h q hq e he
    cases v <;>
    · unfold branchOn; simp only [hl]
      apply key
      · rfl
      · rfl
      · rw [node_modNode_self _ _ (by simpa using hk)]; split <;> rfl
      · intro j hj; rw [node_modNode_ne _ _ (Ne.symm hj)]; rfl

theorem foldl_branchOn_src {v : Variant} {p : Problem σ} {B : Int} {m0 : Dd σ} {x D : Nat} {cur : List Nat}
    (hcur : CurOK p B m0 x D cur) {i : Nat} (hi : i ∈ cur) {P : Nat → Prop} (hPi : P i) :
    ∀ (ds : List Decision) (m : Dd σ) (done : List (Nat × Decision)), Build p B m0 m x D cur done →
      (∀ d ∈ ds, d ∈ p.dom x (m0.node i).state) →
      (∀ q ∈ m.nextL, ∀ e ∈ m.inIds q.2, P (m.edge e).src) →
      ∀ q ∈ (ds.foldl (fun m d => m.branchOn v p i d) m).nextL, ∀ e ∈ (ds.foldl (fun m d => m.branchOn v p i d) m).inIds q.2,
        P ((ds.foldl (fun m d => m.branchOn v p i d) m).edge e).src := by
  intro ds
  induction ds with
  | nil => intro m done h _ h2; exact h2
  | cons d ds ih =>
    intro m done h hds h2
    exact ih _ _ (branchOn_build (v := v) h hcur hi (hds d (by simp))) (fun d' hd' => hds d' (by simp [hd']))
      (branchOn_src h hPi h2)

theorem tryUpdate_same (m : Dd σ) (D : Nat) (s : σ) (t : Int) (b : Bool) :
    (m.tryUpdate D s t b).nodes = m.nodes ∧ (m.tryUpdate D s t b).edges = m.edges ∧ (m.tryUpdate D s t b).rest = m.rest := by
  unfold tryUpdate; split <;> exact ⟨rfl, rfl, rfl⟩

theorem expanded_aux {v : Variant} {p : Problem σ} {B : Int} {inp : Input σ} {m0 m m2 m3 : Dd σ} {x D : Nat}
    {cur pr : List Nat} (h : Expanded v p B inp m0 m x D cur pr) (hcur : CurOK p B m0 x D cur)
    (hpr : ∀ j ∈ pr, j ∈ cur) {i : Nat} (hi : i ∈ cur) (hni : i ∉ pr)
    (hb2 : ∃ done, Build p B m0 m2 x D cur done ∧
      ∀ j ∈ pr ++ [i], Promising p inp.bestLb (m0.node j) → ∀ d ∈ p.dom x (m0.node j).state, (j, d) ∈ done)
    (hold : ∀ j, j < m0.nodes.length → j ≠ i → m2.node j = m.node j)
    (hsrc : ∀ q ∈ m2.nextL, ∀ e ∈ m2.inIds q.2, (m2.edge e).src ∈ pr ++ [i] ∧
      Promising p inp.bestLb (m0.node (m2.edge e).src))
    (hedges : m3.edges = m2.edges) (hlen : m3.nodes.length = m2.nodes.length) (hrest : m3.rest = m2.rest)
    (hother : ∀ j, j ≠ i → m3.node j = m2.node j)
    (hag : Agree (m2.node i) (m3.node i)) (hcut : (m3.node i).flags.isCutset = (m2.node i).flags.isCutset)
    (hrub : (m3.node i).rub = p.estimate (m0.node i).state)
    (htheta : (m3.node i).theta = expandTheta v p inp (m0.node i))
    (hupd : m3.updates = m.updates ++ expandLog v p inp m0.cutsetType m0.lelDepth D (m0.node i))
    (hesrc : ∀ e ∈ m3.edges, e ∈ m.edges ∨ (e.src = i ∧ Promising p inp.bestLb (m0.node i)))
    (hexpl : m3.explored = m.explored + if Promising p inp.bestLb (m0.node i) then 1 else 0) :
    Expanded v p B inp m0 m3 x D cur (pr ++ [i]) := by
  have hi0 := hcur.lt i hi
  have hall : ∀ j, Agree (m2.node j) (m3.node j) ∧ (m3.node j).flags.isCutset = (m2.node j).flags.isCutset := fun j => by
    by_cases hj : j = i
    · subst hj; exact ⟨hag, hcut⟩
    · rw [hother j hj]; exact ⟨Agree.refl _, rfl⟩
  constructor
  · obtain ⟨done, hb, hd⟩ := hb2
    exact ⟨done, hb.same hcur hedges hlen hrest (fun j _ => hall j) (fun j hj => hother j (by omega)), hd⟩
  · intro j hj
    rcases List.mem_append.1 hj with hj | hj
    · have hne : j ≠ i := fun hh => hni (hh ▸ hj)
      rw [hother j hne, hold j (hcur.lt j (hpr j hj)) hne]; exact h.rub j hj
    · simp only [List.mem_singleton] at hj; subst hj; exact ⟨hrub, htheta⟩
  · intro j hj hjn
    simp only [List.mem_append, List.mem_singleton, not_or] at hjn
    rw [hother j hjn.2, hold j hj hjn.2]; exact h.same j hj hjn.1
  · rw [hupd, h.log]; simp
  · intro q hq e he
    have hnl : m3.nextL = m2.nextL := congrArg Rest.nextL hrest
    rw [hnl] at hq
    have hin : m3.inIds q.2 = m2.inIds q.2 := by unfold inIds; rw [hedges, (hall _).1.inbound]
    have hed : m3.edge e = m2.edge e := by unfold edge; rw [hedges]
    rw [hin] at he; rw [hed]
    exact hsrc q hq e he
  · intro e he
    rcases hesrc e he with he | ⟨h1, h2⟩
    · rcases h.esrc e he with he | ⟨h1, h2⟩
      · exact Or.inl he
      · exact Or.inr ⟨List.mem_append_left _ h1, h2⟩
    · right; rw [h1]; exact ⟨by simp, h2⟩
  · rw [hexpl, h.expl, List.countP_append]; simp only [List.countP_singleton, decide_eq_true_eq]; omega

theorem expandOne_expanded {v : Variant} {p : Problem σ} {B : Int} {inp : Input σ} {m0 m : Dd σ} {x D : Nat}
    {cur pr : List Nat} (h : Expanded v p B inp m0 m x D cur pr) (hcur : CurOK p B m0 x D cur)
    (hpr : ∀ j ∈ pr, j ∈ cur) {i : Nat} (hi : i ∈ cur) (hni : i ∉ pr) :
    Expanded v p B inp m0 (expandOne v p inp x D m i) x D cur (pr ++ [i]) := by
  obtain ⟨done, hb, hdone⟩ := h.build
  have hi0 := hcur.lt i hi
  have hile : i < m.nodes.length := Nat.lt_of_lt_of_le hi0 hb.len
  have hag := hb.frame i hi0
  have hth := (h.same i hi0 hni).2
  -- the diagram with the rough upper bound recorded
  obtain ⟨m1, hm1⟩ : ∃ m1, m1 = m.modNode i fun n => { n with rub := p.estimate (m.node i).state } := ⟨_, rfl⟩
  have hm1i : m1.node i = { m.node i with rub := p.estimate (m.node i).state } := by
    rw [hm1]; exact node_modNode_self _ _ hile
  have hm1j : ∀ j, j ≠ i → m1.node j = m.node j := fun j hj => by
    rw [hm1]; exact node_modNode_ne _ _ (Ne.symm hj)
  have hm1e : m1.edges = m.edges := by rw [hm1]; rfl
  have hm1l : m1.nodes.length = m.nodes.length := by rw [hm1]; simp
  have hm1r : m1.rest = m.rest := by rw [hm1]; rfl
  have hm1u : m1.updates = m.updates := by rw [hm1]; rfl
  have hm1nl : m1.nextL = m.nextL := congrArg Rest.nextL hm1r
  have hb1 : Build p B m0 m1 x D cur done := by
    refine hb.same hcur hm1e hm1l hm1r ?_ (fun j hj => hm1j j (by omega))
    intro j hj
    by_cases hij : j = i
    · subst hij; rw [hm1i]; exact ⟨⟨rfl, rfl, rfl, rfl, rfl, rfl, rfl, rfl, rfl, rfl, rfl⟩, rfl⟩
    · rw [hm1j j hij]; exact ⟨Agree.refl _, rfl⟩
  have hsrc1 : ∀ q ∈ m1.nextL, ∀ e ∈ m1.inIds q.2, (m1.edge e).src ∈ pr ++ [i] ∧ Promising p inp.bestLb (m0.node (m1.edge e).src) := by
    intro q hq e he
    rw [hm1nl] at hq
    have hinq : m1.inIds q.2 = m.inIds q.2 := by
      unfold inIds
      have : (m1.node q.2).inbound = (m.node q.2).inbound := by
        by_cases hij : q.2 = i
        · rw [hij, hm1i]
        · rw [hm1j _ hij]
      rw [this, hm1e]
    have hed : m1.edge e = m.edge e := by unfold edge; rw [hm1e]
    rw [hinq] at he; rw [hed]
    have := h.src q hq e he
    exact ⟨List.mem_append_left _ this.1, this.2⟩
  have hprom : Promising p inp.bestLb (m0.node i) ↔ satAdd (p.estimate (m.node i).state) (m1.node i).value > inp.bestLb := by
    unfold Promising; rw [hm1i]; simp only; rw [hag.state, hag.value]
  have hct : m.cutsetType = m0.cutsetType := by have := congrArg Rest.cutsetType hb.rest; exact this
  have hld : m.lelDepth = m0.lelDepth := by have := congrArg Rest.lelDepth hb.rest; exact this
  unfold expandOne
  simp only []
  rw [← hm1]
  by_cases hP : satAdd (p.estimate (m.node i).state) (m1.node i).value > inp.bestLb
  · rw [if_pos hP]
    have hds : ∀ d ∈ p.dom x (m.node i).state, d ∈ p.dom x (m0.node i).state := by rw [hag.state]; exact fun _ h => h
    obtain ⟨m2, hm2⟩ : ∃ m2, m2 = (p.dom x (m.node i).state).foldl (fun m d => m.branchOn v p i d) m1 := ⟨_, rfl⟩
    obtain ⟨done', hb2, hsub, hall⟩ := foldl_branchOn (v := v) hcur hi _ m1 done hb1 hds
    obtain ⟨ho1, ho2⟩ := foldl_branchOn_old (v := v) (p := p) (i := i) (b := m0.nodes.length) (p.dom x (m.node i).state) m1
      (fun q hq => (hb1.rng q hq).1) hb1.len
    have hsrc2 := foldl_branchOn_src (v := v) hcur hi
      (P := fun j => j ∈ pr ++ [i] ∧ Promising p inp.bestLb (m0.node j)) ⟨by simp, hprom.2 hP⟩ (p.dom x (m.node i).state) m1 done hb1 hds hsrc1
    have hex2 : m2.explored = m.explored := by
      rw [hm2]
      refine (foldl_same (fun m : Dd σ => m.explored) _ (fun a d => branchOn_explored v p i a d) _ _).trans ?_
      rw [hm1]; rfl
    rw [← hm2] at hb2 ho1 ho2 hsrc2 ⊢
    have hi2 : m2.node i = { m.node i with rub := p.estimate (m.node i).state } := by rw [ho1 i hi0, hm1i]
    have hct2 : m2.cutsetType = m0.cutsetType := by have := congrArg Rest.cutsetType hb2.rest; exact this
    have hld2 : m2.lelDepth = m0.lelDepth := by have := congrArg Rest.lelDepth hb2.rest; exact this
    have hdone2 : ∀ j ∈ pr ++ [i], Promising p inp.bestLb (m0.node j) → ∀ d ∈ p.dom x (m0.node j).state, (j, d) ∈ done' := by
      intro j hj hpj d hd
      rcases List.mem_append.1 hj with hj | hj
      · exact hsub _ (hdone j hj hpj d hd)
      · simp only [List.mem_singleton] at hj; subst hj
        exact hall d (by rw [hag.state]; exact hd)
    have key : ∀ m3 : Dd σ, m3.nodes = m2.nodes → m3.edges = m2.edges → m3.rest = m2.rest →
        m3.updates = m.updates ++ expandLog v p inp m0.cutsetType m0.lelDepth D (m0.node i) → m3.explored = m2.explored + 1 →
        Expanded v p B inp m0 m3 x D cur (pr ++ [i]) := by
      intro m3 hn he hr hu hx
      have hnode : ∀ j, m3.node j = m2.node j := fun j => by unfold node; rw [hn]
      refine expanded_aux h hcur hpr hi hni ⟨done', hb2, hdone2⟩ (fun j hj hji => by rw [ho1 j hj, hm1j j hji]) hsrc2 he (by rw [hn]) hr
        (fun j _ => hnode j) (by rw [hnode]; exact Agree.refl _) (by rw [hnode]) ?_ ?_ hu
        (fun e he' => by
          rw [he, hm2] at he'
          rcases foldl_branchOn_edges v p i _ _ he' with h1 | h1
          · rw [hm1e] at h1; exact Or.inl h1
          · exact Or.inr ⟨h1, hprom.2 hP⟩)
        (by rw [hx, hex2, if_pos (hprom.2 hP)])
      · rw [hnode, hi2]; simp only [hag.state]
      · rw [hnode, hi2]; unfold expandTheta
        rw [if_neg (by intro hh; exact hh.2 (hprom.2 hP))]; exact hth
    cases v with
    | all =>
      apply key
      · rfl
      · rfl
      · rfl
      · simp only [expandLog]; simp [ho2, hm1u]
      · rfl
    | barrier =>
      simp only []
      have hfl : ((({ m2 with explored := m2.explored + 1 } : Dd σ)).node i).flags.isExact = (m0.node i).flags.isExact := by
        change (m2.node i).flags.isExact = _
        rw [hi2]; exact hag.exact
      have hvl : ((({ m2 with explored := m2.explored + 1 } : Dd σ)).node i).value = (m0.node i).value := by
        change (m2.node i).value = _
        rw [hi2]; exact hag.value
      rw [hfl, hvl]
      split
      · rename_i hc
        obtain ⟨t1, t2, t3⟩ := tryUpdate_same ({ m2 with explored := m2.explored + 1 } : Dd σ) D (m.node i).state (m0.node i).value false
        apply key _ (t1.trans rfl) (t2.trans rfl) (t3.trans rfl) ?_ (tryUpdate_explored _ _ _ _ _)
        unfold tryUpdate expandLog
        simp only [hct2, hld2, hc, true_and]
        by_cases hcc : m0.cutsetType = .lastExactLayer ∧ (m0.lelDepth.any fun l => D > l) = true
        · rw [if_pos hcc, if_neg (not_not_intro hcc)]; simp [ho2, hm1u]
        · rw [if_neg hcc, if_pos hcc, if_pos (hprom.2 hP)]; simp only [ho2, hm1u, hag.state]
      · rename_i hc
        apply key
        · rfl
        · rfl
        · rfl
        · simp only [expandLog]
          rw [if_neg (by intro hh; exact hc ⟨hh.2.1, hh.2.2.1⟩)]
          simp [ho2, hm1u]
        · rfl
  · rw [if_neg hP]
    have hdone1 : ∀ j ∈ pr ++ [i], Promising p inp.bestLb (m0.node j) → ∀ d ∈ p.dom x (m0.node j).state, (j, d) ∈ done := by
      intro j hj hpj d hd
      rcases List.mem_append.1 hj with hj | hj
      · exact hdone j hj hpj d hd
      · simp only [List.mem_singleton] at hj; subst hj
        exact absurd (hprom.1 hpj) hP
    have hPn : ¬ Promising p inp.bestLb (m0.node i) := fun hh => hP (hprom.1 hh)
    cases v with
    | all =>
      refine expanded_aux h hcur hpr hi hni ⟨done, hb1, hdone1⟩ (fun j _ hji => hm1j j hji) hsrc1 rfl rfl rfl (fun _ _ => rfl) (Agree.refl _) rfl ?_ ?_ ?_
        (fun e he => Or.inl (by rw [← hm1e]; exact he)) (by rw [if_neg hPn, hm1]; rfl)
      · rw [hm1i]; simp only [hag.state]
      · rw [hm1i]; unfold expandTheta; simp only [reduceCtorEq, false_and, if_false]; exact hth
      · simp [expandLog, hm1u]
    | barrier =>
      simp only []
      obtain ⟨m2, hm2⟩ : ∃ m2, m2 = m1.modNode i fun n => { n with theta := satSub inp.bestLb (p.estimate (m.node i).state) } := ⟨_, rfl⟩
      rw [← hm2]
      have hm2i : m2.node i = { m1.node i with theta := satSub inp.bestLb (p.estimate (m.node i).state) } := by
        rw [hm2]; exact node_modNode_self _ _ (by rw [hm1l]; exact hile)
      have hm2j : ∀ j, j ≠ i → m2.node j = m1.node j := fun j hj => by rw [hm2]; exact node_modNode_ne _ _ (Ne.symm hj)
      have key : ∀ m3 : Dd σ, m3.nodes = m2.nodes → m3.edges = m1.edges → m3.rest = m1.rest →
          m3.updates = m.updates ++ expandLog .barrier p inp m0.cutsetType m0.lelDepth D (m0.node i) → m3.explored = m2.explored →
          Expanded .barrier p B inp m0 m3 x D cur (pr ++ [i]) := by
        intro m3 hn he hr hu hx
        have hnode : ∀ j, m3.node j = m2.node j := fun j => by unfold node; rw [hn]
        refine expanded_aux h hcur hpr hi hni ⟨done, hb1, hdone1⟩ (fun j _ hji => hm1j j hji) hsrc1 he (by rw [hn, hm2]; simp) hr
          (fun j hj => by rw [hnode, hm2j j hj]) (by rw [hnode, hm2i]; exact ⟨rfl, rfl, rfl, rfl, rfl, rfl, rfl, rfl, rfl, rfl, rfl⟩)
          (by rw [hnode, hm2i]) ?_ ?_ hu (fun e he' => Or.inl (by rw [he, hm1e] at he'; exact he')) (by rw [hx, if_neg hPn, hm2, hm1]; rfl)
        · rw [hnode, hm2i, hm1i]; simp only [hag.state]
        · rw [hnode, hm2i]; unfold expandTheta; rw [if_pos ⟨rfl, hPn⟩]; simp only [hag.state]
      have hfl : (m2.node i).flags.isExact = (m0.node i).flags.isExact := by rw [hm2i, hm1i]; exact hag.exact
      have hr2 : m2.rest = m1.rest := by rw [hm2]; rfl
      have hct2 : m2.cutsetType = m0.cutsetType := by rw [← hct]; exact (congrArg Rest.cutsetType (hr2.trans hm1r))
      have hld2 : m2.lelDepth = m0.lelDepth := by rw [← hld]; exact (congrArg Rest.lelDepth (hr2.trans hm1r))
      have hu2 : m2.updates = m.updates := by rw [hm2, ← hm1u]; rfl
      have he2 : m2.edges = m1.edges := by rw [hm2]; rfl
      rw [hfl]
      split
      · rename_i hc
        obtain ⟨t1, t2, t3⟩ := tryUpdate_same m2 D (m.node i).state (m2.node i).theta false
        apply key _ t1 (t2.trans he2) (t3.trans hr2) ?_ (tryUpdate_explored _ _ _ _ _)
        unfold tryUpdate expandLog
        simp only [hct2, hld2, hc, true_and]
        by_cases hcc : m0.cutsetType = .lastExactLayer ∧ (m0.lelDepth.any fun l => D > l) = true
        · rw [if_pos hcc, if_neg (not_not_intro hcc)]; simp [hu2]
        · rw [if_neg hcc, if_pos hcc, if_neg hPn]; rw [hm2i]; simp only [hu2, hag.state]
      · rename_i hc
        apply key _ rfl he2 hr2 ?_ rfl
        simp only [expandLog]
        rw [if_neg (by intro hh; exact hc ⟨hh.2.1, hh.2.2.1⟩)]
        simp [hu2]

theorem expand_layer {v : Variant} {p : Problem σ} {B : Int} {inp : Input σ} {m0 : Dd σ} {x D : Nat}
    {cur : List Nat} (hc : ChainOK m0) (hnl : m0.nextL = []) (hcur : CurOK p B m0 x D cur) (hnd : cur.Nodup) :
    Expanded v p B inp m0 (cur.foldl (expandOne v p inp x D) m0) x D cur cur := by
  have gen : ∀ (todo pr : List Nat) (m : Dd σ), cur = pr ++ todo → Expanded v p B inp m0 m x D cur pr →
      Expanded v p B inp m0 (todo.foldl (expandOne v p inp x D) m) x D cur cur := by
    intro todo
    induction todo with
    | nil => intro pr m h1 h2; simp at h1; subst h1; exact h2
    | cons i todo ih =>
      intro pr m h1 h2
      refine ih (pr ++ [i]) _ (by simp [h1]) (expandOne_expanded h2 hcur (by rw [h1]; intro j hj; simp [hj]) (by simp [h1]) ?_)
      rw [h1, List.nodup_append] at hnd
      intro hi
      exact hnd.2.2 i hi i (by simp) rfl
  refine gen cur [] m0 (by simp) ?_
  refine ⟨⟨[], ?_, by simp⟩, by simp, fun _ _ _ => ⟨rfl, rfl⟩, by simp, by simp [hnl], fun e he => Or.inl he, by simp⟩
  refine ⟨hc, Nat.le_refl _, List.prefix_rfl, fun _ _ => Agree.refl _, fun _ _ => rfl, rfl, by simp [hnl], by simp [hnl], by simp [hnl],
    ?_, by simp [hnl], by simp [hnl], by simp [hnl], by simp [hnl], by simp [hnl], by simp⟩
  intro i h1 h2; omega

end Verif.Dd
