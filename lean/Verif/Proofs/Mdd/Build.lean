import Verif.Proofs.Mdd.Basic
/-! Expansion of a layer: what `branchOn` and `expandOne` establish about the next layer. -/
set_option autoImplicit false

namespace Verif.Dd
open Verif Spec
variable {σ : Type} [DecidableEq σ] [Inhabited σ]

/-- The parts of a node that are fixed once its layer has been squashed (everything but `rub`, `theta`, and the cutset flag). -/
structure Agree (n n' : Node σ) : Prop where
  state : n'.state = n.state
  value : n'.value = n.value
  best : n'.best = n.best
  inbound : n'.inbound = n.inbound
  depth : n'.depth = n.depth
  valueBot : n'.valueBot = n.valueBot
  exact : n'.flags.isExact = n.flags.isExact
  relaxed : n'.flags.isRelaxed = n.flags.isRelaxed
  marked : n'.flags.isMarked = n.flags.isMarked
  deleted : n'.flags.isDeleted = n.flags.isDeleted
  pruned : n'.flags.isPrunedByBarrier = n.flags.isPrunedByBarrier

theorem Agree.refl (n : Node σ) : Agree n n := ⟨rfl, rfl, rfl, rfl, rfl, rfl, rfl, rfl, rfl, rfl, rfl⟩
theorem Agree.trans {a b c : Node σ} (h : Agree a b) (h' : Agree b c) : Agree a c :=
  ⟨h'.state.trans h.state, h'.value.trans h.value, h'.best.trans h.best, h'.inbound.trans h.inbound,
   h'.depth.trans h.depth, h'.valueBot.trans h.valueBot, h'.exact.trans h.exact, h'.relaxed.trans h.relaxed,
   h'.marked.trans h.marked, h'.deleted.trans h.deleted, h'.pruned.trans h.pruned⟩

/-- None of the bookkeeping flags is set. -/
structure Clean (n : Node σ) : Prop where
  marked : n.flags.isMarked = false
  cutset : n.flags.isCutset = false
  deleted : n.flags.isDeleted = false
  pruned : n.flags.isPrunedByBarrier = false

/-- Edge `e` into node `i` is a true transition of the problem. -/
def RealEdge (p : Problem σ) (m : Dd σ) (e i : Nat) : Prop :=
  (m.node i).state = p.trans (m.node (m.edge e).src).state (m.edge e).decision ∧
  (m.edge e).cost = p.cost (m.node (m.edge e).src).state (m.edge e).decision

/-- What holds of every non-root node of the diagram; `prev` is the layer above, `x` the variable decided there. -/
structure NodeOK (p : Problem σ) (B : Int) (m : Dd σ) (x : Nat) (prev : List Nat) (i : Nat) : Prop where
  src : ∀ e ∈ m.inIds i, (m.edge e).src ∈ prev
  dec : ∀ e ∈ m.inIds i, (m.edge e).decision ∈ p.dom x (m.node (m.edge e).src).state
  cost_ge : ∀ e ∈ m.inIds i, p.cost (m.node (m.edge e).src).state (m.edge e).decision ≤ (m.edge e).cost
  cost_le : ∀ e ∈ m.inIds i, (m.edge e).cost ≤ B
  real : (m.node i).flags.isRelaxed = false → ∀ e ∈ m.inIds i, RealEdge p m e i
  vge : ∀ e ∈ m.inIds i, satAdd (m.node (m.edge e).src).value (m.edge e).cost ≤ (m.node i).value
  veq : ∃ b ∈ m.inIds i, (m.node i).best = some b ∧
    (m.node i).value = satAdd (m.node (m.edge b).src).value (m.edge b).cost
  exb : (m.node i).flags.isExact = true → ∀ b, (m.node i).best = some b →
    (m.node (m.edge b).src).flags.isExact = true

/-- The parts of a node that `NodeOK` depends on. -/
structure AgreeN (n n' : Node σ) : Prop where
  state : n'.state = n.state
  value : n'.value = n.value
  best : n'.best = n.best
  inbound : n'.inbound = n.inbound
  exact : n'.flags.isExact = n.flags.isExact
  relaxed : n'.flags.isRelaxed = n.flags.isRelaxed

theorem Agree.toN {n n' : Node σ} (h : Agree n n') : AgreeN n n' :=
  ⟨h.state, h.value, h.best, h.inbound, h.exact, h.relaxed⟩

theorem NodeOK.frameN {p : Problem σ} {B : Int} {m m' : Dd σ} {x : Nat} {prev : List Nat} {i : Nat}
    (hc : ChainOK m) (hi : i < m.nodes.length) (hpre : m.edges <+: m'.edges)
    (hag : AgreeN (m.node i) (m'.node i)) (hprev : ∀ j ∈ prev, AgreeN (m.node j) (m'.node j))
    (h : NodeOK p B m x prev i) : NodeOK p B m' x prev i := by
  have hin : m'.inIds i = m.inIds i := inIds_frame hc hi hpre hag.inbound
  have hed : ∀ e ∈ m.inIds i, m'.edge e = m.edge e := fun e he => edge_frame hpre (inIds_lt hc hi he)
  have hs : ∀ e ∈ m.inIds i, AgreeN (m.node (m.edge e).src) (m'.node (m.edge e).src) :=
    fun e he => hprev _ (h.src e he)
  constructor
  · intro e he; rw [hin] at he; rw [hed e he]; exact h.src e he
  · intro e he; rw [hin] at he; rw [hed e he, (hs e he).state]; exact h.dec e he
  · intro e he; rw [hin] at he; rw [hed e he, (hs e he).state]; exact h.cost_ge e he
  · intro e he; rw [hin] at he; rw [hed e he]; exact h.cost_le e he
  · intro hr e he; rw [hin] at he; rw [hag.relaxed] at hr
    have := h.real hr e he
    unfold RealEdge at this ⊢
    rw [hed e he, (hs e he).state, hag.state]; exact this
  · intro e he; rw [hin] at he; rw [hed e he, (hs e he).value, hag.value]; exact h.vge e he
  · obtain ⟨b, hb, h1, h2⟩ := h.veq
    refine ⟨b, by rw [hin]; exact hb, by rw [hag.best]; exact h1, ?_⟩
    rw [hed b hb, (hs b hb).value, hag.value]; exact h2
  · intro he b hb
    rw [hag.exact] at he; rw [hag.best] at hb
    have hbm : b ∈ m.inIds i := by
      obtain ⟨b', hb', h1, _⟩ := h.veq
      rw [h1] at hb; cases hb; exact hb'
    rw [hed b hbm, (hs b hbm).exact]; exact h.exb he b hb

theorem NodeOK.frame {p : Problem σ} {B : Int} {m m' : Dd σ} {x : Nat} {prev : List Nat} {i : Nat}
    (hc : ChainOK m) (hi : i < m.nodes.length) (hpre : m.edges <+: m'.edges)
    (hag : Agree (m.node i) (m'.node i)) (hprev : ∀ j ∈ prev, Agree (m.node j) (m'.node j))
    (h : NodeOK p B m x prev i) : NodeOK p B m' x prev i :=
  h.frameN hc hi hpre hag.toN (fun j hj => (hprev j hj).toN)

/-- The state of affairs while layer `cur` is being expanded on variable `x`: `m0` is the diagram when the expansion started. -/
structure Build (p : Problem σ) (B : Int) (m0 m : Dd σ) (x D : Nat) (cur : List Nat) (done : List (Nat × Decision)) :
    Prop where
  chain : ChainOK m
  len : m0.nodes.length ≤ m.nodes.length
  pre : m0.edges <+: m.edges
  frame : ∀ j, j < m0.nodes.length → Agree (m0.node j) (m.node j)
  cutsetFlag : ∀ j, j < m0.nodes.length → (m.node j).flags.isCutset = (m0.node j).flags.isCutset
  rest : ({ m with nextL := [] }).rest = ({ m0 with nextL := [] }).rest
  keys : (m.nextL.map (·.1)).Nodup
  ids : (m.nextL.map (·.2)).Nodup
  rng : ∀ q ∈ m.nextL, m0.nodes.length ≤ q.2 ∧ q.2 < m.nodes.length ∧ (m.node q.2).state = q.1
  all : ∀ i, m0.nodes.length ≤ i → i < m.nodes.length → ∃ q ∈ m.nextL, q.2 = i
  node : ∀ q ∈ m.nextL, NodeOK p B m x cur q.2
  allreal : ∀ q ∈ m.nextL, ∀ e ∈ m.inIds q.2, RealEdge p m e q.2
  clean : ∀ q ∈ m.nextL, Clean (m.node q.2) ∧ (m.node q.2).depth = D + 1 ∧ (m.node q.2).valueBot = isizeMin ∧
    (m.node q.2).theta = isizeMax
  nrel : (∀ i ∈ cur, (m0.node i).flags.isRelaxed = false) → ∀ q ∈ m.nextL, (m.node q.2).flags.isRelaxed = false
  allex : (∀ i ∈ cur, (m0.node i).flags.isExact = true) → ∀ q ∈ m.nextL, (m.node q.2).flags.isExact = true
  child : ∀ z ∈ done, ∃ q ∈ m.nextL, q.1 = p.trans (m0.node z.1).state z.2 ∧
    ∃ e ∈ m.inIds q.2, (m.edge e).src = z.1 ∧ (m.edge e).decision = z.2 ∧ (m.edge e).cost = p.cost (m0.node z.1).state z.2

theorem lookup_some {l : List (σ × Nat)} {s : σ} {i : Nat} (h : lookup l s = some i) : (s, i) ∈ l := by
  unfold lookup at h
  simp only [Option.map_eq_some_iff] at h
  obtain ⟨⟨a, b⟩, h1, h2⟩ := h
  have := List.find?_some h1
  simp at this h2
  subst this; subst h2
  exact List.mem_of_find?_eq_some h1

theorem lookup_none {l : List (σ × Nat)} {s : σ} (h : lookup l s = none) : ∀ q ∈ l, q.1 ≠ s := by
  unfold lookup at h
  simpa using h

/-- Assumptions about the layer that is being expanded. -/
structure CurOK (p : Problem σ) (B : Int) (m0 : Dd σ) (x D : Nat) (cur : List Nat) : Prop where
  lt : ∀ i ∈ cur, i < m0.nodes.length
  clean : ∀ i ∈ cur, Clean (m0.node i)
  depth : ∀ i ∈ cur, (m0.node i).depth = D
  bound : ∀ i ∈ cur, ∀ d ∈ p.dom x (m0.node i).state, p.cost (m0.node i).state d ≤ B

/-- The node created for a new state of the next layer. -/
def childNode (p : Problem σ) (m : Dd σ) (i : Nat) (d : Decision) : Node σ :=
  { state := p.trans (m.node i).state d
    value := satAdd (m.node i).value (p.cost (m.node i).state d)
    best := some m.edges.length
    inbound := some m.edges.length
    depth := (m.node i).depth + 1
    valueBot := isizeMin
    theta := isizeMax
    rub := isizeMax
    flags := (m.node i).flags }

theorem branchOn_vacant {v : Variant} {p : Problem σ} {B : Int} {m0 m : Dd σ} {x D : Nat} {cur : List Nat}
    {done : List (Nat × Decision)} (hb : Build p B m0 m x D cur done) (hcur : CurOK p B m0 x D cur)
    {i : Nat} (hi : i ∈ cur) {d : Decision} (hd : d ∈ p.dom x (m0.node i).state)
    (hl : lookup m.nextL (p.trans (m.node i).state d) = none) :
    Build p B m0 (m.branchOn v p i d) x D cur ((i, d) :: done) := by
  have hi0 := hcur.lt i hi
  have hag := hb.frame i hi0
  have hci : (m.node i).flags.isCutset = false := by rw [hb.cutsetFlag i hi0]; exact (hcur.clean i hi).cutset
  unfold branchOn
  simp only [hl]
  change Build p B m0 ({ m with
      edges := m.edges ++ [{ src := i, decision := d, cost := p.cost (m.node i).state d, next := none }]
      nodes := m.nodes ++ [childNode p m i d]
      nextL := m.nextL ++ [(p.trans (m.node i).state d, m.nodes.length)] } : Dd σ) x D cur _
  generalize hm' : (Dd.mk _ _ _ _ _ _ _ _ _ _ _ _ _ : Dd σ) = m'
  have hedges : m'.edges = m.edges ++ [{ src := i, decision := d, cost := p.cost (m.node i).state d, next := none }] := by
    rw [← hm']
  have hnl : m'.nextL = m.nextL ++ [(p.trans (m.node i).state d, m.nodes.length)] := by rw [← hm']
  have hlen : m'.nodes.length = m.nodes.length + 1 := by rw [← hm']; simp
  have hold : ∀ j, j < m.nodes.length → m'.node j = m.node j := by
    intro j hj; rw [← hm']; exact getD_append_lt _ _ _ hj
  have hnew : m'.node m.nodes.length = childNode p m i d := by
    rw [← hm']; exact getD_append_len _ _ _
  have hpre : m.edges <+: m'.edges := ⟨_, hedges.symm⟩
  have heq : m'.edge m.edges.length = { src := i, decision := d, cost := p.cost (m.node i).state d, next := none } := by
    unfold edge; rw [hedges]; exact getD_append_len _ _ _
  have hc : ChainOK m' := by
    constructor
    · intro e he y hy
      rw [hedges] at he; simp only [List.length_append, List.length_singleton] at he
      by_cases h : e < m.edges.length
      · rw [edge_frame hpre h] at hy; exact hb.chain.next e h y hy
      · have : e = m.edges.length := by omega
        subst this; rw [heq] at hy; cases hy
    · intro j hj y hy
      rw [hedges]; simp only [List.length_append, List.length_singleton]
      by_cases h : j < m.nodes.length
      · rw [hold j h] at hy; have := hb.chain.inb j h y hy; omega
      · have : j = m.nodes.length := by omega
        subst this; rw [hnew, childNode] at hy; cases hy; omega
  have hinNew : m'.inIds m.nodes.length = [m.edges.length] := by
    rw [inIds_link hb.chain hedges (by simp) (by rw [hnew, childNode]), chain_none]
  have hinOld : ∀ j, j < m.nodes.length → m'.inIds j = m.inIds j := fun j hj =>
    inIds_frame hb.chain hj hpre (by rw [hold j hj])
  have hile : i < m.nodes.length := Nat.lt_of_lt_of_le hi0 hb.len
  have hiold := hold i hile
  have hcurAg : ∀ j ∈ cur, Agree (m.node j) (m'.node j) := by
    intro j hj
    rw [hold j (Nat.lt_of_lt_of_le (hcur.lt j hj) hb.len)]; exact Agree.refl _
  have hnodes : ∀ q ∈ m'.nextL, q ∈ m.nextL ∨ q = (p.trans (m.node i).state d, m.nodes.length) := by
    intro q hq; rw [hnl] at hq; simpa using hq
  refine
    { chain := hc, len := by have := hb.len; omega, pre := hb.pre.trans hpre, frame := ?_, cutsetFlag := ?_, rest := ?_, keys := ?_,
      ids := ?_, rng := ?_, all := ?_, node := ?_, allreal := ?_, clean := ?_, nrel := ?_, allex := ?_, child := ?_ }
  · intro j hj
    rw [hold j (Nat.lt_of_lt_of_le hj hb.len)]; exact hb.frame j hj
  · intro j hj
    rw [hold j (Nat.lt_of_lt_of_le hj hb.len)]; exact hb.cutsetFlag j hj
  · rw [← hb.rest, ← hm']; rfl
  · rw [hnl]
    simp only [List.map_append, List.map_cons, List.map_nil]
    rw [List.nodup_append]
    refine ⟨hb.keys, by simp, ?_⟩
    intro a ha b hb' heq'
    simp only [List.mem_singleton] at hb'
    obtain ⟨q, hq, rfl⟩ := List.mem_map.1 ha
    exact lookup_none hl q hq (heq'.trans hb')
  · rw [hnl]
    simp only [List.map_append, List.map_cons, List.map_nil]
    rw [List.nodup_append]
    refine ⟨hb.ids, by simp, ?_⟩
    intro a ha b hb' heq'
    simp only [List.mem_singleton] at hb'
    obtain ⟨q, hq, rfl⟩ := List.mem_map.1 ha
    have := (hb.rng q hq).2.1
    omega
  · intro q hq
    rcases hnodes q hq with h | rfl
    · obtain ⟨h1, h2, h3⟩ := hb.rng q h
      exact ⟨h1, by omega, by rw [hold _ h2]; exact h3⟩
    · exact ⟨hb.len, by simp [hlen], by simp [hnew, childNode]⟩
  · intro j h1 h2
    by_cases h : j < m.nodes.length
    · obtain ⟨q, hq, hq'⟩ := hb.all j h1 h
      exact ⟨q, by rw [hnl]; simp [hq], hq'⟩
    · exact ⟨_, by rw [hnl]; simp; exact Or.inr rfl, by simp; omega⟩
  · intro q hq
    rcases hnodes q hq with h | rfl
    · obtain ⟨h1, h2, h3⟩ := hb.rng q h
      exact (hb.node q h).frame hb.chain h2 hpre (by rw [hold _ h2]; exact Agree.refl _) hcurAg
    · constructor
      · intro e he; simp only [hinNew, List.mem_singleton] at he; subst he; rw [heq]; exact hi
      · intro e he; simp only [hinNew, List.mem_singleton] at he; subst he; rw [heq]; simp only [hiold]
        rw [hag.state]; exact hd
      · intro e he; simp only [hinNew, List.mem_singleton] at he; subst he; rw [heq]; simp only [hiold]; exact Int.le_refl _
      · intro e he; simp only [hinNew, List.mem_singleton] at he; subst he; rw [heq]; rw [hag.state]
        exact hcur.bound i hi d hd
      · intro _ e he; simp only [hinNew, List.mem_singleton] at he; subst he
        unfold RealEdge; rw [heq, hnew, childNode]; simp only [hiold, and_self]
      · intro e he; simp only [hinNew, List.mem_singleton] at he; subst he
        rw [heq, hnew, childNode]; simp only [hiold]; exact Int.le_refl _
      · refine ⟨m.edges.length, by simp [hinNew], by rw [hnew, childNode], ?_⟩
        rw [heq, hnew, childNode]; simp only [hiold]
      · intro he b hb'
        rw [hnew, childNode] at he hb'; cases hb'; rw [heq]; simp only [hiold]; exact he
  · intro q hq
    rcases hnodes q hq with h | rfl
    · obtain ⟨h1, h2, h3⟩ := hb.rng q h
      intro e he
      rw [hinOld _ h2] at he
      have := hb.allreal q h e he
      unfold RealEdge at this ⊢
      have hs := (hb.node q h).src e he
      rw [edge_frame hpre (inIds_lt hb.chain h2 he), hold _ h2, (hcurAg _ hs).state]
      exact this
    · intro e he; simp only [hinNew, List.mem_singleton] at he; subst he
      unfold RealEdge; rw [heq, hnew, childNode]; simp only [hiold, and_self]
  · intro q hq
    rcases hnodes q hq with h | rfl
    · obtain ⟨h1, h2, h3⟩ := hb.rng q h
      rw [hold _ h2]; exact hb.clean q h
    · rw [hnew, childNode]
      refine ⟨⟨?_, ?_, ?_, ?_⟩, ?_, rfl, rfl⟩
      · exact hag.marked.trans (hcur.clean i hi).marked
      · exact hci
      · exact hag.deleted.trans (hcur.clean i hi).deleted
      · exact hag.pruned.trans (hcur.clean i hi).pruned
      · show (m.node i).depth + 1 = D + 1
        rw [hag.depth, hcur.depth i hi]
  · intro hn q hq
    rcases hnodes q hq with h | rfl
    · obtain ⟨h1, h2, h3⟩ := hb.rng q h
      rw [hold _ h2]; exact hb.nrel hn q h
    · rw [hnew, childNode]; exact hag.relaxed.trans (hn i hi)
  · intro hn q hq
    rcases hnodes q hq with h | rfl
    · obtain ⟨h1, h2, h3⟩ := hb.rng q h
      rw [hold _ h2]; exact hb.allex hn q h
    · rw [hnew, childNode]; exact hag.exact.trans (hn i hi)
  · intro z hz
    rcases List.mem_cons.1 hz with rfl | hz
    · refine ⟨(p.trans (m.node i).state d, m.nodes.length), by rw [hnl]; simp, ?_, m.edges.length, by simp [hinNew], ?_⟩
      · simp only [hag.state]
      · rw [heq]; simp only [hag.state, and_self]
    · obtain ⟨q, hq, h1, e, he, h2⟩ := hb.child z hz
      have hq2 := (hb.rng q hq).2.1
      refine ⟨q, by rw [hnl]; simp [hq], h1, e, by rw [hinOld _ hq2]; exact he, ?_⟩
      rw [edge_frame hpre (inIds_lt hb.chain hq2 he)]; exact h2


/-- How an already existing child may change when it gets one more inbound edge. -/
structure Update1 (src n n' : Node σ) (cost : Int) (eid : Nat) : Prop where
  state : n'.state = n.state
  depth : n'.depth = n.depth
  valueBot : n'.valueBot = n.valueBot
  theta : n'.theta = n.theta
  inbound : n'.inbound = some eid
  upd : (n'.value = n.value ∧ n'.best = n.best ∧ satAdd src.value cost ≤ n.value ∧
          (n'.flags.isExact = true → n.flags.isExact = true)) ∨
        (n'.value = satAdd src.value cost ∧ n'.best = some eid ∧ n.value ≤ satAdd src.value cost ∧
          (n'.flags.isExact = true → src.flags.isExact = true))
  clean : Clean src → Clean n → Clean n'
  nrel : src.flags.isRelaxed = false → n.flags.isRelaxed = false → n'.flags.isRelaxed = false
  allex : src.flags.isExact = true → n.flags.isExact = true → n'.flags.isExact = true

theorem branchOn_occupied_aux {p : Problem σ} {B : Int} {m0 m m' : Dd σ} {x D : Nat} {cur : List Nat}
    {done : List (Nat × Decision)} (hb : Build p B m0 m x D cur done) (hcur : CurOK p B m0 x D cur)
    {i : Nat} (hi : i ∈ cur) {d : Decision} (hd : d ∈ p.dom x (m0.node i).state) {k : Nat}
    (hl : (p.trans (m.node i).state d, k) ∈ m.nextL)
    (hedges : m'.edges = m.edges ++ [{ src := i, decision := d, cost := p.cost (m.node i).state d, next := (m.node k).inbound }])
    (hlen : m'.nodes.length = m.nodes.length)
    (hrest : m'.rest = m.rest)
    (hold : ∀ j, j ≠ k → m'.node j = m.node j)
    (hu : Update1 (m.node i) (m.node k) (m'.node k) (p.cost (m.node i).state d) m.edges.length) :
    Build p B m0 m' x D cur ((i, d) :: done) := by
  have hi0 := hcur.lt i hi
  have hag := hb.frame i hi0
  have hci : (m.node i).flags.isCutset = false := by rw [hb.cutsetFlag i hi0]; exact (hcur.clean i hi).cutset
  have hcleani : Clean (m.node i) :=
    ⟨hag.marked.trans (hcur.clean i hi).marked, hci, hag.deleted.trans (hcur.clean i hi).deleted,
      hag.pruned.trans (hcur.clean i hi).pruned⟩
  obtain ⟨hk0, hk1, hk2⟩ := hb.rng _ hl
  simp only at hk0 hk1 hk2
  have hnl : m'.nextL = m.nextL := congrArg Rest.nextL hrest
  have hpre : m.edges <+: m'.edges := ⟨_, hedges.symm⟩
  have heq : m'.edge m.edges.length = { src := i, decision := d, cost := p.cost (m.node i).state d, next := (m.node k).inbound } := by
    unfold edge; rw [hedges]; exact getD_append_len _ _ _
  have hnx : ∀ y, (m.node k).inbound = some y → y < m.edges.length := hb.chain.inb k hk1
  have hc : ChainOK m' := link_chainOK hb.chain hedges hnx hu.inbound (fun j hj => Or.inl (by omega))
    (fun j hj => by rw [hold j hj])
  have hinK : m'.inIds k = m.edges.length :: m.inIds k := inIds_link hb.chain hedges hnx hu.inbound
  have hinOld : ∀ j, j < m.nodes.length → j ≠ k → m'.inIds j = m.inIds j := fun j hj hne =>
    inIds_frame hb.chain hj hpre (by rw [hold j hne])
  have hile : i < m.nodes.length := Nat.lt_of_lt_of_le hi0 hb.len
  have hik : i ≠ k := by omega
  have hiold := hold i hik
  have hcurk : ∀ j ∈ cur, j ≠ k := fun j hj => by have := hcur.lt j hj; omega
  have hcurAg : ∀ j ∈ cur, Agree (m.node j) (m'.node j) := by
    intro j hj; rw [hold j (hcurk j hj)]; exact Agree.refl _
  have hnk := hb.node _ hl
  simp only at hnk
  have hedOld : ∀ q ∈ m.nextL, ∀ e ∈ m.inIds q.2, m'.edge e = m.edge e := fun q hq e he =>
    edge_frame hpre (inIds_lt hb.chain (hb.rng q hq).2.1 he)
  have hsrcOld : ∀ q ∈ m.nextL, ∀ e ∈ m.inIds q.2, m'.node (m.edge e).src = m.node (m.edge e).src := fun q hq e he =>
    hold _ (hcurk _ ((hb.node q hq).src e he))
  have hreal : ∀ q ∈ m.nextL, ∀ e ∈ m'.inIds q.2, RealEdge p m' e q.2 := by
    intro q hq e he
    by_cases hqk : q.2 = k
    · rw [hqk] at he ⊢
      rw [hinK] at he
      rcases List.mem_cons.1 he with rfl | he
      · unfold RealEdge; rw [heq]; simp only [hiold, and_true]; rw [hu.state, hk2]
      · have hr := hb.allreal _ hl e he
        unfold RealEdge at hr ⊢
        simp only at hr
        rw [hedOld _ hl e he, hsrcOld _ hl e he, hu.state]; exact hr
    · rw [hinOld _ (hb.rng q hq).2.1 hqk] at he
      have hr := hb.allreal q hq e he
      unfold RealEdge at hr ⊢
      rw [hedOld q hq e he, hsrcOld q hq e he, hold _ hqk]; exact hr
  refine
    { chain := hc, len := by have := hb.len; omega, pre := hb.pre.trans hpre, frame := ?_, cutsetFlag := ?_, rest := ?_,
      keys := by rw [hnl]; exact hb.keys,
      ids := by rw [hnl]; exact hb.ids, rng := ?_, all := ?_, node := ?_, allreal := by rw [hnl]; exact hreal, clean := ?_, nrel := ?_,
      allex := ?_, child := ?_ }
  · intro j hj; rw [hold j (by omega)]; exact hb.frame j hj
  · intro j hj; rw [hold j (by omega)]; exact hb.cutsetFlag j hj
  · rw [← hb.rest]
    have h1 := congrArg Rest.rootPa hrest
    have h2 := congrArg Rest.prevL hrest
    have h3 := congrArg Rest.cutset hrest
    have h4 := congrArg Rest.lelDepth hrest
    have h5 := congrArg Rest.bestN hrest
    have h6 := congrArg Rest.exact hrest
    have h7 := congrArg Rest.approximate hrest
    have h8 := congrArg Rest.cutsetType hrest
    simp only [Dd.rest] at h1 h2 h3 h4 h5 h6 h7 h8 ⊢
    rw [h1, h2, h3, h4, h5, h6, h7, h8]
  · intro q hq
    rw [hnl] at hq
    obtain ⟨h1, h2, h3⟩ := hb.rng q hq
    refine ⟨h1, by omega, ?_⟩
    by_cases hqk : q.2 = k
    · rw [hqk] at h3 ⊢; rw [hu.state]; exact h3
    · rw [hold _ hqk]; exact h3
  · intro j h1 h2
    rw [hnl]; exact hb.all j h1 (by omega)
  · intro q hq
    rw [hnl] at hq
    by_cases hqk : q.2 = k
    · rw [hqk]
      have hr := hreal q hq
      rw [hqk] at hr
      constructor
      · intro e he; rw [hinK] at he
        rcases List.mem_cons.1 he with rfl | he
        · rw [heq]; exact hi
        · rw [hedOld _ hl e he]; exact hnk.src e he
      · intro e he; rw [hinK] at he
        rcases List.mem_cons.1 he with rfl | he
        · rw [heq]; simp only [hiold]; rw [hag.state]; exact hd
        · rw [hedOld _ hl e he, hsrcOld _ hl e he]; exact hnk.dec e he
      · intro e he; rw [hinK] at he
        rcases List.mem_cons.1 he with rfl | he
        · rw [heq]; simp only [hiold]; exact Int.le_refl _
        · rw [hedOld _ hl e he, hsrcOld _ hl e he]; exact hnk.cost_ge e he
      · intro e he; rw [hinK] at he
        rcases List.mem_cons.1 he with rfl | he
        · rw [heq]; simp only; rw [hag.state]; exact hcur.bound i hi d hd
        · rw [hedOld _ hl e he]; exact hnk.cost_le e he
      · intro _ e he; exact hr e he
      · intro e he; rw [hinK] at he
        rcases List.mem_cons.1 he with rfl | he
        · rw [heq]; simp only [hiold]
          rcases hu.upd with h | h
          · rw [h.1]; exact h.2.2.1
          · rw [h.1]; exact Int.le_refl _
        · rw [hedOld _ hl e he, hsrcOld _ hl e he]
          have h0 := hnk.vge e he
          rcases hu.upd with h | h
          · rw [h.1]; exact h0
          · rw [h.1]; exact Int.le_trans h0 h.2.2.1
      · rcases hu.upd with h | h
        · obtain ⟨b, hb1, hb2, hb3⟩ := hnk.veq
          refine ⟨b, by rw [hinK]; exact List.mem_cons_of_mem _ hb1, by rw [h.2.1]; exact hb2, ?_⟩
          rw [hedOld _ hl b hb1, hsrcOld _ hl b hb1, h.1]; exact hb3
        · refine ⟨m.edges.length, by rw [hinK]; exact List.mem_cons_self .., h.2.1, ?_⟩
          rw [heq]; simp only [hiold]; exact h.1
      · intro hex b hbest
        rcases hu.upd with h | h
        · rw [h.2.1] at hbest
          obtain ⟨b', hb1, hb2, _⟩ := hnk.veq
          have hbb : b' = b := by rw [hb2] at hbest; exact Option.some.inj hbest
          subst hbb
          rw [hedOld _ hl _ hb1, hsrcOld _ hl _ hb1]
          exact hnk.exb (h.2.2.2 hex) _ hbest
        · rw [h.2.1] at hbest; cases hbest
          rw [heq]; simp only [hiold]; exact h.2.2.2 hex
    · have h2 := (hb.rng q hq).2.1
      exact (hb.node q hq).frame hb.chain h2 hpre (by rw [hold _ hqk]; exact Agree.refl _) hcurAg
  · intro q hq
    rw [hnl] at hq
    by_cases hqk : q.2 = k
    · rw [hqk, hu.depth, hu.valueBot, hu.theta]
      have := hb.clean _ hl
      exact ⟨hu.clean hcleani this.1, this.2⟩
    · rw [hold _ hqk]; exact hb.clean q hq
  · intro hn q hq
    rw [hnl] at hq
    by_cases hqk : q.2 = k
    · rw [hqk]
      exact hu.nrel (hag.relaxed.trans (hn i hi)) (hb.nrel hn _ hl)
    · rw [hold _ hqk]; exact hb.nrel hn q hq
  · intro hn q hq
    rw [hnl] at hq
    by_cases hqk : q.2 = k
    · rw [hqk]
      exact hu.allex (hag.exact.trans (hn i hi)) (hb.allex hn _ hl)
    · rw [hold _ hqk]; exact hb.allex hn q hq
  · intro z hz
    rcases List.mem_cons.1 hz with rfl | hz
    · refine ⟨(p.trans (m.node i).state d, k), by rw [hnl]; exact hl, ?_, m.edges.length, ?_, ?_⟩
      · simp only [hag.state]
      · rw [hinK]; exact List.mem_cons_self ..
      · rw [heq]; simp only [hag.state, and_self]
    · obtain ⟨q, hq, h1, e, he, h2⟩ := hb.child z hz
      refine ⟨q, by rw [hnl]; exact hq, h1, e, ?_, ?_⟩
      · by_cases hqk : q.2 = k
        · rw [hqk] at he ⊢; rw [hinK]; exact List.mem_cons_of_mem _ he
        · rw [hinOld _ (hb.rng q hq).2.1 hqk]; exact he
      · rw [hedOld q hq e he]; exact h2

theorem branchOn_build {v : Variant} {p : Problem σ} {B : Int} {m0 m : Dd σ} {x D : Nat} {cur : List Nat}
    {done : List (Nat × Decision)} (hb : Build p B m0 m x D cur done) (hcur : CurOK p B m0 x D cur)
    {i : Nat} (hi : i ∈ cur) {d : Decision} (hd : d ∈ p.dom x (m0.node i).state) :
    Build p B m0 (m.branchOn v p i d) x D cur ((i, d) :: done) := by
  cases hl : lookup m.nextL (p.trans (m.node i).state d) with
  | none => exact branchOn_vacant hb hcur hi hd hl
  | some k =>
    have hmem := lookup_some hl
    have hk := (hb.rng _ hmem).2.1
    simp only at hk
    cases v with
    | all =>
      unfold branchOn
      simp only [hl]
      refine branchOn_occupied_aux hb hcur hi hd hmem rfl (by simp) rfl ?_ ?_
      · intro j hj
        rw [node_modNode_ne _ _ (Ne.symm hj)]; rfl
      · rw [node_modNode_self _ _ (by simpa using hk)]
        split
        · rename_i hgt
          refine ⟨rfl, rfl, rfl, rfl, rfl, Or.inr ⟨rfl, rfl, by omega, ?_⟩, ?_, ?_, ?_⟩
          · intro h; simp only [NodeFlags.isExact_setExact, Bool.and_eq_true] at h; exact h.1.1
          · intro h1 h2; exact ⟨by simpa using h2.marked, by simpa using h2.cutset, by simpa using h2.deleted, by simpa using h2.pruned⟩
          · intro h1 h2; simpa using h2
          · intro h1 h2; simp [h1, h2, NodeFlags.isExact_not_relaxed h2]
        · rename_i hgt
          refine ⟨rfl, rfl, rfl, rfl, rfl, Or.inl ⟨rfl, rfl, by omega, ?_⟩, ?_, ?_, ?_⟩
          · intro h; simp only [NodeFlags.isExact_setExact, Bool.and_eq_true] at h; exact h.1.2
          · intro h1 h2; exact ⟨by simpa using h2.marked, by simpa using h2.cutset, by simpa using h2.deleted, by simpa using h2.pruned⟩
          · intro h1 h2; simpa using h2
          · intro h1 h2; simp [h1, h2, NodeFlags.isExact_not_relaxed h2]
    | barrier =>
      unfold branchOn
      simp only [hl]
      refine branchOn_occupied_aux hb hcur hi hd hmem rfl (by simp) rfl ?_ ?_
      · intro j hj
        rw [node_modNode_ne _ _ (Ne.symm hj)]; rfl
      · rw [node_modNode_self _ _ (by simpa using hk)]
        split
        · rename_i hgt
          refine ⟨rfl, rfl, rfl, rfl, rfl, Or.inr ⟨rfl, rfl, by omega, fun h => h⟩, fun h _ => ?_, fun h _ => h, fun h _ => h⟩
          exact ⟨h.marked, h.cutset, h.deleted, h.pruned⟩
        · rename_i hgt
          refine ⟨rfl, rfl, rfl, rfl, rfl, Or.inl ⟨rfl, rfl, by omega, fun h => h⟩, fun _ h => ?_, fun _ h => h, fun _ h => h⟩
          exact ⟨h.marked, h.cutset, h.deleted, h.pruned⟩

end Verif.Dd
