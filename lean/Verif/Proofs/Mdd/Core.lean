import Verif.Proofs.Mdd.Relax
/-! The invariant of the compilation loop. -/
set_option autoImplicit false

namespace Verif.Dd
open Verif Spec
variable {σ : Type} [DecidableEq σ] [Inhabited σ]

/-- Node `i` belongs to layer `j`, before (`P`) or after (`L`) that layer was squashed. -/
def InLay (P L : Nat → List Nat) (k kL j i : Nat) : Prop := (j ≤ k ∧ i ∈ P j) ∨ (j < kL ∧ i ∈ L j)

/-- `k` layers have been expanded, `kL` (`= k` or `k+1`) layers have been squashed; no node was merged in a layer before `jx`. -/
structure Core (v : Variant) (p : Problem σ) (r : Relaxation σ) (S : Layering σ) (B : Int) (inp : Input σ) (rd : Reads σ)
    (m : Dd σ) (k kL jx : Nat) (P L : Nat → List Nat) (c : CutsetType) : Prop where
  chain : ChainOK m
  root : P 0 = [0] ∧ (m.node 0).state = inp.residual.state ∧ (m.node 0).value = inp.residual.value ∧ (m.node 0).best = none ∧
    (m.node 0).inbound = none
  root1 : ∀ i, InLay P L k kL 0 i → i = 0
  lt : ∀ j i, InLay P L k kL j i → i < m.nodes.length
  all : ∀ i, i < m.nodes.length → ∃ j, InLay P L k kL j i
  nodupP : ∀ j, j ≤ k → (P j).Nodup
  nodupL : ∀ j, j < kL → (L j).Nodup
  st : ∀ j i, InLay P L k kL j i → S.ok (m.node i).state ∧ S.lvl (m.node i).state = inp.residual.path.length + j ∧
    (m.node i).depth = inp.residual.path.length + j
  node : ∀ j i, InLay P L k kL (j+1) i → NodeOK p B m (S.var (inp.residual.path.length + j)) (L j) i
  incr : ∀ j i, InLay P L k kL (j+1) i → ∀ i' ∈ L j, i' < i
  var : ∀ j, j < k → inp.residual.path.length + j < p.nbVars
  varL : ∀ j, j < kL → inp.residual.path.length + j < p.nbVars
  exp : ∀ j, j < k → ∀ i ∈ L j, (m.node i).rub = p.estimate (m.node i).state ∧
    (v = .barrier → (m.node i).theta = if Promising p inp.bestLb (m.node i) then isizeMax else
      satSub inp.bestLb (p.estimate (m.node i).state)) ∧
    (Promising p inp.bestLb (m.node i) → ∀ d ∈ p.dom (S.var (inp.residual.path.length + j)) (m.node i).state,
      ∃ q ∈ P (j+1), (m.node q).state = p.trans (m.node i).state d ∧ ∃ e ∈ m.inIds q, (m.edge e).src = i ∧
        (m.edge e).decision = d ∧ (m.edge e).cost = p.cost (m.node i).state d)
  fate : ∀ j, j < kL → ∀ i ∈ P j, i ∈ L j ∨ Pruned v rd inp.residual.path.length (inp.residual.path.length + j) m i ∨
    (inp.compType = .relaxed ∧ m.approximate = true ∧ Merged v r S (inp.residual.path.length + j) m (L j) i) ∨
    (inp.compType = .restricted ∧ m.approximate = true)
  del : ∀ j, j < kL → ∀ i ∈ P j, (m.node i).flags.isDeleted = true → Merged v r S (inp.residual.path.length + j) m (L j) i
  lclean : ∀ j, j < kL → ∀ i ∈ L j, (m.node i).flags.isDeleted = false ∧ (m.node i).flags.isPrunedByBarrier = false ∧
    (m.node i).flags.isMarked = false ∧ (m.node i).valueBot = isizeMin ∧
    (m.node i).flags.isCutset = decide (i ∈ m.cutset)
  jx_le : jx ≤ kL
  jxr : inp.compType = .relaxed → (m.approximate = false → jx = kL) ∧ (m.approximate = true → 2 ≤ jx ∧ jx < kL)
  jxn : inp.compType ≠ .relaxed → jx = kL
  appE : inp.compType = .exact → m.approximate = false
  pre : ∀ j, j < jx → (∀ i ∈ P j, i ∈ L j ∨ Pruned v rd inp.residual.path.length (inp.residual.path.length + j) m i ∨
    (inp.compType = .restricted ∧ m.approximate = true)) ∧ ∀ i ∈ L j, i ∈ P j
  ex : ∀ j, (j < jx ∨ jx = kL) → ∀ i, InLay P L k kL j i → (m.node i).flags.isExact = true ∧ (m.node i).flags.isRelaxed = false
  cut1 : c = .lastExactLayer → inp.compType = .relaxed → m.approximate = true → m.cutset = L (jx - 1) ∧
    m.lelDepth.map (· + 1) = some (inp.residual.path.length + jx)
  cut0 : ¬ (c = .lastExactLayer ∧ inp.compType = .relaxed ∧ m.approximate = true) → m.cutset = [] ∧ m.lelDepth = none
  misc : m.rootPa = inp.residual.path ∧ m.exact = true ∧ m.bestN = none ∧ m.cutsetType = c
  width : (inp.compType = .restricted → ∀ j, j < kL → (L j).length ≤ inp.maxWidth) ∧
    (inp.compType = .relaxed → ∀ j, 2 ≤ j → j < kL → (L j).length ≤ inp.maxWidth)
  upd : ∀ u ∈ m.updates, v = .barrier ∧ inp.compType = .relaxed ∧ ∃ j, j < k ∧ ∃ i ∈ L j, (m.node i).flags.isExact = true ∧
    (c = .lastExactLayer → j < jx) ∧
    u = ⟨inp.residual.path.length + j, (m.node i).state,
      if Promising p inp.bestLb (m.node i) then (m.node i).value else satSub inp.bestLb (p.estimate (m.node i).state), false⟩
  esrc : ∀ e ∈ m.edges, Promising p inp.bestLb (m.node e.src) ∧ ∃ j, j < k ∧ e.src ∈ L j
  expl : m.explored = ((List.range k).map fun j => (L j).countP fun i => decide (Promising p inp.bestLb (m.node i))).sum
  inx : inp.compType = .relaxed → m.approximate = true → ∃ i ∈ L jx, (m.node i).flags.isRelaxed = true ∧ (m.node i).flags.isExact = false
  unm : ∀ j i, InLay P L k kL j i → (m.node i).flags.isMarked = false
  inj : ∀ j, j ≤ k → ∀ i ∈ P j, ∀ i' ∈ P j, (m.node i).state = (m.node i').state → i = i'

/-- The loop head: the last layer has been completed but not squashed. -/
structure Head (v : Variant) (p : Problem σ) (r : Relaxation σ) (S : Layering σ) (B : Int) (inp : Input σ) (rd : Reads σ)
    (m : Dd σ) (k jx : Nat) (P L : Nat → List Nat) (c : CutsetType) : Prop where
  core : Core v p r S B inp rd m k k jx P L c
  ids : m.nextL.map (·.2) = P k
  keys : (m.nextL.map (·.1)).Nodup
  sts : ∀ q ∈ m.nextL, (m.node q.2).state = q.1
  clean : ∀ i ∈ P k, Clean (m.node i) ∧ (m.node i).valueBot = isizeMin ∧ (m.node i).theta = isizeMax
  real : ∀ i ∈ P k, ∀ e ∈ m.inIds i, RealEdge p m e i

/-- The last layer has been squashed but not expanded. -/
structure Mid (v : Variant) (p : Problem σ) (r : Relaxation σ) (S : Layering σ) (B : Int) (inp : Input σ) (rd : Reads σ)
    (m : Dd σ) (k jx : Nat) (P L : Nat → List Nat) (c : CutsetType) : Prop where
  core : Core v p r S B inp rd m k (k+1) jx P L c
  clean : ∀ i ∈ L k, Clean (m.node i) ∧ (m.node i).theta = isizeMax
  next : m.nextL = []

theorem Pruned.frame {v : Variant} {rd : Reads σ} {d0 D : Nat} {m m' : Dd σ} {i : Nat} (h : Pruned v rd d0 D m i)
    (hag : Agree (m.node i) (m'.node i)) (ht : (m'.node i).theta = (m.node i).theta)
    (hc : (m'.node i).flags.isCutset = (m.node i).flags.isCutset) : Pruned v rd d0 D m' i :=
  ⟨h.bar, h.below, h.nonempty, by rw [hag.relaxed]; exact h.nrel, by rw [hag.value, hag.state]; exact h.le,
   by rw [ht, hag.state]; exact h.theta, by rw [hag.pruned]; exact h.flag, by rw [hag.deleted]; exact h.del,
   by rw [hc]; exact h.cut, by rw [hag.marked]; exact h.mark⟩

theorem Merged.frame {v : Variant} {r : Relaxation σ} {S : Layering σ} {lv : Nat} {m m' : Dd σ} {cur : List Nat} {i : Nat}
    (h : Merged v r S lv m cur i) (hc : ChainOK m) (hpre : m.edges <+: m'.edges) (hi : i < m.nodes.length)
    (hcur : ∀ j ∈ cur, j < m.nodes.length) (hag : ∀ j, j < m.nodes.length → Agree (m.node j) (m'.node j))
    (hsrc : ∀ e ∈ m.inIds i, (m.edge e).src < m.nodes.length) :
    Merged v r S lv m' cur i := by
  obtain ⟨⟨mid, hm, hne, ⟨l, h1, h2, h3⟩, hcov, hrel⟩, hdel⟩ := h
  refine ⟨⟨mid, hm, hne, ⟨l, by rw [(hag _ (hcur _ hm)).state]; exact h1, by rw [(hag _ hi).state]; exact h2, h3⟩, ?_,
    by rw [(hag _ (hcur _ hm)).relaxed]; exact hrel⟩, fun a b => by rw [(hag _ hi).deleted]; exact hdel a b⟩
  intro e he
  rw [inIds_frame hc hi hpre (hag _ hi).inbound] at he
  obtain ⟨e', he', k1, k2, k3⟩ := hcov e he
  have hee : m'.edge e = m.edge e := edge_frame hpre (inIds_lt hc hi he)
  have hee' : m'.edge e' = m.edge e' := edge_frame hpre (inIds_lt hc (hcur _ hm) he')
  refine ⟨e', by rw [inIds_frame hc (hcur _ hm) hpre (hag _ (hcur _ hm)).inbound]; exact he', by rw [hee, hee']; exact k1,
    by rw [hee, hee']; exact k2, ?_⟩
  rw [hee, hee', (hag _ hi).state, (hag _ (hcur _ hm)).state, (hag _ (hsrc e he)).state]; exact k3

/-- Replace the list of layer `k`. -/
def upd (L : Nat → List Nat) (k : Nat) (c : List Nat) : Nat → List Nat := fun j => if j = k then c else L j
@[simp] theorem upd_self (L : Nat → List Nat) (k : Nat) (c : List Nat) : upd L k c k = c := by simp [upd]
theorem upd_ne (L : Nat → List Nat) {k j : Nat} (c : List Nat) (h : j ≠ k) : upd L k c j = L j := by simp [upd, h]

section steps
variable {v : Variant} {p : Problem σ} {r : Relaxation σ} {S : Layering σ} {B : Int} {inp : Input σ} {rd : Reads σ}
  {m m' : Dd σ} {k jx : Nat} {P L : Nat → List Nat} {c : CutsetType}

theorem Core.layer_unique {kL : Nat} (h : Core v p r S B inp rd m k kL jx P L c) {j j' i : Nat}
    (h1 : InLay P L k kL j i) (h2 : InLay P L k kL j' i) : j = j' := by
  have a := (h.st j i h1).2.2
  have b := (h.st j' i h2).2.2
  omega

theorem Core.nextVar (hwf : WellFormed p S B) {kL : Nat} (h : Core v p r S B inp rd m k kL jx P L c) {j i : Nat} (hi : InLay P L k kL j i)
    (hj : j < kL) : p.nextVar [(m.node i).state] = some (S.var (inp.residual.path.length + j)) := by
  have := h.st j i hi
  rw [hwf.next_var [(m.node i).state] (inp.residual.path.length + j) (by simp) (by simp; exact ⟨this.1, this.2.1⟩), if_pos (h.varL j hj)]

/-- The completed last layer satisfies the hypotheses of the squashing step. -/
theorem Head.layerIn (hwf : WellFormed p S B) (h : Head v p r S B inp rd m (k+1) jx P L c) (m1 : Dd σ)
    (hm1 : m1 = { m with prevL := L k, nextL := [] }) :
    LayerIn p S B m1 (S.var (inp.residual.path.length + k)) (inp.residual.path.length + (k+1)) (inp.residual.path.length + (k+1)) (L k) (P (k+1)) := by
  subst hm1
  have hP : ∀ i ∈ P (k+1), InLay P L (k+1) (k+1) (k+1) i := fun i hi => Or.inl ⟨Nat.le_refl _, hi⟩
  have hL : ∀ i ∈ L k, InLay P L (k+1) (k+1) k i := fun i hi => Or.inr ⟨by omega, hi⟩
  have hc := h.core
  refine ⟨⟨hc.chain.next, hc.chain.inb⟩, hc.nodupP _ (Nat.le_refl _), fun i hi => hc.lt _ i (hP i hi), ?_, ?_, ?_, ?_, ?_, ?_, ?_⟩
  · intro j hj
    refine ⟨hc.lt _ j (hL j hj), fun hh => ?_⟩
    have := hc.layer_unique (hL j hj) (hP j hh); omega
  · intro i hi
    have := hc.node k i (hP i hi)
    exact ⟨this.src, this.dec, this.cost_ge, this.cost_le, this.real, this.vge, this.veq, this.exb⟩
  · exact h.real
  · intro i hi
    obtain ⟨h1, h2, h3⟩ := h.clean i hi
    exact ⟨h1, (hc.st _ i (hP i hi)).2.2, h2, h3⟩
  · intro i hi
    have := hc.st _ i (hP i hi)
    exact ⟨this.1, this.2.1⟩
  · intro j hj
    exact ⟨(hc.st _ j (hL j hj)).1, hc.nextVar hwf (hL j hj) (by omega)⟩
  · intro j hj
    have := (hc.st _ j (hL j hj)).2.2
    change (m.node j).depth + 1 = _
    omega

/-- Squashing step for a layer below the root. -/
theorem Head.squash (hwf : WellFormed p S B) (h : Head v p r S B inp rd m (k+1) jx P L c)
    (hvar : inp.residual.path.length + (k+1) < p.nbVars) (hne : P (k+1) ≠ []) {m1 : Dd σ}
    (hm1 : m1 = { m with prevL := L k, nextL := [] }) {cur : List Nat}
    (hs : Squashed v p r S B inp rd m1 m' (S.var (inp.residual.path.length + k)) inp.residual.path.length (inp.residual.path.length + (k+1))
      (inp.residual.path.length + (k+1)) (L k) (P (k+1)) cur) (hx : m'.explored = m.explored) :
    ∃ jx', Mid v p r S B inp rd m' (k+1) jx' P (upd L (k+1) cur) c ∧ (inp.compType = .relaxed → m'.approximate = false → jx' = k+2) := by
  have hc := h.core
  have hP : ∀ i ∈ P (k+1), InLay P L (k+1) (k+1) (k+1) i := fun i hi => Or.inl ⟨Nat.le_refl _, hi⟩
  have hnode1 : ∀ j, m1.node j = m.node j := fun j => by rw [hm1]; rfl
  have hin1 : ∀ j, m1.inIds j = m.inIds j := fun j => by rw [hm1]; rfl
  have hedge1 : ∀ j, m1.edge j = m.edge j := fun j => by rw [hm1]; rfl
  have hedges1 : m1.edges = m.edges := by rw [hm1]
  have hlen1 : m1.nodes.length = m.nodes.length := by rw [hm1]
  have hchain1 : ChainOK m1 := chainOK_of_same hc.chain hedges1 hlen1 (fun j => by rw [hnode1])
  have hprevL1 : m1.prevL = L k := by rw [hm1]
  have hct1 : m1.cutset = m.cutset := by rw [hm1]
  have hty1 : m1.cutsetType = c := by rw [hm1]; exact hc.misc.2.2.2
  have happ1 : m1.approximate = m.approximate := by rw [hm1]
  have hld1 : m1.lelDepth = m.lelDepth := by rw [hm1]
  have hpre : m.edges <+: m'.edges := by rw [← hedges1]; exact hs.pre
  have hup : ∀ j, j < k + 1 → upd L (k+1) cur j = L j := fun j hj => upd_ne L cur (by omega)
  -- nodes of the older layers
  have hold : ∀ j i, j < k + 1 → InLay P (upd L (k+1) cur) (k+1) (k+1+1) j i → InLay P L (k+1) (k+1) j i := by
    intro j i hj hi
    rcases hi with hi | hi
    · exact Or.inl hi
    · rw [hup j hj] at hi; exact Or.inr ⟨by omega, hi.2⟩
  have hnotP : ∀ j i, j < k + 1 → InLay P L (k+1) (k+1) j i → i ∉ P (k+1) := by
    intro j i hj hi hh
    have := hc.layer_unique hi (hP i hh); omega
  have hag : ∀ j i, j < k + 1 → InLay P L (k+1) (k+1) j i → Agree (m.node i) (m'.node i) ∧ (m'.node i).rub = (m.node i).rub ∧
      (m'.node i).theta = (m.node i).theta := by
    intro j i hj hi
    have := hs.frame i (by rw [hlen1]; exact hc.lt j i hi) (hnotP j i hj hi)
    rw [hnode1] at this; exact this
  have hinE : ∀ j i, j < k + 1 → InLay P L (k+1) (k+1) j i → m'.inIds i = m.inIds i := fun j i hj hi =>
    inIds_frame hc.chain (hc.lt j i hi) hpre (hag j i hj hi).1.inbound
  have hLold : ∀ j, j < k+1 → ∀ i ∈ L j, InLay P L (k+1) (k+1) j i := fun j hj i hi => Or.inr ⟨hj, hi⟩
  have hPold : ∀ j, j < k+1 → ∀ i ∈ P j, InLay P L (k+1) (k+1) j i := fun j hj i hi => Or.inl ⟨by omega, hi⟩
  have hnew : ∀ i, InLay P (upd L (k+1) cur) (k+1) (k+1+1) (k+1) i → i ∈ P (k+1) ∨ i ∈ cur := by
    intro i hi
    rcases hi with hi | hi
    · exact Or.inl hi.2
    · rw [upd_self] at hi; exact Or.inr hi.2
  have hcase : ∀ j i, InLay P (upd L (k+1) cur) (k+1) (k+1+1) j i → (j < k+1 ∧ InLay P L (k+1) (k+1) j i) ∨ (j = k+1 ∧ (i ∈ P (k+1) ∨ i ∈ cur)) := by
    intro j i hi
    have hj : j ≤ k+1 := by rcases hi with hi | hi <;> omega
    by_cases hj' : j = k+1
    · subst hj'; exact Or.inr ⟨rfl, hnew i hi⟩
    · exact Or.inl ⟨by omega, hold j i (by omega) hi⟩
  have hmergedF : ∀ j, j < k+1 → ∀ i ∈ P j, Merged v r S (inp.residual.path.length + j) m (L j) i →
      Merged v r S (inp.residual.path.length + j) m' (L j) i := by
    intro j hj i hi hm
    cases j with
    | zero =>
      obtain ⟨mid, hmid, hne2, _⟩ := hm.ex
      have h0 := hc.root1 mid (hLold 0 hj mid hmid)
      have h1 := hc.root1 i (hPold 0 hj i hi)
      omega
    | succ j =>
      -- a local frame argument
      obtain ⟨⟨mid, hmm, hne2, ⟨l, h1, h2, h3⟩, hcov, hrel⟩, hdel⟩ := hm
      have hagi := (hag _ i hj (hPold _ hj i hi)).1
      have hagm := (hag _ mid hj (hLold _ hj mid hmm)).1
      refine ⟨⟨mid, hmm, hne2, ⟨l, by rw [hagm.state]; exact h1, by rw [hagi.state]; exact h2, h3⟩, ?_,
        by rw [hagm.relaxed]; exact hrel⟩, fun a b => by rw [hagi.deleted]; exact hdel a b⟩
      intro e he
      rw [hinE _ i hj (hPold _ hj i hi)] at he
      obtain ⟨e', he', k1, k2, k3⟩ := hcov e he
      have hee : m'.edge e = m.edge e := edge_frame hpre (inIds_lt hc.chain (hc.lt _ i (hPold _ hj i hi)) he)
      have hee' : m'.edge e' = m.edge e' := edge_frame hpre (inIds_lt hc.chain (hc.lt _ mid (hLold _ hj mid hmm)) he')
      have hsrc := (hc.node j i (hPold _ hj i hi)).src e he
      refine ⟨e', by rw [hinE _ mid hj (hLold _ hj mid hmm)]; exact he', by rw [hee, hee']; exact k1, by rw [hee, hee']; exact k2, ?_⟩
      rw [hee, hee', hagi.state, hagm.state, (hag j _ (by omega) (hLold j (by omega) _ hsrc)).1.state]; exact k3
  have hcutF : ∀ j i, j < k+1 → InLay P L (k+1) (k+1) j i → i ∉ L k → (m'.node i).flags.isCutset = (m.node i).flags.isCutset := by
    intro j i hj hi hik
    have hl : i < m1.nodes.length := by rw [hlen1]; exact hc.lt j i hi
    rcases hs.cutset with h1 | h1
    · rw [h1.2.2.1 i hl (hnotP j i hj hi), hnode1]
    · rw [h1.2.2.2.2.2.2.2 i hl (hnotP j i hj hi), hnode1, hprevL1]; simp [hik]
  have hpruned : ∀ j, j < k+1 → ∀ i ∈ P j, Pruned v rd inp.residual.path.length (inp.residual.path.length + j) m i →
      Pruned v rd inp.residual.path.length (inp.residual.path.length + j) m' i := by
    intro j hj i hi hp
    refine hp.frame (hag j i hj (hPold j hj i hi)).1 (hag j i hj (hPold j hj i hi)).2.2 (hcutF j i hj (hPold j hj i hi) ?_)
    intro hik
    have hjk := hc.layer_unique (hPold j hj i hi) (hLold k (by omega) i hik)
    have := (hc.lclean k (by omega) i hik).2.1
    rw [hp.flag] at this; cases this
  -- how far the diagram is exact
  obtain ⟨jx', hjx'⟩ : ∃ jx', jx' = (if inp.compType = .relaxed ∧ m'.approximate = true then jx else k+2) := ⟨_, rfl⟩
  have hr_old : inp.compType = .relaxed → m'.approximate = true → m.approximate = false → jx = k+1 ∧ 1 ≤ k := by
    intro h1 h2 h3
    refine ⟨(hc.jxr h1).1 h3, ?_⟩
    by_cases hk : 1 ≤ k
    · exact hk
    · have := hs.nearRoot h1 (by omega)
      rw [h2, happ1, h3] at this; cases this
  have happmono : m.approximate = true → m'.approximate = true := fun hh => hs.app (by rw [happ1]; exact hh)
  have hjxcase : (jx' = jx ∧ inp.compType = .relaxed ∧ m'.approximate = true ∧ jx ≤ k+1) ∨
      (jx' = k+2 ∧ jx = k+1 ∧ (inp.compType ≠ .relaxed ∨ (m.approximate = false ∧ m'.approximate = false))) := by
    by_cases hcc : inp.compType = .relaxed ∧ m'.approximate = true
    · rw [if_pos hcc] at hjx'; exact Or.inl ⟨hjx', hcc.1, hcc.2, hc.jx_le⟩
    · rw [if_neg hcc] at hjx'
      right
      by_cases hr : inp.compType = .relaxed
      · have ha' : m'.approximate = false := by
          cases hx : m'.approximate with
          | false => rfl
          | true => exact absurd ⟨hr, hx⟩ hcc
        have ha : m.approximate = false := by
          cases hx : m.approximate with
          | false => rfl
          | true => rw [happmono hx] at ha'; cases ha'
        exact ⟨hjx', (hc.jxr hr).1 ha, Or.inr ⟨ha, ha'⟩⟩
      · exact ⟨hjx', hc.jxn hr, Or.inl hr⟩
  have hLkne : L k ≠ [] := by
    obtain ⟨i, hi⟩ := List.exists_mem_of_ne_nil _ hne
    obtain ⟨b, hb, _⟩ := (hc.node k i (hP i hi)).veq
    have := (hc.node k i (hP i hi)).src b hb
    intro hh; rw [hh] at this; cases this
  refine ⟨jx', ⟨?_, ?_, ?_⟩, ?_⟩
  rotate_left
  · intro i hi
    rw [upd_self] at hi
    have := hs.cur i hi
    exact ⟨this.2.2.2.1, this.2.2.2.2.2.2.1⟩
  · rw [hs.restS.nextL, hm1]
  · intro h1 h2
    rw [hjx', if_neg (by rw [h2]; simp)]
  constructor
  · exact hs.chain
  · have h0 : InLay P L (k+1) (k+1) 0 0 := Or.inl ⟨by omega, by rw [hc.root.1]; simp⟩
    have ha := (hag 0 0 (by omega) h0).1
    obtain ⟨r1, r2, r3, r4, r5⟩ := hc.root
    exact ⟨r1, ha.state.trans r2, ha.value.trans r3, ha.best.trans r4, ha.inbound.trans r5⟩
  · intro i hi; exact hc.root1 i (hold 0 i (by omega) hi)
  · intro j i hi
    rcases hcase j i hi with ⟨hj, hi⟩ | ⟨_, hi | hi⟩
    · have := hc.lt j i hi; have := hs.len; omega
    · have := hc.lt _ i (hP i hi); have := hs.len; omega
    · exact (hs.cur i hi).1
  · intro i hi
    by_cases hi1 : i < m1.nodes.length
    · obtain ⟨j, hj⟩ := hc.all i (by omega)
      refine ⟨j, ?_⟩
      rcases hj with hj | hj
      · exact Or.inl hj
      · right; rw [hup j hj.1]; exact ⟨by omega, hj.2⟩
    · exact ⟨k+1, Or.inr ⟨by omega, by rw [upd_self]; exact (hs.fresh i (by omega) hi).1⟩⟩
  · exact hc.nodupP
  · intro j hj
    by_cases hjk : j = k+1
    · subst hjk; rw [upd_self]; exact hs.nodup
    · rw [hup j (by omega)]; exact hc.nodupL j (by omega)
  · intro j i hi
    rcases hcase j i hi with ⟨hj, hi⟩ | ⟨rfl, hi | hi⟩
    · have ha := (hag j i hj hi).1
      rw [ha.state, ha.depth]; exact hc.st j i hi
    · rw [(hs.mono i hi).1, hnode1, (hs.nodeP i hi).2.1]
      have := hc.st _ i (hP i hi)
      exact ⟨this.1, this.2.1, rfl⟩
    · have := hs.cur i hi
      exact ⟨this.2.2.2.2.2.2.2.1, this.2.2.2.2.2.2.2.2, this.2.2.2.2.1⟩
  · intro j i hi
    rcases hcase (j+1) i hi with ⟨hj, hi⟩ | ⟨hj, hi⟩
    · rw [hup j (by omega)]
      exact (hc.node j i hi).frame hc.chain (hc.lt _ i hi) hpre (hag _ i hj hi).1
        (fun j' hj' => (hag j j' (by omega) (hLold j (by omega) j' hj')).1)
    · have hjk : j = k := by omega
      subst hjk
      rw [hup j (by omega)]
      rcases hi with hi | hi
      · exact (hs.nodeP i hi).1
      · exact (hs.cur i hi).2.2.1
  · intro j i hi i' hi'
    rcases hcase (j+1) i hi with ⟨hj, hi⟩ | ⟨hj, hi⟩
    · rw [hup j (by omega)] at hi'; exact hc.incr j i hi i' hi'
    · have hjk : j = k := by omega
      subst hjk
      rw [hup j (by omega)] at hi'
      have hP' : i ∈ P (j+1) → i' < i := fun h5 => hc.incr j i (hP i h5) i' hi'
      rcases hi with hi | hi
      · exact hP' hi
      · rcases (hs.cur i hi).2.1 with h5 | h5
        · exact hP' h5
        · have := hc.lt j i' (hLold j (by omega) i' hi'); omega
  · exact hc.var
  · intro j hj
    by_cases hjk : j = k+1
    · subst hjk; exact hvar
    · exact hc.varL j (by omega)
  · intro j hj i hi
    rw [hup j hj] at hi
    obtain ⟨e1, e2, e3⟩ := hc.exp j hj i hi
    obtain ⟨a1, a2, a3⟩ := hag j i hj (hLold j hj i hi)
    have hpr : Promising p inp.bestLb (m'.node i) ↔ Promising p inp.bestLb (m.node i) := by
      unfold Promising; rw [a1.state, a1.value]
    refine ⟨by rw [a2, a1.state]; exact e1, fun hv => by rw [a3, a1.state, e2 hv]; simp only [hpr], ?_⟩
    intro hp d hd
    rw [a1.state] at hd
    obtain ⟨q, hq, q1, e, he, q2, q3, q4⟩ := e3 (hpr.1 hp) d hd
    have hqst : (m'.node q).state = (m.node q).state ∧ ∀ e ∈ m.inIds q, e ∈ m'.inIds q := by
      by_cases hjk : j + 1 = k + 1
      · rw [hjk] at hq
        have := hs.mono q hq
        rw [hnode1, hin1] at this; exact this
      · have hq' := hPold (j+1) (by omega) q hq
        exact ⟨(hag (j+1) q (by omega) hq').1.state, fun e he => by rw [hinE (j+1) q (by omega) hq']; exact he⟩
    have hql : q < m.nodes.length := hc.lt (j+1) q (Or.inl ⟨by omega, hq⟩)
    have hee : m'.edge e = m.edge e := edge_frame hpre (inIds_lt hc.chain hql he)
    refine ⟨q, hq, by rw [hqst.1, a1.state]; exact q1, e, hqst.2 e he, ?_⟩
    rw [hee, a1.state]; exact ⟨q2, q3, q4⟩
  · intro j hj i hi
    by_cases hjk : j = k+1
    · subst hjk; rw [upd_self]; exact hs.fate i hi
    · rw [hup j (by omega)]
      rcases hc.fate j (by omega) i hi with h1 | h1 | h1 | h1
      · exact Or.inl h1
      · exact Or.inr (Or.inl (hpruned j (by omega) i hi h1))
      · exact Or.inr (Or.inr (Or.inl ⟨h1.1, happmono h1.2.1, hmergedF j (by omega) i hi h1.2.2⟩))
      · exact Or.inr (Or.inr (Or.inr ⟨h1.1, happmono h1.2⟩))
  · intro j hj i hi hd
    by_cases hjk : j = k+1
    · subst hjk; rw [upd_self]; exact hs.merged i hi hd
    · rw [hup j (by omega)]
      rw [(hag j i (by omega) (hPold j (by omega) i hi)).1.deleted] at hd
      exact hmergedF j (by omega) i hi (hc.del j (by omega) i hi hd)
  · intro j hj i hi
    by_cases hjk : j = k+1
    · subst hjk; rw [upd_self] at hi
      have hcl := hs.cur i hi
      refine ⟨hcl.2.2.2.1.deleted, hcl.2.2.2.1.pruned, hcl.2.2.2.1.marked, hcl.2.2.2.2.2.1, ?_⟩
      rw [hcl.2.2.2.1.cutset]
      have hni : i ∉ m'.cutset := by
        intro hh
        have hlay : ∀ j', j' < k+1 → i ∉ L j' := by
          intro j' hj' h5
          have hlt := hLold j' hj' i h5
          rcases hcl.2.1 with h6 | h6
          · exact hnotP j' i hj' hlt h6
          · have := hc.lt j' i hlt; omega
        have holdcut : i ∉ m.cutset := by
          intro h5
          by_cases hcc : c = .lastExactLayer ∧ inp.compType = .relaxed ∧ m.approximate = true
          · rw [(hc.cut1 hcc.1 hcc.2.1 hcc.2.2).1] at h5
            have := (hc.jxr hcc.2.1).2 hcc.2.2
            exact hlay (jx-1) (by omega) h5
          · rw [(hc.cut0 hcc).1] at h5; cases h5
        rcases hs.cutset with h1 | h1
        · rw [h1.1, hct1] at hh; exact holdcut hh
        · rw [h1.2.2.2.2.2.1, hct1, hprevL1] at hh
          rcases List.mem_append.1 hh with hh | hh
          · exact holdcut hh
          · exact hlay k (by omega) hh
      simp [hni]
    · rw [hup j (by omega)] at hi
      have hlay := hLold j (by omega) i hi
      have ha := (hag j i (by omega) hlay).1
      obtain ⟨c1, c2, c3, c4, c5⟩ := hc.lclean j (by omega) i hi
      refine ⟨by rw [ha.deleted]; exact c1, by rw [ha.pruned]; exact c2, by rw [ha.marked]; exact c3, by rw [ha.valueBot]; exact c4, ?_⟩
      have hl1 : i < m1.nodes.length := by rw [hlen1]; exact hc.lt j i hlay
      rcases hs.cutset with h1 | h1
      · rw [h1.2.2.1 i hl1 (hnotP j i (by omega) hlay), hnode1, c5, h1.1, hct1]
      · rw [h1.2.2.2.2.2.2.2 i hl1 (hnotP j i (by omega) hlay), hnode1, c5, h1.2.2.2.2.2.1, hct1, hprevL1]
        simp
  · rcases hjxcase with h1 | h1 <;> omega
  · intro hr
    constructor
    · intro ha
      rcases hjxcase with h1 | h1
      · rw [h1.2.2.1] at ha; cases ha
      · exact h1.1
    · intro ha
      rcases hjxcase with h1 | h1
      · by_cases hm : m.approximate = true
        · have := (hc.jxr hr).2 hm; omega
        · have := hr_old hr ha (by simpa using hm); omega
      · rcases h1.2.2 with h2 | h2
        · exact absurd hr h2
        · rw [h2.2] at ha; cases ha
  · intro hr
    rcases hjxcase with h1 | h1
    · exact absurd h1.2.1 hr
    · exact h1.1
  · intro he; rw [hs.exactApp he, happ1]; exact hc.appE he
  · intro j hj
    by_cases hjk : j = k+1
    · subst hjk
      have h2 : jx' = k+2 := by rcases hjxcase with h1 | h1 <;> omega
      have h3 : inp.compType ≠ .relaxed ∨ (m.approximate = false ∧ m'.approximate = false) := by
        rcases hjxcase with h1 | h1
        · omega
        · exact h1.2.2
      rw [upd_self]
      constructor
      · intro i hi
        rcases hs.fate i hi with h1 | h1 | h1 | h1
        · exact Or.inl h1
        · exact Or.inr (Or.inl h1)
        · rcases h3 with h3 | h3
          · exact absurd h1.1 h3
          · rw [h3.2] at h1; exact absurd h1.2.1 (by simp)
        · exact Or.inr (Or.inr h1)
      · intro i hi
        rcases hs.keepP with h1 | h1
        · rcases h3 with h3 | h3
          · exact absurd h1.1 h3
          · rw [h3.2] at h1; exact absurd h1.2 (by simp)
        · exact h1 i hi
    · have hjk2 : j < k+1 := by rcases hjxcase with h1 | h1 <;> omega
      have hj2 : j < jx := by rcases hjxcase with h1 | h1 <;> omega
      rw [hup j hjk2]
      refine ⟨?_, (hc.pre j hj2).2⟩
      intro i hi
      rcases (hc.pre j hj2).1 i hi with h1 | h1 | h1
      · exact Or.inl h1
      · exact Or.inr (Or.inl (hpruned j hjk2 i hi h1))
      · exact Or.inr (Or.inr ⟨h1.1, happmono h1.2⟩)
  · intro j hj i hi
    rcases hcase j i hi with ⟨hjk, hi⟩ | ⟨rfl, hi'⟩
    · have ha := (hag j i hjk hi).1
      rw [ha.exact, ha.relaxed]
      refine hc.ex j ?_ i hi
      rcases hjxcase with h1 | h1
      · rcases hj with hj | hj
        · left; omega
        · omega
      · exact Or.inr h1.2.1
    · have h3 : jx = k+1 ∧ (inp.compType ≠ .relaxed ∨ (m.approximate = false ∧ m'.approximate = false)) := by
        rcases hjxcase with h1 | h1
        · rcases hj with hj | hj
          · exfalso; omega
          · exfalso; omega
        · exact h1.2
      have hnm : ¬ (inp.compType = .relaxed ∧ m'.approximate = true) := by
        rintro ⟨a, b⟩
        rcases h3.2 with h4 | h4
        · exact h4 a
        · rw [h4.2] at b; cases b
      have hPi : ∀ i ∈ P (k+1), (m'.node i).flags.isExact = true ∧ (m'.node i).flags.isRelaxed = false := by
        intro i hi
        have := hc.ex (k+1) (Or.inr h3.1) i (hP i hi)
        rcases hs.relaxedOnly i hi with h4 | h4
        · rw [h4.1, h4.2, hnode1]; exact this
        · exact absurd h4 hnm
      rcases hi' with hi' | hi'
      · exact hPi i hi'
      · rcases hs.keepP with h4 | h4
        · exact absurd h4 hnm
        · exact hPi i (h4 i hi')
  · intro hl hr ha
    have hj1 : jx' = jx := by
      rcases hjxcase with h1 | h1
      · exact h1.1
      · rcases h1.2.2 with h2 | h2
        · exact absurd hr h2
        · rw [h2.2] at ha; cases ha
    rw [hj1]
    by_cases hm : m.approximate = true
    · have hlt := (hc.jxr hr).2 hm
      rw [hup (jx-1) (by omega)]
      have h0 := hc.cut1 hl hr hm
      rcases hs.cutset with h1 | h1
      · rw [h1.1, h1.2.1, hct1, hld1]; exact h0
      · rw [happ1, hm] at h1; cases h1.2.2.1
    · have hm : m.approximate = false := by simpa using hm
      obtain ⟨g1, g2⟩ := hr_old hr ha hm
      rw [g1, hup (k+1-1) (by omega)]
      rcases hs.cutset with h1 | h1
      · have := h1.2.2.2 (by rw [happ1]; exact hm) ha hr
        rw [hty1, hl] at this; cases this
      · have h00 := hc.cut0 (by rw [hm]; simp)
        rw [h1.2.2.2.2.2.1, hct1, h00.1, hprevL1]
        exact ⟨rfl, h1.2.2.2.2.2.2.1 (by rw [hprevL1]; exact hLkne)⟩
  · intro hn
    have hn' : ¬ (c = .lastExactLayer ∧ inp.compType = .relaxed ∧ m.approximate = true) := fun hh => hn ⟨hh.1, hh.2.1, happmono hh.2.2⟩
    have h0 := hc.cut0 hn'
    rcases hs.cutset with h1 | h1
    · rw [h1.1, h1.2.1, hct1, hld1]; exact h0
    · exact absurd ⟨by rw [← hty1]; exact h1.1, h1.2.1, h1.2.2.2.1⟩ hn
  · refine ⟨by rw [hs.restS.rootPa, hm1]; exact hc.misc.1, by rw [hs.restS.exact, hm1]; exact hc.misc.2.1,
      by rw [hs.restS.bestN, hm1]; exact hc.misc.2.2.1, by rw [hs.restS.cutsetType]; exact hty1⟩
  · refine ⟨?_, ?_⟩
    · intro hr j hj
      by_cases hjk : j = k+1
      · subst hjk; rw [upd_self]; exact hs.width.1 hr
      · rw [hup j (by omega)]; exact hc.width.1 hr j (by omega)
    · intro hr j h2 hj
      by_cases hjk : j = k+1
      · subst hjk; rw [upd_self]; exact hs.width.2 hr (by omega)
      · rw [hup j (by omega)]; exact hc.width.2 hr j h2 (by omega)
  · intro u hu
    rw [hs.restS.updates, hm1] at hu
    obtain ⟨u1, u2, j, hj, i, hi, u3, u4, u5⟩ := hc.upd u hu
    have ha := (hag j i hj (hLold j hj i hi)).1
    have hpr : Promising p inp.bestLb (m'.node i) ↔ Promising p inp.bestLb (m.node i) := by
      unfold Promising; rw [ha.state, ha.value]
    refine ⟨u1, u2, j, hj, i, by rw [hup j hj]; exact hi, by rw [ha.exact]; exact u3, ?_, ?_⟩
    · intro hl; have := u4 hl; rcases hjxcase with h1 | h1 <;> omega
    · rw [u5, ha.state, ha.value]; simp only [hpr]
  · intro e he
    obtain ⟨e0, he0, h0⟩ := hs.esrc e he
    rw [hedges1] at he0
    obtain ⟨h1, j, hj, h2⟩ := hc.esrc e0 he0
    rw [← h0]
    have ha := (hag j _ hj (hLold j hj _ h2)).1
    refine ⟨?_, j, hj, by rw [hup j hj]; exact h2⟩
    unfold Promising; rw [ha.state, ha.value]; exact h1
  · rw [hx, hc.expl]
    congr 1
    apply List.map_congr_left
    intro j hj
    have hj := List.mem_range.1 hj
    rw [hup j hj]
    apply List.countP_congr
    intro i hi
    have ha := (hag j i hj (hLold j hj i hi)).1
    simp only [decide_eq_true_eq]
    unfold Promising; rw [ha.state, ha.value]
  · intro h1 h2
    have hjj : jx' = jx := by rw [hjx', if_pos ⟨h1, h2⟩]
    rw [hjj]
    cases ha : m.approximate with
    | true =>
      obtain ⟨i, hi, g1, g2⟩ := hc.inx h1 ha
      have hlt := ((hc.jxr h1).2 ha).2
      have hA := (hag jx i hlt (hLold jx hlt i hi)).1
      exact ⟨i, by rw [hup jx hlt]; exact hi, by rw [hA.relaxed]; exact g1, by rw [hA.exact]; exact g2⟩
    | false =>
      obtain ⟨i, hi, g⟩ := hs.inx (by rw [happ1]; exact ha) h2 h1
      refine ⟨i, ?_, g⟩
      rw [(hr_old h1 h2 ha).1, upd_self]; exact hi
  · intro j i hi
    rcases hcase j i hi with ⟨hj, hi⟩ | ⟨_, hi | hi⟩
    · rw [(hag j i hj hi).1.marked]; exact hc.unm j i hi
    · exact (hs.nodeP i hi).2.2.2
    · exact (hs.cur i hi).2.2.2.1.marked
  · intro j hj i hi i' hi' he
    have hst : ∀ i ∈ P j, (m'.node i).state = (m.node i).state := by
      intro i hi
      by_cases hjk : j = k + 1
      · subst hjk; rw [(hs.mono i hi).1, hnode1]
      · exact (hag j i (by omega) (hPold j (by omega) i hi)).1.state
    rw [hst i hi, hst i' hi'] at he
    exact hc.inj j hj i hi i' hi' he

/-- Squashing step for the root layer. -/
theorem Head.squash0 (h : Head v p r S B inp rd m 0 0 P L c) (happ : m.approximate = false) (hupd : m.updates = [])
    (hvar : inp.residual.path.length < p.nbVars) {m1 : Dd σ} {cur0 : List Nat}
    (hm1 : m1 = { m with prevL := cur0, nextL := [] }) {cur : List Nat} {b : Bool}
    (hb : (b = false ∧ cur = [0] ∧ (inp.compType = .restricted → 1 ≤ inp.maxWidth)) ∨ (b = true ∧ cur = [] ∧ inp.compType = .restricted)) :
    Mid v p r S B inp rd { m1 with approximate := b } 0 1 P (upd L 0 cur) c := by
  obtain ⟨m', hm'⟩ : ∃ m' : Dd σ, m' = { m1 with approximate := b } := ⟨_, rfl⟩
  rw [← hm']
  have hc := h.core
  have hnode : ∀ j, m'.node j = m.node j := fun j => by rw [hm', hm1]; rfl
  have hedges : m'.edges = m.edges := by rw [hm', hm1]
  have hlen : m'.nodes.length = m.nodes.length := by rw [hm', hm1]
  have hcur : ∀ i ∈ cur, i = 0 := by
    intro i hi; rcases hb with hb | hb
    · rw [hb.2.1] at hi; simpa using hi
    · rw [hb.2.1] at hi; cases hi
  have hin : ∀ j i, InLay P (upd L 0 cur) 0 (0+1) j i → j = 0 ∧ i = 0 := by
    intro j i hi
    rcases hi with hi | hi
    · have : j = 0 := by omega
      subst this
      have := hi.2; rw [hc.root.1] at this; exact ⟨rfl, by simpa using this⟩
    · have : j = 0 := by omega
      subst this; rw [upd_self] at hi; exact ⟨rfl, hcur i hi.2⟩
  have h00 : InLay P L 0 0 0 0 := Or.inl ⟨Nat.le_refl _, by rw [hc.root.1]; simp⟩
  have h0P : (0 : Nat) ∈ P 0 := by rw [hc.root.1]; simp
  have hap : m'.approximate = b := by rw [hm']
  have hcut : m'.cutset = [] ∧ m'.lelDepth = none := by
    have := hc.cut0 (by rw [happ]; simp)
    rw [hm', hm1]; exact this
  have hrb : inp.compType = .relaxed → b = false := by
    intro hr; rcases hb with hb | hb
    · exact hb.1
    · rw [hr] at hb; cases hb.2.2
  have hcl := h.clean 0 h0P
  refine ⟨?_, ?_, by rw [hm', hm1]⟩
  · constructor
    · exact chainOK_of_same hc.chain hedges hlen (fun j => by rw [hnode])
    · rw [hnode]; exact hc.root
    · intro i hi; exact (hin 0 i hi).2
    · intro j i hi; rw [(hin j i hi).2, hlen]; exact hc.lt 0 0 h00
    · intro i hi; rw [hlen] at hi
      obtain ⟨j, hj⟩ := hc.all i hi
      rcases hj with hj | hj
      · exact ⟨j, Or.inl hj⟩
      · exact absurd hj.1 (by omega)
    · exact hc.nodupP
    · intro j hj
      have : j = 0 := by omega
      subst this; rw [upd_self]
      rcases hb with hb | hb <;> simp [hb.2.1]
    · intro j i hi
      obtain ⟨rfl, rfl⟩ := hin j i hi
      rw [hnode]; exact hc.st 0 0 h00
    · intro j i hi; have := hin _ i hi; omega
    · intro j i hi; have := hin _ i hi; omega
    · intro j hj; omega
    · intro j hj
      have : j = 0 := by omega
      subst this; exact hvar
    · intro j hj; omega
    · intro j hj i hi
      have : j = 0 := by omega
      subst this
      have hi0 : i = 0 := by rw [hc.root.1] at hi; simpa using hi
      subst hi0; rw [upd_self, hap]
      rcases hb with hb | hb
      · left; simp [hb.2.1]
      · right; right; right; exact ⟨hb.2.2, hb.1⟩
    · intro j hj i hi hd
      have : j = 0 := by omega
      subst this
      have hi0 : i = 0 := by rw [hc.root.1] at hi; simpa using hi
      subst hi0; rw [hnode, hcl.1.deleted] at hd; cases hd
    · intro j hj i hi
      have : j = 0 := by omega
      subst this
      rw [upd_self] at hi
      have := hcur i hi; subst this
      rw [hnode, hcut.1]
      exact ⟨hcl.1.deleted, hcl.1.pruned, hcl.1.marked, hcl.2.1, by simpa using hcl.1.cutset⟩
    · omega
    · intro hr; rw [hap, hrb hr]; exact ⟨fun _ => rfl, fun h => by cases h⟩
    · intro _; rfl
    · intro he; rw [hap]
      rcases hb with hb | hb
      · exact hb.1
      · rw [he] at hb; cases hb.2.2
    · intro j hj
      have : j = 0 := by omega
      subst this
      rw [upd_self, hap, hc.root.1]
      refine ⟨?_, fun i hi => by simp [hcur i hi]⟩
      intro i hi
      rcases hb with hb | hb
      · left; rw [hb.2.1]; exact hi
      · right; right; exact ⟨hb.2.2, hb.1⟩
    · intro j _ i hi
      obtain ⟨rfl, rfl⟩ := hin j i hi
      rw [hnode]; exact hc.ex 0 (Or.inr rfl) 0 h00
    · intro _ hr ha; rw [hap, hrb hr] at ha; cases ha
    · intro _; exact hcut
    · rw [hm', hm1]; exact hc.misc
    · refine ⟨?_, fun _ j h2 hj => by omega⟩
      intro hr j hj
      have : j = 0 := by omega
      subst this; rw [upd_self]
      rcases hb with hb | hb
      · rw [hb.2.1]; exact hb.2.2 hr
      · rw [hb.2.1]; simp
    · intro u hu; rw [hm', hm1] at hu; simp only at hu; rw [hupd] at hu; cases hu
    · intro e he
      rw [hm', hm1] at he
      obtain ⟨_, j, hj, _⟩ := hc.esrc e he
      omega
    · rw [hm', hm1]; exact hc.expl
    · intro h1 h2
      rcases hb with hb | hb
      · rw [hap, hb.1] at h2; cases h2
      · rw [hb.2.2] at h1; cases h1
    · intro j i hi
      obtain ⟨rfl, rfl⟩ := hin j i hi
      rw [hnode]; exact hc.unm 0 0 h00
    · intro j hj i hi i' hi' _
      have : j = 0 := by omega
      subst this
      rw [hc.root.1] at hi hi'
      rw [List.mem_singleton.1 hi, List.mem_singleton.1 hi']
  · intro i hi
    rw [upd_self] at hi
    have := hcur i hi; subst this
    rw [hnode]; exact ⟨hcl.1, hcl.2.2⟩

theorem eq_of_nodup_map {α β : Type} {f : α → β} {l : List α} (h : (l.map f).Nodup) {a b : α} (ha : a ∈ l) (hb : b ∈ l) (he : f a = f b) : a = b := by
  induction l with
  | nil => cases ha
  | cons c l ih =>
    rw [List.map_cons, List.nodup_cons] at h
    rcases List.mem_cons.1 ha with ha1 | ha1
    · rcases List.mem_cons.1 hb with hb1 | hb1
      · rw [ha1, hb1]
      · exact absurd (by rw [← ha1, he]; exact List.mem_map_of_mem hb1) h.1
    · rcases List.mem_cons.1 hb with hb1 | hb1
      · exact absurd (by rw [← hb1, ← he]; exact List.mem_map_of_mem ha1) h.1
      · exact ih h.2 ha1 hb1

theorem nodup_map_of_inj {α β : Type} {f : α → β} {l : List α} (hf : ∀ a ∈ l, ∀ b ∈ l, f a = f b → a = b) (h : l.Nodup) : (l.map f).Nodup := by
  induction l with
  | nil => exact List.nodup_nil
  | cons c l ih =>
    rw [List.nodup_cons] at h
    rw [List.map_cons, List.nodup_cons]
    refine ⟨fun hh => ?_, ih (fun a ha b hb => hf a (by simp [ha]) b (by simp [hb])) h.2⟩
    obtain ⟨b, hb, he⟩ := List.mem_map.1 hh
    have := hf b (by simp [hb]) c (by simp) he
    subst this; exact h.1 hb

theorem mem_map_snd {l : List (σ × Nat)} {i : Nat} (h : i ∈ l.map (·.2)) : ∃ q ∈ l, q.2 = i := by simpa using h

/-- Expansion step. -/
theorem Mid.expand (hwf : WellFormed p S B) (h : Mid v p r S B inp rd m k jx P L c)
    (hm' : m' = (L k).foldl (expandOne v p inp (S.var (inp.residual.path.length + k)) (inp.residual.path.length + k)) m) :
    Head v p r S B inp rd m' (k+1) jx (upd P (k+1) (m'.nextL.map (·.2))) L c := by
  have hc := h.core
  have hLk : ∀ i ∈ L k, InLay P L k (k+1) k i := fun i hi => Or.inr ⟨by omega, hi⟩
  have hcur : CurOK p B m (S.var (inp.residual.path.length + k)) (inp.residual.path.length + k) (L k) := by
    refine ⟨fun i hi => hc.lt k i (hLk i hi), fun i hi => (h.clean i hi).1, fun i hi => (hc.st k i (hLk i hi)).2.2, ?_⟩
    intro i hi d hd
    exact (hwf.cost_bound _ _ d (hc.st k i (hLk i hi)).1 (hc.nextVar hwf (hLk i hi) (by omega)) hd).2
  have hE := expand_layer (v := v) (inp := inp) hc.chain h.next hcur (hc.nodupL k (by omega))
  rw [← hm'] at hE
  obtain ⟨done, hb, hdone⟩ := hE.build
  have hrest : ∀ {α : Type} (f : Rest σ → α), f (({ m' with nextL := [] } : Dd σ).rest) = f (({ m with nextL := [] } : Dd σ).rest) := by
    intro α f; rw [hb.rest]
  have hcutset : m'.cutset = m.cutset := hrest Rest.cutset
  have hlel : m'.lelDepth = m.lelDepth := hrest Rest.lelDepth
  have happ : m'.approximate = m.approximate := hrest Rest.approximate
  have hold : ∀ j i, InLay P L k (k+1) j i → Agree (m.node i) (m'.node i) := fun j i hi => hb.frame i (hc.lt j i hi)
  have hcutF : ∀ j i, InLay P L k (k+1) j i → (m'.node i).flags.isCutset = (m.node i).flags.isCutset := fun j i hi =>
    hb.cutsetFlag i (hc.lt j i hi)
  have hinE : ∀ j i, InLay P L k (k+1) j i → m'.inIds i = m.inIds i := fun j i hi =>
    inIds_frame hc.chain (hc.lt j i hi) hb.pre (hold j i hi).inbound
  have hcase : ∀ j i, InLay (upd P (k+1) (m'.nextL.map (·.2))) L (k+1) (k+1) j i →
      (j ≤ k ∧ InLay P L k (k+1) j i) ∨ (j = k+1 ∧ ∃ q ∈ m'.nextL, q.2 = i) := by
    intro j i hi
    rcases hi with hi | hi
    · by_cases hj : j = k+1
      · subst hj; rw [upd_self] at hi; exact Or.inr ⟨rfl, mem_map_snd hi.2⟩
      · rw [upd_ne P _ hj] at hi; exact Or.inl ⟨by omega, Or.inl ⟨by omega, hi.2⟩⟩
    · exact Or.inl ⟨by omega, Or.inr hi⟩
  have hL : ∀ j, j < k+1 → ∀ i ∈ L j, InLay P L k (k+1) j i := fun j hj i hi => Or.inr ⟨hj, hi⟩
  have hPo : ∀ j, j < k+1 → ∀ i ∈ P j, InLay P L k (k+1) j i := fun j hj i hi => Or.inl ⟨by omega, hi⟩
  have hupP : ∀ j, j < k+1 → upd P (k+1) (m'.nextL.map (·.2)) j = P j := fun j hj => upd_ne P _ (by omega)
  have hsrcL : ∀ q ∈ m'.nextL, ∀ e ∈ m'.inIds q.2, (m'.edge e).src ∈ L k := fun q hq e he => (hb.node q hq).src e he
  have hprE : ∀ j i, InLay P L k (k+1) j i → (Promising p inp.bestLb (m'.node i) ↔ Promising p inp.bestLb (m.node i)) := by
    intro j i hi; unfold Promising; rw [(hold j i hi).state, (hold j i hi).value]
  have hmergedF : ∀ j, j < k+1 → ∀ i ∈ P j, Merged v r S (inp.residual.path.length + j) m (L j) i →
      Merged v r S (inp.residual.path.length + j) m' (L j) i := by
    intro j hj i hi hm
    have hi' := hPo j hj i hi
    refine hm.frame hc.chain hb.pre (hc.lt j i hi') (fun j' hj' => hc.lt j j' (hL j hj j' hj')) (fun j' hj' => hb.frame j' hj') ?_
    intro e he
    cases j with
    | zero =>
      have h1 := hc.root1 i hi'
      subst h1
      exfalso
      have : m.inIds 0 = [] := by unfold inIds; rw [hc.root.2.2.2.2]; exact chain_none _ _
      rw [this] at he; cases he
    | succ j => exact hc.lt j _ (hL j (by omega) _ ((hc.node j i hi').src e he))
  have hprunedF : ∀ j, j < k+1 → ∀ i ∈ P j, Pruned v rd inp.residual.path.length (inp.residual.path.length + j) m i →
      Pruned v rd inp.residual.path.length (inp.residual.path.length + j) m' i := by
    intro j hj i hi hp
    have hi' := hPo j hj i hi
    have hik : i ∉ L k := by
      intro hh
      have := (hc.lclean k (by omega) i hh).2.1
      rw [hp.flag] at this; cases this
    exact hp.frame (hold j i hi') (hE.same i (hc.lt j i hi') hik).2 (hcutF j i hi')
  have hlog := hE.log
  refine ⟨?_, by rw [upd_self], hb.keys, fun q hq => (hb.rng q hq).2.2, ?_, ?_⟩
  rotate_left
  · intro i hi
    rw [upd_self] at hi
    obtain ⟨q, hq, rfl⟩ := mem_map_snd hi
    have := hb.clean q hq
    exact ⟨this.1, this.2.2⟩
  · intro i hi
    rw [upd_self] at hi
    obtain ⟨q, hq, rfl⟩ := mem_map_snd hi
    exact hb.allreal q hq
  have hst : ∀ q ∈ m'.nextL, S.ok (m'.node q.2).state ∧ S.lvl (m'.node q.2).state = inp.residual.path.length + (k+1) ∧
      (m'.node q.2).depth = inp.residual.path.length + (k+1) := by
    intro q hq
    obtain ⟨b, hbin, _⟩ := (hb.node q hq).veq
    have hs := hsrcL q hq b hbin
    have hr := (hb.allreal q hq b hbin).1
    have hd := (hb.node q hq).dec b hbin
    rw [(hold k _ (hLk _ hs)).state] at hr hd
    have hst := hc.st k _ (hLk _ hs)
    have hnv := hc.nextVar hwf (hLk _ hs) (by omega)
    rw [hr]
    refine ⟨hwf.ok_trans _ _ _ hst.1 hnv hd, ?_, ?_⟩
    · rw [hwf.lvl_trans _ _ _ hst.1 hnv hd, hst.2.1]; omega
    · rw [(hb.clean q hq).2.1]; omega
  constructor
  · exact hb.chain
  · have h0 : InLay P L k (k+1) 0 0 := Or.inl ⟨by omega, by rw [hc.root.1]; simp⟩
    have ha := hold 0 0 h0
    obtain ⟨r1, r2, r3, r4, r5⟩ := hc.root
    exact ⟨by rw [hupP 0 (by omega)]; exact r1, ha.state.trans r2, ha.value.trans r3, ha.best.trans r4, ha.inbound.trans r5⟩
  · intro i hi
    rcases hcase 0 i hi with ⟨_, hi⟩ | ⟨hj, _⟩
    · exact hc.root1 i hi
    · omega
  · intro j i hi
    rcases hcase j i hi with ⟨_, hi⟩ | ⟨_, q, hq, rfl⟩
    · have := hc.lt j i hi; have := hb.len; omega
    · exact (hb.rng q hq).2.1
  · intro i hi
    by_cases hi0 : i < m.nodes.length
    · obtain ⟨j, hj⟩ := hc.all i hi0
      refine ⟨j, ?_⟩
      rcases hj with hj | hj
      · left; rw [hupP j (by omega)]; exact ⟨by omega, hj.2⟩
      · exact Or.inr hj
    · obtain ⟨q, hq, rfl⟩ := hb.all i (by omega) hi
      exact ⟨k+1, Or.inl ⟨Nat.le_refl _, by rw [upd_self]; exact List.mem_map.2 ⟨q, hq, rfl⟩⟩⟩
  · intro j hj
    by_cases hjk : j = k+1
    · subst hjk; rw [upd_self]; exact hb.ids
    · rw [hupP j (by omega)]; exact hc.nodupP j (by omega)
  · exact hc.nodupL
  · intro j i hi
    rcases hcase j i hi with ⟨_, hi⟩ | ⟨rfl, q, hq, rfl⟩
    · have ha := hold j i hi
      rw [ha.state, ha.depth]; exact hc.st j i hi
    · exact hst q hq
  · intro j i hi
    rcases hcase (j+1) i hi with ⟨hj, hi⟩ | ⟨hj, q, hq, rfl⟩
    · exact (hc.node j i hi).frame hc.chain (hc.lt _ i hi) hb.pre (hold _ i hi) (fun j' hj' => hold j j' (hL j (by omega) j' hj'))
    · have : j = k := by omega
      subst this; exact hb.node q hq
  · intro j i hi i' hi'
    rcases hcase (j+1) i hi with ⟨hj, hi⟩ | ⟨hj, q, hq, rfl⟩
    · exact hc.incr j i hi i' hi'
    · have : j = k := by omega
      subst this
      have h1 := (hb.rng q hq).1
      have h2 := hc.lt j i' (hLk i' hi')
      omega
  · intro j hj
    exact hc.varL j hj
  · exact hc.varL
  · intro j hj i hi
    have hi' := hL j hj i hi
    have ha := hold j i hi'
    by_cases hjk : j = k
    · subst hjk
      obtain ⟨e1, e2⟩ := hE.rub i hi
      refine ⟨by rw [e1, ha.state], ?_, ?_⟩
      · intro hv
        rw [e2, ha.state]
        unfold expandTheta
        rw [(h.clean i hi).2]
        simp only [hprE j i hi', hv, true_and]
        by_cases hp : Promising p inp.bestLb (m.node i) <;> simp [hp]
      · intro hp d hd
        rw [ha.state] at hd
        obtain ⟨q, hq, q1, e, he, q2, q3, q4⟩ := hb.child (i, d) (hdone i hi ((hprE j i hi').1 hp) d hd)
        refine ⟨q.2, by rw [upd_self]; exact List.mem_map.2 ⟨q, hq, rfl⟩, ?_, e, he, q2, q3, ?_⟩
        · rw [(hb.rng q hq).2.2, ha.state]; exact q1
        · rw [ha.state]; exact q4
    · have hjk' : j < k := by omega
      have hni : i ∉ L k := fun hh => by
        have := hc.layer_unique hi' (hLk i hh); omega
      obtain ⟨s1, s2⟩ := hE.same i (hc.lt j i hi') hni
      obtain ⟨e1, e2, e3⟩ := hc.exp j hjk' i hi
      refine ⟨by rw [s1, ha.state]; exact e1, fun hv => by rw [s2, ha.state, e2 hv]; simp only [hprE j i hi'], ?_⟩
      intro hp d hd
      rw [ha.state] at hd
      obtain ⟨q, hq, q1, e, he, q2, q3, q4⟩ := e3 ((hprE j i hi').1 hp) d hd
      have hq' := hPo (j+1) (by omega) q hq
      have hee : m'.edge e = m.edge e := edge_frame hb.pre (inIds_lt hc.chain (hc.lt _ q hq') he)
      refine ⟨q, by rw [hupP (j+1) (by omega)]; exact hq, by rw [(hold _ q hq').state, ha.state]; exact q1, e,
        by rw [hinE _ q hq']; exact he, ?_⟩
      rw [hee, ha.state]; exact ⟨q2, q3, q4⟩
  · intro j hj i hi
    rw [hupP j hj] at hi
    rcases hc.fate j hj i hi with h1 | h1 | h1 | h1
    · exact Or.inl h1
    · exact Or.inr (Or.inl (hprunedF j hj i hi h1))
    · exact Or.inr (Or.inr (Or.inl ⟨h1.1, by rw [happ]; exact h1.2.1, hmergedF j hj i hi h1.2.2⟩))
    · exact Or.inr (Or.inr (Or.inr ⟨h1.1, by rw [happ]; exact h1.2⟩))
  · intro j hj i hi hd
    rw [hupP j hj] at hi
    rw [(hold j i (hPo j hj i hi)).deleted] at hd
    exact hmergedF j hj i hi (hc.del j hj i hi hd)
  · intro j hj i hi
    have hi' := hL j hj i hi
    have ha := hold j i hi'
    obtain ⟨c1, c2, c3, c4, c5⟩ := hc.lclean j hj i hi
    exact ⟨by rw [ha.deleted]; exact c1, by rw [ha.pruned]; exact c2, by rw [ha.marked]; exact c3, by rw [ha.valueBot]; exact c4,
      by rw [hcutF j i hi', hcutset]; exact c5⟩
  · exact hc.jx_le
  · rw [happ]; exact hc.jxr
  · exact hc.jxn
  · rw [happ]; exact hc.appE
  · intro j hj
    have hjk : j < k+1 := Nat.lt_of_lt_of_le hj hc.jx_le
    rw [hupP j hjk, happ]
    refine ⟨?_, (hc.pre j hj).2⟩
    intro i hi
    rcases (hc.pre j hj).1 i hi with h1 | h1 | h1
    · exact Or.inl h1
    · exact Or.inr (Or.inl (hprunedF j hjk i hi h1))
    · exact Or.inr (Or.inr h1)
  · intro j hj i hi
    rcases hcase j i hi with ⟨_, hi⟩ | ⟨rfl, q, hq, rfl⟩
    · have ha := hold j i hi
      rw [ha.exact, ha.relaxed]; exact hc.ex j hj i hi
    · have hjx : jx = k+1 := by
        rcases hj with hj | hj
        · have := hc.jx_le; omega
        · exact hj
      refine ⟨hb.allex (fun i hi => (hc.ex k (Or.inr hjx) i (hLk i hi)).1) q hq,
        hb.nrel (fun i hi => (hc.ex k (Or.inr hjx) i (hLk i hi)).2) q hq⟩
  · rw [happ, hcutset, hlel]; exact hc.cut1
  · rw [happ, hcutset, hlel]; exact hc.cut0
  · exact ⟨(hrest Rest.rootPa).trans hc.misc.1, (hrest Rest.exact).trans hc.misc.2.1, (hrest Rest.bestN).trans hc.misc.2.2.1,
      (hrest Rest.cutsetType).trans hc.misc.2.2.2⟩
  · exact hc.width
  · intro u hu
    rw [hlog] at hu
    rcases List.mem_append.1 hu with hu | hu
    · obtain ⟨u1, u2, j, hj, i, hi, u3, u4, u5⟩ := hc.upd u hu
      have hi' := hL j (by omega) i hi
      have ha := hold j i hi'
      refine ⟨u1, u2, j, by omega, i, hi, by rw [ha.exact]; exact u3, u4, ?_⟩
      rw [u5, ha.state, ha.value]; simp only [hprE j i hi']
    · obtain ⟨i, hi, hu⟩ := List.mem_flatMap.1 hu
      unfold expandLog at hu
      split at hu
      · rename_i hcond
        obtain ⟨g1, g2, g3, g4⟩ := hcond
        have hi' := hLk i hi
        have ha := hold k i hi'
        simp only [List.mem_singleton] at hu
        refine ⟨g1, g2, k, by omega, i, hi, by rw [ha.exact]; exact g3, ?_, ?_⟩
        · intro hl
          by_cases ham : m.approximate = true
          · exfalso
            apply g4
            have hcc := (hc.cut1 hl g2 ham).2
            have := (hc.jxr g2).2 ham
            refine ⟨hc.misc.2.2.2.trans hl, ?_⟩
            cases hld : m.lelDepth with
            | none => rw [hld] at hcc; cases hcc
            | some d =>
              rw [hld] at hcc
              simp only [Option.map_some, Option.some.injEq] at hcc
              simp; omega
          · have := (hc.jxr g2).1 (by simpa using ham); omega
        · rw [hu, ha.state, ha.value]; simp only [hprE k i hi']
      · cases hu
  · intro e he
    rcases hE.esrc e he with he | ⟨h1, h2⟩
    · obtain ⟨h1, j, hj, h2⟩ := hc.esrc e he
      exact ⟨(hprE j _ (hL j (by omega) _ h2)).2 h1, j, by omega, h2⟩
    · exact ⟨(hprE k _ (hLk _ h1)).2 h2, k, by omega, h1⟩
  · have hcong : ∀ j, j < k+1 → ((L j).countP fun i => decide (Promising p inp.bestLb (m'.node i))) =
        (L j).countP fun i => decide (Promising p inp.bestLb (m.node i)) := by
      intro j hj
      apply List.countP_congr
      intro i hi
      simp only [hprE j i (hL j hj i hi)]
    rw [hE.expl, hc.expl, List.range_succ, List.map_append, List.sum_append]
    simp only [List.map_cons, List.map_nil, List.sum_cons, List.sum_nil, Nat.add_zero]
    rw [hcong k (by omega)]
    congr 2
    apply List.map_congr_left
    intro j hj
    exact (hcong j (by have := List.mem_range.1 hj; omega)).symm
  · intro h1 h2
    rw [happ] at h2
    obtain ⟨i, hi, g1, g2⟩ := hc.inx h1 h2
    have hlt := ((hc.jxr h1).2 h2).2
    have ha := hold jx i (hL jx (by omega) i hi)
    exact ⟨i, hi, by rw [ha.relaxed]; exact g1, by rw [ha.exact]; exact g2⟩
  · intro j i hi
    rcases hcase j i hi with ⟨_, hi⟩ | ⟨rfl, q, hq, rfl⟩
    · rw [(hold j i hi).marked]; exact hc.unm j i hi
    · exact (hb.clean q hq).1.marked
  · intro j hj i hi i' hi' he
    by_cases hjk : j = k + 1
    · subst hjk
      rw [upd_self] at hi hi'
      obtain ⟨q, hq, rfl⟩ := mem_map_snd hi
      obtain ⟨q', hq', rfl⟩ := mem_map_snd hi'
      rw [(hb.rng q hq).2.2, (hb.rng q' hq').2.2] at he
      exact congrArg Prod.snd (eq_of_nodup_map hb.keys hq hq' he)
    · rw [hupP j (by omega)] at hi hi'
      rw [(hold j i (hPo j (by omega) i hi)).state, (hold j i' (hPo j (by omega) i' hi')).state] at he
      exact hc.inj j (by omega) i hi i' hi' he

end steps
end Verif.Dd
