import Verif.Proofs.Mdd.Merge
/-! Pruning, restricting and relaxing a layer. -/
set_option autoImplicit false

namespace Verif.Dd
open Verif Spec
variable {σ : Type} [DecidableEq σ] [Inhabited σ]

/-- What is known of a layer `P` when it has just been completed (`prev` is the layer above). -/
structure LayerIn (p : Problem σ) (S : Layering σ) (B : Int) (m : Dd σ) (x D lv : Nat) (prev P : List Nat) : Prop where
  chain : ChainOK m
  nodup : P.Nodup
  lt : ∀ i ∈ P, i < m.nodes.length
  prevlt : ∀ j ∈ prev, j < m.nodes.length ∧ j ∉ P
  node : ∀ i ∈ P, NodeOK p B m x prev i
  real : ∀ i ∈ P, ∀ e ∈ m.inIds i, RealEdge p m e i
  clean : ∀ i ∈ P, Clean (m.node i) ∧ (m.node i).depth = D ∧ (m.node i).valueBot = isizeMin ∧ (m.node i).theta = isizeMax
  st : ∀ i ∈ P, S.ok (m.node i).state ∧ S.lvl (m.node i).state = lv
  prevst : ∀ j ∈ prev, S.ok (m.node j).state ∧ p.nextVar [(m.node j).state] = some x
  prevdepth : ∀ j ∈ prev, (m.node j).depth + 1 = D

/-- Node `i` has been pruned thanks to the barrier. -/
structure Pruned (v : Variant) (rd : Reads σ) (rootDepth D : Nat) (m : Dd σ) (i : Nat) : Prop where
  bar : v = .barrier
  below : rootDepth < D
  nonempty : rd.isEmpty D = false
  nrel : (m.node i).flags.isRelaxed = false
  le : (m.node i).value ≤ (rd.theta D (m.node i).state).getD isizeMin
  theta : (m.node i).theta = (rd.theta D (m.node i).state).getD isizeMin
  flag : (m.node i).flags.isPrunedByBarrier = true
  del : (m.node i).flags.isDeleted = false
  cut : (m.node i).flags.isCutset = false
  mark : (m.node i).flags.isMarked = false

/-- Effect of the pruning step. -/
structure PruneSpec (v : Variant) (rd : Reads σ) (rootDepth D : Nat) (m m' : Dd σ) (cur cur' : List Nat) : Prop where
  edges : m'.edges = m.edges
  len : m'.nodes.length = m.nodes.length
  rest : m'.rest = m.rest
  upd : m'.updates = m.updates
  sub : cur'.Sublist cur
  keep : ∀ j, j ∉ cur ∨ j ∈ cur' → m'.node j = m.node j
  drop : ∀ i ∈ cur, i ∉ cur' →
    m'.node i = { m.node i with
      theta := (rd.theta D (m.node i).state).getD isizeMin
      flags := (m.node i).flags.setPrunedByBarrier true } ∧
    (m.node i).flags.isRelaxed = false ∧ (m.node i).value ≤ (rd.theta D (m.node i).state).getD isizeMin ∧
    v = .barrier ∧ rootDepth < D ∧ rd.isEmpty D = false
  /-- only the nodes that pass the test are kept -/
  keeps : v = .barrier → rootDepth < D → rd.isEmpty D = false → ∀ i ∈ cur',
    (m.node i).flags.isRelaxed = true ∨ (m.node i).value > (rd.theta D (m.node i).state).getD isizeMin

theorem PruneSpec.id {v : Variant} {rd : Reads σ} {rootDepth D : Nat} {m : Dd σ} {cur : List Nat}
    (h : v = .barrier → rootDepth < D → rd.isEmpty D = false → False) : PruneSpec v rd rootDepth D m m cur cur :=
  ⟨rfl, rfl, rfl, rfl, List.Sublist.refl _, fun _ _ => rfl, fun i h1 h2 => absurd h1 h2, fun a b c => (h a b c).elim⟩

theorem pruneLayer_spec (v : Variant) (rd : Reads σ) (rootDepth D : Nat) (m : Dd σ) (cur : List Nat) (hnd : cur.Nodup)
    (hlt : ∀ i ∈ cur, i < m.nodes.length) :
    PruneSpec v rd rootDepth D m (m.pruneLayer v rd rootDepth D cur).1 cur (m.pruneLayer v rd rootDepth D cur).2 := by
  unfold pruneLayer
  cases v with
  | all => exact PruneSpec.id (by simp)
  | barrier =>
    simp only []
    split
    · rename_i hcond
      have gen : ∀ (todo pr kept : List Nat) (m1 : Dd σ), cur = pr ++ todo →
          PruneSpec .barrier rd rootDepth D m m1 pr kept →
          PruneSpec .barrier rd rootDepth D m (todo.foldl (pruneOne rd D) (m1, kept)).1 cur (todo.foldl (pruneOne rd D) (m1, kept)).2 := by
        intro todo
        induction todo with
        | nil => intro pr kept m1 h hs; simp at h; subst h; exact hs
        | cons a todo ih =>
          intro pr kept m1 h hs
          have hanp : a ∉ pr := by
            rw [h, List.nodup_append] at hnd
            intro hh; exact hnd.2.2 a hh a (by simp) rfl
          have hank : a ∉ kept := fun hh => hanp (hs.sub.subset hh)
          have hna : m1.node a = m.node a := hs.keep a (Or.inl hanp)
          have halt : a < m1.nodes.length := by rw [hs.len]; exact hlt a (by simp [h])
          simp only [List.foldl_cons]
          have hkeepcase : ((m.node a).flags.isRelaxed = true ∨ (m.node a).value > (rd.theta D (m.node a).state).getD isizeMin) →
              PruneSpec .barrier rd rootDepth D m m1 (pr ++ [a]) (kept ++ [a]) := by
            intro hk
            refine ⟨hs.edges, hs.len, hs.rest, hs.upd, List.Sublist.append hs.sub (List.Sublist.refl _), ?_, ?_, ?_⟩
            · intro j hj
              simp only [List.mem_append, List.mem_singleton, not_or] at hj
              rcases hj with hj | hj | hj
              · exact hs.keep j (Or.inl hj.1)
              · exact hs.keep j (Or.inr hj)
              · subst hj; exact hna
            · intro i h1 h2
              simp only [List.mem_append, List.mem_singleton, not_or] at h1 h2
              rcases h1 with h1 | h1
              · exact hs.drop i h1 h2.1
              · exact absurd h1 h2.2
            · intro q1 q2 q3 i hi
              rcases List.mem_append.1 hi with hi | hi
              · exact hs.keeps q1 q2 q3 i hi
              · simp only [List.mem_singleton] at hi; subst hi; exact hk
          refine ih (pr ++ [a]) (pruneOne rd D (m1, kept) a).2 (pruneOne rd D (m1, kept) a).1 (by simp [h]) ?_
          unfold pruneOne
          simp only [hna]
          split
          · rename_i hr; exact hkeepcase (Or.inl hr)
          · rename_i hr
            split
            · rename_i hv; exact hkeepcase (Or.inr hv)
            · rename_i hv
              have hself : (m1.modNode a fun n => { n with
                  theta := (rd.theta D (m.node a).state).getD isizeMin
                  flags := n.flags.setPrunedByBarrier true }).node a = { m.node a with
                  theta := (rd.theta D (m.node a).state).getD isizeMin
                  flags := (m.node a).flags.setPrunedByBarrier true } := by
                rw [node_modNode_self _ _ halt, hna]
              refine ⟨hs.edges, by simp [hs.len], hs.rest, hs.upd, hs.sub.trans (List.sublist_append_left _ _), ?_, ?_, ?_⟩
              · intro j hj
                have hja : j ≠ a := by
                  rcases hj with hj | hj
                  · intro hh; exact hj (by simp [hh])
                  · intro hh; exact hank (hh ▸ hj)
                rw [node_modNode_ne _ _ (Ne.symm hja)]
                apply hs.keep
                rcases hj with hj | hj
                · left; intro hh; exact hj (by simp [hh])
                · exact Or.inr hj
              · intro i h1 h2
                by_cases hia : i = a
                · subst hia
                  exact ⟨hself, by simpa using hr, by omega, rfl, hcond.1, hcond.2⟩
                · rw [node_modNode_ne _ _ (Ne.symm hia)]
                  refine hs.drop i ?_ h2
                  simp only [List.mem_append, List.mem_singleton] at h1
                  exact h1.resolve_right hia
              · exact hs.keeps
      refine gen cur [] [] m (by simp) ⟨rfl, rfl, rfl, rfl, List.Sublist.refl _, fun _ _ => rfl, by simp, by simp⟩
    · rename_i hcond
      exact PruneSpec.id (fun _ h1 h2 => hcond ⟨h1, h2⟩)

/-- The part of a diagram that is not concerned by pruning, restricting or relaxing a layer. -/
structure RestSame (m m' : Dd σ) : Prop where
  rootPa : m'.rootPa = m.rootPa
  prevL : m'.prevL = m.prevL
  nextL : m'.nextL = m.nextL
  bestN : m'.bestN = m.bestN
  exact : m'.exact = m.exact
  cutsetType : m'.cutsetType = m.cutsetType
  updates : m'.updates = m.updates

/-- `i` has been merged into a node of the squashed layer. -/
structure Merged (v : Variant) (r : Relaxation σ) (S : Layering σ) (lv : Nat) (m : Dd σ) (cur' : List Nat) (i : Nat) : Prop where
  ex : ∃ mid ∈ cur', mid ≠ i ∧ (∃ l, (m.node mid).state = r.merge l ∧ (m.node i).state ∈ l ∧ ∀ s ∈ l, S.ok s ∧ S.lvl s = lv) ∧
    Covered r (m.node mid).state m m i mid ∧ (m.node mid).flags.isRelaxed = true
  del : v = .barrier → i ∉ cur' → (m.node i).flags.isDeleted = true

/-- Result of pruning and squashing a layer `P` into `cur'`. -/
structure Squashed (v : Variant) (p : Problem σ) (r : Relaxation σ) (S : Layering σ) (B : Int) (inp : Input σ) (rd : Reads σ)
    (m m' : Dd σ) (x rootDepth D lv : Nat) (prev P cur' : List Nat) : Prop where
  chain : ChainOK m'
  len : m.nodes.length ≤ m'.nodes.length
  pre : m.edges <+: m'.edges
  frame : ∀ j, j < m.nodes.length → j ∉ P → Agree (m.node j) (m'.node j) ∧ (m'.node j).rub = (m.node j).rub ∧
    (m'.node j).theta = (m.node j).theta
  restS : RestSame m m'
  mono : ∀ i ∈ P, (m'.node i).state = (m.node i).state ∧ ∀ e ∈ m.inIds i, e ∈ m'.inIds i
  nodeP : ∀ i ∈ P, NodeOK p B m' x prev i ∧ (m'.node i).depth = D ∧ (m'.node i).valueBot = isizeMin ∧
    (m'.node i).flags.isMarked = false
  cur : ∀ i ∈ cur', i < m'.nodes.length ∧ (i ∈ P ∨ m.nodes.length ≤ i) ∧ NodeOK p B m' x prev i ∧ Clean (m'.node i) ∧
    (m'.node i).depth = D ∧ (m'.node i).valueBot = isizeMin ∧ (m'.node i).theta = isizeMax ∧
    S.ok (m'.node i).state ∧ S.lvl (m'.node i).state = lv
  nodup : cur'.Nodup
  fresh : ∀ i, m.nodes.length ≤ i → i < m'.nodes.length → i ∈ cur' ∧ (m'.node i).flags.isRelaxed = true
  fate : ∀ i ∈ P, i ∈ cur' ∨ Pruned v rd rootDepth D m' i ∨
    (inp.compType = .relaxed ∧ m'.approximate = true ∧ Merged v r S lv m' cur' i) ∨
    (inp.compType = .restricted ∧ m'.approximate = true)
  merged : ∀ i ∈ P, (m'.node i).flags.isDeleted = true → Merged v r S lv m' cur' i
  relaxedOnly : ∀ i ∈ P, ((m'.node i).flags.isRelaxed = (m.node i).flags.isRelaxed ∧
    (m'.node i).flags.isExact = (m.node i).flags.isExact) ∨ (inp.compType = .relaxed ∧ m'.approximate = true)
  keepP : (inp.compType = .relaxed ∧ m'.approximate = true) ∨ ∀ i ∈ cur', i ∈ P
  nearRoot : inp.compType = .relaxed → D ≤ rootDepth + 1 → m'.approximate = m.approximate
  exactApp : inp.compType = .exact → m'.approximate = m.approximate
  app : m.approximate = true → m'.approximate = true
  /-- exact expansion: nothing lost but what the barrier pruned -/
  exactly : m.approximate = m'.approximate → (m.approximate = true ∨ ∀ i ∈ P, i ∈ cur' ∨ Pruned v rd rootDepth D m' i)
  cutset : (m'.cutset = m.cutset ∧ m'.lelDepth = m.lelDepth ∧
      (∀ j, j < m.nodes.length → j ∉ P → (m'.node j).flags.isCutset = (m.node j).flags.isCutset) ∧
      (m.approximate = false → m'.approximate = true → inp.compType = .relaxed → m.cutsetType = .frontier)) ∨
    (m.cutsetType = .lastExactLayer ∧ inp.compType = .relaxed ∧ m.approximate = false ∧ m'.approximate = true ∧ rootDepth + 1 < D ∧
      m'.cutset = m.cutset ++ m.prevL ∧ (m.prevL ≠ [] → m'.lelDepth.map (· + 1) = some D) ∧
      (∀ j, j < m.nodes.length → j ∉ P → (m'.node j).flags.isCutset = ((m.node j).flags.isCutset || decide (j ∈ m.prevL))))
  width : (inp.compType = .restricted → cur'.length ≤ inp.maxWidth) ∧
    (inp.compType = .relaxed → rootDepth + 1 < D → cur'.length ≤ inp.maxWidth)
  esrc : ∀ e' ∈ m'.edges, ∃ e ∈ m.edges, e.src = e'.src
  inx : m.approximate = false → m'.approximate = true → inp.compType = .relaxed →
    ∃ i ∈ cur', (m'.node i).flags.isRelaxed = true ∧ (m'.node i).flags.isExact = false

/-- Everything but the `deleted` and `cutset` flags. -/
structure NSame (n n' : Node σ) : Prop where
  state : n'.state = n.state
  value : n'.value = n.value
  best : n'.best = n.best
  inbound : n'.inbound = n.inbound
  depth : n'.depth = n.depth
  valueBot : n'.valueBot = n.valueBot
  theta : n'.theta = n.theta
  rub : n'.rub = n.rub
  exact : n'.flags.isExact = n.flags.isExact
  relaxed : n'.flags.isRelaxed = n.flags.isRelaxed
  marked : n'.flags.isMarked = n.flags.isMarked
  pruned : n'.flags.isPrunedByBarrier = n.flags.isPrunedByBarrier

theorem NSame.refl (n : Node σ) : NSame n n := ⟨rfl, rfl, rfl, rfl, rfl, rfl, rfl, rfl, rfl, rfl, rfl, rfl⟩
theorem NSame.trans {a b c : Node σ} (h : NSame a b) (h' : NSame b c) : NSame a c :=
  ⟨h'.state.trans h.state, h'.value.trans h.value, h'.best.trans h.best, h'.inbound.trans h.inbound,
   h'.depth.trans h.depth, h'.valueBot.trans h.valueBot, h'.theta.trans h.theta, h'.rub.trans h.rub, h'.exact.trans h.exact, h'.relaxed.trans h.relaxed,
   h'.marked.trans h.marked, h'.pruned.trans h.pruned⟩
theorem NSame.toN {n n' : Node σ} (h : NSame n n') : AgreeN n n' := ⟨h.state, h.value, h.best, h.inbound, h.exact, h.relaxed⟩

/-- What is known after the pruning step. -/
structure AfterPrune (v : Variant) (p : Problem σ) (S : Layering σ) (B : Int) (rd : Reads σ) (m m1 : Dd σ) (x rootDepth D lv : Nat)
    (prev P cur1 : List Nat) : Prop where
  chain : ChainOK m1
  edges : m1.edges = m.edges
  len : m1.nodes.length = m.nodes.length
  rest : m1.rest = m.rest
  upd : m1.updates = m.updates
  sub : ∀ i ∈ cur1, i ∈ P
  nodup : cur1.Nodup
  keep : ∀ j, j ∉ P ∨ j ∈ cur1 → m1.node j = m.node j
  inIds : ∀ j, m1.inIds j = m.inIds j
  edge : ∀ e, m1.edge e = m.edge e
  core : ∀ j, AgreeN (m.node j) (m1.node j) ∧ (m1.node j).depth = (m.node j).depth ∧ (m1.node j).valueBot = (m.node j).valueBot
  delF : ∀ i ∈ P, (m1.node i).flags.isDeleted = false
  node : ∀ i ∈ P, NodeOK p B m1 x prev i
  pruned : ∀ i ∈ P, i ∉ cur1 → Pruned v rd rootDepth D m1 i

theorem afterPrune {v : Variant} {p : Problem σ} {S : Layering σ} {B : Int} {rd : Reads σ} {m m1 : Dd σ} {x rootDepth D lv : Nat}
    {prev P cur cur1 : List Nat} (hin : LayerIn p S B m x D lv prev P) (hperm : cur.Perm P)
    (hp : PruneSpec v rd rootDepth D m m1 cur cur1) : AfterPrune v p S B rd m m1 x rootDepth D lv prev P cur1 := by
  have hmem : ∀ i, i ∈ cur ↔ i ∈ P := fun i => hperm.mem_iff
  have hcore : ∀ j, AgreeN (m.node j) (m1.node j) ∧ (m1.node j).depth = (m.node j).depth ∧ (m1.node j).valueBot = (m.node j).valueBot ∧
      (m1.node j).flags.isDeleted = (m.node j).flags.isDeleted := by
    intro j
    by_cases h1 : j ∈ cur
    · by_cases h2 : j ∈ cur1
      · rw [hp.keep j (Or.inr h2)]; exact ⟨⟨rfl, rfl, rfl, rfl, rfl, rfl⟩, rfl, rfl, rfl⟩
      · rw [(hp.drop j h1 h2).1]; exact ⟨⟨rfl, rfl, rfl, rfl, by simp, by simp⟩, rfl, rfl, by simp⟩
    · rw [hp.keep j (Or.inl h1)]; exact ⟨⟨rfl, rfl, rfl, rfl, rfl, rfl⟩, rfl, rfl, rfl⟩
  have hpre : m.edges <+: m1.edges := by rw [hp.edges]; exact List.prefix_rfl
  refine ⟨chainOK_of_same hin.chain hp.edges hp.len (fun j => (hcore j).1.inbound), hp.edges, hp.len, hp.rest, hp.upd,
    fun i hi => (hmem i).1 (hp.sub.subset hi), hp.sub.nodup (hperm.nodup_iff.2 hin.nodup), ?_, ?_, ?_,
    fun j => ⟨(hcore j).1, (hcore j).2.1, (hcore j).2.2.1⟩, ?_, ?_, ?_⟩
  · intro j hj
    refine hp.keep j ?_
    rcases hj with hj | hj
    · left; rw [hmem]; exact hj
    · exact Or.inr hj
  · intro j; unfold Dd.inIds; rw [hp.edges, (hcore j).1.inbound]
  · intro e; unfold Dd.edge; rw [hp.edges]
  · intro i hi; rw [(hcore i).2.2.2]; exact (hin.clean i hi).1.deleted
  · intro i hi; exact (hin.node i hi).frameN hin.chain (hin.lt i hi) hpre (hcore i).1 (fun j _ => (hcore j).1)
  · intro i hi hn
    obtain ⟨h1, h2, h3, h4, h5, h6⟩ := hp.drop i ((hmem i).2 hi) hn
    have hcl := (hin.clean i hi).1
    refine ⟨h4, h5, h6, ?_, ?_, ?_, ?_, ?_, ?_, ?_⟩
    · rw [h1]; simpa using h2
    · rw [h1]; exact h3
    · rw [h1]
    · rw [h1]; simp
    · rw [h1]; simpa using hcl.deleted
    · rw [h1]; simpa using hcl.cutset
    · rw [h1]; simpa using hcl.marked

theorem AfterPrune.frame {v : Variant} {p : Problem σ} {S : Layering σ} {B : Int} {rd : Reads σ} {m m1 : Dd σ} {x rootDepth D lv : Nat}
    {prev P cur1 : List Nat} (h : AfterPrune v p S B rd m m1 x rootDepth D lv prev P cur1) {j : Nat} (hj : j ∉ P) :
    m1.node j = m.node j := h.keep j (Or.inl hj)

theorem restSame_of_rest {m m' : Dd σ} (h : m'.rest = m.rest) (hu : m'.updates = m.updates) : RestSame m m' :=
  ⟨congrArg Rest.rootPa h, congrArg Rest.prevL h, congrArg Rest.nextL h, congrArg Rest.bestN h, congrArg Rest.exact h,
   congrArg Rest.cutsetType h, hu⟩

/-- Keeping a part `cur2` of the pruned layer (all of it, or a truncation). -/
theorem squashed_keep {v : Variant} {p : Problem σ} {r : Relaxation σ} {S : Layering σ} {B : Int} {inp : Input σ} {rd : Reads σ}
    {m m1 : Dd σ} {x rootDepth D lv : Nat} {prev P cur1 cur2 : List Nat} (b : Bool)
    (hin : LayerIn p S B m x D lv prev P) (ha : AfterPrune v p S B rd m m1 x rootDepth D lv prev P cur1)
    (hsub : ∀ i ∈ cur2, i ∈ cur1) (hnd : cur2.Nodup)
    (hb : (b = m.approximate ∧ ∀ i ∈ cur1, i ∈ cur2) ∨ (b = true ∧ inp.compType = .restricted))
    (hw : (inp.compType = .restricted → cur2.length ≤ inp.maxWidth) ∧
      (inp.compType = .relaxed → rootDepth + 1 < D → cur2.length ≤ inp.maxWidth)) :
    Squashed v p r S B inp rd m { m1 with approximate := b } x rootDepth D lv prev P cur2 := by
  have happ : m.approximate = true → b = true := by
    intro h; rcases hb with hb | hb
    · rw [hb.1]; exact h
    · exact hb.1
  have hnode : ∀ j, ({ m1 with approximate := b } : Dd σ).node j = m1.node j := fun _ => rfl
  have hin' : ∀ j, ({ m1 with approximate := b } : Dd σ).inIds j = m1.inIds j := fun _ => rfl
  have hedge : ∀ j, ({ m1 with approximate := b } : Dd σ).edge j = m1.edge j := fun _ => rfl
  have hNode : ∀ i ∈ P, NodeOK p B ({ m1 with approximate := b } : Dd σ) x prev i := fun i hi =>
    (ha.node i hi).frameN ha.chain (by rw [ha.len]; exact hin.lt i hi) List.prefix_rfl ⟨rfl, rfl, rfl, rfl, rfl, rfl⟩
      (fun _ _ => ⟨rfl, rfl, rfl, rfl, rfl, rfl⟩)
  have hpr : ∀ i, Pruned v rd rootDepth D m1 i → Pruned v rd rootDepth D ({ m1 with approximate := b } : Dd σ) i := fun i h =>
    ⟨h.bar, h.below, h.nonempty, h.nrel, h.le, h.theta, h.flag, h.del, h.cut, h.mark⟩
  have hct : m1.cutset = m.cutset := congrArg Rest.cutset ha.rest
  have hld : m1.lelDepth = m.lelDepth := congrArg Rest.lelDepth ha.rest
  refine ⟨⟨ha.chain.next, ha.chain.inb⟩, by rw [← ha.len]; exact Nat.le_refl _, by rw [← ha.edges]; exact List.prefix_rfl, ?_, ?_, ?_, ?_, ?_, hnd, ?_, ?_, ?_, ?_, ?_,
    ?_, ?_, happ, ?_, ?_, hw, fun e he => ⟨e, by rw [← ha.edges]; exact he, rfl⟩, ?_⟩
  · intro j _ hj; rw [hnode, ha.frame hj]; exact ⟨Agree.refl _, rfl, rfl⟩
  · have := restSame_of_rest ha.rest ha.upd
    exact ⟨this.rootPa, this.prevL, this.nextL, this.bestN, this.exact, this.cutsetType, this.updates⟩
  · intro i hi; rw [hnode, hin']; exact ⟨(ha.core i).1.state, fun e he => by rw [ha.inIds]; exact he⟩
  · intro i hi
    refine ⟨hNode i hi, ?_, ?_, ?_⟩
    · rw [hnode, (ha.core i).2.1]; exact (hin.clean i hi).2.1
    · rw [hnode, (ha.core i).2.2]; exact (hin.clean i hi).2.2.1
    · rw [hnode]
      by_cases h1 : i ∈ cur1
      · rw [ha.keep i (Or.inr h1)]; exact (hin.clean i hi).1.marked
      · exact (ha.pruned i hi h1).mark
  · intro i hi
    have hi1 := hsub i hi
    have hiP := ha.sub i hi1
    have hn : m1.node i = m.node i := ha.keep i (Or.inr hi1)
    have hc := hin.clean i hiP
    refine ⟨by simp only [ha.len]; exact hin.lt i hiP, Or.inl hiP, hNode i hiP, ?_⟩
    rw [hnode, hn]
    exact ⟨hc.1, hc.2.1, hc.2.2.1, hc.2.2.2, hin.st i hiP⟩
  · intro i h1 h2; simp only [ha.len] at h2; omega
  · intro i hi
    by_cases h1 : i ∈ cur1
    · rcases hb with hb | hb
      · exact Or.inl (hb.2 i h1)
      · exact Or.inr (Or.inr (Or.inr ⟨hb.2, hb.1⟩))
    · exact Or.inr (Or.inl (hpr i (ha.pruned i hi h1)))
  · intro i hi h
    rw [hnode, ha.delF i hi] at h; cases h
  · intro i hi; left; exact ⟨(ha.core i).1.relaxed, (ha.core i).1.exact⟩
  · right; intro i hi; exact ha.sub i (hsub i hi)
  · intro h5 _
    rcases hb with hb | hb
    · exact hb.1
    · rw [h5] at hb; cases hb.2
  · intro h5
    rcases hb with hb | hb
    · exact hb.1
    · rw [h5] at hb; cases hb.2
  · intro hab
    rcases hb with hb | hb
    · right; intro i hi
      by_cases h1 : i ∈ cur1
      · exact Or.inl (hb.2 i h1)
      · exact Or.inr (hpr i (ha.pruned i hi h1))
    · left; rw [hab]; exact hb.1
  · left
    refine ⟨hct, hld, fun j _ hj => by rw [hnode, ha.frame hj], ?_⟩
    intro h1 h2 h3
    rcases hb with hb | hb
    · have : b = true := h2
      rw [hb.1, h1] at this; cases this
    · rw [h3] at hb; cases hb.2
  · intro h1 h2 h3
    exfalso
    rcases hb with hb | hb
    · have : b = true := h2
      rw [hb.1, h1] at this; cases this
    · rw [h3] at hb; cases hb.2

theorem sortLayer_perm (o : Oracle σ) (ho : o.Valid) (rank : σ → σ → Ordering) (m : Dd σ) (l : List Nat) :
    (m.sortLayer o rank l).Perm l :=
  (sortBy_perm _ _).trans (ho.shuf l)

/-- Effect of recording the last exact layer. -/
structure LelSpec (m m' : Dd σ) : Prop where
  edges : m'.edges = m.edges
  len : m'.nodes.length = m.nodes.length
  upd : m'.updates = m.updates
  restS : m'.rootPa = m.rootPa ∧ m'.prevL = m.prevL ∧ m'.nextL = m.nextL ∧ m'.bestN = m.bestN ∧ m'.exact = m.exact ∧
    m'.cutsetType = m.cutsetType ∧ m'.approximate = m.approximate
  same : ∀ j, NSame (m.node j) (m'.node j) ∧ (m'.node j).flags.isDeleted = (m.node j).flags.isDeleted

theorem markLel_spec (m : Dd σ) (hlt : ∀ j ∈ m.prevL, j < m.nodes.length) :
    LelSpec m m.markLel ∧ m.markLel.cutset = m.cutset ++ m.prevL ∧
    (∀ D, m.prevL ≠ [] → (∀ j ∈ m.prevL, (m.node j).depth = D) → m.markLel.lelDepth = some D) ∧
    (∀ j, (m.markLel.node j).flags.isCutset = ((m.node j).flags.isCutset || decide (j ∈ m.prevL))) := by
  have gen : ∀ (todo pr : List Nat) (m1 : Dd σ), m.prevL = pr ++ todo → LelSpec m m1 → m1.cutset = m.cutset ++ pr →
      (∀ D, pr ≠ [] → (∀ j ∈ m.prevL, (m.node j).depth = D) → m1.lelDepth = some D) →
      (∀ j, (m1.node j).flags.isCutset = ((m.node j).flags.isCutset || decide (j ∈ pr))) →
      let f := todo.foldl (fun m i =>
        { m.modNode i (fun n => { n with flags := n.flags.setCutset true }) with
          cutset := m.cutset ++ [i]
          lelDepth := some (m.node i).depth }) m1
      LelSpec m f ∧ f.cutset = m.cutset ++ m.prevL ∧
      (∀ D, m.prevL ≠ [] → (∀ j ∈ m.prevL, (m.node j).depth = D) → f.lelDepth = some D) ∧
      (∀ j, (f.node j).flags.isCutset = ((m.node j).flags.isCutset || decide (j ∈ m.prevL))) := by
    intro todo
    induction todo with
    | nil => intro pr m1 h hs h1 h2 h3; simp at h; rw [h]; rw [h] at h2; exact ⟨hs, h1, h2, h3⟩
    | cons a todo ih =>
      intro pr m1 h hs h1 h2 h3
      have halt : a < m1.nodes.length := by rw [hs.len]; exact hlt a (by simp [h])
      simp only [List.foldl_cons]
      have hnode : ∀ j, (({ m1.modNode a (fun n => { n with flags := n.flags.setCutset true }) with
          cutset := m1.cutset ++ [a]
          lelDepth := some (m1.node a).depth } : Dd σ)).node j =
          if a = j then { m1.node j with flags := (m1.node j).flags.setCutset true } else m1.node j := by
        intro j
        change (m1.modNode a _).node j = _
        rw [node_modNode]
        by_cases hj : a = j
        · subst hj; simp [halt]
        · simp [hj]
      refine ih (pr ++ [a]) _ (by simp [h]) ?_ ?_ ?_ ?_
      · refine ⟨hs.edges, by simpa using hs.len, hs.upd, hs.restS, ?_⟩
        intro j
        rw [hnode]
        split
        · obtain ⟨h4, h5⟩ := hs.same j
          refine ⟨h4.trans ⟨rfl, rfl, rfl, rfl, rfl, rfl, rfl, rfl, by simp, by simp, by simp, by simp⟩, by simpa using h5⟩
        · exact hs.same j
      · simp [h1]
      · intro D _ hD
        simp only [(hs.same a).1.depth]
        rw [hD a (by simp [h])]
      · intro j
        rw [hnode]
        split
        · rename_i hj; subst hj; simp
        · rename_i hj; rw [h3]
          have : j ∈ pr ++ [a] ↔ j ∈ pr := by simp [Ne.symm hj]
          simp [this]
  exact gen m.prevL [] m (by simp) ⟨rfl, rfl, rfl, ⟨rfl, rfl, rfl, rfl, rfl, rfl, rfl⟩, fun _ => ⟨NSame.refl _, rfl⟩⟩ (by simp) (by simp) (by simp)

end Verif.Dd
