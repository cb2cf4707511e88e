import Verif.Proofs.Mdd.Squash
/-! Relaxing a layer. -/
set_option autoImplicit false

namespace Verif.Dd
open Verif Spec
variable {σ : Type} [DecidableEq σ] [Inhabited σ]

theorem NodeOK.toMid {p : Problem σ} {B : Int} {m : Dd σ} {x : Nat} {prev : List Nat} {i : Nat} (h : NodeOK p B m x prev i) :
    MidOK p B m x prev i := ⟨h.src, h.dec, h.cost_ge, h.cost_le, h.vge, Or.inr h.veq⟩

theorem MidOK.frame {p : Problem σ} {B : Int} {m m' : Dd σ} {x : Nat} {prev : List Nat} {i : Nat}
    (hedges : m'.edges = m.edges) (hinb : (m'.node i).inbound = (m.node i).inbound) (hv : (m'.node i).value = (m.node i).value)
    (hb : (m'.node i).best = (m.node i).best)
    (hprev : ∀ j ∈ prev, (m'.node j).state = (m.node j).state ∧ (m'.node j).value = (m.node j).value)
    (h : MidOK p B m x prev i) : MidOK p B m' x prev i := by
  have hin : m'.inIds i = m.inIds i := by unfold inIds; rw [hedges, hinb]
  have hed : ∀ e, m'.edge e = m.edge e := fun e => by unfold edge; rw [hedges]
  constructor
  · intro e he; rw [hin] at he; rw [hed]; exact h.src e he
  · intro e he; rw [hin] at he; rw [hed, (hprev _ (h.src e he)).1]; exact h.dec e he
  · intro e he; rw [hin] at he; rw [hed, (hprev _ (h.src e he)).1]; exact h.cost_ge e he
  · intro e he; rw [hin] at he; rw [hed]; exact h.cost_le e he
  · intro e he; rw [hin] at he; rw [hed, (hprev _ (h.src e he)).2, hv]; exact h.vge e he
  · rw [hin, hv, hb]
    rcases h.veq with h0 | ⟨b, hb1, hb2, hb3⟩
    · exact Or.inl h0
    · right; exact ⟨b, hb1, hb2, by rw [hed, (hprev _ (h.src b hb1)).2]; exact hb3⟩

/-- The common part of relaxing a layer: `m2` is the diagram right before the nodes of `merge` are merged into `mid`, `m3` is after that and
after the flags have been fixed. -/
theorem relax_core {v : Variant} {p : Problem σ} {r : Relaxation σ} {S : Layering σ} {B : Int} {inp : Input σ} {rd : Reads σ}
    {m m1 m2 m3 m4 : Dd σ} {x rootDepth D lv : Nat} {prev P cur1 cur2 merge : List Nat} {mid : Nat}
    (hin : LayerIn p S B m x D lv prev P) (ha : AfterPrune v p S B rd m m1 x rootDepth D lv prev P cur1)
    (hr : LayeredRelaxation p r S B) (hprevL : m.prevL = prev) (hcomp : inp.compType = .relaxed) (hD : rootDepth + 1 < D)
    -- m2 versus m1
    (h2e : m2.edges = m1.edges) (h2u : m2.updates = m1.updates)
    (h2r : m2.rootPa = m1.rootPa ∧ m2.prevL = m1.prevL ∧ m2.nextL = m1.nextL ∧ m2.bestN = m1.bestN ∧ m2.exact = m1.exact ∧
      m2.cutsetType = m1.cutsetType ∧ m2.approximate = true)
    (h2n : ∀ j, j < m1.nodes.length → j ≠ mid → NSame (m1.node j) (m2.node j) ∧
      (m2.node j).flags.isDeleted = (m1.node j).flags.isDeleted)
    (h2c : (m2.cutset = m1.cutset ∧ m2.lelDepth = m1.lelDepth ∧
        (∀ j, j < m1.nodes.length → (m2.node j).flags.isCutset = (m1.node j).flags.isCutset) ∧
        (m1.approximate = false → m1.cutsetType = .frontier)) ∨
      (m1.cutsetType = .lastExactLayer ∧ m1.approximate = false ∧ m2.cutset = m1.cutset ++ m1.prevL ∧
        (m1.prevL ≠ [] → m2.lelDepth.map (· + 1) = some D) ∧
        (∀ j, j < m1.nodes.length → (m2.node j).flags.isCutset = ((m1.node j).flags.isCutset || decide (j ∈ m1.prevL)))))
    -- the merged node
    (hmerge : ∀ i ∈ merge, i ∈ cur1) (hmnd : merge.Nodup) (hmne : merge ≠ []) (hmm : mid ∉ merge)
    (hmid : (mid ∈ cur1 ∧ m2.nodes.length = m1.nodes.length ∧ AgreeN (m1.node mid) { m2.node mid with flags := (m1.node mid).flags } ∧
              (m2.node mid).depth = (m1.node mid).depth ∧ (m2.node mid).valueBot = (m1.node mid).valueBot ∧
              (m2.node mid).theta = (m1.node mid).theta ) ∨
            (mid = m1.nodes.length ∧ m2.nodes.length = m1.nodes.length + 1 ∧ (m2.node mid).inbound = none ∧
              (m2.node mid).value = isizeMin ∧ (m2.node mid).depth = D ∧ (m2.node mid).valueBot = isizeMin ∧
              (m2.node mid).theta = isizeMax))
    (hmidst : (m2.node mid).state = r.merge (merge.map fun i => (m1.node i).state))
    (hmidf : (m2.node mid).flags.isRelaxed = true ∧ (m2.node mid).flags.isExact = false ∧
      (m2.node mid).flags.isMarked = false ∧ (m2.node mid).flags.isCutset = false ∧
      (m2.node mid).flags.isDeleted = false ∧ (m2.node mid).flags.isPrunedByBarrier = false)
    -- m3 and m4
    (h3 : m3 = merge.foldl (mergeOne v r (m2.node mid).state mid) m2)
    (h4e : m4.edges = m3.edges) (h4l : m4.nodes.length = m3.nodes.length) (h4r : m4.rest = m3.rest) (h4u : m4.updates = m3.updates)
    (h4n : ∀ j, NSame (m3.node j) (m4.node j) ∧ (m4.node j).flags.isCutset = (m3.node j).flags.isCutset)
    (h4d : ∀ j, (m4.node j).flags.isDeleted = (m3.node j).flags.isDeleted ∨ ((m4.node j).flags.isDeleted = false ∧ j ∈ cur2))
    (h4d' : ∀ j ∈ merge, j ∈ cur2 → (m4.node j).flags.isDeleted = false)
    -- the resulting layer
    (hcur2 : ∀ i ∈ cur2, i ∈ cur1 ∨ i = mid) (hmid2 : mid ∈ cur2) (hnd2 : cur2.Nodup)
    (hall : ∀ i ∈ cur1, i ∈ cur2 ∨ i ∈ merge)
    (hw : cur2.length ≤ inp.maxWidth) :
    Squashed v p r S B inp rd m m4 x rootDepth D lv prev P cur2 := by
  have hlen2 : m1.nodes.length ≤ m2.nodes.length := by rcases hmid with h | h <;> omega
  have hmidlt : mid < m2.nodes.length := by
    rcases hmid with h | h
    · rw [h.2.1, ha.len]; exact hin.lt mid (ha.sub mid h.1)
    · omega
  have hprevmid : ∀ j ∈ prev, j ≠ mid := by
    intro j hj
    have := hin.prevlt j hj
    rcases hmid with h | h
    · intro hh; exact this.2 (hh ▸ ha.sub mid h.1)
    · rw [ha.len] at h; omega
  have hprevlt1 : ∀ j ∈ prev, j < m1.nodes.length := fun j hj => by rw [ha.len]; exact (hin.prevlt j hj).1
  have hPlt1 : ∀ i ∈ P, i < m1.nodes.length := fun i hi => by rw [ha.len]; exact hin.lt i hi
  have hprev1 : ∀ j ∈ prev, m1.node j = m.node j := fun j hj => ha.frame (hin.prevlt j hj).2
  have hprev2 : ∀ j ∈ prev, NSame (m1.node j) (m2.node j) := fun j hj => (h2n j (hprevlt1 j hj) (hprevmid j hj)).1
  have hinb2 : ∀ j, j < m1.nodes.length → (m2.node j).inbound = (m1.node j).inbound := by
    intro j hj
    by_cases hjm : j = mid
    · rcases hmid with h | h
      · subst hjm; exact h.2.2.1.inbound
      · omega
    · exact (h2n j hj hjm).1.inbound
  have hed2 : ∀ e, m2.edge e = m1.edge e := fun e => by unfold edge; rw [h2e]
  have hin2 : ∀ j, j < m1.nodes.length → m2.inIds j = m1.inIds j := fun j hj => by unfold inIds; rw [h2e, hinb2 j hj]
  have hc2 : ChainOK m2 := by
    constructor
    · intro e he y hy; rw [h2e] at he; rw [hed2] at hy; exact ha.chain.next e he y hy
    · intro j hj y hy
      by_cases hj1 : j < m1.nodes.length
      · rw [hinb2 j hj1] at hy; rw [h2e]; exact ha.chain.inb j hj1 y hy
      · rcases hmid with h | h
        · omega
        · have : j = mid := by omega
          subst this; rw [h.2.2.1] at hy; cases hy
  have hmgP : ∀ i ∈ merge, i ∈ P := fun i hi => ha.sub i (hmerge i hi)
  have hmglt : ∀ i ∈ merge, i < m1.nodes.length := fun i hi => hPlt1 i (hmgP i hi)
  have hmgne : ∀ i ∈ merge, i ≠ mid := fun i hi hh => hmm (hh ▸ hi)
  have hmg1 : ∀ i ∈ merge, m1.node i = m.node i := fun i hi => ha.keep i (Or.inr (hmerge i hi))
  have hmgprev : ∀ i ∈ merge, i ∉ prev := fun i hi hh => (hin.prevlt i hh).2 (hmgP i hi)
  have hstate2 : ∀ i ∈ merge, (m2.node i).state = (m.node i).state := fun i hi => by
    rw [(h2n i (hmglt i hi) (hmgne i hi)).1.state, hmg1 i hi]
  have hInM : ∀ i ∈ merge, m2.inIds i = m.inIds i := fun i hi => by rw [hin2 i (hmglt i hi), ha.inIds]
  have hedM : ∀ e, m2.edge e = m.edge e := fun e => by rw [hed2, ha.edge]
  have hprevst2 : ∀ j ∈ prev, (m2.node j).state = (m.node j).state ∧ (m2.node j).value = (m.node j).value := fun j hj => by
    rw [(hprev2 j hj).state, (hprev2 j hj).value, hprev1 j hj]; exact ⟨rfl, rfl⟩
  let ml := merge.map fun i => (m1.node i).state
  have hml : ∀ s ∈ ml, S.ok s ∧ S.lvl s = lv := by
    intro s hs
    obtain ⟨i, hi, rfl⟩ := List.mem_map.1 hs
    simp only [hmg1 i hi]; exact hin.st i (hmgP i hi)
  have hmlne : ml ≠ [] := by simp [ml, hmne]
  -- merging
  have hMid2 : MidOK p B m2 x prev mid := by
    rcases hmid with h | h
    · have h0 := (ha.node mid (ha.sub mid h.1)).toMid
      refine h0.frame h2e ?_ ?_ ?_ ?_
      · exact h.2.2.1.inbound
      · exact h.2.2.1.value
      · exact h.2.2.1.best
      · intro j hj; exact ⟨(hprev2 j hj).state, (hprev2 j hj).value⟩
    · have hnil : m2.inIds mid = [] := by unfold inIds; rw [h.2.2.1]; exact chain_none _ _
      refine ⟨by simp [hnil], by simp [hnil], by simp [hnil], by simp [hnil], by simp [hnil], Or.inl ⟨hnil, h.2.2.2.1⟩⟩
  have hrelax : ∀ i ∈ merge, ∀ e ∈ m2.inIds i,
      (m2.edge e).cost ≤ r.relax (m2.node (m2.edge e).src).state (m2.node i).state (m2.node mid).state (m2.edge e).decision (m2.edge e).cost ∧
      r.relax (m2.node (m2.edge e).src).state (m2.node i).state (m2.node mid).state (m2.edge e).decision (m2.edge e).cost ≤ B := by
    intro i hi e he
    rw [hInM i hi] at he
    have hiP := hmgP i hi
    obtain ⟨r1, r2⟩ := hin.real i hiP e he
    have hs := (hin.node i hiP).src e he
    have hd := (hin.node i hiP).dec e he
    obtain ⟨q1, q2⟩ := hin.prevst _ hs
    rw [hedM, hstate2 i hi, (hprevst2 _ hs).1, hmidst, r1, r2]
    refine hr.relax_cost ml lv hml _ x _ q1 q2 hd ?_
    rw [← r1]
    exact List.mem_map.2 ⟨i, hi, by rw [hmg1 i hi]⟩
  have hM : Merging v p r (m2.node mid).state B m2 m3 x prev mid merge := by
    rw [h3]
    apply mergeAll hc2 hmidlt hprevmid merge hmnd hmgne (fun j hj => Nat.lt_of_lt_of_le (hmglt j hj) hlen2) hmgprev
    · intro j hj e he
      rw [hInM j hj] at he; rw [hedM]; exact (hin.node j (hmgP j hj)).src e he
    · intro j hj e he
      rw [hInM j hj] at he; rw [hedM, (hprevst2 _ ((hin.node j (hmgP j hj)).src e he)).1]
      exact (hin.node j (hmgP j hj)).dec e he
    · intro j hj e he
      rw [hInM j hj] at he; rw [hedM, (hprevst2 _ ((hin.node j (hmgP j hj)).src e he)).1]
      exact (hin.real j (hmgP j hj) e he).2
    · intro j hj e he; exact (hrelax j hj e he).1
    · intro j hj e he; exact (hrelax j hj e he).2
    · exact hMid2
  -- nodes of m4 other than mid versus m1
  have h41 : ∀ j, j < m1.nodes.length → j ≠ mid → NSame (m1.node j) (m4.node j) := by
    intro j hj hjm
    refine NSame.trans (h2n j hj hjm).1 (NSame.trans ?_ (h4n j).1)
    by_cases hjmg : j ∈ merge
    · have hd := hM.dropped j hjmg
      refine ⟨hd.state, hd.value, hd.best, hd.inbound, hd.depth, hd.valueBot, hd.theta, hd.rub, ?_, ?_, ?_, ?_⟩ <;>
      · rw [hd.flags]; cases v <;> simp
    · rw [hM.other j hjm hjmg]; exact NSame.refl _
  have hcut4 : ∀ j, j < m1.nodes.length → (m4.node j).flags.isCutset = (m2.node j).flags.isCutset := by
    intro j hj
    rw [(h4n j).2]
    by_cases hjm : j = mid
    · subst hjm; rw [hM.midS.flags]
    · by_cases hjmg : j ∈ merge
      · rw [(hM.dropped j hjmg).flags]; cases v <;> simp
      · rw [hM.other j hjm hjmg]
  have hpre14 : m1.edges <+: m4.edges := by rw [h4e, ← h2e]; exact hM.pre
  have hc4 : ChainOK m4 := chainOK_of_same hM.chain h4e h4l (fun j => (h4n j).1.inbound)
  have hin4 : ∀ j, j < m1.nodes.length → j ≠ mid → m4.inIds j = m1.inIds j := fun j hj hjm =>
    inIds_frame ha.chain hj hpre14 (h41 j hj hjm).inbound
  have hin43 : ∀ j, m4.inIds j = m3.inIds j := fun j => by unfold inIds; rw [h4e, (h4n j).1.inbound]
  have hed43 : ∀ e, m4.edge e = m3.edge e := fun e => by unfold edge; rw [h4e]
  have hmidN4 : MidSame (m2.node mid) (m3.node mid) := hM.midS
  have hrel4 : (m4.node mid).flags.isRelaxed = true := by rw [(h4n mid).1.relaxed, hmidN4.flags]; exact hmidf.1
  have hex4 : (m4.node mid).flags.isExact = false := by rw [(h4n mid).1.exact, hmidN4.flags]; exact hmidf.2.1
  -- the merged node is fine
  have hNmid : NodeOK p B m4 x prev mid := by
    have h0 : MidOK p B m4 x prev mid := hM.ok.frame h4e (h4n mid).1.inbound (h4n mid).1.value (h4n mid).1.best
      (fun j _ => ⟨(h4n j).1.state, (h4n j).1.value⟩)
    refine ⟨h0.src, h0.dec, h0.cost_ge, h0.cost_le, (by rw [hrel4]; intro h; cases h), h0.vge, ?_, (by rw [hex4]; intro h; cases h)⟩
    rcases h0.veq with h1 | h1
    · exfalso
      obtain ⟨i, hi⟩ := List.exists_mem_of_ne_nil merge hmne
      obtain ⟨b, hb, _⟩ := (hin.node i (hmgP i hi)).veq
      obtain ⟨e', he', _⟩ := hM.cov i hi b (by rw [hInM i hi]; exact hb)
      have h10 := h1.1
      rw [hin43] at h10
      rw [h10] at he'
      simp at he'
    · exact h1
  have hNode : ∀ i ∈ P, NodeOK p B m4 x prev i := by
    intro i hi
    by_cases him : i = mid
    · subst him; exact hNmid
    · exact (ha.node i hi).frameN ha.chain (hPlt1 i hi) hpre14 (h41 i (hPlt1 i hi) him).toN
        (fun j hj => (h41 j (hprevlt1 j hj) (hprevmid j hj)).toN)
  have happ4 : m4.approximate = true := by
    have := congrArg Rest.approximate (h4r.trans hM.rest)
    exact this.trans h2r.2.2.2.2.2.2
  have hmidP : mid ∈ P → mid ∈ cur1 := by
    intro h
    rcases hmid with h1 | h1
    · exact h1.1
    · have := hPlt1 mid h; omega
  have hmid_m : mid ∈ cur1 → m1.node mid = m.node mid := fun h => ha.keep mid (Or.inr h)
  have hstateP : ∀ i ∈ P, (m4.node i).state = (m.node i).state := by
    intro i hi
    by_cases him : i = mid
    · subst him
      rw [(h4n i).1.state, hmidN4.state]
      rcases hmid with h | h
      · have := h.2.2.1.state; simp only at this; rw [this]; exact (ha.core i).1.state
      · have := hPlt1 i hi; omega
    · rw [(h41 i (hPlt1 i hi) him).state]; exact (ha.core i).1.state
  have hmidst4 : (m4.node mid).state = r.merge ml := by rw [(h4n mid).1.state, hmidN4.state]; exact hmidst
  have hmerged : ∀ i ∈ merge, Merged v r S lv m4 cur2 i := by
    intro i hi
    have hilt := hmglt i hi
    have hine := hmgne i hi
    constructor
    · refine ⟨mid, hmid2, Ne.symm hine, ⟨ml, hmidst4, ?_, hml⟩, ?_, hrel4⟩
      · rw [(h41 i hilt hine).state]; exact List.mem_map.2 ⟨i, hi, rfl⟩
      · intro e he
        rw [hin4 i hilt hine] at he
        obtain ⟨e', he', k1, k2, k3⟩ := hM.cov i hi e (by rw [hin2 i hilt]; exact he)
        have hee : m4.edge e = m2.edge e := by
          rw [edge_frame hpre14 (inIds_lt ha.chain hilt he), hed2]
        have hsst : ∀ e ∈ m1.inIds i, (m4.node (m2.edge e).src).state = (m2.node (m2.edge e).src).state := by
          intro e he
          have hsp : (m2.edge e).src ∈ prev := by
            rw [ha.inIds] at he
            rw [hedM]; exact (hin.node i (hmgP i hi)).src e he
          rw [(h41 _ (hprevlt1 _ hsp) (hprevmid _ hsp)).state, (hprev2 _ hsp).state]
        have hist : (m4.node i).state = (m2.node i).state := by
          rw [(h41 i hilt hine).state, (h2n i hilt hine).1.state]
        exact ⟨e', by rw [hin43]; exact he', by rw [hee, hed43]; exact k1, by rw [hee, hed43]; exact k2, by rw [hee, hed43, k3, (h4n mid).1.state, hmidN4.state, hsst e he, hist]⟩
    · intro hv hic
      rcases h4d i with h | h
      · rw [h, (hM.dropped i hi).flags, hv]; simp
      · exact absurd h.2 hic
  have hdel4 : ∀ i ∈ P, i ∉ merge → (m4.node i).flags.isDeleted = false := by
    intro i hi him
    rcases h4d i with h | h
    · rw [h]
      by_cases hm : i = mid
      · subst hm; rw [hmidN4.flags]; exact hmidf.2.2.2.2.1
      · rw [hM.other i hm him, (h2n i (hPlt1 i hi) hm).2]; exact ha.delF i hi
    · exact h.1
  have hcut1 : ∀ i ∈ cur1, (m2.node i).flags.isCutset = false := by
    intro i hi
    have hiP := ha.sub i hi
    have hc : (m1.node i).flags.isCutset = false := by
      rw [ha.keep i (Or.inr hi)]; exact (hin.clean i hiP).1.cutset
    rcases h2c with h | h
    · rw [h.2.2.1 i (hPlt1 i hiP)]; exact hc
    · rw [h.2.2.2.2 i (hPlt1 i hiP), hc]
      have hpl : m1.prevL = prev := (congrArg Rest.prevL ha.rest).trans hprevL
      rw [hpl]
      have : i ∉ prev := fun hh => (hin.prevlt i hh).2 hiP
      simp [this]
  refine ⟨hc4, ?_, ?_, ?_, ?_, ?_, ?_, ?_, hnd2, ?_, ?_, ?_, ?_, Or.inl ⟨hcomp, happ4⟩, ?_, ?_, fun _ => happ4, ?_, ?_, ⟨?_, fun _ _ => hw⟩, fun e he => by
    rw [h4e] at he; rw [← ha.edges, ← h2e]; exact hM.esrc e he, fun _ _ _ => ⟨mid, hmid2, hrel4, hex4⟩⟩
  · rw [h4l, hM.len, ← ha.len]; exact hlen2
  · rw [← ha.edges]; exact hpre14
  · intro j hj hjP
    have hj1 : j < m1.nodes.length := by rw [ha.len]; exact hj
    have hjm : j ≠ mid := by
      rcases hmid with h | h
      · intro hh; exact hjP (hh ▸ ha.sub mid h.1)
      · omega
    have hjmg : j ∉ merge := fun hh => hjP (hmgP j hh)
    have hs := h41 j hj1 hjm
    rw [ha.frame hjP] at hs
    refine ⟨⟨hs.state, hs.value, hs.best, hs.inbound, hs.depth, hs.valueBot, hs.exact, hs.relaxed, hs.marked, ?_, hs.pruned⟩, hs.rub, hs.theta⟩
    rcases h4d j with h | h
    · rw [h, hM.other j hjm hjmg, (h2n j hj1 hjm).2, ha.frame hjP]
    · exfalso
      rcases hcur2 j h.2 with h5 | h5
      · exact hjP (ha.sub j h5)
      · exact hjm h5
  · have hr42 : m4.rest = m2.rest := h4r.trans hM.rest
    have hs1 := restSame_of_rest ha.rest ha.upd
    refine ⟨?_, ?_, ?_, ?_, ?_, ?_, ?_⟩
    · exact (congrArg Rest.rootPa hr42).trans (h2r.1.trans hs1.rootPa)
    · exact (congrArg Rest.prevL hr42).trans (h2r.2.1.trans hs1.prevL)
    · exact (congrArg Rest.nextL hr42).trans (h2r.2.2.1.trans hs1.nextL)
    · exact (congrArg Rest.bestN hr42).trans (h2r.2.2.2.1.trans hs1.bestN)
    · exact (congrArg Rest.exact hr42).trans (h2r.2.2.2.2.1.trans hs1.exact)
    · exact (congrArg Rest.cutsetType hr42).trans (h2r.2.2.2.2.2.1.trans hs1.cutsetType)
    · rw [h4u, hM.upd, h2u, ha.upd]
  · intro i hi
    refine ⟨hstateP i hi, ?_⟩
    intro e he
    rw [← ha.inIds] at he
    by_cases him : i = mid
    · subst him; rw [hin43]; exact hM.mono e (by rw [hin2 i (hPlt1 i hi)]; exact he)
    · rw [hin4 i (hPlt1 i hi) him]; exact he
  · intro i hi
    refine ⟨hNode i hi, ?_⟩
    have hc := (hin.clean i hi).2
    by_cases him : i = mid
    · subst him
      rw [(h4n i).1.depth, (h4n i).1.valueBot, hmidN4.depth, hmidN4.valueBot]
      rcases hmid with h | h
      · rw [h.2.2.2.1, h.2.2.2.2.1, hmid_m h.1]
        exact ⟨hc.1, hc.2.1, by rw [(h4n i).1.marked, hmidN4.flags]; exact hmidf.2.2.1⟩
      · have := hPlt1 i hi; omega
    · rw [(h41 i (hPlt1 i hi) him).depth, (h41 i (hPlt1 i hi) him).valueBot, (ha.core i).2.1, (ha.core i).2.2]
      refine ⟨hc.1, hc.2.1, ?_⟩
      rw [(h41 i (hPlt1 i hi) him).marked]
      by_cases h1 : i ∈ cur1
      · rw [ha.keep i (Or.inr h1)]; exact (hin.clean i hi).1.marked
      · exact (ha.pruned i hi h1).mark
  · intro i hi
    by_cases him : i = mid
    · subst him
      have hokm := hr.merge_ok ml lv hmlne hml
      refine ⟨by rw [h4l, hM.len]; exact hmidlt, ?_, hNmid, ?_, ?_⟩
      · rcases hmid with h | h
        · exact Or.inl (ha.sub i h.1)
        · right; rw [h.1, ha.len]; exact Nat.le_refl _
      · refine ⟨?_, ?_, ?_, ?_⟩
        · rw [(h4n i).1.marked, hmidN4.flags]; exact hmidf.2.2.1
        · rw [(h4n i).2, hmidN4.flags]; exact hmidf.2.2.2.1
        · rcases h4d i with h | h
          · rw [h, hmidN4.flags]; exact hmidf.2.2.2.2.1
          · exact h.1
        · rw [(h4n i).1.pruned, hmidN4.flags]; exact hmidf.2.2.2.2.2
      · rw [hmidst4, (h4n i).1.depth, (h4n i).1.valueBot, (h4n i).1.theta, hmidN4.depth, hmidN4.valueBot, hmidN4.theta]
        rcases hmid with h | h
        · have hc := hin.clean i (ha.sub i h.1)
          rw [h.2.2.2.1, h.2.2.2.2.1, h.2.2.2.2.2, hmid_m h.1]
          exact ⟨hc.2.1, hc.2.2.1, hc.2.2.2, hokm⟩
        · exact ⟨h.2.2.2.2.1, h.2.2.2.2.2.1, h.2.2.2.2.2.2, hokm⟩
    · have hi1 := (hcur2 i hi).resolve_right him
      have hiP := ha.sub i hi1
      have hs := h41 i (hPlt1 i hiP) him
      have hc := hin.clean i hiP
      have hn : m1.node i = m.node i := ha.keep i (Or.inr hi1)
      rw [hn] at hs
      refine ⟨?_, Or.inl hiP, hNode i hiP, ⟨?_, ?_, ?_, ?_⟩, ?_⟩
      · rw [h4l, hM.len]; exact Nat.lt_of_lt_of_le (hPlt1 i hiP) hlen2
      · rw [hs.marked]; exact hc.1.marked
      · rw [hcut4 i (hPlt1 i hiP)]; exact hcut1 i hi1
      · by_cases hmg : i ∈ merge
        · exact h4d' i hmg hi
        · exact hdel4 i hiP hmg
      · rw [hs.pruned]; exact hc.1.pruned
      · rw [hs.depth, hs.valueBot, hs.theta, hs.state]
        exact ⟨hc.2.1, hc.2.2.1, hc.2.2.2, hin.st i hiP⟩
  · intro i h1 h2
    rcases hmid with h | h
    · rw [h4l, hM.len, h.2.1, ha.len] at h2; omega
    · have : i = mid := by rw [h4l, hM.len, h.2.1, ha.len] at h2; rw [h.1, ha.len]; omega
      subst this; exact ⟨hmid2, hrel4⟩
  · intro i hi
    by_cases h1 : i ∈ cur1
    · rcases hall i h1 with h | h
      · exact Or.inl h
      · exact Or.inr (Or.inr (Or.inl ⟨hcomp, happ4, hmerged i h⟩))
    · right; left
      have hp := ha.pruned i hi h1
      have him : i ≠ mid := fun hh => h1 (hmidP (hh ▸ hi) |> fun h => by rw [hh]; exact h)
      have hs := h41 i (hPlt1 i hi) him
      have himg : i ∉ merge := fun hh => h1 (hmerge i hh)
      refine ⟨hp.bar, hp.below, hp.nonempty, ?_, ?_, ?_, ?_, hdel4 i hi himg, ?_, ?_⟩
      · rw [hs.relaxed]; exact hp.nrel
      · rw [hs.value, hs.state]; exact hp.le
      · rw [hs.theta, hs.state]; exact hp.theta
      · rw [hs.pruned]; exact hp.flag
      · rw [hcut4 i (hPlt1 i hi)]
        rcases h2c with h | h
        · rw [h.2.2.1 i (hPlt1 i hi)]; exact hp.cut
        · rw [h.2.2.2.2 i (hPlt1 i hi), hp.cut]
          have hpl : m1.prevL = prev := (congrArg Rest.prevL ha.rest).trans hprevL
          rw [hpl]
          have : i ∉ prev := fun hh => (hin.prevlt i hh).2 hi
          simp [this]
      · rw [hs.marked]; exact hp.mark
  · intro i hi hdel
    by_cases hmg : i ∈ merge
    · exact hmerged i hmg
    · rw [hdel4 i hi hmg] at hdel; cases hdel
  · intro i hi; exact Or.inr ⟨hcomp, happ4⟩
  · intro _ h5; omega
  · rw [hcomp]; intro h5; cases h5
  · intro h; left; rw [h]; exact happ4
  · have hct := congrArg Rest.cutset (h4r.trans hM.rest)
    have hld := congrArg Rest.lelDepth (h4r.trans hM.rest)
    have h1ct : m1.cutset = m.cutset := congrArg Rest.cutset ha.rest
    have h1ld : m1.lelDepth = m.lelDepth := congrArg Rest.lelDepth ha.rest
    have h1ap : m1.approximate = m.approximate := congrArg Rest.approximate ha.rest
    have h1ty : m1.cutsetType = m.cutsetType := congrArg Rest.cutsetType ha.rest
    have h1pl : m1.prevL = m.prevL := congrArg Rest.prevL ha.rest
    rcases h2c with h | h
    · left
      refine ⟨hct.trans (h.1.trans h1ct), hld.trans (h.2.1.trans h1ld), ?_, ?_⟩
      · intro j hj hjP
        rw [hcut4 j (by rw [ha.len]; exact hj), h.2.2.1 j (by rw [ha.len]; exact hj), ha.frame hjP]
      · intro h5 _ _; rw [← h1ty]; exact h.2.2.2 (h1ap.trans h5)
    · right
      refine ⟨h1ty ▸ h.1, hcomp, h1ap ▸ h.2.1, happ4, hD, ?_, ?_, ?_⟩
      · refine hct.trans ?_
        change m2.cutset = _
        rw [h.2.2.1, h1ct, h1pl]
      · intro h5
        have : m4.lelDepth = m2.lelDepth := hld
        rw [this]; exact h.2.2.2.1 (by rw [h1pl]; exact h5)
      · intro j hj hjP
        rw [hcut4 j (by rw [ha.len]; exact hj), h.2.2.2.2 j (by rw [ha.len]; exact hj), ha.frame hjP, h1pl]
  · rw [hcomp]; intro h; cases h

theorem find?_getD_mem {l : List Nat} {q : Nat → Bool} {i : Nat} (h : l.find? q = some i) : i ∈ l ∧ q i = true :=
  ⟨List.mem_of_find?_eq_some h, List.find?_some h⟩

theorem relaxLayer_spec {v : Variant} {o : Oracle σ} {rank : σ → σ → Ordering} {p : Problem σ} {r : Relaxation σ} {S : Layering σ} {B : Int} {inp : Input σ} {rd : Reads σ}
    {m m1 : Dd σ} {x rootDepth D lv : Nat} {prev P cur1 : List Nat} (ho : o.Valid)
    (hin : LayerIn p S B m x D lv prev P) (ha : AfterPrune v p S B rd m m1 x rootDepth D lv prev P cur1)
    (hr : LayeredRelaxation p r S B) (hprevL : m.prevL = prev) (hcomp : inp.compType = .relaxed) (hD : rootDepth + 1 < D)
    (hw : 1 ≤ inp.maxWidth) (hlen : inp.maxWidth < cur1.length) :
    ∃ m4 cur2, m1.relaxLayer v o rank r inp.maxWidth cur1 = some (m4, cur2) ∧
      Squashed v p r S B inp rd m m4 x rootDepth D lv prev P cur2 := by
  unfold relaxLayer
  rw [if_neg (by omega)]
  obtain ⟨w, hwd⟩ : ∃ w, w = inp.maxWidth := ⟨_, rfl⟩
  rw [← hwd] at hw hlen ⊢
  -- the last exact layer
  obtain ⟨ml, hml⟩ : ∃ ml, ml = (if m1.cutsetType = .lastExactLayer ∧ m1.approximate = false then m1.markLel else m1) := ⟨_, rfl⟩
  have hp1 : m1.prevL = prev := (congrArg Rest.prevL ha.rest).trans hprevL
  have hp1lt : ∀ j ∈ m1.prevL, j < m1.nodes.length := fun j hj => by rw [hp1] at hj; rw [ha.len]; exact (hin.prevlt j hj).1
  have hmls := markLel_spec m1 hp1lt
  have hL : LelSpec m1 ml := by
    rw [hml]; split
    · exact hmls.1
    · exact ⟨rfl, rfl, rfl, ⟨rfl, rfl, rfl, rfl, rfl, rfl, rfl⟩, fun _ => ⟨NSame.refl _, rfl⟩⟩
  have hLc : (ml.cutset = m1.cutset ∧ ml.lelDepth = m1.lelDepth ∧
        (∀ j, (ml.node j).flags.isCutset = (m1.node j).flags.isCutset) ∧
        (m1.approximate = false → m1.cutsetType = .frontier)) ∨
      (m1.cutsetType = .lastExactLayer ∧ m1.approximate = false ∧ ml.cutset = m1.cutset ++ m1.prevL ∧
        (m1.prevL ≠ [] → ml.lelDepth.map (· + 1) = some D) ∧
        (∀ j, (ml.node j).flags.isCutset = ((m1.node j).flags.isCutset || decide (j ∈ m1.prevL)))) := by
    rw [hml]
    by_cases hc : m1.cutsetType = .lastExactLayer ∧ m1.approximate = false
    · rw [if_pos hc]
      right
      refine ⟨hc.1, hc.2, hmls.2.1, ?_, hmls.2.2.2⟩
      intro hne
      rw [hmls.2.2.1 (D - 1) hne]
      · simp; omega
      · intro j hj
        rw [hp1] at hj
        have h1 := hin.prevdepth j hj
        rw [ha.frame (hin.prevlt j hj).2]; omega
    · rw [if_neg hc]
      left
      refine ⟨rfl, rfl, fun _ => rfl, ?_⟩
      intro h
      cases hct : m1.cutsetType with
      | frontier => rfl
      | lastExactLayer => exact absurd ⟨hct, h⟩ hc
  rw [← hml]
  simp only []
  obtain ⟨ma, hma⟩ : ∃ ma : Dd σ, ma = { ml with approximate := true } := ⟨_, rfl⟩
  rw [← hma]
  have hman : ∀ j, ma.node j = ml.node j := fun j => by rw [hma]; rfl
  have hmae : ma.edges = m1.edges := by rw [hma]; exact hL.edges
  have hmal : ma.nodes.length = m1.nodes.length := by rw [hma]; exact hL.len
  obtain ⟨cs, hcs⟩ : ∃ cs, cs = ma.sortLayer o rank cur1 := ⟨_, rfl⟩
  have hperm : cs.Perm cur1 := by rw [hcs]; exact sortLayer_perm o ho rank ma cur1
  have hcsl : cs.length = cur1.length := hperm.length_eq
  have hcsnd : cs.Nodup := hperm.nodup_iff.2 ha.nodup
  have hcsm : ∀ i, i ∈ cs ↔ i ∈ cur1 := fun i => hperm.mem_iff
  rw [← hcs]
  have hsplit : cs.take (w-1) ++ cs.drop (w-1) = cs := List.take_append_drop _ _
  have hkm : ∀ i ∈ cs.take (w-1), i ∈ cur1 := fun i hi => (hcsm i).1 (List.mem_of_mem_take hi)
  have hmm : ∀ i ∈ cs.drop (w-1), i ∈ cur1 := fun i hi => (hcsm i).1 (List.mem_of_mem_drop hi)
  have hdisj : ∀ i ∈ cs.take (w-1), i ∉ cs.drop (w-1) := by
    intro i h1 h2
    rw [← hsplit, List.nodup_append] at hcsnd
    exact hcsnd.2.2 i h1 i h2 rfl
  have hmnd : (cs.drop (w-1)).Nodup := List.Sublist.nodup (List.drop_sublist _ _) hcsnd
  have hknd : (cs.take (w-1)).Nodup := List.Sublist.nodup (List.take_sublist _ _) hcsnd
  have hmne : cs.drop (w-1) ≠ [] := by
    intro h; have := congrArg List.length h; simp at this; omega
  have hlt1 : ∀ i ∈ cur1, i < m1.nodes.length := fun i hi => by rw [ha.len]; exact hin.lt i (ha.sub i hi)
  have hmst : ((cs.drop (w-1)).map fun i => (ma.node i).state) = (cs.drop (w-1)).map fun i => (m1.node i).state := by
    apply List.map_congr_left
    intro i hi; rw [hman, (hL.same i).1.state]
  generalize hmg : r.merge ((cs.drop (w-1)).map fun i => (ma.node i).state) = merged
  rw [hmst] at hmg
  have happ : ma.approximate = true := by rw [hma]
  have hall2 : ∀ i ∈ cur1, i ∈ cs.take (w-1) ∨ i ∈ cs.drop (w-1) := by
    intro i hi; rw [← hcsm, ← hsplit] at hi; exact List.mem_append.1 hi
  have h2r' : ma.rootPa = m1.rootPa ∧ ma.prevL = m1.prevL ∧ ma.nextL = m1.nextL ∧ ma.bestN = m1.bestN ∧ ma.exact = m1.exact ∧
      ma.cutsetType = m1.cutsetType ∧ ma.approximate = true := by
    rw [hma]; obtain ⟨a, b, c, d, e, f, g⟩ := hL.restS; exact ⟨a, b, c, d, e, f, rfl⟩
  have h2u' : ma.updates = m1.updates := by rw [hma]; exact hL.upd
  cases hrec : (cs.take (w-1)).find? (fun i => decide ((ma.node i).state = merged)) with
  | some mid =>
    obtain ⟨hmidk, hmids⟩ := find?_getD_mem hrec
    have hmids : (ma.node mid).state = merged := by simpa using hmids
    have hmidc := hkm mid hmidk
    have hmidlt := hlt1 mid hmidc
    simp only [Option.getD_some]
    obtain ⟨m2, hm2⟩ : ∃ m2 : Dd σ, m2 = ma.modNode mid fun n => { n with flags := n.flags.setRelaxed true } := ⟨_, rfl⟩
    rw [← hm2]
    have hm2n : ∀ j, j ≠ mid → m2.node j = ml.node j := fun j hj => by rw [hm2, node_modNode_ne _ _ (Ne.symm hj), hman]
    have hm2m : m2.node mid = { ml.node mid with flags := (ml.node mid).flags.setRelaxed true } := by
      rw [hm2, node_modNode_self _ _ (by omega), hman]
    have hcl : Clean (m1.node mid) := by rw [ha.keep mid (Or.inr hmidc)]; exact (hin.clean mid (ha.sub mid hmidc)).1
    have hmidnp : mid ∉ m1.prevL := fun h => (hin.prevlt mid (hp1 ▸ h)).2 (ha.sub mid hmidc)
    have hmidcut : (ml.node mid).flags.isCutset = false := by
      rcases hLc with h | h
      · rw [h.2.2.1]; exact hcl.cutset
      · rw [h.2.2.2.2]; simp [hcl.cutset, hmidnp]
    obtain ⟨m3, hm3⟩ : ∃ m3, m3 = (cs.drop (w-1)).foldl (mergeOne v r merged mid) m2 := ⟨_, rfl⟩
    rw [← hm3]
    have hm2s : (m2.node mid).state = merged := by rw [hm2m, ← hmids, hman]
    have hm2cut : ∀ j, (m2.node j).flags.isCutset = (ml.node j).flags.isCutset := fun j => by
      by_cases hj : j = mid
      · subst hj; rw [hm2m]; simp
      · rw [hm2n j hj]
    have hmlm := (hL.same mid).1
    have hfin : ∀ m4 : Dd σ, m4.edges = m3.edges → m4.nodes.length = m3.nodes.length → m4.rest = m3.rest → m4.updates = m3.updates →
        (∀ j, NSame (m3.node j) (m4.node j) ∧ (m4.node j).flags.isCutset = (m3.node j).flags.isCutset) →
        (∀ j, (m4.node j).flags.isDeleted = (m3.node j).flags.isDeleted ∨ ((m4.node j).flags.isDeleted = false ∧ j ∈ cs.take w)) →
        (∀ j ∈ cs.drop (w-1), j ∈ cs.take w → (m4.node j).flags.isDeleted = false) →
        Squashed v p r S B inp rd m m4 x rootDepth D lv prev P (cs.take w) := by
      intro m4 g1 g2 g3 g4 g5 g6 g7
      refine relax_core (m2 := m2) (m3 := m3) (mid := mid) (merge := cs.drop (w-1)) hin ha hr hprevL hcomp hD ?_ ?_ ?_ ?_ ?_ hmm hmnd hmne
        (hdisj mid hmidk) ?_ ?_ ?_ ?_ g1 g2 g3 g4 g5 g6 g7 ?_ ?_ ?_ ?_ ?_
      · rw [hm2, modNode_edges, hmae]
      · rw [hm2]; exact h2u'
      · rw [hm2]; exact h2r'
      · intro j hj hjm; rw [hm2n j hjm]; exact hL.same j
      · rcases hLc with h | h
        · left
          refine ⟨by rw [hm2, ← h.1]; simp [modNode, hma], by rw [hm2, ← h.2.1]; simp [modNode, hma], ?_, h.2.2.2⟩
          intro j _; rw [hm2cut]; exact h.2.2.1 j
        · right
          refine ⟨h.1, h.2.1, by rw [hm2, ← h.2.2.1]; simp [modNode, hma], ?_, ?_⟩
          · intro hne
            have := h.2.2.2.1 hne
            rw [hm2]; simpa [modNode, hma] using this
          · intro j _; rw [hm2cut]; exact h.2.2.2.2 j
      · left
        refine ⟨hmidc, by rw [hm2]; simp [hmal], ⟨?_, ?_, ?_, ?_, rfl, rfl⟩, ?_, ?_, ?_⟩ <;> simp only [hm2m]
        · exact hmlm.state
        · exact hmlm.value
        · exact hmlm.best
        · exact hmlm.inbound
        · exact hmlm.depth
        · exact hmlm.valueBot
        · exact hmlm.theta
      · rw [hm2s, hmg]
      · rw [hm2m]
        have hdl := (hL.same mid).2
        refine ⟨by simp, by simp [NodeFlags.isExact_setRelaxed_true], ?_, ?_, ?_, ?_⟩
        · simpa [hmlm.marked] using hcl.marked
        · simpa using hmidcut
        · simpa [hdl] using hcl.deleted
        · simpa [hmlm.pruned] using hcl.pruned
      · rw [hm2s]; exact hm3
      · intro i hi; left; exact (hcsm i).1 (List.mem_of_mem_take hi)
      · exact (List.take_sublist_take_left (by omega)).subset hmidk
      · exact List.Sublist.nodup (List.take_sublist _ _) hcsnd
      · intro i hi
        rcases hall2 i hi with h | h
        · left; exact (List.take_sublist_take_left (by omega)).subset h
        · exact Or.inr h
      · rw [List.length_take, ← hwd]; omega
    have hposw : (cs.take w).getD (w-1) 0 = cs.getD (w-1) 0 := by
      rw [List.getD_eq_getElem?_getD, List.getD_eq_getElem?_getD, List.getElem?_take, if_pos (by omega)]
    have hdropcons : ∃ rest, cs.drop (w-1) = cs.getD (w-1) 0 :: rest := by
      have hl : w - 1 < cs.length := by omega
      refine ⟨cs.drop w, ?_⟩
      rw [List.drop_eq_getElem_cons hl, show w - 1 + 1 = w by omega]
      simp [List.getD_eq_getElem?_getD, hl]
    have htake : ∀ j ∈ cs.drop (w-1), j ∈ cs.take w → j = cs.getD (w-1) 0 := by
      intro j hj hjt
      have hl : w - 1 < cs.length := by omega
      have : cs.take w = cs.take (w-1) ++ [cs.getD (w-1) 0] := by
        have h5 := List.take_append_getElem (l := cs) (i := w-1) hl
        rw [show w - 1 + 1 = w by omega] at h5
        rw [← h5]; simp [List.getD_eq_getElem?_getD, hl]
      rw [this] at hjt
      rcases List.mem_append.1 hjt with h | h
      · exact absurd hj (hdisj j h)
      · simpa using h
    -- facts about m3
    cases v with
    | all =>
      refine ⟨_, _, rfl, hfin m3 rfl rfl rfl rfl (fun j => ⟨NSame.refl _, rfl⟩) (fun _ => Or.inl rfl) ?_⟩
      intro j hj _
      have hflag : ∀ (l : List Nat) (mm : Dd σ), ((l.foldl (mergeOne .all r merged mid) mm).node j).flags = (mm.node j).flags := by
        intro l
        induction l with
        | nil => intro mm; rfl
        | cons a l ih =>
          intro mm
          rw [List.foldl_cons, ih]
          unfold mergeOne
          simp only []
          generalize mm.inIds a = es
          induction es generalizing mm with
          | nil => rfl
          | cons e es ih2 =>
            rw [List.foldl_cons, ih2]
            unfold redirect
            simp only []
            split
            all_goals
              simp only [node_modNode]
              repeat' split
              all_goals rfl
      rw [hm3, hflag]
      have hjm : j ≠ mid := fun hh => hdisj mid hmidk (hh ▸ hj)
      rw [hm2n j hjm, (hL.same j).2]
      exact ha.delF j (ha.sub j (hmm j hj))
    | barrier =>
      refine ⟨_, _, rfl, hfin _ rfl ?_ rfl rfl ?_ ?_ ?_⟩
      · simp
      · intro j
        rw [node_modNode]
        split
        · exact ⟨⟨rfl, rfl, rfl, rfl, rfl, rfl, rfl, rfl, by simp, by simp, by simp, by simp⟩, by simp⟩
        · exact ⟨NSame.refl _, rfl⟩
      · intro j
        rw [node_modNode]
        split
        · rename_i h
          right
          refine ⟨by simp, ?_⟩
          rw [← h.1]
          have hl : w - 1 < (cs.take w).length := by simp; omega
          rw [List.getD_eq_getElem?_getD, List.getElem?_eq_getElem hl]
          exact List.getElem_mem hl
        · left; rfl
      · intro j hj hjt
        have hjeq := htake j hj hjt
        have hjlt : j < m3.nodes.length := by
          have hlenf : ∀ (l : List Nat) (mm : Dd σ), (l.foldl (mergeOne .barrier r merged mid) mm).nodes.length = mm.nodes.length := by
            intro l
            induction l with
            | nil => intro mm; rfl
            | cons a l ih =>
              intro mm
              rw [List.foldl_cons, ih]
              unfold mergeOne
              simp only []
              generalize Dd.inIds (σ := σ) _ a = es
              have : ∀ (es : List Nat) (mm : Dd σ), (es.foldl (redirect r merged mid a) mm).nodes.length = mm.nodes.length := by
                intro es
                induction es with
                | nil => intro mm; rfl
                | cons e es ih2 =>
                  intro mm
                  rw [List.foldl_cons, ih2]
                  unfold redirect
                  simp only []
                  split <;> simp
              rw [this]; simp
          rw [hm3, hlenf, hm2]; simp only [modNode_length, hmal]; exact hlt1 j (hmm j hj)
        rw [hposw, ← hjeq, node_modNode_self _ _ hjlt]
        simp
  | none =>
    simp only [Option.getD_none]
    obtain ⟨mb, hmb⟩ : ∃ mb : Dd σ, mb = { ma with nodes := ma.nodes ++ [
        { state := merged, value := isizeMin, best := none, inbound := none,
          depth := (ma.node ((cs.drop (w-1)).headD 0)).depth, valueBot := isizeMin, theta := isizeMax, rub := isizeMax,
          flags := NodeFlags.newRelaxed }] } := ⟨_, rfl⟩
    have hmb' : mb = { ml with
        approximate := true
        nodes := ml.nodes ++ [
        { state := merged, value := isizeMin, best := none, inbound := none,
          depth := (ma.node ((cs.drop (w-1)).headD 0)).depth, valueBot := isizeMin, theta := isizeMax, rub := isizeMax,
          flags := NodeFlags.newRelaxed }] } := by
      rw [hmb]; congr 1 <;> rw [hma]
    rw [← hmb', show ml.nodes.length = ma.nodes.length by rw [hma]]
    obtain ⟨mid, hmid⟩ : ∃ mid, mid = ma.nodes.length := ⟨_, rfl⟩
    rw [← hmid]
    obtain ⟨m2, hm2⟩ : ∃ m2 : Dd σ, m2 = mb.modNode mid fun n => { n with flags := n.flags.setRelaxed true } := ⟨_, rfl⟩
    rw [← hm2]
    have hmbl : mb.nodes.length = mid + 1 := by rw [hmb, hmid]; simp
    have hmbn : ∀ j, j < mid → mb.node j = ml.node j := fun j hj => by
      rw [hmb, ← hman]; unfold node; exact getD_append_lt _ _ _ (by omega)
    have hmbm : mb.node mid = {
        state := merged
        value := isizeMin
        best := none
        inbound := none
        depth := (ma.node ((cs.drop (w-1)).headD 0)).depth
        valueBot := isizeMin
        theta := isizeMax
        rub := isizeMax
        flags := NodeFlags.newRelaxed } := by
      rw [hmb, hmid]; unfold node; exact getD_append_len _ _ _
    have hm2n : ∀ j, j < mid → m2.node j = ml.node j := fun j hj => by rw [hm2, node_modNode_ne _ _ (by omega), hmbn j hj]
    have hm2m : m2.node mid = { mb.node mid with flags := (mb.node mid).flags.setRelaxed true } := by
      rw [hm2, node_modNode_self _ _ (by omega)]
    have hm2s : (m2.node mid).state = merged := by rw [hm2m, hmbm]
    have hdep : (ma.node ((cs.drop (w-1)).headD 0)).depth = D := by
      obtain ⟨a, l, hal⟩ := List.exists_cons_of_ne_nil hmne
      rw [hal]
      have hac := hmm a (by rw [hal]; simp)
      simp only [List.headD_cons]
      rw [hman, (hL.same a).1.depth, ha.keep a (Or.inr hac)]
      exact (hin.clean a (ha.sub a hac)).2.1
    have hmidm1 : mid = m1.nodes.length := by rw [hmid, hmal]
    have hnotin : mid ∉ cs := fun h => by have := hlt1 mid ((hcsm mid).1 h); omega
    refine ⟨_, _, rfl, ?_⟩
    refine relax_core (m2 := m2) (m3 := _) (mid := mid) (merge := cs.drop (w-1)) hin ha hr hprevL hcomp hD ?_ ?_ ?_ ?_ ?_ hmm hmnd hmne
        ?_ ?_ ?_ ?_ rfl ?_ ?_ ?_ ?_ ?_ ?_ ?_ ?_ ?_ ?_ ?_ ?_
    · rw [hm2, modNode_edges, hmb]; exact hmae
    · rw [hm2, hmb]; exact h2u'
    · rw [hm2, hmb]; exact h2r'
    · intro j hj hjm; rw [hm2n j (by omega)]; exact hL.same j
    · rcases hLc with h | h
      · left
        refine ⟨by rw [hm2, ← h.1]; simp [modNode, hmb, hma], by rw [hm2, ← h.2.1]; simp [modNode, hmb, hma], ?_, h.2.2.2⟩
        intro j hj; rw [hm2n j (by omega)]; exact h.2.2.1 j
      · right
        refine ⟨h.1, h.2.1, by rw [hm2, ← h.2.2.1]; simp [modNode, hmb, hma], ?_, ?_⟩
        · intro hne
          have := h.2.2.2.1 hne
          rw [hm2]; simpa [modNode, hmb, hma] using this
        · intro j hj; rw [hm2n j (by omega)]; exact h.2.2.2.2 j
    · intro h; exact hnotin (List.mem_of_mem_drop h)
    · right
      refine ⟨hmidm1, by rw [hm2]; simp [hmbl]; omega, ?_, ?_, ?_, ?_, ?_⟩ <;> simp only [hm2m, hmbm]
      exact hdep
    · rw [hm2s, hmg]
    · rw [hm2m, hmbm]; simp only []; decide
    · rw [hm2s]
    · rw [hm2s]
    · rw [hm2s]
    · rw [hm2s]
    · intro j; rw [hm2s]; exact ⟨NSame.refl _, rfl⟩
    · intro j; rw [hm2s]; exact Or.inl rfl
    · intro j hj hj2
      rcases List.mem_append.1 hj2 with h | h
      · exact absurd hj (hdisj j h)
      · simp only [List.mem_singleton] at h; subst h; exact absurd (List.mem_of_mem_drop hj) hnotin
    · intro i hi
      rcases List.mem_append.1 hi with h | h
      · exact Or.inl (hkm i h)
      · right; simpa using h
    · simp
    · rw [List.nodup_append]
      refine ⟨hknd, by simp, ?_⟩
      intro a h1 b h2 hab
      simp only [List.mem_singleton] at h2
      subst hab; subst h2; exact hnotin (List.mem_of_mem_take h1)
    · intro i hi
      rcases hall2 i hi with h | h
      · left; exact List.mem_append_left _ h
      · exact Or.inr h
    · rw [List.length_append, List.length_take, ← hwd]; simp; omega

/-- Pruning then squashing a completed layer. -/
theorem squash_spec {v : Variant} {o : Oracle σ} {rank : σ → σ → Ordering} {p : Problem σ} {r : Relaxation σ} {S : Layering σ} {B : Int} {inp : Input σ} {rd : Reads σ}
    {m m1 : Dd σ} {x rootDepth D lv : Nat} {prev P cur1 cur : List Nat} (ho : o.Valid)
    (hin : LayerIn p S B m x D lv prev P) (hperm : cur.Perm P) (hpl : m.pruneLayer v rd rootDepth D cur = (m1, cur1))
    (hr : inp.compType = .relaxed → LayeredRelaxation p r S B) (hprevL : m.prevL = prev)
    (hw : inp.compType = .relaxed → 1 ≤ inp.maxWidth) :
    ∃ m4 cur2, m1.squashLayer v o rank r inp rootDepth D cur1 = some (m4, cur2) ∧
      Squashed v p r S B inp rd m m4 x rootDepth D lv prev P cur2 := by
  have hps := pruneLayer_spec v rd rootDepth D m cur (hperm.nodup_iff.2 hin.nodup)
    (fun i hi => hin.lt i (hperm.mem_iff.1 hi))
  rw [hpl] at hps
  have ha := afterPrune (S := S) (lv := lv) (p := p) (B := B) hin hperm hps
  have happ : m1.approximate = m.approximate := congrArg Rest.approximate ha.rest
  have heta : ({ m1 with approximate := m.approximate } : Dd σ) = m1 := by rw [← happ]
  unfold squashLayer
  cases hct : inp.compType with
  | exact =>
    refine ⟨_, _, rfl, ?_⟩
    have := squashed_keep (r := r) (inp := inp) (cur2 := cur1) m.approximate hin ha (fun _ h => h) ha.nodup (Or.inl ⟨rfl, fun _ h => h⟩)
      ⟨(by rw [hct]; intro h; cases h), (by rw [hct]; intro h; cases h)⟩
    rw [heta] at this; exact this
  | restricted =>
    simp only []
    split
    · refine ⟨_, _, rfl, ?_⟩
      have hp := sortLayer_perm o ho rank ({ m1 with approximate := true } : Dd σ) cur1
      refine squashed_keep true hin ha ?_ ?_ (Or.inr ⟨rfl, hct⟩) ⟨fun _ => ?_, by rw [hct]; intro h; cases h⟩
      · intro i hi; exact hp.mem_iff.1 (List.mem_of_mem_take hi)
      · exact List.Sublist.nodup (List.take_sublist _ _) (hp.nodup_iff.2 ha.nodup)
      · rw [List.length_take]; omega
    · refine ⟨_, _, rfl, ?_⟩
      have := squashed_keep (r := r) (inp := inp) (cur2 := cur1) m.approximate hin ha (fun _ h => h) ha.nodup (Or.inl ⟨rfl, fun _ h => h⟩)
        ⟨fun _ => by omega, by rw [hct]; intro h; cases h⟩
      rw [heta] at this; exact this
  | relaxed =>
    simp only []
    split
    · rename_i hc
      exact relaxLayer_spec ho hin ha (hr hct) hprevL hct hc.2 (hw hct) hc.1
    · rename_i hc
      refine ⟨_, _, rfl, ?_⟩
      have hlen2 : rootDepth + 1 < D → cur1.length ≤ inp.maxWidth := by
        intro hD
        by_cases h : cur1.length > inp.maxWidth
        · exact absurd ⟨h, hD⟩ hc
        · omega
      have := squashed_keep (r := r) (inp := inp) (cur2 := cur1) m.approximate hin ha (fun _ h => h) ha.nodup (Or.inl ⟨rfl, fun _ h => h⟩)
        ⟨(by rw [hct]; intro h; cases h), fun _ hD => hlen2 hD⟩
      rw [heta] at this; exact this

end Verif.Dd
