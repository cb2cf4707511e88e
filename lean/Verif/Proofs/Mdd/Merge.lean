import Verif.Proofs.Mdd.Expand
/-! Merging nodes: what `redirect` and `mergeOne` establish about the merged node. -/
set_option autoImplicit false

namespace Verif.Dd
open Verif Spec
variable {σ : Type} [DecidableEq σ] [Inhabited σ]

/-- The merged node while it receives its inbound edges. -/
structure MidOK (p : Problem σ) (B : Int) (m : Dd σ) (x : Nat) (prev : List Nat) (mid : Nat) : Prop where
  src : ∀ e ∈ m.inIds mid, (m.edge e).src ∈ prev
  dec : ∀ e ∈ m.inIds mid, (m.edge e).decision ∈ p.dom x (m.node (m.edge e).src).state
  cost_ge : ∀ e ∈ m.inIds mid, p.cost (m.node (m.edge e).src).state (m.edge e).decision ≤ (m.edge e).cost
  cost_le : ∀ e ∈ m.inIds mid, (m.edge e).cost ≤ B
  vge : ∀ e ∈ m.inIds mid, satAdd (m.node (m.edge e).src).value (m.edge e).cost ≤ (m.node mid).value
  veq : (m.inIds mid = [] ∧ (m.node mid).value = isizeMin) ∨ ∃ b ∈ m.inIds mid, (m.node mid).best = some b ∧
    (m.node mid).value = satAdd (m.node (m.edge b).src).value (m.edge b).cost

/-- Fields of the merged node that never change while it receives edges. -/
structure MidSame (n n' : Node σ) : Prop where
  state : n'.state = n.state
  flags : n'.flags = n.flags
  depth : n'.depth = n.depth
  valueBot : n'.valueBot = n.valueBot
  theta : n'.theta = n.theta
  rub : n'.rub = n.rub

theorem MidSame.refl (n : Node σ) : MidSame n n := ⟨rfl, rfl, rfl, rfl, rfl, rfl⟩
theorem MidSame.trans {a b c : Node σ} (h : MidSame a b) (h' : MidSame b c) : MidSame a c :=
  ⟨h'.state.trans h.state, h'.flags.trans h.flags, h'.depth.trans h.depth, h'.valueBot.trans h.valueBot,
   h'.theta.trans h.theta, h'.rub.trans h.rub⟩

/-- `m'` is `m` after some edges have been redirected to node `mid`. -/
structure Redirected (p : Problem σ) (B : Int) (m m' : Dd σ) (x : Nat) (prev : List Nat) (mid : Nat) : Prop where
  chain : ChainOK m'
  len : m'.nodes.length = m.nodes.length
  pre : m.edges <+: m'.edges
  rest : m'.rest = m.rest
  upd : m'.updates = m.updates
  other : ∀ j, j ≠ mid → m'.node j = m.node j
  midS : MidSame (m.node mid) (m'.node mid)
  mono : ∀ e ∈ m.inIds mid, e ∈ m'.inIds mid
  vmono : (m.node mid).value ≤ (m'.node mid).value
  ok : MidOK p B m' x prev mid
  esrc : ∀ e' ∈ m'.edges, ∃ e ∈ m.edges, e.src = e'.src

theorem redirect_redirected {p : Problem σ} {B : Int} {r : Relaxation σ} {m : Dd σ} {x : Nat} {prev : List Nat}
    {mid dropId eid : Nat} {merged : σ}
    (hc : ChainOK m) (hmid : mid < m.nodes.length) (hprev : ∀ j ∈ prev, j ≠ mid) (hok : MidOK p B m x prev mid)
    (heid : eid < m.edges.length) (hs : (m.edge eid).src ∈ prev)
    (hd : (m.edge eid).decision ∈ p.dom x (m.node (m.edge eid).src).state)
    (h1 : p.cost (m.node (m.edge eid).src).state (m.edge eid).decision ≤
      r.relax (m.node (m.edge eid).src).state (m.node dropId).state merged (m.edge eid).decision (m.edge eid).cost)
    (h2 : r.relax (m.node (m.edge eid).src).state (m.node dropId).state merged (m.edge eid).decision (m.edge eid).cost ≤ B) :
    Redirected p B m (redirect r merged mid dropId m eid) x prev mid ∧
    ∃ e' ∈ (redirect r merged mid dropId m eid).inIds mid,
      ((redirect r merged mid dropId m eid).edge e').src = (m.edge eid).src ∧
      ((redirect r merged mid dropId m eid).edge e').decision = (m.edge eid).decision ∧
      ((redirect r merged mid dropId m eid).edge e').cost =
        r.relax (m.node (m.edge eid).src).state (m.node dropId).state merged (m.edge eid).decision (m.edge eid).cost := by
  generalize hrc : r.relax (m.node (m.edge eid).src).state (m.node dropId).state merged (m.edge eid).decision (m.edge eid).cost = rc at *
  have hsm := hprev _ hs
  have key : ∀ m' : Dd σ, m'.edges = m.edges ++ [⟨(m.edge eid).src, (m.edge eid).decision, rc, (m.node mid).inbound⟩] →
      m'.nodes.length = m.nodes.length → m'.rest = m.rest → m'.updates = m.updates →
      (∀ j, j ≠ mid → m'.node j = m.node j) → MidSame (m.node mid) (m'.node mid) →
      (m'.node mid).inbound = some m.edges.length →
      ((satAdd (m.node (m.edge eid).src).value rc ≥ (m.node mid).value ∧
          (m'.node mid).value = satAdd (m.node (m.edge eid).src).value rc ∧ (m'.node mid).best = some m.edges.length) ∨
        (satAdd (m.node (m.edge eid).src).value rc < (m.node mid).value ∧
          (m'.node mid).value = (m.node mid).value ∧ (m'.node mid).best = (m.node mid).best)) →
      Redirected p B m m' x prev mid ∧ ∃ e' ∈ m'.inIds mid, (m'.edge e').src = (m.edge eid).src ∧
        (m'.edge e').decision = (m.edge eid).decision ∧ (m'.edge e').cost = rc := by
    intro m' hedges hlen hrest hupd hother hsame hinb hv
    have hnx : ∀ y, (m.node mid).inbound = some y → y < m.edges.length := hc.inb mid hmid
    have hpre : m.edges <+: m'.edges := ⟨_, hedges.symm⟩
    have heq : m'.edge m.edges.length = ⟨(m.edge eid).src, (m.edge eid).decision, rc, (m.node mid).inbound⟩ := by
      unfold edge; rw [hedges]; exact getD_append_len _ _ _
    have hin : m'.inIds mid = m.edges.length :: m.inIds mid := inIds_link hc hedges hnx hinb
    have hed : ∀ e ∈ m.inIds mid, m'.edge e = m.edge e := fun e he => edge_frame hpre (inIds_lt hc hmid he)
    have hsr : ∀ e ∈ m.inIds mid, m'.node (m.edge e).src = m.node (m.edge e).src := fun e he =>
      hother _ (hprev _ (hok.src e he))
    have hs' := hother _ hsm
    refine ⟨⟨link_chainOK hc hedges hnx hinb (fun j hj => Or.inl (by omega)) (fun j hj => by rw [hother j hj]), hlen, hpre, hrest, hupd, hother, hsame,
      fun e he => by rw [hin]; exact List.mem_cons_of_mem _ he, ?_, ?_, ?_⟩, ?_⟩
    · rcases hv with h | h
      · rw [h.2.1]; exact h.1
      · rw [h.2.1]; exact Int.le_refl _
    · constructor
      · intro e he; rw [hin] at he
        rcases List.mem_cons.1 he with rfl | he
        · rw [heq]; exact hs
        · rw [hed e he]; exact hok.src e he
      · intro e he; rw [hin] at he
        rcases List.mem_cons.1 he with rfl | he
        · rw [heq]; simp only [hs']; exact hd
        · rw [hed e he, hsr e he]; exact hok.dec e he
      · intro e he; rw [hin] at he
        rcases List.mem_cons.1 he with rfl | he
        · rw [heq]; simp only [hs']; exact h1
        · rw [hed e he, hsr e he]; exact hok.cost_ge e he
      · intro e he; rw [hin] at he
        rcases List.mem_cons.1 he with rfl | he
        · rw [heq]; exact h2
        · rw [hed e he]; exact hok.cost_le e he
      · intro e he; rw [hin] at he
        rcases List.mem_cons.1 he with rfl | he
        · rw [heq]; simp only [hs']
          rcases hv with h | h
          · rw [h.2.1]; exact Int.le_refl _
          · rw [h.2.1]; omega
        · rw [hed e he, hsr e he]
          have := hok.vge e he
          rcases hv with h | h
          · rw [h.2.1]; omega
          · rw [h.2.1]; exact this
      · right
        rcases hv with h | h
        · refine ⟨m.edges.length, by rw [hin]; exact List.mem_cons_self .., h.2.2, ?_⟩
          rw [heq]; simp only [hs']; exact h.2.1
        · rcases hok.veq with h0 | ⟨b, hb, hb1, hb2⟩
          · have := (satAdd_in (m.node (m.edge eid).src).value rc).1
            rw [h0.2] at h; omega
          · refine ⟨b, by rw [hin]; exact List.mem_cons_of_mem _ hb, by rw [h.2.2]; exact hb1, ?_⟩
            rw [hed b hb, hsr b hb, h.2.1]; exact hb2
    · intro e' he'
      rw [hedges] at he'
      rcases List.mem_append.1 he' with he' | he'
      · exact ⟨e', he', rfl⟩
      · simp only [List.mem_singleton] at he'; subst he'
        refine ⟨m.edge eid, ?_, rfl⟩
        unfold edge
        rw [List.getD_eq_getElem?_getD, List.getElem?_eq_getElem heid]
        exact List.getElem_mem heid
    · exact ⟨m.edges.length, by rw [hin]; exact List.mem_cons_self .., by rw [heq]; exact ⟨rfl, rfl, rfl⟩⟩
  unfold redirect
  simp only [hrc]
  generalize hma : ({ m with edges := m.edges ++ [⟨(m.edge eid).src, (m.edge eid).decision, rc, (m.node mid).inbound⟩] } : Dd σ) = ma
  have hman : ∀ j, ma.node j = m.node j := fun j => by rw [← hma]; rfl
  have hmal : ma.nodes.length = m.nodes.length := by rw [← hma]
  have hmae : ma.edges = m.edges ++ [⟨(m.edge eid).src, (m.edge eid).decision, rc, (m.node mid).inbound⟩] := by rw [← hma]
  have hmar : ma.rest = m.rest := by rw [← hma]; rfl
  have hmau : ma.updates = m.updates := by rw [← hma]
  generalize hmb : ma.modNode mid (fun n => { n with inbound := some m.edges.length }) = mb
  have hmbm : mb.node mid = { m.node mid with inbound := some m.edges.length } := by
    rw [← hmb, node_modNode_self _ _ (by omega), hman]
  have hmbo : ∀ j, j ≠ mid → mb.node j = m.node j := fun j hj => by
    rw [← hmb, node_modNode_ne _ _ (Ne.symm hj), hman]
  have hmbl : mb.nodes.length = m.nodes.length := by rw [← hmb]; simp [hmal]
  have hmbe : mb.edges = ma.edges := by rw [← hmb]; rfl
  have hmbr : mb.rest = m.rest := by rw [← hmb, ← hmar]; rfl
  have hmbu : mb.updates = m.updates := by rw [← hmb, ← hmau]; rfl
  rw [hmbo _ hsm]
  split
  · rename_i hge
    rw [hmbm] at hge; simp only at hge
    apply key
    · rw [modNode_edges, hmbe, hmae]
    · simp [hmbl]
    · rw [modNode_rest, hmbr]
    · exact hmbu
    · intro j hj; rw [node_modNode_ne _ _ (Ne.symm hj), hmbo j hj]
    · rw [node_modNode_self _ _ (by omega), hmbm]; exact ⟨rfl, rfl, rfl, rfl, rfl, rfl⟩
    · rw [node_modNode_self _ _ (by omega), hmbm]
    · left; rw [node_modNode_self _ _ (by omega)]; exact ⟨hge, rfl, rfl⟩
  · rename_i hge
    rw [hmbm] at hge; simp only at hge
    apply key
    · rw [hmbe, hmae]
    · exact hmbl
    · exact hmbr
    · exact hmbu
    · exact hmbo
    · rw [hmbm]; exact ⟨rfl, rfl, rfl, rfl, rfl, rfl⟩
    · rw [hmbm]
    · right; rw [hmbm]; exact ⟨by omega, rfl, rfl⟩

/-- The edges of node `dr` in `m` are all covered by edges of node `mid` in `m'`. -/
def Covered (r : Relaxation σ) (merged : σ) (m m' : Dd σ) (dr mid : Nat) : Prop :=
  ∀ e ∈ m.inIds dr, ∃ e' ∈ m'.inIds mid, (m'.edge e').src = (m.edge e).src ∧
    (m'.edge e').decision = (m.edge e).decision ∧
    (m'.edge e').cost = r.relax (m.node (m.edge e).src).state (m.node dr).state merged (m.edge e).decision (m.edge e).cost

theorem redirects {p : Problem σ} {B : Int} {r : Relaxation σ} {x : Nat} {prev : List Nat} {mid dropId : Nat} {merged : σ} {m0 : Dd σ}
    (hc0 : ChainOK m0) (hmid : mid < m0.nodes.length) (hprev : ∀ j ∈ prev, j ≠ mid) (hne : dropId ≠ mid)
    (es : List Nat) (hlt : ∀ e ∈ es, e < m0.edges.length)
    (hs : ∀ e ∈ es, (m0.edge e).src ∈ prev)
    (hd : ∀ e ∈ es, (m0.edge e).decision ∈ p.dom x (m0.node (m0.edge e).src).state)
    (hcost : ∀ e ∈ es, (m0.edge e).cost = p.cost (m0.node (m0.edge e).src).state (m0.edge e).decision)
    (h1 : ∀ e ∈ es, (m0.edge e).cost ≤
      r.relax (m0.node (m0.edge e).src).state (m0.node dropId).state merged (m0.edge e).decision (m0.edge e).cost)
    (h2 : ∀ e ∈ es, r.relax (m0.node (m0.edge e).src).state (m0.node dropId).state merged (m0.edge e).decision (m0.edge e).cost ≤ B)
    (hok : MidOK p B m0 x prev mid) :
    Redirected p B m0 (es.foldl (redirect r merged mid dropId) m0) x prev mid ∧
    ∀ e ∈ es, ∃ e' ∈ (es.foldl (redirect r merged mid dropId) m0).inIds mid,
      ((es.foldl (redirect r merged mid dropId) m0).edge e').src = (m0.edge e).src ∧
      ((es.foldl (redirect r merged mid dropId) m0).edge e').decision = (m0.edge e).decision ∧
      ((es.foldl (redirect r merged mid dropId) m0).edge e').cost = r.relax (m0.node (m0.edge e).src).state (m0.node dropId).state merged (m0.edge e).decision (m0.edge e).cost := by
  have gen : ∀ (todo pr : List Nat) (m : Dd σ), es = pr ++ todo → Redirected p B m0 m x prev mid →
      (∀ e ∈ pr, ∃ e' ∈ m.inIds mid, (m.edge e').src = (m0.edge e).src ∧ (m.edge e').decision = (m0.edge e).decision ∧
        (m.edge e').cost = r.relax (m0.node (m0.edge e).src).state (m0.node dropId).state merged (m0.edge e).decision (m0.edge e).cost) →
      Redirected p B m0 (todo.foldl (redirect r merged mid dropId) m) x prev mid ∧
      ∀ e ∈ es, ∃ e' ∈ (todo.foldl (redirect r merged mid dropId) m).inIds mid,
        ((todo.foldl (redirect r merged mid dropId) m).edge e').src = (m0.edge e).src ∧
        ((todo.foldl (redirect r merged mid dropId) m).edge e').decision = (m0.edge e).decision ∧
        ((todo.foldl (redirect r merged mid dropId) m).edge e').cost = r.relax (m0.node (m0.edge e).src).state (m0.node dropId).state merged (m0.edge e).decision (m0.edge e).cost := by
    intro todo
    induction todo with
    | nil => intro pr m h hr hcv; simp at h; subst h; exact ⟨hr, hcv⟩
    | cons a todo ih =>
      intro pr m h hr hcv
      have ha : a ∈ es := by simp [h]
      have hea : m.edge a = m0.edge a := edge_frame hr.pre (hlt a ha)
      have hsa : m.node (m0.edge a).src = m0.node (m0.edge a).src := hr.other _ (hprev _ (hs a ha))
      have hda : m.node dropId = m0.node dropId := hr.other _ hne
      have hmidm : mid < m.nodes.length := by rw [hr.len]; exact hmid
      obtain ⟨g1, e', he', g2, g3, g4⟩ := redirect_redirected (r := r) (merged := merged) (dropId := dropId) (eid := a)
        hr.chain hmidm hprev hr.ok (Nat.lt_of_lt_of_le (hlt a ha) hr.pre.length_le) (by rw [hea]; exact hs a ha) (by rw [hea, hsa]; exact hd a ha)
        (by rw [hea, hsa, hda, ← hcost a ha]; exact h1 a ha) (by rw [hea, hsa, hda]; exact h2 a ha)
      refine ih (pr ++ [a]) _ (by simp [h]) ?_ ?_
      · exact ⟨g1.chain, g1.len.trans hr.len, hr.pre.trans g1.pre, g1.rest.trans hr.rest, g1.upd.trans hr.upd,
          fun j hj => (g1.other j hj).trans (hr.other j hj), hr.midS.trans g1.midS, fun e he => g1.mono e (hr.mono e he),
          Int.le_trans hr.vmono g1.vmono, g1.ok, fun e he => by
            obtain ⟨e1, he1, h1⟩ := g1.esrc e he
            obtain ⟨e0, he0, h0⟩ := hr.esrc e1 he1
            exact ⟨e0, he0, h0.trans h1⟩⟩
      · intro e he
        rcases List.mem_append.1 he with he | he
        · obtain ⟨e'', he'', k1, k2, k3⟩ := hcv e he
          refine ⟨e'', g1.mono _ he'', ?_⟩
          rw [edge_frame g1.pre (inIds_lt hr.chain hmidm he'')]
          exact ⟨k1, k2, k3⟩
        · simp only [List.mem_singleton] at he; subst he
          refine ⟨e', he', by rw [g2, hea], by rw [g3, hea], ?_⟩
          rw [g4, hea, hsa, hda]
  exact gen es [] m0 (by simp) ⟨hc0, rfl, List.prefix_rfl, rfl, rfl, fun _ _ => rfl, MidSame.refl _, fun _ h => h, Int.le_refl _, hok, fun e he => ⟨e, he, rfl⟩⟩ (by simp)

/-- A node apart from its `deleted` flag. -/
structure DelSame (v : Variant) (n n' : Node σ) : Prop where
  state : n'.state = n.state
  value : n'.value = n.value
  best : n'.best = n.best
  inbound : n'.inbound = n.inbound
  depth : n'.depth = n.depth
  valueBot : n'.valueBot = n.valueBot
  theta : n'.theta = n.theta
  rub : n'.rub = n.rub
  flags : n'.flags = match v with | .all => n.flags | .barrier => n.flags.setDeleted true

/-- `m` is the diagram `m0` after the nodes `pr` have been merged into `mid`. -/
structure Merging (v : Variant) (p : Problem σ) (r : Relaxation σ) (merged : σ) (B : Int) (m0 m : Dd σ) (x : Nat) (prev : List Nat) (mid : Nat) (pr : List Nat) :
    Prop where
  chain : ChainOK m
  len : m.nodes.length = m0.nodes.length
  pre : m0.edges <+: m.edges
  rest : m.rest = m0.rest
  upd : m.updates = m0.updates
  other : ∀ j, j ≠ mid → j ∉ pr → m.node j = m0.node j
  dropped : ∀ j ∈ pr, DelSame v (m0.node j) (m.node j)
  midS : MidSame (m0.node mid) (m.node mid)
  mono : ∀ e ∈ m0.inIds mid, e ∈ m.inIds mid
  ok : MidOK p B m x prev mid
  cov : ∀ j ∈ pr, Covered r merged m0 m j mid
  esrc : ∀ e' ∈ m.edges, ∃ e ∈ m0.edges, e.src = e'.src

theorem mergeAll {v : Variant} {p : Problem σ} {B : Int} {r : Relaxation σ} {x : Nat} {prev : List Nat} {mid : Nat} {merged : σ} {m0 : Dd σ}
    (hc0 : ChainOK m0) (hmid : mid < m0.nodes.length) (hprev : ∀ j ∈ prev, j ≠ mid)
    (drops : List Nat) (hnd : drops.Nodup) (hdm : ∀ j ∈ drops, j ≠ mid) (hdlt : ∀ j ∈ drops, j < m0.nodes.length)
    (hdp : ∀ j ∈ drops, j ∉ prev)
    (hs : ∀ j ∈ drops, ∀ e ∈ m0.inIds j, (m0.edge e).src ∈ prev)
    (hd : ∀ j ∈ drops, ∀ e ∈ m0.inIds j, (m0.edge e).decision ∈ p.dom x (m0.node (m0.edge e).src).state)
    (hcost : ∀ j ∈ drops, ∀ e ∈ m0.inIds j, (m0.edge e).cost = p.cost (m0.node (m0.edge e).src).state (m0.edge e).decision)
    (h1 : ∀ j ∈ drops, ∀ e ∈ m0.inIds j, (m0.edge e).cost ≤
      r.relax (m0.node (m0.edge e).src).state (m0.node j).state merged (m0.edge e).decision (m0.edge e).cost)
    (h2 : ∀ j ∈ drops, ∀ e ∈ m0.inIds j,
      r.relax (m0.node (m0.edge e).src).state (m0.node j).state merged (m0.edge e).decision (m0.edge e).cost ≤ B)
    (hok : MidOK p B m0 x prev mid) :
    Merging v p r merged B m0 (drops.foldl (mergeOne v r merged mid) m0) x prev mid drops := by
  have gen : ∀ (todo pr : List Nat) (m : Dd σ), drops = pr ++ todo → Merging v p r merged B m0 m x prev mid pr →
      Merging v p r merged B m0 (todo.foldl (mergeOne v r merged mid) m) x prev mid drops := by
    intro todo
    induction todo with
    | nil => intro pr m h hm; simp at h; subst h; exact hm
    | cons a todo ih =>
      intro pr m h hm
      have ha : a ∈ drops := by simp [h]
      have hapr : a ∉ pr := by
        rw [h, List.nodup_append] at hnd
        intro hh; exact hnd.2.2 a hh a (by simp) rfl
      have ham := hdm a ha
      have halt := hdlt a ha
      have hna := hm.other a ham hapr
      have haltm : a < m.nodes.length := by rw [hm.len]; exact halt
      have hmidm : mid < m.nodes.length := by rw [hm.len]; exact hmid
      refine ih (pr ++ [a]) _ (by simp [h]) ?_
      -- the node is first flagged as deleted (Barrier only)
      have hflag : ∃ ma : Dd σ, mergeOne v r merged mid m a = (ma.inIds a).foldl (redirect r merged mid a) ma ∧
          ma.edges = m.edges ∧ ma.nodes.length = m.nodes.length ∧ ma.rest = m.rest ∧ ma.updates = m.updates ∧
          (∀ j, j ≠ a → ma.node j = m.node j) ∧ DelSame v (m.node a) (ma.node a) := by
        cases v with
        | all => exact ⟨m, rfl, rfl, rfl, rfl, rfl, fun _ _ => rfl, ⟨rfl, rfl, rfl, rfl, rfl, rfl, rfl, rfl, rfl⟩⟩
        | barrier =>
          refine ⟨m.modNode a fun n => { n with flags := n.flags.setDeleted true }, rfl, rfl, by simp, rfl, rfl,
            fun j hj => node_modNode_ne _ _ (Ne.symm hj), ?_⟩
          rw [node_modNode_self _ _ haltm]
          exact ⟨rfl, rfl, rfl, rfl, rfl, rfl, rfl, rfl, rfl⟩
      obtain ⟨ma, hmo, me, ml, mr, mu, mother, mdel⟩ := hflag
      have hma_inb : ∀ j, (ma.node j).inbound = (m.node j).inbound := fun j => by
        by_cases hj : j = a
        · subst hj; exact mdel.inbound
        · rw [mother j hj]
      have hcma : ChainOK ma := chainOK_of_same hm.chain me ml hma_inb
      have hin_ma : ∀ j, ma.inIds j = m.inIds j := fun j => by unfold inIds; rw [me, hma_inb]
      have hed_ma : ∀ e, ma.edge e = m.edge e := fun e => by unfold edge; rw [me]
      have hin_a : m.inIds a = m0.inIds a := inIds_frame hc0 halt hm.pre (by rw [hna])
      have hed_a : ∀ e ∈ m0.inIds a, ma.edge e = m0.edge e := fun e he => by
        rw [hed_ma]; exact edge_frame hm.pre (inIds_lt hc0 halt he)
      have hsrc_a : ∀ e ∈ m0.inIds a, ma.node (m0.edge e).src = m0.node (m0.edge e).src := fun e he => by
        have hsp := hs a ha e he
        have hneA : (m0.edge e).src ≠ a := fun hh => hdp a ha (hh ▸ hsp)
        rw [mother _ hneA]
        refine hm.other _ (hprev _ hsp) ?_
        intro hh
        have : (m0.edge e).src ∈ drops := by rw [h]; simp [hh]
        exact hdp _ this hsp
      have hok_ma : MidOK p B ma x prev mid := by
        have hmm : ma.node mid = m.node mid := mother mid (Ne.symm ham)
        have hss : ∀ e ∈ m.inIds mid, ma.node (m.edge e).src = m.node (m.edge e).src := fun e he =>
          mother _ (fun hh => hdp a ha (hh ▸ hm.ok.src e he))
        constructor
        · intro e he; rw [hin_ma] at he; rw [hed_ma]; exact hm.ok.src e he
        · intro e he; rw [hin_ma] at he; rw [hed_ma, hss e he]; exact hm.ok.dec e he
        · intro e he; rw [hin_ma] at he; rw [hed_ma, hss e he]; exact hm.ok.cost_ge e he
        · intro e he; rw [hin_ma] at he; rw [hed_ma]; exact hm.ok.cost_le e he
        · intro e he; rw [hin_ma] at he; rw [hed_ma, hss e he, hmm]; exact hm.ok.vge e he
        · rcases hm.ok.veq with h0 | ⟨b, hb, hb1, hb2⟩
          · left; rw [hin_ma, hmm]; exact h0
          · right; exact ⟨b, by rw [hin_ma]; exact hb, by rw [hmm]; exact hb1, by rw [hed_ma, hss b hb, hmm]; exact hb2⟩
      have hnas : (ma.node a).state = (m0.node a).state := by rw [mdel.state, hna]
      have hIn : ma.inIds a = m0.inIds a := by rw [hin_ma, hin_a]
      obtain ⟨g, gcov⟩ := redirects (p := p) (B := B) (r := r) (merged := merged) (dropId := a) (x := x) (prev := prev) hcma (by rw [ml]; exact hmidm) hprev ham (ma.inIds a)
        (fun e he => inIds_lt hcma (by rw [ml]; exact haltm) he)
        (fun e he => by rw [hIn] at he; rw [hed_a e he]; exact hs a ha e he)
        (fun e he => by rw [hIn] at he; rw [hed_a e he, hsrc_a e he]; exact hd a ha e he)
        (fun e he => by rw [hIn] at he; rw [hed_a e he, hsrc_a e he]; exact hcost a ha e he)
        (fun e he => by rw [hIn] at he; rw [hed_a e he, hsrc_a e he, hnas]; exact h1 a ha e he)
        (fun e he => by rw [hIn] at he; rw [hed_a e he, hsrc_a e he, hnas]; exact h2 a ha e he)
        hok_ma
      rw [← hmo] at g gcov
      have hpre' : m.edges <+: (mergeOne v r merged mid m a).edges := by rw [← me]; exact g.pre
      have hmm : ma.node mid = m.node mid := mother mid (Ne.symm ham)
      have hmono' : ∀ e ∈ m.inIds mid, e ∈ (mergeOne v r merged mid m a).inIds mid := fun e he =>
        g.mono e (by rw [hin_ma]; exact he)
      refine ⟨g.chain, by rw [g.len, ml, hm.len], hm.pre.trans hpre', by rw [g.rest, mr, hm.rest], by rw [g.upd, mu, hm.upd], ?_, ?_, ?_, ?_, g.ok, ?_, ?_⟩
      · intro j hj hjn
        simp only [List.mem_append, List.mem_singleton, not_or] at hjn
        rw [g.other j hj, mother j hjn.2]; exact hm.other j hj hjn.1
      · intro j hj
        rcases List.mem_append.1 hj with hj | hj
        · have hja : j ≠ a := fun hh => hapr (hh ▸ hj)
          have hjm : j ≠ mid := hdm j (by rw [h]; simp [hj])
          rw [g.other j hjm, mother j hja]; exact hm.dropped j hj
        · simp only [List.mem_singleton] at hj; subst hj
          rw [g.other j ham, ← hna]; exact mdel
      · have := g.midS; rw [hmm] at this; exact hm.midS.trans this
      · intro e he; exact hmono' e (hm.mono e he)
      · intro j hj
        rcases List.mem_append.1 hj with hj | hj
        · intro e he
          obtain ⟨e', he', k1, k2, k3⟩ := hm.cov j hj e he
          refine ⟨e', hmono' e' he', ?_⟩
          rw [edge_frame hpre' (inIds_lt hm.chain hmidm he')]
          exact ⟨k1, k2, k3⟩
        · simp only [List.mem_singleton] at hj; subst hj
          intro e he
          obtain ⟨e', he', k1, k2, k3⟩ := gcov e (by rw [hIn]; exact he)
          rw [hed_a e he] at k1 k2 k3
          rw [hsrc_a e he, hnas] at k3
          exact ⟨e', he', k1, k2, k3⟩
      · intro e he
        obtain ⟨e1, he1, k1⟩ := g.esrc e he
        rw [me] at he1
        obtain ⟨e0, he0, k0⟩ := hm.esrc e1 he1
        exact ⟨e0, he0, k0.trans k1⟩
  exact gen drops [] m0 (by simp)
    ⟨hc0, rfl, List.prefix_rfl, rfl, rfl, fun _ _ _ => rfl, by simp, MidSame.refl _, fun _ h => h, hok, by simp, fun e he => ⟨e, he, rfl⟩⟩

end Verif.Dd
