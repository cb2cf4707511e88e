import Verif.Spec.Condense
import Verif.Proofs.Mdd.Beam
/-! A relaxed diagram keeps the most promising nodes and merges the others. -/
set_option autoImplicit false

namespace Verif.Dd
open Verif Spec
variable {σ : Type} [DecidableEq σ] [Inhabited σ]
variable {v : Variant} {o : Oracle σ} {p : Problem σ} {r : Relaxation σ} {rank : σ → σ → Ordering} {S : Layering σ} {B : Int}
  {inp : Input σ} {rd : Reads σ}

/-- `m'` differs from `m` in further edges and in what is known about node `mid`. -/
structure OnlyMid (mid : Nat) (m m' : Dd σ) : Prop where
  len : m'.nodes.length = m.nodes.length
  pre : m.edges <+: m'.edges
  sv : ∀ j, j ≠ mid → m'.sv j = m.sv j
  inb : ∀ j, j ≠ mid → (m'.node j).inbound = (m.node j).inbound
  st : (m'.node mid).state = (m.node mid).state
  next : m'.nextL = m.nextL

theorem OnlyMid.refl (mid : Nat) (m : Dd σ) : OnlyMid mid m m := ⟨rfl, List.prefix_rfl, fun _ _ => rfl, fun _ _ => rfl, rfl, rfl⟩
theorem OnlyMid.trans {mid : Nat} {a b c : Dd σ} (h : OnlyMid mid a b) (h' : OnlyMid mid b c) : OnlyMid mid a c :=
  ⟨h'.len.trans h.len, h.pre.trans h'.pre, fun j hj => (h'.sv j hj).trans (h.sv j hj), fun j hj => (h'.inb j hj).trans (h.inb j hj), h'.st.trans h.st,
   h'.next.trans h.next⟩

/-- The value an edge into node `j` has when it is redirected. -/
def redirVal (r : Relaxation σ) (merged : σ) (m : Dd σ) (j e : Nat) : Int :=
  satAdd (m.node (m.edge e).src).value (r.relax (m.node (m.edge e).src).state (m.node j).state merged (m.edge e).decision (m.edge e).cost)

theorem redirect_value {merged : σ} {mid j e : Nat} {m : Dd σ} (hmid : mid < m.nodes.length) (hs : (m.edge e).src ≠ mid) :
    OnlyMid mid m (redirect r merged mid j m e) ∧ ((redirect r merged mid j m e).node mid).value = max (m.node mid).value (redirVal r merged m j e) := by
  unfold redirect redirVal
  simp only []
  generalize r.relax (m.node (m.edge e).src).state (m.node j).state merged (m.edge e).decision (m.edge e).cost = rc
  generalize hma : ({ m with edges := m.edges ++ [⟨(m.edge e).src, (m.edge e).decision, rc, (m.node mid).inbound⟩] } : Dd σ) = ma
  have hman : ∀ i, ma.node i = m.node i := fun i => by rw [← hma]; rfl
  have hmal : ma.nodes.length = m.nodes.length := by rw [← hma]
  have hmae : m.edges <+: ma.edges := by rw [← hma]; exact List.prefix_append _ _
  have hmar : ma.nextL = m.nextL := by rw [← hma]
  have hmbo : ∀ i, i ≠ mid → (ma.modNode mid (fun n => { n with inbound := some m.edges.length })).node i = m.node i := fun i hi => by
    rw [node_modNode_ne _ _ (Ne.symm hi), hman]
  have hmbm : (ma.modNode mid (fun n => { n with inbound := some m.edges.length })).node mid = { m.node mid with inbound := some m.edges.length } := by
    rw [node_modNode_self _ _ (by omega), hman]
  generalize hmb : ma.modNode mid (fun n => { n with inbound := some m.edges.length }) = mb at *
  have hmbl : mb.nodes.length = m.nodes.length := by rw [← hmb]; simp [hmal]
  have hmbe : m.edges <+: mb.edges := by rw [← hmb]; exact hmae
  have hmbr : mb.nextL = m.nextL := by rw [← hmb]; exact hmar
  rw [hmbo _ hs, hmbm]
  simp only []
  split
  · rename_i hge
    refine ⟨⟨by simp [hmbl], hmbe, ?_, ?_, ?_, hmbr⟩, ?_⟩
    · intro i hi; unfold Dd.sv; rw [node_modNode_ne _ _ (Ne.symm hi), hmbo i hi]
    · intro i hi; rw [node_modNode_ne _ _ (Ne.symm hi), hmbo i hi]
    · rw [node_modNode_self _ _ (by omega), hmbm]
    · rw [node_modNode_self _ _ (by omega)]; simp only []; omega
  · rename_i hge
    refine ⟨⟨hmbl, hmbe, ?_, ?_, ?_, hmbr⟩, ?_⟩
    · intro i hi; unfold Dd.sv; rw [hmbo i hi]
    · intro i hi; rw [hmbo i hi]
    · rw [hmbm]
    · rw [hmbm]; simp only []; omega

theorem redirVal_frame {merged : σ} {mid j e : Nat} {m m' : Dd σ} (h : OnlyMid mid m m') (hj : j ≠ mid) (he : e < m.edges.length) (hs : (m.edge e).src ≠ mid) :
    redirVal r merged m' j e = redirVal r merged m j e := by
  have h1 := h.sv _ hs
  have h2 := h.sv j hj
  unfold Dd.sv at h1 h2
  simp only [Prod.mk.injEq] at h1 h2
  unfold redirVal
  rw [edge_frame h.pre he, h1.1, h1.2, h2.1]

theorem redirects_value {merged : σ} {mid j : Nat} (hj : j ≠ mid) : ∀ (es : List Nat) {m : Dd σ}, mid < m.nodes.length → (∀ e ∈ es, e < m.edges.length ∧ (m.edge e).src ≠ mid) →
    OnlyMid mid m (es.foldl (redirect r merged mid j) m) ∧
      ((es.foldl (redirect r merged mid j) m).node mid).value = (es.map (redirVal r merged m j)).foldl max (m.node mid).value := by
  intro es
  induction es with
  | nil => intro m _ _; exact ⟨OnlyMid.refl _ _, rfl⟩
  | cons e es ih =>
    intro m hmid hes
    obtain ⟨h1, h2⟩ := redirect_value (r := r) (merged := merged) (j := j) hmid (hes e (by simp)).2
    obtain ⟨h3, h4⟩ := ih (m := redirect r merged mid j m e) (by rw [h1.len]; exact hmid) (fun e' he' => by
      obtain ⟨k1, k2⟩ := hes e' (by simp [he'])
      exact ⟨Nat.lt_of_lt_of_le k1 h1.pre.length_le, by rw [edge_frame h1.pre k1]; exact k2⟩)
    refine ⟨h1.trans h3, ?_⟩
    rw [List.foldl_cons, h4, h2, List.map_cons, List.foldl_cons]
    congr 1
    refine List.map_congr_left fun e' he' => ?_
    obtain ⟨k1, k2⟩ := hes e' (by simp [he'])
    exact redirVal_frame h1 hj k1 k2

theorem mergeOne_value {merged : σ} {mid j : Nat} (hj : j ≠ mid) {m : Dd σ} (hmid : mid < m.nodes.length)
    (hes : ∀ e ∈ m.inIds j, e < m.edges.length ∧ (m.edge e).src ≠ mid) :
    OnlyMid mid m (mergeOne v r merged mid m j) ∧
      ((mergeOne v r merged mid m j).node mid).value = ((m.inIds j).map (redirVal r merged m j)).foldl max (m.node mid).value := by
  cases v with
  | all => exact redirects_value hj _ hmid hes
  | barrier =>
    unfold mergeOne
    simp only []
    generalize hma : m.modNode j (fun n => { n with flags := n.flags.setDeleted true }) = ma
    have hsv : ∀ i, ma.sv i = m.sv i := fun i => by rw [← hma]; exact sv_modNode _ _ _ _ fun _ => ⟨rfl, rfl⟩
    have hinb : ∀ i, (ma.node i).inbound = (m.node i).inbound := fun i => by
      rw [← hma, node_modNode]; split <;> rfl
    have hon : OnlyMid mid m ma := ⟨by rw [← hma]; simp, by rw [← hma]; exact List.prefix_rfl, fun i _ => hsv i, fun i _ => hinb i, congrArg Prod.fst (hsv mid),
      by rw [← hma]; rfl⟩
    have hed : ∀ e, ma.edge e = m.edge e := fun e => by rw [← hma]; rfl
    have hin : ma.inIds j = m.inIds j := by
      unfold inIds; rw [hinb, ← hma]; rfl
    rw [hin]
    obtain ⟨h1, h2⟩ := redirects_value (r := r) (merged := merged) hj (m.inIds j) (m := ma) (by rw [hon.len]; exact hmid) (fun e he => by
      obtain ⟨k1, k2⟩ := hes e he
      exact ⟨Nat.lt_of_lt_of_le k1 hon.pre.length_le, by rw [hed]; exact k2⟩)
    refine ⟨hon.trans h1, ?_⟩
    rw [h2, show (ma.node mid).value = (m.node mid).value from congrArg Prod.snd (hsv mid)]
    congr 1
    refine List.map_congr_left fun e he => ?_
    obtain ⟨k1, k2⟩ := hes e he
    exact redirVal_frame hon hj k1 k2

/-- The values of all redirected edges. -/
def redirVals (r : Relaxation σ) (merged : σ) (m : Dd σ) (drops : List Nat) : List Int := drops.flatMap fun j => (m.inIds j).map (redirVal r merged m j)

theorem mergeAll_value {merged : σ} {mid : Nat} {m0 : Dd σ} (hc : ChainOK m0) (hmid : mid < m0.nodes.length) : ∀ (drops : List Nat) {m : Dd σ}, OnlyMid mid m0 m →
    (∀ j ∈ drops, j ≠ mid ∧ j < m0.nodes.length ∧ ∀ e ∈ m0.inIds j, (m0.edge e).src ≠ mid) →
    OnlyMid mid m0 (drops.foldl (mergeOne v r merged mid) m) ∧
      ((drops.foldl (mergeOne v r merged mid) m).node mid).value = (redirVals r merged m0 drops).foldl max (m.node mid).value := by
  intro drops
  induction drops with
  | nil => intro m h _; exact ⟨h, rfl⟩
  | cons j drops ih =>
    intro m h hd
    obtain ⟨k1, k2, k3⟩ := hd j (by simp)
    have hin : m.inIds j = m0.inIds j := inIds_frame hc k2 h.pre (h.inb j k1)
    have hlt : ∀ e ∈ m0.inIds j, e < m0.edges.length := fun e he => inIds_lt hc k2 he
    obtain ⟨h1, h2⟩ := mergeOne_value (v := v) (r := r) (merged := merged) k1 (m := m) (by rw [h.len]; exact hmid) (fun e he => by
      rw [hin] at he
      exact ⟨Nat.lt_of_lt_of_le (hlt e he) h.pre.length_le, by rw [edge_frame h.pre (hlt e he)]; exact k3 e he⟩)
    obtain ⟨h3, h4⟩ := ih (h.trans h1) fun j' hj' => hd j' (by simp [hj'])
    refine ⟨h3, ?_⟩
    rw [List.foldl_cons, h4, h2, hin]
    unfold redirVals
    rw [List.flatMap_cons, List.foldl_append]
    congr 2
    exact List.map_congr_left fun e he => redirVal_frame h k1 (hlt e he) (k3 e he)

theorem foldl_max_ge (l : List Int) : ∀ a : Int, a ≤ l.foldl max a ∧ ∀ b ∈ l, b ≤ l.foldl max a := by
  induction l with
  | nil => intro a; exact ⟨Int.le_refl _, fun b hb => by cases hb⟩
  | cons c l ih =>
    intro a
    obtain ⟨h1, h2⟩ := ih (max a c)
    rw [List.foldl_cons]
    refine ⟨by omega, fun b hb => ?_⟩
    rcases List.mem_cons.1 hb with rfl | hb
    · omega
    · exact h2 b hb

theorem foldl_max_mem (l : List Int) : ∀ a : Int, l.foldl max a = a ∨ l.foldl max a ∈ l := by
  induction l with
  | nil => intro a; exact Or.inl rfl
  | cons c l ih =>
    intro a
    rw [List.foldl_cons]
    rcases ih (max a c) with h | h
    · rw [h]
      rcases Int.le_total a c with hh | hh
      · right; rw [Int.max_eq_right hh]; simp
      · left; exact Int.max_eq_left hh
    · right; exact List.mem_cons_of_mem _ h

theorem foldl_max_swap (l : List Int) : ∀ a b : Int, l.foldl max (max a b) = max a (l.foldl max b) := by
  induction l with
  | nil => intro a b; rfl
  | cons c l ih =>
    intro a b
    rw [List.foldl_cons, List.foldl_cons, ← ih]
    congr 1
    omega

theorem markLel_sv (m : Dd σ) : (∀ i, m.markLel.sv i = m.sv i) ∧ (∀ i, (m.markLel.node i).inbound = (m.node i).inbound) ∧ m.markLel.edges = m.edges ∧
    m.markLel.nextL = m.nextL ∧ m.markLel.nodes.length = m.nodes.length := by
  unfold markLel
  have gen : ∀ (todo : List Nat) (m1 : Dd σ), (∀ i, m1.sv i = m.sv i) ∧ (∀ i, (m1.node i).inbound = (m.node i).inbound) ∧ m1.edges = m.edges ∧ m1.nextL = m.nextL ∧
      m1.nodes.length = m.nodes.length → ∀ f, f = todo.foldl (fun (m : Dd σ) i =>
        { m.modNode i (fun n => { n with flags := n.flags.setCutset true }) with
          cutset := m.cutset ++ [i]
          lelDepth := some (m.node i).depth }) m1 →
      (∀ i, f.sv i = m.sv i) ∧ (∀ i, (f.node i).inbound = (m.node i).inbound) ∧ f.edges = m.edges ∧ f.nextL = m.nextL ∧ f.nodes.length = m.nodes.length := by
    intro todo
    induction todo with
    | nil => intro m1 h f hf; rw [hf]; exact h
    | cons a todo ih =>
      intro m1 ⟨h1, h2, h3, h4, h5⟩ f hf
      rw [List.foldl_cons] at hf
      refine ih _ ?_ f hf
      refine ⟨?_, ?_, h3, h4, ?_⟩
      · intro i
        rw [← h1 i]
        exact sv_modNode m1 a i _ fun _ => ⟨rfl, rfl⟩
      · intro i
        rw [← h2 i]
        show ((m1.modNode a _).node i).inbound = _
        rw [node_modNode]; split <;> rfl
      · simpa using h5
  exact gen m.prevL m ⟨fun _ => rfl, fun _ => rfl, rfl, rfl, rfl⟩ _ rfl

/-- What `relaxLayer` makes of a layer. -/
theorem relaxLayer_layer (ho : o.Valid) (hrk : Ranking rank) {w : Nat} {m m' : Dd σ} {l l' : List Nat} (hc : ChainOK m) (hnd : l.Nodup) (hlt : ∀ i ∈ l, i < m.nodes.length)
    (hsrc : ∀ i ∈ l, ∀ e ∈ m.inIds i, (m.edge e).src < m.nodes.length ∧ (m.edge e).src ∉ l) (hval : ∀ i ∈ l, isizeMin ≤ (m.node i).value)
    (hw : 1 ≤ w) (hl : w < l.length) (h : m.relaxLayer v o rank r w l = some (m', l')) :
    m'.nextL = m.nextL ∧ ∃ keep rest : List Nat, l.Perm (keep ++ rest) ∧ keep.length + 1 = w ∧ (∀ a ∈ keep, ∀ b ∈ rest, Preferred rank (m.sv a) (m.sv b)) ∧
      ∃ t, t = r.merge (rest.map fun i => (m.node i).state) ∧
        (((∀ a ∈ keep, (m.node a).state ≠ t) ∧ l' = keep ++ [m.nodes.length] ∧ m'.nodes.length = m.nodes.length + 1 ∧
            m'.sv m.nodes.length = (t, (redirVals r t m rest).foldl max isizeMin) ∧ ∀ i, i < m.nodes.length → m'.sv i = m.sv i) ∨
          (∃ mid ∈ keep, (m.node mid).state = t ∧ m'.nodes.length = m.nodes.length ∧ m'.sv mid = (t, max (m.node mid).value ((redirVals r t m rest).foldl max isizeMin)) ∧
            (∀ i, i ≠ mid → m'.sv i = m.sv i) ∧ ∃ c rest', rest = c :: rest' ∧ l' = keep ++ [c] ∧ ∀ b ∈ rest', Preferred rank (m.sv c) (m.sv b))) := by
  unfold relaxLayer at h
  rw [if_neg (by omega)] at h
  obtain ⟨ml, hml⟩ : ∃ ml : Dd σ, ml = if m.cutsetType = .lastExactLayer ∧ m.approximate = false then m.markLel else m := ⟨_, rfl⟩
  rw [← hml] at h
  have hL : (∀ i, ml.sv i = m.sv i) ∧ (∀ i, (ml.node i).inbound = (m.node i).inbound) ∧ ml.edges = m.edges ∧ ml.nextL = m.nextL ∧ ml.nodes.length = m.nodes.length := by
    rw [hml]; split
    · exact markLel_sv m
    · exact ⟨fun _ => rfl, fun _ => rfl, rfl, rfl, rfl⟩
  clear hml
  obtain ⟨l1, l2, l3, l4, l5⟩ := hL
  simp only [] at h
  obtain ⟨ma, hma⟩ : ∃ ma : Dd σ, ma = { ml with approximate := true } := ⟨_, rfl⟩
  rw [← hma] at h
  have a1 : ∀ i, ma.sv i = m.sv i := fun i => by rw [hma]; exact l1 i
  have a2 : ∀ i, (ma.node i).inbound = (m.node i).inbound := fun i => by rw [hma]; exact l2 i
  have a3 : ma.edges = m.edges := by rw [hma]; exact l3
  have a4 : ma.nextL = m.nextL := by rw [hma]; exact l4
  have a5 : ma.nodes.length = m.nodes.length := by rw [hma]; exact l5
  have ast : ∀ i, (ma.node i).state = (m.node i).state := fun i => congrArg Prod.fst (a1 i)
  clear l1 l2 l3 l4
  obtain ⟨cs, hcs⟩ : ∃ cs, cs = ma.sortLayer o rank l := ⟨_, rfl⟩
  rw [← hcs] at h
  have hperm : cs.Perm l := by rw [hcs]; exact sortLayer_perm o ho rank ma l
  have hsort : cs.Pairwise fun a b => Preferred rank (m.sv a) (m.sv b) := by
    rw [hcs]
    exact (sortLayer_sorted (o := o) hrk ma l).imp fun hh => by rwa [a1, a1] at hh
  clear hcs
  have hlen : cs.length = l.length := hperm.length_eq
  have hcsnd : cs.Nodup := hperm.nodup_iff.2 hnd
  have hsplit : cs.take (w - 1) ++ cs.drop (w - 1) = cs := List.take_append_drop _ _
  have hpref := take_preferred hsort (w - 1)
  have hkl : (cs.take (w - 1)).length + 1 = w := by rw [List.length_take]; omega
  obtain ⟨c, rest', hrest⟩ : ∃ c rest', cs.drop (w - 1) = c :: rest' := by
    cases hd : cs.drop (w - 1) with
    | nil => have := congrArg List.length hd; simp at this; omega
    | cons c rest' => exact ⟨c, rest', rfl⟩
  have hctake : cs.take w = cs.take (w - 1) ++ [c] := by
    rw [show w = (w - 1) + 1 by omega, List.take_add, hrest]
    simp
  have hcpref : ∀ b ∈ rest', Preferred rank (m.sv c) (m.sv b) := by
    have hh : (cs.drop (w - 1)).Pairwise fun a b => Preferred rank (m.sv a) (m.sv b) := hsort.sublist (List.drop_sublist _ _)
    rw [hrest, List.pairwise_cons] at hh
    exact hh.1
  have hdisj : ∀ i ∈ cs.take (w - 1), i ∉ cs.drop (w - 1) := by
    intro i h1 h2
    rw [← hsplit, List.nodup_append] at hcsnd
    exact hcsnd.2.2 i h1 i h2 rfl
  have hkm : ∀ i ∈ cs.take (w - 1), i ∈ l := fun i hi => hperm.mem_iff.1 (List.mem_of_mem_take hi)
  have hrm : ∀ i ∈ cs.drop (w - 1), i ∈ l := fun i hi => hperm.mem_iff.1 (List.mem_of_mem_drop hi)
  generalize hkeep : cs.take (w - 1) = keep at *
  generalize hrestd : cs.drop (w - 1) = rest at *
  obtain ⟨t, ht⟩ : ∃ t, t = r.merge (rest.map fun i => (m.node i).state) := ⟨_, rfl⟩
  have htm : r.merge (rest.map fun i => (ma.node i).state) = t := by
    rw [ht]; congr 1; exact List.map_congr_left fun i _ => ast i
  rw [htm] at h
  have hvals : ∀ m2 : Dd σ, m2.edges = m.edges → (∀ i, i < m.nodes.length → m2.sv i = m.sv i) → (∀ i, i < m.nodes.length → (m2.node i).inbound = (m.node i).inbound) →
      redirVals r t m2 rest = redirVals r t m rest := by
    intro m2 g1 g2 g3
    unfold redirVals
    have hed : ∀ e, m2.edge e = m.edge e := fun e => by unfold edge; rw [g1]
    have : ∀ j ∈ rest, (m2.inIds j).map (redirVal r t m2 j) = (m.inIds j).map (redirVal r t m j) := by
      intro j hj
      have hjl := hlt j (hrm j hj)
      have hin : m2.inIds j = m.inIds j := by unfold inIds; rw [g1, g3 j hjl]
      rw [hin]
      refine List.map_congr_left fun e he => ?_
      have h1 := g2 _ (hsrc j (hrm j hj) e he).1
      have h2 := g2 j hjl
      unfold Dd.sv at h1 h2
      simp only [Prod.mk.injEq] at h1 h2
      unfold redirVal
      rw [hed, h1.1, h1.2, h2.1]
    rw [List.flatMap_def, List.flatMap_def, List.map_congr_left this]
  have hchain : ∀ m2 : Dd σ, m2.edges = m.edges → (∀ i, i < m.nodes.length → (m2.node i).inbound = (m.node i).inbound) →
      (∀ i, m.nodes.length ≤ i → i < m2.nodes.length → (m2.node i).inbound = none) → ChainOK m2 := by
    intro m2 g1 g2 g3
    have hed : ∀ e, m2.edge e = m.edge e := fun e => by unfold edge; rw [g1]
    constructor
    · intro e he y hy; rw [g1] at he; rw [hed] at hy; exact hc.next e he y hy
    · intro j hj y hy
      by_cases hj1 : j < m.nodes.length
      · rw [g2 j hj1] at hy; rw [g1]; exact hc.inb j hj1 y hy
      · rw [g3 j (by omega) hj] at hy; cases hy
  have hp : l.Perm (keep ++ rest) := by rw [hsplit]; exact hperm.symm
  have hsv0 : ∀ (m2 : Dd σ) i, (m2.node i).value = (m2.sv i).2 := fun _ _ => rfl
  cases hrec : keep.find? (fun i => decide ((ma.node i).state = t)) with
  | some mid =>
    rw [hrec] at h
    obtain ⟨hmidk, hmids⟩ := find?_getD_mem hrec
    have hmids : (m.node mid).state = t := by rw [← ast]; simpa using hmids
    have hmidlt := hlt mid (hkm mid hmidk)
    simp only [Option.getD_some] at h
    obtain ⟨m2, hm2⟩ : ∃ m2 : Dd σ, m2 = ma.modNode mid fun n => { n with flags := n.flags.setRelaxed true } := ⟨_, rfl⟩
    rw [← hm2] at h
    have b1 : ∀ i, m2.sv i = m.sv i := fun i => by rw [hm2, ← a1 i]; exact sv_modNode _ _ _ _ fun _ => ⟨rfl, rfl⟩
    have b2 : ∀ i, (m2.node i).inbound = (m.node i).inbound := fun i => by
      rw [hm2, ← a2 i, node_modNode]; split <;> rfl
    have b3 : m2.edges = m.edges := by rw [hm2]; exact a3
    have b4 : m2.nextL = m.nextL := by rw [hm2]; exact a4
    have b5 : m2.nodes.length = m.nodes.length := by rw [hm2]; simp [a5]
    have hc2 : ChainOK m2 := hchain m2 b3 (fun i _ => b2 i) (fun i h1 h2 => by omega)
    have hin2 : ∀ i, m2.inIds i = m.inIds i := fun i => by unfold inIds; rw [b3, b2]
    have hed2 : ∀ e, m2.edge e = m.edge e := fun e => by unfold edge; rw [b3]
    obtain ⟨g1, g2⟩ := mergeAll_value (v := v) (r := r) (merged := t) (mid := mid) hc2 (by rw [b5]; exact hmidlt) rest (OnlyMid.refl mid m2) (fun j hj =>
      ⟨fun hh => hdisj mid hmidk (hh ▸ hj), by rw [b5]; exact hlt j (hrm j hj), fun e he => by
        rw [hin2] at he; rw [hed2]
        exact fun hh => (hsrc j (hrm j hj) e he).2 (hh ▸ hkm mid hmidk)⟩)
    rw [hvals m2 b3 (fun i _ => b1 i) (fun i _ => b2 i), hsv0 m2, b1] at g2
    generalize rest.foldl (mergeOne v r t mid) m2 = m3 at h g1 g2
    have hm' : l' = cs.take w ∧ (∀ i, m'.sv i = m3.sv i) ∧ m'.nextL = m3.nextL ∧ m'.nodes.length = m3.nodes.length := by
      cases v with
      | all => simp only [Option.some.injEq, Prod.mk.injEq] at h; obtain ⟨rfl, rfl⟩ := h; exact ⟨rfl, fun _ => rfl, rfl, rfl⟩
      | barrier =>
        simp only [Option.some.injEq, Prod.mk.injEq] at h; obtain ⟨rfl, rfl⟩ := h
        exact ⟨rfl, fun i => sv_modNode _ _ _ _ fun _ => ⟨rfl, rfl⟩, rfl, by simp⟩
    obtain ⟨c1, c2, c3, c4⟩ := hm'
    refine ⟨c3.trans (g1.next.trans b4), keep, rest, hp, hkl, hpref, t, ht, Or.inr ⟨mid, hmidk, hmids, c4.trans (g1.len.trans b5), ?_, ?_, c, rest', hrest, c1.trans hctake, hcpref⟩⟩
    · rw [c2]
      unfold Dd.sv at g2 ⊢
      rw [g1.st, g2, show (m2.node mid).state = t from (congrArg Prod.fst (b1 mid)).trans hmids, ← foldl_max_swap]
      congr 2
      have h1 := hval mid (hkm mid hmidk)
      show (m.node mid).value = max (m.node mid).value isizeMin
      omega
    · intro i hi
      rw [c2, g1.sv i hi, b1]
  | none =>
    rw [hrec] at h
    simp only [Option.getD_none, l5] at h
    have hnone : ∀ a ∈ keep, (m.node a).state ≠ t := by
      intro a ha hh
      have := List.find?_eq_none.1 hrec a ha
      rw [ast, hh] at this
      simp at this
    obtain ⟨mn, hmn⟩ : ∃ mn : Dd σ, mn = { ml with approximate := true, nodes := ml.nodes ++ [
        { state := t, value := isizeMin, best := none, inbound := none,
          depth := (ma.node (rest.headD 0)).depth, valueBot := isizeMin, theta := isizeMax, rub := isizeMax,
          flags := NodeFlags.newRelaxed }] } := ⟨_, rfl⟩
    rw [← hmn] at h
    have hmn : mn = { ma with nodes := ma.nodes ++ [
        { state := t, value := isizeMin, best := none, inbound := none,
          depth := (ma.node (rest.headD 0)).depth, valueBot := isizeMin, theta := isizeMax, rub := isizeMax,
          flags := NodeFlags.newRelaxed }] } := by rw [hmn, hma]
    clear hma l5
    have n5 : mn.nodes.length = m.nodes.length + 1 := by rw [hmn]; simp [a5]
    have nold : ∀ i, i < m.nodes.length → mn.node i = ma.node i := fun i hi => by
      rw [hmn]
      simp only [Dd.node, List.getD_eq_getElem?_getD, List.getElem?_append_left (show i < ma.nodes.length by omega)]
    have nnew : (mn.node m.nodes.length).state = t ∧ (mn.node m.nodes.length).value = isizeMin ∧ (mn.node m.nodes.length).inbound = none := by
      rw [← a5, hmn]
      simp only [Dd.node, getD_append_len]
      exact ⟨trivial, trivial, trivial⟩
    have n3 : mn.edges = m.edges := by rw [hmn]; exact a3
    have n4 : mn.nextL = m.nextL := by rw [hmn]; exact a4
    obtain ⟨m2, hm2⟩ : ∃ m2 : Dd σ, m2 = mn.modNode m.nodes.length fun n => { n with flags := n.flags.setRelaxed true } := ⟨_, rfl⟩
    rw [← hm2] at h
    have b0 : ∀ i, m2.sv i = mn.sv i := fun i => by rw [hm2]; exact sv_modNode _ _ _ _ fun _ => ⟨rfl, rfl⟩
    have b1 : ∀ i, i < m.nodes.length → m2.sv i = m.sv i := fun i hi => by rw [b0, ← a1 i]; unfold Dd.sv; rw [nold i hi]
    have b2' : ∀ i, (m2.node i).inbound = (mn.node i).inbound := fun i => by
      rw [hm2, node_modNode]; split <;> rfl
    have b2 : ∀ i, i < m.nodes.length → (m2.node i).inbound = (m.node i).inbound := fun i hi => by
      rw [b2', nold i hi, a2]
    have b3 : m2.edges = m.edges := by rw [hm2]; exact n3
    have b4 : m2.nextL = m.nextL := by rw [hm2]; exact n4
    have b5 : m2.nodes.length = m.nodes.length + 1 := by rw [hm2]; simp [n5]
    have hc2 : ChainOK m2 := hchain m2 b3 b2 (fun i h1 h2 => by
      have : i = m.nodes.length := by omega
      subst this; rw [b2']; exact nnew.2.2)
    have hin2 : ∀ i, i < m.nodes.length → m2.inIds i = m.inIds i := fun i hi => by unfold inIds; rw [b3, b2 i hi]
    have hed2 : ∀ e, m2.edge e = m.edge e := fun e => by unfold edge; rw [b3]
    obtain ⟨g1, g2⟩ := mergeAll_value (v := v) (r := r) (merged := t) (mid := m.nodes.length) hc2 (by omega) rest (OnlyMid.refl _ m2) (fun j hj => by
      have hjl := hlt j (hrm j hj)
      refine ⟨by omega, by omega, fun e he => ?_⟩
      rw [hin2 j hjl] at he; rw [hed2]
      have := (hsrc j (hrm j hj) e he).1
      omega)
    rw [hvals m2 b3 b1 b2, hsv0 m2, b0] at g2
    generalize rest.foldl (mergeOne v r t m.nodes.length) m2 = m3 at h g1 g2
    simp only [Option.some.injEq, Prod.mk.injEq] at h
    obtain ⟨rfl, rfl⟩ := h
    refine ⟨g1.next.trans b4, keep, rest, hp, hkl, hpref, t, ht, Or.inl ⟨hnone, rfl, g1.len.trans b5, ?_, ?_⟩⟩
    · unfold Dd.sv at g2 ⊢
      rw [g1.st, g2, show (m2.node m.nodes.length).state = t from (congrArg Prod.fst (b0 _)).trans nnew.1, nnew.2.1]
    · intro i hi
      rw [g1.sv i (by omega), b1 i hi]

/-- The layer is pruned and expanded, or pruned, condensed and expanded. -/
theorem widen_step (ho : o.Valid) (hwf : WellFormed p S B) (hrk : Ranking rank) (hct : inp.compType = .relaxed) (hw : 1 ≤ inp.maxWidth) (hroot : RootOK p S B inp.residual)
    {c : CutsetType} {k jx jx' : Nat} {m : Dd σ} {P L : Nat → List Nat} {currL : List Nat} {m2 m4 : Dd σ} {cur1 cur2 : List Nat}
    (h : Head v p r S B inp rd m k jx P L c) (hk : inp.residual.path.length + k < p.nbVars)
    (k1 : ({ m with prevL := currL, nextL := [] } : Dd σ).pruneLayer v rd inp.residual.path.length (inp.residual.path.length + k) ((o.hashOrd m.nextL).map (·.2)) =
      (m2, cur1))
    (k2 : m2.squashLayer v o rank r inp inp.residual.path.length (inp.residual.path.length + k) cur1 = some (m4, cur2))
    {m' : Dd σ} (hm' : m' = cur2.foldl (expandOne v p inp (S.var (inp.residual.path.length + k)) (inp.residual.path.length + k)) m4)
    (h' : Head v p r S B inp rd m' (k + 1) jx' (upd P (k + 1) (m'.nextL.map (·.2))) (upd L k cur2) c) {W : Layer σ}
    (hW : Widened p r S rank inp.maxWidth inp.bestLb (passes v rd inp.residual.path.length) inp.residual k W m.layerOf) (hWL : ∀ j, k = j + 1 → W = (L j).map m.sv) :
    Widened p r S rank inp.maxWidth inp.bestLb (passes v rd inp.residual.path.length) inp.residual (k + 1) (cur2.map m'.sv) m'.layerOf := by
  have hc := h.core
  -- the layer before it is squashed
  have hperm : ((o.hashOrd m.nextL).map (·.2)).Perm (P k) := by rw [← h.ids]; exact (ho.hash m.nextL).map _
  have hnd : ((o.hashOrd m.nextL).map (·.2)).Nodup := hperm.nodup_iff.2 (hc.nodupP k (Nat.le_refl _))
  have hlt : ∀ i ∈ (o.hashOrd m.nextL).map (·.2), i < ({ m with prevL := currL, nextL := [] } : Dd σ).nodes.length := fun i hi =>
    hc.lt k i (Or.inl ⟨Nat.le_refl _, hperm.mem_iff.1 hi⟩)
  have hps := pruneLayer_spec v rd inp.residual.path.length (inp.residual.path.length + k) ({ m with prevL := currL, nextL := [] } : Dd σ) _ hnd hlt
  rw [k1] at hps
  have hsv2 : ∀ i, m2.sv i = m.sv i := fun i => hps.sv i
  have hst2 : ∀ i, (m2.node i).state = (m.node i).state := fun i => congrArg Prod.fst (hsv2 i)
  have hva2 : ∀ i, (m2.node i).value = (m.node i).value := fun i => congrArg Prod.snd (hsv2 i)
  have hinb2 : ∀ i, (m2.node i).inbound = (m.node i).inbound := by
    intro i
    by_cases h1 : i ∈ (o.hashOrd m.nextL).map (·.2)
    · by_cases h2 : i ∈ cur1
      · rw [hps.keep i (Or.inr h2)]; rfl
      · rw [(hps.drop i h1 h2).1]; rfl
    · rw [hps.keep i (Or.inl h1)]; rfl
  have hlen2 : m2.nodes.length = m.nodes.length := hps.len
  have hed2 : m2.edges = m.edges := hps.edges
  have hedge2 : ∀ e, m2.edge e = m.edge e := fun e => by unfold edge; rw [hed2]
  have hin2 : ∀ i, m2.inIds i = m.inIds i := fun i => by unfold inIds; rw [hed2, hinb2]
  have hnext2 : m2.nextL = [] := congrArg Rest.nextL hps.rest
  have hchain2 : ChainOK m2 := chainOK_of_same hc.chain hed2 hlen2 hinb2
  have hsub1 : ∀ i ∈ cur1, i ∈ P k := fun i hi => hperm.mem_iff.1 (hps.sub.subset hi)
  have hpass : ∀ i ∈ P k, passes v rd inp.residual.path.length (inp.residual.path.length + k) (m.sv i) = true → i ∈ cur1 := by
    intro i hiP hpass
    refine Classical.byContradiction fun hn => ?_
    obtain ⟨_, _, h3, h4, h5, h6⟩ := hps.drop i (hperm.mem_iff.2 hiP) hn
    subst h4
    simp only [passes, Bool.or_eq_true, decide_eq_true_eq, h6] at hpass
    rcases hpass with (hh | hh) | hh
    · omega
    · cases hh
    · have h3 : (m.node i).value ≤ (rd.theta (inp.residual.path.length + k) (m.node i).state).getD isizeMin := h3
      have hh : (rd.theta (inp.residual.path.length + k) (m.node i).state).getD isizeMin < (m.node i).value := hh
      omega
  have hlay : m.layerOf = (P k).map m.sv := by rw [← h.ids, List.map_map]; rfl
  have hnd1 : cur1.Nodup := hps.sub.nodup hnd
  -- equal states: equal nodes
  have hinj : ∀ i ∈ P k, ∀ i' ∈ P k, (m.node i).state = (m.node i').state → i = i' := by
    intro i hi i' hi' he
    rw [← h.ids] at hi hi'
    obtain ⟨q, hq, rfl⟩ := List.mem_map.1 hi
    obtain ⟨q', hq', rfl⟩ := List.mem_map.1 hi'
    rw [h.sts q hq, h.sts q' hq'] at he
    exact congrArg Prod.snd (eq_of_nodup_map h.keys hq hq' he)
  have hsift : Sifted (passes v rd inp.residual.path.length (inp.residual.path.length + k)) m.layerOf (cur1.map m.sv) := by
    refine ⟨nodup_map_of_inj (fun i hi i' hi' he => hinj i (hsub1 i hi) i' (hsub1 i' hi') (congrArg Prod.fst he)) hnd1, ?_, ?_⟩
    · intro a ha
      obtain ⟨i, hi, rfl⟩ := List.mem_map.1 ha
      rw [hlay]; exact List.mem_map_of_mem (hsub1 i hi)
    · intro a ha hp
      rw [hlay] at ha
      obtain ⟨i, hi, rfl⟩ := List.mem_map.1 ha
      exact List.mem_map_of_mem (hpass i hi hp)
  have hchildren := children_step hwf hroot h'
  have hold : m4.nextL = [] → OldKept m4.nodes.length m4 m' := by
    intro hn
    rw [hm']
    refine OldKept.foldl_expandOne _ _ cur2 ⟨Nat.le_refl _, ?_, fun _ _ => rfl⟩
    rw [hn]; intro q hq; cases hq
  unfold squashLayer at k2
  rw [hct] at k2
  simp only [] at k2
  by_cases hbig : cur1.length > inp.maxWidth ∧ inp.residual.path.length + k > inp.residual.path.length + 1
  · rw [if_pos hbig] at k2
    obtain ⟨j, rfl⟩ : ∃ j, k = j + 1 := ⟨k - 1, by omega⟩
    have hInP : ∀ i ∈ P (j + 1), InLay P L (j + 1) (j + 1) (j + 1) i := fun i hi => Or.inl ⟨Nat.le_refl _, hi⟩
    have hnode : ∀ i ∈ cur1, NodeOK p B m (S.var (inp.residual.path.length + j)) (L j) i := fun i hi => hc.node j i (hInP i (hsub1 i hi))
    have hLj : ∀ i ∈ L j, InLay P L (j + 1) (j + 1) j i := fun i hi => Or.inr ⟨by omega, hi⟩
    obtain ⟨g0, keep, rest, g1, g2, g3, t, g4, g5⟩ := relaxLayer_layer ho hrk hchain2 hnd1 (fun i hi => by rw [hlen2]; exact hc.lt _ i (hInP i (hsub1 i hi)))
      (fun i hi e he => by
        rw [hin2] at he
        rw [hedge2, hlen2]
        have hs := (hnode i hi).src e he
        refine ⟨hc.lt j _ (hLj _ hs), fun hh => ?_⟩
        have d1 := (hc.st j _ (hLj _ hs)).2.2
        have d2 := (hc.st (j + 1) _ (hInP _ (hsub1 _ hh))).2.2
        omega)
      (fun i hi => by
        rw [hva2]
        obtain ⟨e, _, _, hv⟩ := (hnode i hi).veq
        rw [hv]; exact (satAdd_in _ _).1) hw hbig.1 k2
    have hkeep : ∀ i ∈ keep, i ∈ cur1 := fun i hi => g1.mem_iff.2 (List.mem_append_left _ hi)
    have hrest : ∀ i ∈ rest, i ∈ cur1 := fun i hi => g1.mem_iff.2 (List.mem_append_right _ hi)
    simp only [hst2] at g4
    simp only [hsv2] at g3
    have hW' := hWL j rfl
    have hmv : MergedValue p r (S.var (inp.residual.path.length + j)) inp.bestLb W ((rest.map m.sv).map (·.1)) t ((redirVals r t m2 rest).foldl max isizeMin) := by
      have hval : ∀ i ∈ rest, ∀ e ∈ m.inIds i, redirVal r t m2 i e = satAdd (m.node (m.edge e).src).value
          (r.relax (m.node (m.edge e).src).state (p.trans (m.node (m.edge e).src).state (m.edge e).decision) t (m.edge e).decision
            (p.cost (m.node (m.edge e).src).state (m.edge e).decision)) := by
        intro i hi e he
        obtain ⟨r1, r2⟩ := h.real i (hsub1 i (hrest i hi)) e he
        unfold redirVal
        rw [hedge2, hva2, hst2, hst2, r1, r2]
      have hmem : ∀ u, u ∈ redirVals r t m2 rest ↔ Spec.Redirected p r (S.var (inp.residual.path.length + j)) inp.bestLb W ((rest.map m.sv).map (·.1)) t u := by
        intro u
        unfold redirVals Spec.Redirected
        rw [hW']
        simp only [List.mem_flatMap, List.mem_map]
        constructor
        · rintro ⟨i, hi, e, he, rfl⟩
          rw [hin2] at he
          have hn := hnode i (hrest i hi)
          have hs := hn.src e he
          obtain ⟨r1, r2⟩ := h.real i (hsub1 i (hrest i hi)) e he
          have hpr : Promising p inp.bestLb (m.node (m.edge e).src) := by
            have hlt := inIds_lt hc.chain (hc.lt _ _ (hInP i (hsub1 i (hrest i hi)))) he
            have hmem : m.edge e ∈ m.edges := by
              unfold edge
              rw [List.getD_eq_getElem?_getD, List.getElem?_eq_getElem hlt]
              exact List.getElem_mem hlt
            exact (hc.esrc _ hmem).1
          exact ⟨m.sv (m.edge e).src, ⟨_, hs, rfl⟩, hpr, (m.edge e).decision, hn.dec e he, ⟨m.sv i, ⟨i, hi, rfl⟩, r1⟩, hval i hi e he⟩
        · rintro ⟨_, ⟨i, hi, rfl⟩, hpr, d, hd, ⟨_, ⟨q, hq, rfl⟩, htr⟩, hu⟩
          obtain ⟨q', hq', t1, e, he, t2, t3, t4⟩ := (hc.exp j (by omega) i hi).2.2 hpr d hd
          have htr : (m.node q).state = p.trans (m.node i).state d := htr
          have hqq : q' = q := hinj q' hq' q (hsub1 q (hrest q hq)) (by rw [t1, htr])
          subst hqq
          refine ⟨q', hq, e, by rw [hin2]; exact he, ?_⟩
          rw [hval q' hq e he, t2, t3, hu]
          rfl
      have hne : ∃ u, u ∈ redirVals r t m2 rest := by
        have hlen := g1.length_eq
        rw [List.length_append] at hlen
        obtain ⟨i, hi⟩ := List.exists_mem_of_length_pos (show 0 < rest.length by omega)
        obtain ⟨e, he, _⟩ := (hnode i (hrest i hi)).veq
        exact ⟨redirVal r t m2 i e, List.mem_flatMap.2 ⟨i, hi, List.mem_map.2 ⟨e, by rw [hin2]; exact he, rfl⟩⟩⟩
      have hge := foldl_max_ge (redirVals r t m2 rest) isizeMin
      refine ⟨(hmem _).1 ?_, fun u' hu' => hge.2 u' ((hmem u').2 hu')⟩
      rcases foldl_max_mem (redirVals r t m2 rest) isizeMin with hh | hh
      · obtain ⟨u, hu⟩ := hne
        have h1 := hge.2 u hu
        have h2 : isizeMin ≤ u := by
          obtain ⟨i, _, hu⟩ := List.mem_flatMap.1 hu
          obtain ⟨e, _, rfl⟩ := List.mem_map.1 hu
          exact (satAdd_in _ _).1
        rw [hh] at h1 ⊢
        have : u = isizeMin := by omega
        rw [← this]; exact hu
      · exact hh
    have hX : (cur1.map m.sv).Perm (keep.map m.sv ++ rest.map m.sv) := by
      rw [← List.map_append]; exact g1.map _
    have hpf : ∀ a ∈ keep.map m.sv, ∀ b ∈ rest.map m.sv, Preferred rank a b := by
      intro a ha b hb
      obtain ⟨i, hi, rfl⟩ := List.mem_map.1 ha
      obtain ⟨i', hi', rfl⟩ := List.mem_map.1 hb
      exact g3 i hi i' hi'
    have hmt : t = r.merge ((rest.map m.sv).map (·.1)) := by rw [g4, List.map_map]; rfl
    have hlarge : inp.maxWidth < (cur1.map m.sv).length := by rw [List.length_map]; exact hbig.1
    refine Widened.merge hW hk hsift hlarge (by omega) ?_ hchildren
    have hold' := hold (by rw [g0, hnext2])
    rcases g5 with ⟨u1, u2, u3, u4, u5⟩ | ⟨mid, u1, u2, u3, u4, u5, cc, rest', u6, u7, u8⟩
    · refine Condensed.merge (keep := keep.map m.sv) (rest := rest.map m.sv) (t := t) (u := (redirVals r t m2 rest).foldl max isizeMin) hX (by rw [List.length_map]; exact g2)
        hpf hmt hmv ?_ ?_
      · intro a ha
        obtain ⟨i, hi, rfl⟩ := List.mem_map.1 ha
        have := u1 i hi
        rw [hst2] at this
        exact this
      · rw [u2, List.map_append]
        have e1 : keep.map m'.sv = keep.map m.sv := List.map_congr_left fun i hi => by
          have hil : i < m2.nodes.length := by rw [hlen2]; exact hc.lt _ i (hInP i (hsub1 i (hkeep i hi)))
          rw [hold'.old i (by omega), u5 i hil, hsv2]
        rw [e1, List.map_singleton, hold'.old _ (by omega), u4]
        exact List.perm_append_singleton _ _
    · have hdis : (keep ++ rest).Nodup := g1.nodup_iff.1 hnd1
      rw [List.nodup_append] at hdis
      obtain ⟨hkn, _, hdis⟩ := hdis
      have hpe : keep.Perm (mid :: keep.erase mid) := List.perm_cons_erase u1
      have hnm : mid ∉ keep.erase mid := by
        have := hpe.nodup_iff.1 hkn
        exact (List.nodup_cons.1 this).1
      have hccm : cc ≠ mid := fun hh => hdis mid u1 cc (by rw [u6]; simp) hh.symm
      have hkl : keep.length = (keep.erase mid).length + 1 := by rw [hpe.length_eq, List.length_cons]
      have hpm : (keep.map m.sv).Perm ((t, (m.node mid).value) :: (keep.erase mid).map m.sv) := by
        have := hpe.map m.sv
        rw [List.map_cons] at this
        have e : m.sv mid = (t, (m.node mid).value) := by rw [← u2, hst2]; rfl
        rwa [e] at this
      have hrc : rest.map m.sv = m.sv cc :: rest'.map m.sv := by rw [u6, List.map_cons]
      rw [hva2] at u4
      have hsv' : ∀ i ∈ cur1, i ≠ mid → m'.sv i = m.sv i := by
        intro i hi him
        have hil : i < m2.nodes.length := by rw [hlen2]; exact hc.lt _ i (hInP i (hsub1 i hi))
        rw [hold'.old i (by omega), u5 i him, hsv2]
      rw [hrc] at hmt hmv hpf hX
      refine Condensed.recycle (keep := (keep.erase mid).map m.sv) (rest := rest'.map m.sv) (t := t) (u0 := (m.node mid).value)
        (u := (redirVals r t m2 rest).foldl max isizeMin) (c := m.sv cc) ?_ ?_ ?_ hmt hmv ?_ ?_
      · exact hX.trans (hpm.append_right _)
      · rw [List.length_map]; omega
      · intro a ha b hb
        exact hpf a (hpm.mem_iff.2 ha) b hb
      · intro b hb
        obtain ⟨i, hi, rfl⟩ := List.mem_map.1 hb
        have := u8 i hi
        rwa [hsv2, hsv2] at this
      · rw [u7, List.map_append, List.map_singleton, hsv' cc (hrest cc (by rw [u6]; simp)) hccm]
        have e1 : (keep.erase mid).map m'.sv = (keep.erase mid).map m.sv := List.map_congr_left fun i hi =>
          hsv' i (hkeep i (List.mem_of_mem_erase hi)) fun hh => hnm (hh ▸ hi)
        have e2 : m'.sv mid = (t, max (m.node mid).value ((redirVals r t m2 rest).foldl max isizeMin)) := by
          have hil : mid < m2.nodes.length := by rw [hlen2]; exact hc.lt _ mid (hInP mid (hsub1 mid (hkeep mid u1)))
          rw [hold'.old mid (by omega), u4]
        have e3 := hpe.map m'.sv
        rw [List.map_cons, e1, e2] at e3
        refine (List.perm_append_singleton _ _).trans ?_
        exact (e3.cons _).trans (List.Perm.swap _ _ _)
  · rw [if_neg hbig] at k2
    simp only [Option.some.injEq, Prod.mk.injEq] at k2
    obtain ⟨rfl, rfl⟩ := k2
    have hold' := hold hnext2
    have e1 : cur1.map m'.sv = cur1.map m.sv := List.map_congr_left fun i hi => by
      rw [hold'.old i (by rw [hlen2]; exact hc.lt k i (Or.inl ⟨Nat.le_refl _, hsub1 i hi⟩)), hsv2]
    rw [e1] at hchildren ⊢
    refine Widened.step hW hk hsift ?_ hchildren
    rw [List.length_map]
    omega

/-- The layers of a relaxed diagram. -/
theorem compile_widened (ho : o.Valid) (hwf : WellFormed p S B) (hrk : Ranking rank) (hr : LayeredRelaxation p r S B) (hct : inp.compType = .relaxed) (hw : 1 ≤ inp.maxWidth)
    (hroot : RootOK p S B inp.residual) (m : Dd σ) :
    ∃ (m' : Dd σ) (k : Nat) (W X : Layer σ), m.compile v o p r rank rd inp = some (m'.finish v o inp) ∧
      Widened p r S rank inp.maxWidth inp.bestLb (passes v rd inp.residual.path.length) inp.residual k W X ∧
      BeamEnds p inp.residual k X ∧ (m'.finish v o inp).bestValue = X.best := by
  obtain ⟨m', k, jx, P, L, h1, h2, W, h3, _⟩ := compile_inv (v := v) (r := r) (rank := rank) (rd := rd) ho hwf (fun _ => hr) (fun _ => hw) hroot m
    (fun k m' L => ∃ W, Widened p r S rank inp.maxWidth inp.bestLb (passes v rd inp.residual.path.length) inp.residual k W m'.layerOf ∧ ∀ j, k = j + 1 → W = (L j).map m'.sv)
    (fun _ => ⟨[], by exact Widened.root, fun j hj => by omega⟩)
    (by
      rintro k jx jx' m' P L currL m2 cur1 m4 cur2 h hk k1 k2 h' ⟨W, hb, hWL⟩
      refine ⟨_, widen_step ho hwf hrk hct hw hroot h hk k1 k2 rfl h' hb hWL, fun j hj => ?_⟩
      have : j = k := by omega
      subst this; rw [upd_self])
  refine ⟨m', k, W, m'.layerOf, h1, h3, ?_, layerOf_best hwf ho hroot h2⟩
  rcases h2.fin with hf | hf
  · left
    unfold layerOf
    rw [← h2.head.ids, List.map_eq_nil_iff] at hf
    rw [hf]; rfl
  · exact Or.inr hf

end Verif.Dd
