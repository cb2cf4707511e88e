import Verif.Spec.Beam
import Verif.Proofs.Mdd.Result
/-! A restricted (or exact) diagram is built by a beam search. -/
set_option autoImplicit false

namespace Verif.Dd
open Verif Spec
variable {σ : Type} [DecidableEq σ] [Inhabited σ]
variable {v : Variant} {o : Oracle σ} {p : Problem σ} {r : Relaxation σ} {rank : σ → σ → Ordering} {S : Layering σ} {B : Int}
  {inp : Input σ} {rd : Reads σ}

theorem nodup_of_map {α β : Type} {f : α → β} {l : List α} (h : (l.map f).Nodup) : l.Nodup := by
  induction l with
  | nil => exact List.nodup_nil
  | cons c l ih =>
    rw [List.map_cons, List.nodup_cons] at h
    exact List.nodup_cons.2 ⟨fun hc => h.1 (List.mem_map_of_mem hc), ih h.2⟩

/-- State and value of a node. -/
def sv (m : Dd σ) (i : Nat) : σ × Int := ((m.node i).state, (m.node i).value)

/-- The layer under construction. -/
def layerOf (m : Dd σ) : Layer σ := m.nextL.map fun q => m.sv q.2

/-- The loop, with a further property `Q` of the diagram at its head. -/
theorem loop_inv (ho : o.Valid) (hwf : WellFormed p S B) (hr : inp.compType = .relaxed → LayeredRelaxation p r S B)
    (hw : inp.compType = .relaxed → 1 ≤ inp.maxWidth) {c : CutsetType} (Q : Nat → Dd σ → (Nat → List Nat) → Prop)
    (hQ : ∀ k jx jx' m P L currL m2 cur1 m4 cur2, Head v p r S B inp rd m k jx P L c → inp.residual.path.length + k < p.nbVars →
      ({ m with prevL := currL, nextL := [] } : Dd σ).pruneLayer v rd inp.residual.path.length (inp.residual.path.length + k) ((o.hashOrd m.nextL).map (·.2)) =
        (m2, cur1) →
      m2.squashLayer v o rank r inp inp.residual.path.length (inp.residual.path.length + k) cur1 = some (m4, cur2) →
      Head v p r S B inp rd (cur2.foldl (expandOne v p inp (S.var (inp.residual.path.length + k)) (inp.residual.path.length + k)) m4) (k + 1) jx'
        (upd P (k + 1) ((cur2.foldl (expandOne v p inp (S.var (inp.residual.path.length + k)) (inp.residual.path.length + k)) m4).nextL.map (·.2))) (upd L k cur2) c →
      Q k m L → Q (k + 1) (cur2.foldl (expandOne v p inp (S.var (inp.residual.path.length + k)) (inp.residual.path.length + k)) m4) (upd L k cur2)) :
    ∀ (fuel k jx : Nat) (m : Dd σ) (P L : Nat → List Nat) (currL : List Nat), Head v p r S B inp rd m k jx P L c →
      (k = 0 → jx = 0 ∧ m.approximate = false ∧ m.updates = []) → (∀ j, k = j + 1 → currL = L j) → fuel ≠ 0 →
      p.nbVars + 1 ≤ fuel + (inp.residual.path.length + k) → Q k m L →
      ∃ m' k' jx' P' L', loop v o p r rank rd inp inp.residual.path.length fuel (inp.residual.path.length + k) m currL =
        some (m', .finished) ∧ Done v p r S B inp rd m' k' jx' P' L' c ∧ Q k' m' L' := by
  intro fuel
  induction fuel with
  | zero => intro _ _ _ _ _ _ _ _ _ h; exact absurd rfl h
  | succ fuel ih =>
    intro k jx m P L currL h h0 hcur _ hf hq
    have hc := h.core
    have hids : ((o.hashOrd m.nextL).map (·.2)).Perm (P k) := by rw [← h.ids]; exact (ho.hash m.nextL).map _
    have hPk : ∀ i ∈ P k, InLay P L k k k i := fun i hi => Or.inl ⟨Nat.le_refl _, hi⟩
    have hsts : ∀ s ∈ (o.hashOrd m.nextL).map (·.1), S.ok s ∧ S.lvl s = inp.residual.path.length + k := by
      intro s hs
      obtain ⟨q, hq, rfl⟩ := List.mem_map.1 hs
      have hq' := (ho.hash m.nextL).mem_iff.1 hq
      have := hc.st k q.2 (hPk _ (by rw [← h.ids]; exact List.mem_map.2 ⟨q, hq', rfl⟩))
      rw [h.sts q hq'] at this
      exact ⟨this.1, this.2.1⟩
    unfold loop
    simp only []
    cases hnv : p.nextVar ((o.hashOrd m.nextL).map (·.1)) with
    | none =>
      refine ⟨m, k, jx, P, L, rfl, ⟨h, ?_, h0⟩, hq⟩
      by_cases hnil : o.hashOrd m.nextL = []
      · left
        rw [hnil] at hids
        exact List.nil_perm.1 hids
      · right
        rw [hwf.next_var _ _ (by simpa using hnil) hsts] at hnv
        split at hnv
        · cases hnv
        · omega
    | some x =>
      have hx : x = S.var (inp.residual.path.length + k) := by
        have hnil : o.hashOrd m.nextL ≠ [] := by
          intro hh
          rw [hh] at hnv
          simp only [List.map_nil] at hnv
          rw [hwf.next_nil] at hnv; cases hnv
        rw [hwf.next_var _ _ (by simpa using hnil) hsts] at hnv
        split at hnv
        · simp at hnv; exact hnv.symm
        · cases hnv
      obtain ⟨hvar, hne, m2, cur1, m4, cur2, jx', k1, k2, hexp⟩ := loop_iter (rank := rank) ho hwf hr hw h h0 hcur hnv
      subst hx
      simp only [hne, Bool.false_eq_true, if_false]
      rw [k1]
      simp only [k2]
      exact ih (k+1) jx' _ _ _ cur2 hexp (fun hh => by omega) (fun j hj => by
        have : j = k := by omega
        subst this; rw [upd_self]) (by omega) (by omega) (hQ k jx jx' m P L currL m2 cur1 m4 cur2 h hvar k1 k2 hexp hq)

theorem compile_inv (ho : o.Valid) (hwf : WellFormed p S B) (hr : inp.compType = .relaxed → LayeredRelaxation p r S B)
    (hw : inp.compType = .relaxed → 1 ≤ inp.maxWidth) (hroot : RootOK p S B inp.residual) (m : Dd σ) (Q : Nat → Dd σ → (Nat → List Nat) → Prop)
    (hQ0 : ∀ L, Q 0 (m.start inp) L)
    (hQ : ∀ k jx jx' m' P L currL m2 cur1 m4 cur2, Head v p r S B inp rd m' k jx P L m.cutsetType → inp.residual.path.length + k < p.nbVars →
      ({ m' with prevL := currL, nextL := [] } : Dd σ).pruneLayer v rd inp.residual.path.length (inp.residual.path.length + k) ((o.hashOrd m'.nextL).map (·.2)) =
        (m2, cur1) →
      m2.squashLayer v o rank r inp inp.residual.path.length (inp.residual.path.length + k) cur1 = some (m4, cur2) →
      Head v p r S B inp rd (cur2.foldl (expandOne v p inp (S.var (inp.residual.path.length + k)) (inp.residual.path.length + k)) m4) (k + 1) jx'
        (upd P (k + 1) ((cur2.foldl (expandOne v p inp (S.var (inp.residual.path.length + k)) (inp.residual.path.length + k)) m4).nextL.map (·.2))) (upd L k cur2)
        m.cutsetType →
      Q k m' L → Q (k + 1) (cur2.foldl (expandOne v p inp (S.var (inp.residual.path.length + k)) (inp.residual.path.length + k)) m4) (upd L k cur2)) :
    ∃ m' k jx P L, m.compile v o p r rank rd inp = some (m'.finish v o inp) ∧ Done v p r S B inp rd m' k jx P L m.cutsetType ∧ Q k m' L := by
  obtain ⟨h1, h2, h3⟩ := start_head (v := v) (r := r) (rd := rd) (inp := inp) hroot m
  obtain ⟨m', k, jx, P, L, hl, hd, hq⟩ := loop_inv (o := o) (rank := rank) ho hwf hr hw Q hQ (p.nbVars + 2) 0 0 _ _ _ [] h1 (fun _ => ⟨rfl, h2, h3⟩)
    (fun j hj => by omega) (by omega) (by omega) (hQ0 _)
  refine ⟨m', k, jx, P, L, ?_, hd, hq⟩
  unfold compile
  simp only [Nat.add_zero] at hl
  simp only [hl]

/-! What happens to the nodes of the layer. -/

theorem PruneSpec.sv {rt D : Nat} {m m' : Dd σ} {cur cur' : List Nat} (h : PruneSpec v rd rt D m m' cur cur') (i : Nat) : m'.sv i = m.sv i := by
  unfold Dd.sv
  by_cases h1 : i ∈ cur
  · by_cases h2 : i ∈ cur'
    · rw [h.keep i (Or.inr h2)]
    · rw [(h.drop i h1 h2).1]
  · rw [h.keep i (Or.inl h1)]

/-- Nodes below `n` are old: no node of the layer under construction is among them. -/
structure OldKept (n : Nat) (m m' : Dd σ) : Prop where
  len : n ≤ m'.nodes.length
  new : ∀ q ∈ m'.nextL, n ≤ q.2
  old : ∀ i, i < n → m'.sv i = m.sv i

theorem sv_modNode (m : Dd σ) (i j : Nat) (f : Node σ → Node σ) (h : i = j → (f (m.node j)).state = (m.node j).state ∧ (f (m.node j)).value = (m.node j).value) :
    (m.modNode i f).sv j = m.sv j := by
  unfold Dd.sv
  rw [node_modNode]
  split
  · rename_i hh
    obtain ⟨h1, h2⟩ := h hh.1
    rw [h1, h2]
  · rfl

theorem OldKept.branchOn {n : Nat} {m m' : Dd σ} (h : OldKept n m m') (i : Nat) (d : Decision) : OldKept n m (m'.branchOn v p i d) := by
  unfold Dd.branchOn
  simp only []
  split
  · refine ⟨by simp only [List.length_append]; have := h.len; omega, ?_, ?_⟩
    · intro q hq
      rcases List.mem_append.1 hq with hq | hq
      · exact h.new q hq
      · simp only [List.mem_singleton] at hq; subst hq; exact h.len
    · intro j hj
      rw [← h.old j hj]
      have hjl : j < m'.nodes.length := by have := h.len; omega
      simp only [Dd.sv, Dd.node, List.getD_eq_getElem?_getD, List.getElem?_append_left hjl]
  · rename_i nodeId hl
    have hge : n ≤ nodeId := h.new _ (lookup_some hl)
    cases v with
    | all =>
      refine ⟨by simpa using h.len, h.new, fun j hj => ?_⟩
      rw [← h.old j hj]
      refine (sv_modNode _ _ _ _ fun hh => ?_)
      omega
    | barrier =>
      refine ⟨by simpa using h.len, h.new, fun j hj => ?_⟩
      rw [← h.old j hj]
      refine (sv_modNode _ _ _ _ fun hh => ?_)
      omega

theorem OldKept.foldl_branchOn {n : Nat} {m : Dd σ} (i : Nat) : ∀ (ds : List Decision) {m' : Dd σ}, OldKept n m m' →
    OldKept n m (ds.foldl (fun m d => m.branchOn v p i d) m') := by
  intro ds
  induction ds with
  | nil => intro m' h; exact h
  | cons d ds ih => intro m' h; exact ih (h.branchOn i d)

theorem OldKept.modNode {n : Nat} {m m' : Dd σ} (h : OldKept n m m') (i : Nat) (f : Node σ → Node σ)
    (hf : ∀ x, (f x).state = x.state ∧ (f x).value = x.value) : OldKept n m (m'.modNode i f) :=
  ⟨by simpa using h.len, h.new, fun j hj => by rw [← h.old j hj]; exact sv_modNode _ _ _ _ fun _ => hf _⟩

theorem OldKept.tryUpdate {n : Nat} {m m' : Dd σ} (h : OldKept n m m') (D : Nat) (s : σ) (t : Int) (b : Bool) : OldKept n m (m'.tryUpdate D s t b) := by
  unfold Dd.tryUpdate
  split
  · exact h
  · exact ⟨h.len, h.new, h.old⟩

theorem OldKept.setExplored {n : Nat} {m m' : Dd σ} (h : OldKept n m m') (e : Nat) : OldKept n m { m' with explored := e } := ⟨h.len, h.new, h.old⟩

theorem OldKept.expandOne {n : Nat} {m m' : Dd σ} (h : OldKept n m m') (x D i : Nat) : OldKept n m (m'.expandOne v p inp x D i) := by
  unfold Dd.expandOne
  have h1 : OldKept n m (m'.modNode i fun n => { n with rub := p.estimate (m'.node i).state }) := h.modNode i _ fun _ => ⟨rfl, rfl⟩
  simp only []
  split
  · have h2 := OldKept.foldl_branchOn (v := v) (p := p) i (p.dom x (m'.node i).state) h1
    cases v with
    | all => exact ⟨h2.len, h2.new, h2.old⟩
    | barrier =>
      simp only []
      split
      · exact (h2.setExplored _).tryUpdate _ _ _ _
      · exact ⟨h2.len, h2.new, h2.old⟩
  · cases v with
    | all => exact h1
    | barrier =>
      simp only []
      have h2 := h1.modNode i (fun n => { n with theta := satSub inp.bestLb (p.estimate (m'.node i).state) }) fun _ => ⟨rfl, rfl⟩
      split
      · exact h2.tryUpdate _ _ _ _
      · exact h2

theorem OldKept.foldl_expandOne {n : Nat} {m : Dd σ} (x D : Nat) : ∀ (l : List Nat) {m' : Dd σ}, OldKept n m m' →
    OldKept n m (l.foldl (Dd.expandOne v p inp x D) m') := by
  intro l
  induction l with
  | nil => intro m' h; exact h
  | cons i l ih => intro m' h; exact ih (h.expandOne x D i)

/-! Sorting a layer. -/

theorem layerCmp_iff (m : Dd σ) (a b : Nat) : (m.layerCmp rank a b).isLE = true ↔ Preferred rank (m.sv a) (m.sv b) := by
  unfold layerCmp Preferred Dd.sv
  simp only []
  rcases Int.lt_trichotomy (m.node a).value (m.node b).value with h | h | h
  · rw [show compare (m.node a).value (m.node b).value = .lt from by simp [compare, compareOfLessAndEq, h]]
    simp only [Ordering.then, Ordering.swap, Ordering.isLE]
    constructor
    · intro hh; cases hh
    · rintro (hh | hh) <;> omega
  · rw [h, show compare (m.node b).value (m.node b).value = .eq from by simp [compare, compareOfLessAndEq]]
    simp only [Ordering.then]
    cases rank (m.node a).state (m.node b).state <;> simp [Ordering.swap, Ordering.isLE]
  · rw [show compare (m.node a).value (m.node b).value = .gt from by simp [compare, compareOfLessAndEq, Int.not_lt.2 (Int.le_of_lt h), Int.ne_of_gt h]]
    simp only [Ordering.then, Ordering.swap, Ordering.isLE, true_iff]
    exact Or.inl h

theorem Preferred.total (hrk : Ranking rank) (a b : σ × Int) (h : ¬ Preferred rank a b) : Preferred rank b a := by
  unfold Preferred at h ⊢
  rcases Int.lt_trichotomy a.2 b.2 with h1 | h1 | h1
  · exact Or.inl h1
  · right
    refine ⟨h1, ?_⟩
    have h2 : rank a.1 b.1 = .lt := by
      refine Classical.byContradiction fun hh => h (Or.inr ⟨h1.symm, hh⟩)
    rw [hrk.swap a.1 b.1, h2]; decide
  · exact absurd (Or.inl h1) h

theorem rank_ge (hrk : Ranking rank) (a b : σ) : rank a b ≠ .lt ↔ (rank b a).isLE = true := by
  rw [hrk.swap a b]
  cases rank a b <;> simp [Ordering.swap, Ordering.isLE]

theorem Preferred.trans (hrk : Ranking rank) {a b c : σ × Int} (h : Preferred rank a b) (h' : Preferred rank b c) : Preferred rank a c := by
  unfold Preferred at h h' ⊢
  rcases h with h | ⟨h, h2⟩
  · rcases h' with h' | ⟨h', _⟩ <;> (left; omega)
  · rcases h' with h' | ⟨h', h3⟩
    · left; omega
    · right
      refine ⟨by omega, ?_⟩
      rw [rank_ge hrk] at h2 h3 ⊢
      exact hrk.trans _ _ _ h3 h2

theorem sortLayer_sorted (hrk : Ranking rank) (m : Dd σ) (l : List Nat) : (m.sortLayer o rank l).Pairwise fun a b => Preferred rank (m.sv a) (m.sv b) := by
  have := sortBy_sorted (fun a b => (m.layerCmp rank a b).isLE) (fun a b h => by
    rw [layerCmp_iff]
    refine Preferred.total hrk _ _ fun hh => ?_
    rw [← layerCmp_iff] at hh
    rw [hh] at h; cases h) (fun a b c h1 h2 => by
    rw [layerCmp_iff] at h1 h2 ⊢
    exact Preferred.trans hrk h1 h2) (o.shuffle l)
  unfold sortLayer
  exact this.imp fun h => (layerCmp_iff m _ _).1 h

/-- What is kept of a list that is sorted. -/
theorem take_preferred {α : Type} {R : α → α → Prop} {l : List α} (h : l.Pairwise R) (w : Nat) : ∀ a ∈ l.take w, ∀ b ∈ l.drop w, R a b := by
  rw [← List.take_append_drop w l, List.pairwise_append] at h
  exact h.2.2

/-- Squashing a layer of a restricted or exact diagram. -/
theorem squash_beam (ho : o.Valid) (hrk : Ranking rank) (hct : inp.compType ≠ .relaxed) {rt D : Nat} {m m' : Dd σ} {l l' : List Nat} (hnd : l.Nodup)
    (h : m.squashLayer v o rank r inp rt D l = some (m', l')) :
    (∀ i, m'.sv i = m.sv i) ∧ m'.nextL = m.nextL ∧ m'.nodes.length = m.nodes.length ∧ (∀ i ∈ l', i ∈ l) ∧ l'.Nodup ∧
      l'.length = (match beamWidth inp.compType inp.maxWidth with
        | none => l.length
        | some w => min w l.length) ∧
      ∀ a ∈ l', ∀ b ∈ l, b ∉ l' → Preferred rank (m.sv a) (m.sv b) := by
  unfold squashLayer at h
  cases hc : inp.compType with
  | exact =>
    rw [hc] at h
    simp only [Option.some.injEq, Prod.mk.injEq] at h
    obtain ⟨rfl, rfl⟩ := h
    refine ⟨fun _ => rfl, rfl, rfl, fun _ h => h, hnd, ?_, fun a _ b hb hb' => absurd hb hb'⟩
    simp [beamWidth]
  | relaxed => exact absurd hc hct
  | restricted =>
    rw [hc] at h
    simp only [beamWidth, if_true] at h ⊢
    by_cases hl : l.length > inp.maxWidth
    · rw [if_pos hl] at h
      simp only [Option.some.injEq, restrict, Prod.mk.injEq] at h
      obtain ⟨rfl, rfl⟩ := h
      have hp := sortLayer_perm o ho rank ({ m with approximate := true } : Dd σ) l
      have hs := sortLayer_sorted (o := o) hrk ({ m with approximate := true } : Dd σ) l
      refine ⟨fun _ => rfl, rfl, rfl, fun i hi => hp.mem_iff.1 (List.mem_of_mem_take hi), List.Sublist.nodup (List.take_sublist _ _) (hp.nodup_iff.2 hnd), ?_, ?_⟩
      · rw [List.length_take, hp.length_eq]
      · intro a ha b hb hb'
        have hb2 := hp.mem_iff.2 hb
        rw [← List.take_append_drop inp.maxWidth (sortLayer o rank _ l)] at hb2
        rcases List.mem_append.1 hb2 with hh | hh
        · exact absurd hh hb'
        · exact take_preferred hs inp.maxWidth a ha b hh
    · rw [if_neg hl] at h
      simp only [Option.some.injEq, Prod.mk.injEq] at h
      obtain ⟨rfl, rfl⟩ := h
      refine ⟨fun _ => rfl, rfl, rfl, fun _ h => h, hnd, (Nat.min_eq_right (by omega)).symm, fun a _ b hb hb' => absurd hb hb'⟩

/-- The layer under construction consists of the children of the layer that was expanded. -/
theorem children_step (hwf : WellFormed p S B) (hroot : RootOK p S B inp.residual) {c : CutsetType} {k jx' : Nat} {P L : Nat → List Nat} {cur2 : List Nat} {m' : Dd σ}
    (h' : Head v p r S B inp rd m' (k + 1) jx' (upd P (k + 1) (m'.nextL.map (·.2))) (upd L k cur2) c) :
    Children p (S.var (inp.residual.path.length + k)) inp.bestLb (cur2.map m'.sv) m'.layerOf := by
  have hc' := h'.core
  have hin : ∀ q ∈ m'.nextL, InLay (upd P (k + 1) (m'.nextL.map (·.2))) (upd L k cur2) (k + 1) (k + 1) (k + 1) q.2 := fun q hq =>
    Or.inl ⟨Nat.le_refl _, by rw [upd_self]; exact List.mem_map_of_mem hq⟩
  have hLk : upd L k cur2 k = cur2 := upd_self _ _ _
  have hup : ∀ q ∈ m'.nextL, q.2 ∈ upd P (k + 1) (m'.nextL.map (·.2)) (k + 1) := fun q hq => by rw [upd_self]; exact List.mem_map_of_mem hq
  have hchild : ∀ q ∈ m'.nextL, ∀ u, Child p (S.var (inp.residual.path.length + k)) inp.bestLb (cur2.map m'.sv) (m'.node q.2).state u → u ≤ (m'.node q.2).value := by
    rintro q hq u ⟨a, ha, hpr, d, hd, hs, hu⟩
    obtain ⟨i, hi, rfl⟩ := List.mem_map.1 ha
    obtain ⟨q', hq', t1, e, he, t2, t3, t4⟩ := (hc'.exp k (by omega) i (by rw [hLk]; exact hi)).2.2 hpr d hd
    rw [upd_self] at hq'
    obtain ⟨q'', hq'', rfl⟩ := List.mem_map.1 hq'
    have hqq : q'' = q := by
      refine eq_of_nodup_map h'.keys hq'' hq ?_
      rw [← h'.sts q hq, ← h'.sts q'' hq'', t1, hs]; rfl
    subst hqq
    have h1 := (hc'.node k q''.2 (hin q'' hq)).vge e he
    rw [hc'.sat_edge hwf hroot (Nat.le_refl _) (by omega) (hin q'' hq) he, t2, t4] at h1
    rw [hu]; exact h1
  refine ⟨?_, ?_, ?_, ?_⟩
  · have : m'.layerOf.map (·.1) = m'.nextL.map (·.1) := by
      unfold layerOf
      rw [List.map_map]
      exact List.map_congr_left fun q hq => h'.sts q hq
    rw [this]; exact h'.keys
  · intro b hb
    obtain ⟨q, hq, rfl⟩ := List.mem_map.1 hb
    have hn := hc'.node k q.2 (hin q hq)
    obtain ⟨e, he, _, hval⟩ := hn.veq
    have hsrc := hn.src e he
    rw [hLk] at hsrc
    have hdec := hn.dec e he
    obtain ⟨r1, r2⟩ := h'.real q.2 (hup q hq) e he
    rw [hc'.sat_edge hwf hroot (Nat.le_refl _) (by omega) (hin q hq) he] at hval
    have hpr : Promising p inp.bestLb (m'.node (m'.edge e).src) := by
      have hlt := inIds_lt hc'.chain (hc'.lt _ _ (hin q hq)) he
      have hmem : m'.edge e ∈ m'.edges := by
        unfold edge
        rw [List.getD_eq_getElem?_getD, List.getElem?_eq_getElem hlt]
        exact List.getElem_mem hlt
      exact (hc'.esrc _ hmem).1
    refine ⟨m'.sv (m'.edge e).src, List.mem_map_of_mem hsrc, ?_, (m'.edge e).decision, ?_, ?_, ?_⟩
    · exact hpr
    · exact hdec
    · exact r1
    · show (m'.node q.2).value = _
      rw [hval, r2]; rfl
  · intro b hb u hu
    obtain ⟨q, hq, rfl⟩ := List.mem_map.1 hb
    exact hchild q hq u hu
  · rintro s u ⟨a, ha, hpr, d, hd, hs, hu⟩
    obtain ⟨i, hi, rfl⟩ := List.mem_map.1 ha
    obtain ⟨q', hq', t1, _⟩ := (hc'.exp k (by omega) i (by rw [hLk]; exact hi)).2.2 hpr d hd
    rw [upd_self] at hq'
    obtain ⟨q'', hq'', rfl⟩ := List.mem_map.1 hq'
    exact ⟨m'.sv q''.2, List.mem_map_of_mem hq'', by rw [hs]; exact t1⟩

/-- The layer is pruned, truncated and expanded: one step of the beam search. -/
theorem beam_step (ho : o.Valid) (hwf : WellFormed p S B) (hrk : Ranking rank) (hct : inp.compType ≠ .relaxed) (hroot : RootOK p S B inp.residual)
    {c : CutsetType} {k jx jx' : Nat} {m : Dd σ} {P L : Nat → List Nat} {currL : List Nat} {m2 m4 : Dd σ} {cur1 cur2 : List Nat}
    (h : Head v p r S B inp rd m k jx P L c)
    (k1 : ({ m with prevL := currL, nextL := [] } : Dd σ).pruneLayer v rd inp.residual.path.length (inp.residual.path.length + k) ((o.hashOrd m.nextL).map (·.2)) =
      (m2, cur1))
    (k2 : m2.squashLayer v o rank r inp inp.residual.path.length (inp.residual.path.length + k) cur1 = some (m4, cur2))
    {m' : Dd σ} (hm' : m' = cur2.foldl (expandOne v p inp (S.var (inp.residual.path.length + k)) (inp.residual.path.length + k)) m4)
    (h' : Head v p r S B inp rd m' (k + 1) jx' (upd P (k + 1) (m'.nextL.map (·.2))) (upd L k cur2) c) :
    ∃ Y, Truncated rank (beamWidth inp.compType inp.maxWidth)
        (m.layerOf.filter (passes v rd inp.residual.path.length (inp.residual.path.length + k))) Y ∧
      Children p (S.var (inp.residual.path.length + k)) inp.bestLb Y m'.layerOf := by
  have hc := h.core
  -- the layer before it is squashed
  have hperm : ((o.hashOrd m.nextL).map (·.2)).Perm (P k) := by rw [← h.ids]; exact (ho.hash m.nextL).map _
  have hnd : ((o.hashOrd m.nextL).map (·.2)).Nodup := hperm.nodup_iff.2 (hc.nodupP k (Nat.le_refl _))
  have hlt : ∀ i ∈ (o.hashOrd m.nextL).map (·.2), i < ({ m with prevL := currL, nextL := [] } : Dd σ).nodes.length := fun i hi =>
    hc.lt k i (Or.inl ⟨Nat.le_refl _, hperm.mem_iff.1 hi⟩)
  have hps := pruneLayer_spec v rd inp.residual.path.length (inp.residual.path.length + k) ({ m with prevL := currL, nextL := [] } : Dd σ) _ hnd hlt
  rw [k1] at hps
  have hsv2 : ∀ i, m2.sv i = m.sv i := fun i => hps.sv i
  have hnrel : ∀ i ∈ P k, (m.node i).flags.isRelaxed = false := fun i hi =>
    (hc.ex k (Or.inr (hc.jxn hct)) i (Or.inl ⟨Nat.le_refl _, hi⟩)).2
  have hmem1 : ∀ i, i ∈ cur1 ↔ i ∈ P k ∧ passes v rd inp.residual.path.length (inp.residual.path.length + k) (m.sv i) = true := by
    intro i
    constructor
    · intro hi
      have hiP := hperm.mem_iff.1 (hps.sub.subset hi)
      refine ⟨hiP, ?_⟩
      unfold passes
      cases v with
      | all => rfl
      | barrier =>
        simp only [Bool.or_eq_true, decide_eq_true_eq]
        by_cases hd : inp.residual.path.length + k ≤ inp.residual.path.length
        · exact Or.inl (Or.inl hd)
        · cases he : rd.isEmpty (inp.residual.path.length + k) with
          | true => exact Or.inl (Or.inr rfl)
          | false =>
            right
            rcases hps.keeps rfl (by omega) he i hi with hh | hh
            · have : (m.node i).flags.isRelaxed = true := hh
              rw [hnrel i hiP] at this; cases this
            · exact hh
    · rintro ⟨hiP, hpass⟩
      refine Classical.byContradiction fun hn => ?_
      obtain ⟨_, _, h3, h4, h5, h6⟩ := hps.drop i (hperm.mem_iff.2 hiP) hn
      subst h4
      simp only [passes, Bool.or_eq_true, decide_eq_true_eq, h6] at hpass
      rcases hpass with (hh | hh) | hh
      · omega
      · cases hh
      · have h3 : (m.node i).value ≤ (rd.theta (inp.residual.path.length + k) (m.node i).state).getD isizeMin := h3
        have hh : (rd.theta (inp.residual.path.length + k) (m.node i).state).getD isizeMin < (m.node i).value := hh
        omega
  have hlay : m.layerOf = (P k).map m.sv := by rw [← h.ids, List.map_map]; rfl
  have hnd1 : cur1.Nodup := hps.sub.nodup hnd
  -- equal states and values: equal nodes
  have hinj : ∀ i ∈ P k, ∀ i' ∈ P k, m.sv i = m.sv i' → i = i' := by
    intro i hi i' hi' he
    rw [← h.ids] at hi hi'
    obtain ⟨q, hq, rfl⟩ := List.mem_map.1 hi
    obtain ⟨q', hq', rfl⟩ := List.mem_map.1 hi'
    have he : (m.node q.2).state = (m.node q'.2).state := congrArg Prod.fst he
    rw [h.sts q hq, h.sts q' hq'] at he
    exact congrArg Prod.snd (eq_of_nodup_map h.keys hq hq' he)
  obtain ⟨s1, s2, s3, s4, s5, s6, s7⟩ := squash_beam ho hrk hct hnd1 k2
  have hsv4 : ∀ i, m4.sv i = m.sv i := fun i => (s1 i).trans (hsv2 i)
  have hcurP : ∀ i ∈ cur2, i ∈ P k := fun i hi => ((hmem1 i).1 (s4 i hi)).1
  have hlen4 : m4.nodes.length = m.nodes.length := s3.trans hps.len
  have hold : OldKept m.nodes.length m4 m' := by
    rw [hm']
    refine OldKept.foldl_expandOne _ _ cur2 ⟨by rw [hlen4]; exact Nat.le_refl _, ?_, fun _ _ => rfl⟩
    rw [s2, show m2.nextL = [] from congrArg Rest.nextL hps.rest]
    intro q hq; cases hq
  have hsv' : ∀ i ∈ cur2, m'.sv i = m.sv i := fun i hi =>
    (hold.old i (hc.lt k i (Or.inl ⟨Nat.le_refl _, hcurP i hi⟩))).trans (hsv4 i)
  have hperm1 : (((P k).filter fun i => passes v rd inp.residual.path.length (inp.residual.path.length + k) (m.sv i))).Perm cur1 :=
    (List.perm_ext_iff_of_nodup ((hc.nodupP k (Nat.le_refl _)).filter _) hnd1).2 fun i => by rw [List.mem_filter, hmem1]
  refine ⟨cur2.map m.sv, ⟨?_, ?_, ?_, ?_⟩, ?_⟩
  · intro a ha
    obtain ⟨i, hi, rfl⟩ := List.mem_map.1 ha
    obtain ⟨h1, h2⟩ := (hmem1 i).1 (s4 i hi)
    exact List.mem_filter.2 ⟨by rw [hlay]; exact List.mem_map_of_mem h1, h2⟩
  · exact nodup_map_of_inj (fun i hi i' hi' he => hinj i (hcurP i hi) i' (hcurP i' hi') he) s5
  · rw [List.length_map, s6, hlay, List.filter_map, List.length_map]
    have := hperm1.length_eq
    simp only [Function.comp_def]
    rw [this]
    cases beamWidth inp.compType inp.maxWidth <;> rfl
  · intro a ha b hb hb'
    obtain ⟨i, hi, rfl⟩ := List.mem_map.1 ha
    obtain ⟨hb1, hb2⟩ := List.mem_filter.1 hb
    rw [hlay] at hb1
    obtain ⟨j, hj, rfl⟩ := List.mem_map.1 hb1
    have := s7 i hi j ((hmem1 j).2 ⟨hj, hb2⟩) (fun hh => hb' (List.mem_map_of_mem hh))
    rwa [hsv2, hsv2] at this
  · rw [← List.map_congr_left hsv']
    exact children_step hwf hroot h'

theorem layerOf_best (hwf : WellFormed p S B) (ho : o.Valid) (hroot : RootOK p S B inp.residual) {m : Dd σ} {k jx : Nat} {P L : Nat → List Nat} {c : CutsetType}
    (hd : Done v p r S B inp rd m k jx P L c) : (m.finish v o inp).bestValue = m.layerOf.best := by
  have hlay : m.layerOf = (P k).map m.sv := by rw [← hd.head.ids, List.map_map]; rfl
  unfold Layer.best
  rw [hlay, List.map_map]
  rcases hd.bestValue hwf ho hroot with ⟨_, h2, h3⟩ | ⟨t, h1, _, h2, h3⟩
  · rw [h2, h3]; rfl
  · rw [h2]
    symm
    rw [List.max?_eq_some_iff]
    refine ⟨List.mem_map.2 ⟨t, h1, rfl⟩, fun b hb => ?_⟩
    obtain ⟨t', ht', rfl⟩ := List.mem_map.1 hb
    exact h3 t' ht'

/-- A restricted or exact compilation is a beam search. -/
theorem compile_beam (ho : o.Valid) (hwf : WellFormed p S B) (hrk : Ranking rank) (hct : inp.compType ≠ .relaxed) (hroot : RootOK p S B inp.residual) (m : Dd σ) :
    ∃ (m' : Dd σ) (k : Nat) (X : Layer σ), m.compile v o p r rank rd inp = some (m'.finish v o inp) ∧
      Beam p S rank (beamWidth inp.compType inp.maxWidth) inp.bestLb (passes v rd inp.residual.path.length) inp.residual k X ∧
      BeamEnds p inp.residual k X ∧ (m'.finish v o inp).bestValue = X.best := by
  obtain ⟨m', k, jx, P, L, h1, h2, h3⟩ := compile_inv (v := v) (r := r) (rank := rank) (rd := rd) ho hwf (fun h => absurd h hct) (fun h => absurd h hct) hroot m
    (fun k m' _ => Beam p S rank (beamWidth inp.compType inp.maxWidth) inp.bestLb (passes v rd inp.residual.path.length) inp.residual k m'.layerOf)
    (fun _ => by exact Beam.root)
    (by
      intro k jx jx' m' P L currL m2 cur1 m4 cur2 h hk k1 k2 h' hb
      obtain ⟨Y, hY1, hY2⟩ := beam_step ho hwf hrk hct hroot h k1 k2 rfl h'
      exact Beam.step hb hk hY1 hY2)
  refine ⟨m', k, m'.layerOf, h1, h3, ?_, layerOf_best hwf ho hroot h2⟩
  rcases h2.fin with hf | hf
  · left
    unfold layerOf
    rw [← h2.head.ids, List.map_eq_nil_iff] at hf
    rw [hf]; rfl
  · exact Or.inr hf

/-! Without ties there is only one beam search. -/

theorem length_le_of_nodup_subset {α : Type} [DecidableEq α] : ∀ (l l' : List α), l.Nodup → (∀ x ∈ l, x ∈ l') → l.length ≤ l'.length := by
  intro l
  induction l with
  | nil => intro l' _ _; simp
  | cons a l ih =>
    intro l' hn hs
    rw [List.nodup_cons] at hn
    have hp := List.perm_cons_erase (hs a (by simp))
    have h1 := ih (l'.erase a) hn.2 (fun x hx => by
      rcases List.mem_cons.1 (hp.mem_iff.1 (hs x (by simp [hx]))) with rfl | h
      · exact absurd hx hn.1
      · exact h)
    have := hp.length_eq
    simp only [List.length_cons] at this ⊢
    omega

/-- All states of the layer are states of level `k`. -/
def AtLevel (S : Layering σ) (k : Nat) (X : Layer σ) : Prop := ∀ a ∈ X, S.ok a.1 ∧ S.lvl a.1 = k

theorem NoTies.eq (hrk : Ranking rank) (hties : NoTies rank S) {a b : σ × Int} {k : Nat} (ha : S.ok a.1 ∧ S.lvl a.1 = k) (hb : S.ok b.1 ∧ S.lvl b.1 = k)
    (h1 : Preferred rank a b) (h2 : Preferred rank b a) : a = b := by
  unfold Preferred at h1 h2
  rcases h1 with h1 | ⟨h1, h3⟩
  · rcases h2 with h2 | ⟨h2, _⟩ <;> omega
  · rcases h2 with h2 | ⟨h2, h4⟩
    · omega
    · rw [hrk.swap a.1 b.1] at h4
      have he : rank a.1 b.1 = .eq := by
        cases hr : rank a.1 b.1 with
        | lt => exact absurd hr h3
        | eq => rfl
        | gt => rw [hr] at h4; exact absurd rfl h4
      exact Prod.ext (hties _ _ ha.1 hb.1 (by rw [ha.2, hb.2]) he) h1.symm

theorem Truncated.subset (hrk : Ranking rank) (hties : NoTies rank S) {k : Nat} {w : Option Nat} {X X' Y Y' : Layer σ} (hX : X.Perm X') (hl : AtLevel S k X)
    (h : Truncated rank w X Y) (h' : Truncated rank w X' Y') : ∀ a ∈ Y, a ∈ Y' := by
  intro a ha
  refine Classical.byContradiction fun hn => ?_
  have hsz : Y.length = Y'.length := by
    rw [h.size, h'.size, hX.length_eq]
  have hb : ∃ b ∈ Y', b ∉ Y := by
    refine Classical.byContradiction fun hh => ?_
    have hsub : ∀ b ∈ Y', b ∈ Y := fun b hb => Classical.byContradiction fun h2 => hh ⟨b, hb, h2⟩
    have h3 : Y'.length ≤ (Y.erase a).length := length_le_of_nodup_subset _ _ h'.nodup fun b hb => by
      have hne : b ≠ a := fun he => hn (by rw [← he]; exact hb)
      rw [List.mem_erase_of_ne hne]; exact hsub b hb
    rw [List.length_erase_of_mem ha] at h3
    have := List.length_pos_of_mem ha
    omega
  obtain ⟨b, hb, hb'⟩ := hb
  have h1 := h.best a ha b (hX.mem_iff.2 (h'.sub b hb)) hb'
  have h2 := h'.best b hb a (hX.mem_iff.1 (h.sub a ha)) hn
  have := NoTies.eq hrk hties (hl a (h.sub a ha)) (hl b (hX.mem_iff.2 (h'.sub b hb))) h1 h2
  exact hn (this ▸ hb)

theorem AtLevel.perm {k : Nat} {X X' : Layer σ} (h : AtLevel S k X) (hX : X.Perm X') : AtLevel S k X' := fun a ha => h a (hX.mem_iff.2 ha)

theorem Truncated.unique (hrk : Ranking rank) (hties : NoTies rank S) {k : Nat} {w : Option Nat} {X X' Y Y' : Layer σ} (hX : X.Perm X') (hl : AtLevel S k X)
    (h : Truncated rank w X Y) (h' : Truncated rank w X' Y') : Y.Perm Y' :=
  (List.perm_ext_iff_of_nodup h.nodup h'.nodup).2 fun a => ⟨Truncated.subset hrk hties hX hl h h' a, Truncated.subset hrk hties hX.symm (AtLevel.perm hl hX) h' h a⟩

theorem Child.perm {x : Nat} {lb : Int} {X X' : Layer σ} (hX : X.Perm X') {s : σ} {u : Int} (h : Child p x lb X s u) : Child p x lb X' s u := by
  obtain ⟨a, ha, h⟩ := h
  exact ⟨a, hX.mem_iff.1 ha, h⟩

theorem Children.subset {x : Nat} {lb : Int} {X X' Y Y' : Layer σ} (hX : X.Perm X') (h : Children p x lb X Y) (h' : Children p x lb X' Y') :
    ∀ b ∈ Y, b ∈ Y' := by
  intro b hb
  have h1 := Child.perm hX (h.real b hb)
  obtain ⟨b', hb', he⟩ := h'.all _ _ h1
  have h2 := h'.best b' hb' b.2 (by rw [he]; exact h1)
  have h3 := h.best b hb b'.2 (by rw [← he]; exact Child.perm hX.symm (h'.real b' hb'))
  have : b' = b := Prod.ext he (by omega)
  exact this ▸ hb'

theorem Children.unique {x : Nat} {lb : Int} {X X' Y Y' : Layer σ} (hX : X.Perm X') (h : Children p x lb X Y) (h' : Children p x lb X' Y') : Y.Perm Y' :=
  (List.perm_ext_iff_of_nodup (nodup_of_map h.keys) (nodup_of_map h'.keys)).2 fun b =>
    ⟨Children.subset hX h h' b, Children.subset hX.symm h' h b⟩

theorem Children.level (hwf : WellFormed p S B) {k : Nat} (hk : k < p.nbVars) {lb : Int} {X Y : Layer σ} (hX : AtLevel S k X) (h : Children p (S.var k) lb X Y) :
    AtLevel S (k + 1) Y := by
  intro b hb
  obtain ⟨a, ha, _, d, hd, hs, _⟩ := h.real b hb
  obtain ⟨h1, h2⟩ := hX a ha
  have hx : p.nextVar [a.1] = some (S.var k) := by
    rw [hwf.next_var [a.1] k (by simp) (fun s hs => by rw [List.mem_singleton.1 hs]; exact ⟨h1, h2⟩), if_pos hk]
  rw [hs]
  exact ⟨hwf.ok_trans _ _ _ h1 hx hd, by rw [hwf.lvl_trans _ _ _ h1 hx hd, h2]⟩

theorem Beam.level (hwf : WellFormed p S B) {w : Option Nat} {lb : Int} {pass : Nat → σ × Int → Bool} {n : SubProblem σ} (hroot : RootOK p S B n)
    {k : Nat} {X : Layer σ} (h : Beam p S rank w lb pass n k X) : AtLevel S (n.path.length + k) X := by
  induction h with
  | root => intro a ha; rw [List.mem_singleton.1 ha]; exact ⟨hroot.ok, hroot.lvl⟩
  | step h hk ht hc ih => exact Children.level hwf hk (fun a ha => ih a (List.mem_filter.1 (ht.sub a ha)).1) hc

theorem Beam.unique (hwf : WellFormed p S B) (hrk : Ranking rank) (hties : NoTies rank S) {w : Option Nat} {lb : Int} {pass : Nat → σ × Int → Bool} {n : SubProblem σ}
    (hroot : RootOK p S B n) {k : Nat} {X : Layer σ} (h : Beam p S rank w lb pass n k X) : ∀ {X' : Layer σ}, Beam p S rank w lb pass n k X' → X.Perm X' := by
  induction h with
  | root => intro X' h'; cases h'; exact .refl _
  | step h hk ht hc ih =>
    intro X' h'
    cases h' with
    | step h2 hk2 ht2 hc2 =>
      exact Children.unique (Truncated.unique hrk hties ((ih h2).filter _) (fun a ha => Beam.level hwf hroot h a (List.mem_filter.1 ha).1) ht ht2) hc hc2

theorem Beam.cut {w : Option Nat} {lb : Int} {pass : Nat → σ × Int → Bool} {n : SubProblem σ} {k : Nat} {X : Layer σ} (h : Beam p S rank w lb pass n k X) :
    ∀ j, j < k → ∃ X', Beam p S rank w lb pass n j X' ∧ n.path.length + j < p.nbVars ∧ (X' = [] → X = []) := by
  induction h with
  | root => intro j hj; omega
  | @step k X Y Z h hk ht hc ih =>
    intro j hj
    have hstep : X = [] → Z = [] := by
      intro hX
      subst hX
      have hY : Y = [] := List.eq_nil_iff_forall_not_mem.2 fun a ha => by have := ht.sub a ha; cases this
      subst hY
      refine List.eq_nil_iff_forall_not_mem.2 fun b hb => ?_
      obtain ⟨a, ha, _⟩ := hc.real b hb
      cases ha
    by_cases hjk : j = k
    · subst hjk; exact ⟨X, h, hk, hstep⟩
    · obtain ⟨X', h1, h2, h3⟩ := ih j (by omega)
      exact ⟨X', h1, h2, fun hh => hstep (h3 hh)⟩

theorem best_perm {X X' : Layer σ} (h : X.Perm X') : X.best = X'.best := by
  unfold Layer.best
  have hp := h.map (fun a : σ × Int => a.2)
  cases hb : (X'.map (·.2)).max? with
  | none =>
    rw [List.max?_eq_none_iff] at hb ⊢
    rw [hb] at hp
    exact List.perm_nil.1 hp
  | some b =>
    rw [List.max?_eq_some_iff] at hb ⊢
    exact ⟨hp.mem_iff.2 hb.1, fun c hc => hb.2 c (hp.mem_iff.1 hc)⟩

/-- The value a finished beam search reports. -/
theorem Beam.result_unique (hwf : WellFormed p S B) (hrk : Ranking rank) (hties : NoTies rank S) {w : Option Nat} {lb : Int} {pass : Nat → σ × Int → Bool}
    {n : SubProblem σ} (hroot : RootOK p S B n) {k k' : Nat} {X X' : Layer σ} (h : Beam p S rank w lb pass n k X) (he : BeamEnds p n k X) (h' : Beam p S rank w lb pass n k' X')
    (he' : BeamEnds p n k' X') : X.best = X'.best := by
  have key : ∀ {k k' : Nat} {X X' : Layer σ}, Beam p S rank w lb pass n k X → BeamEnds p n k X → Beam p S rank w lb pass n k' X' → k < k' → X.best = X'.best := by
    intro k k' X X' h he h' hlt
    obtain ⟨X'', h1, h2, h3⟩ := Beam.cut h' k hlt
    rcases he with he | he
    · subst he
      rw [h3 (List.nil_perm.1 (Beam.unique hwf hrk hties hroot h h1))]
    · omega
  rcases Nat.lt_trichotomy k k' with hlt | rfl | hlt
  · exact key h he h' hlt
  · exact best_perm (Beam.unique hwf hrk hties hroot h h')
  · exact (key h' he' h hlt).symm

end Verif.Dd
