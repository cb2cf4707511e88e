import Verif.Proofs.Mdd.Basic
import Verif.Proofs.Mdd.Build
import Verif.Spec.Ties
/-! Which of several equally good ways into a node is kept. -/
set_option autoImplicit false

namespace Verif.Dd
open Verif Spec
variable {σ : Type} [DecidableEq σ] [Inhabited σ]

/-- The node `i` of `m` has been reached by the ways `done`, and keeps one of them. -/
def Picked (v : Variant) (p : Problem σ) (m0 m : Dd σ) (done : List Way) (s : σ) (i : Nat) : Prop :=
  ∃ l1 z l2 b, done = l1 ++ z :: l2 ∧ z.target p m0 = s ∧ (m.node i).best = some b ∧ b < m.edges.length ∧ (m.edge b).src = z.1 ∧ (m.edge b).decision = z.2 ∧
    (m.node i).value = z.value p m0 ∧ (v = .barrier → (m.node i).flags = (m0.node z.1).flags) ∧
    (∀ y ∈ l1, y.target p m0 = s → z.ousts v p m0 y) ∧ (∀ y ∈ l2, y.target p m0 = s → ¬ y.ousts v p m0 z)

/-- While the next layer is being built; `m0` is the diagram before. -/
structure Tied (v : Variant) (p : Problem σ) (m0 m : Dd σ) (done : List Way) : Prop where
  len : m0.nodes.length ≤ m.nodes.length
  old : ∀ j, j < m0.nodes.length → (m.node j).state = (m0.node j).state ∧ (m.node j).value = (m0.node j).value ∧ (m.node j).flags = (m0.node j).flags
  rng : ∀ q ∈ m.nextL, m0.nodes.length ≤ q.2 ∧ q.2 < m.nodes.length
  keys : (m.nextL.map (·.1)).Nodup
  ids : (m.nextL.map (·.2)).Nodup
  pick : ∀ q ∈ m.nextL, Picked v p m0 m done q.1 q.2
  new : ∀ z ∈ done, ∃ q ∈ m.nextL, q.1 = z.target p m0

theorem ousts_trans {v : Variant} {p : Problem σ} {m : Dd σ} {x y z : Way} (h : x.ousts v p m y) (h' : ¬ z.ousts v p m y) : x.ousts v p m z := by
  unfold Way.ousts at *
  rcases h with h | ⟨rfl, h1, h2⟩
  · left
    by_cases hz : y.value p m < z.value p m
    · exact absurd (Or.inl hz) h'
    · omega
  · by_cases hz : y.value p m < z.value p m
    · exact absurd (Or.inl hz) h'
    · by_cases he : z.value p m = x.value p m
      · exact Or.inr ⟨rfl, he, h2⟩
      · left; omega

theorem ousts_chain {v : Variant} {p : Problem σ} {m : Dd σ} {x y z : Way} (h : x.ousts v p m y) (h' : y.ousts v p m z) : x.ousts v p m z := by
  unfold Way.ousts at *
  rcases h with h | ⟨rfl, h1, h2⟩
  · left
    rcases h' with h' | ⟨_, h3, _⟩ <;> omega
  · rcases h' with h' | ⟨_, h3, _⟩
    · left; omega
    · exact Or.inr ⟨rfl, by omega, h2⟩

/-- A diagram that differs in other things only. -/
theorem Picked.frame {v : Variant} {p : Problem σ} {m0 m m' : Dd σ} {done : List Way} {s : σ} {i : Nat} (h : Picked v p m0 m done s i) (hn : m'.node i = m.node i)
    (hpre : m.edges <+: m'.edges) : Picked v p m0 m' done s i := by
  obtain ⟨l1, z, l2, b, h1, h2, h3, h4, h5, h6, h7⟩ := h
  refine ⟨l1, z, l2, b, h1, h2, by rw [hn]; exact h3, Nat.lt_of_lt_of_le h4 hpre.length_le, ?_, ?_, ?_⟩
  · rw [edge_frame hpre h4]; exact h5
  · rw [edge_frame hpre h4]; exact h6
  · rw [hn]; exact h7

/-- A further way that leads elsewhere, or does not take the place. -/
theorem Picked.snoc {v : Variant} {p : Problem σ} {m0 m : Dd σ} {done : List Way} {s : σ} {i : Nat} (h : Picked v p m0 m done s i) {y : Way} (hy : y.target p m0 ≠ s) :
    Picked v p m0 m (done ++ [y]) s i := by
  obtain ⟨l1, z, l2, b, h1, h2, h3, h4, h5, h6, h7, h8, h9, h10⟩ := h
  refine ⟨l1, z, l2 ++ [y], b, by rw [h1]; simp, h2, h3, h4, h5, h6, h7, h8, h9, fun w hw ht => ?_⟩
  rcases List.mem_append.1 hw with hw | hw
  · exact h10 w hw ht
  · rw [List.mem_singleton.1 hw] at ht; exact absurd ht hy

theorem inj_of_nodup {α β : Type} {f : α → β} {l : List α} (h : (l.map f).Nodup) {a b : α} (ha : a ∈ l) (hb : b ∈ l) (e : f a = f b) : a = b := by
  induction l with
  | nil => cases ha
  | cons c l ih =>
    simp only [List.map_cons, List.nodup_cons] at h
    rcases List.mem_cons.1 ha with ha | ha
    · rcases List.mem_cons.1 hb with hb | hb
      · rw [ha, hb]
      · exact absurd (List.mem_map.2 ⟨b, hb, by rw [← e, ha]⟩) h.1
    · rcases List.mem_cons.1 hb with hb | hb
      · exact absurd (List.mem_map.2 ⟨a, ha, by rw [e, hb]⟩) h.1
      · exact ih h.2 ha hb

theorem branchOn_tied {v : Variant} {p : Problem σ} {m0 m : Dd σ} {done : List Way} (h : Tied v p m0 m done) {i : Nat} (hi : i < m0.nodes.length) (d : Decision) :
    Tied v p m0 (m.branchOn v p i d) (done ++ [(i, d)]) := by
  obtain ⟨o1, o2, o3⟩ := h.old i hi
  have ht : p.trans (m.node i).state d = Way.target p m0 (i, d) := by unfold Way.target; rw [o1]
  have hv : satAdd (m.node i).value (p.cost (m.node i).state d) = Way.value p m0 (i, d) := by unfold Way.value; rw [o1, o2]
  cases hl : lookup m.nextL (p.trans (m.node i).state d) with
  | none =>
    unfold branchOn; simp only [hl]
    have hno := lookup_none hl
    have hpre : m.edges <+: m.edges ++ [{ src := i, decision := d, cost := p.cost (m.node i).state d, next := none }] := ⟨_, rfl⟩
    constructor
    · simp only [List.length_append]; have := h.len; omega
    · intro j hj
      have e : ∀ x : Node σ, (m.nodes ++ [x]).getD j default = m.node j := fun x => getD_append_lt _ _ _ (Nat.lt_of_lt_of_le hj h.len)
      simp only [node, e]
      exact h.old j hj
    · intro q hq
      simp only [List.mem_append, List.mem_singleton] at hq
      rcases hq with hq | rfl
      · have := h.rng q hq; simp only [List.length_append, List.length_singleton]; omega
      · have := h.len; simp only [List.length_append, List.length_singleton]; omega
    · simp only [List.map_append, List.map_cons, List.map_nil]
      rw [List.nodup_append]
      refine ⟨h.keys, by simp, fun a ha b hb => ?_⟩
      obtain ⟨q, hq, rfl⟩ := List.mem_map.1 ha
      rw [List.mem_singleton.1 hb]
      exact hno q hq
    · simp only [List.map_append, List.map_cons, List.map_nil]
      rw [List.nodup_append]
      refine ⟨h.ids, by simp, fun a ha b hb => ?_⟩
      obtain ⟨q, hq, rfl⟩ := List.mem_map.1 ha
      rw [List.mem_singleton.1 hb]
      have := (h.rng q hq).2
      omega
    · intro q hq
      simp only [List.mem_append, List.mem_singleton] at hq
      rcases hq with hq | rfl
      · refine ((h.pick q hq).snoc (y := (i, d)) ?_).frame ?_ hpre
        · rw [← ht]; exact fun e => hno q hq e.symm
        · exact getD_append_lt _ _ _ (h.rng q hq).2
      · refine ⟨done, (i, d), [], m.edges.length, rfl, ht.symm, ?_, by simp, ?_, ?_, ?_, ?_, ?_, by simp⟩
        · simp [node, getD_append_len]
        · simp [edge, getD_append_len]
        · simp [edge, getD_append_len]
        · simp only [node, getD_append_len]; exact hv
        · intro _; simp only [node, getD_append_len]; exact o3
        · intro y hy hty
          obtain ⟨q, hq, hq'⟩ := h.new y hy
          exact absurd (hq'.trans hty) (hno q hq)
    · intro z hz
      rcases List.mem_append.1 hz with hz | hz
      · obtain ⟨q, hq, hq'⟩ := h.new z hz
        exact ⟨q, by simp [hq], hq'⟩
      · rw [List.mem_singleton.1 hz]
        exact ⟨(p.trans (m.node i).state d, m.nodes.length), by simp, ht⟩
  | some k =>
    have hmem := lookup_some hl
    obtain ⟨hk0, hk1⟩ := h.rng _ hmem
    simp only at hk0 hk1
    -- the two variants differ in the test and in the flags
    have key : ∀ m' : Dd σ, m'.nextL = m.nextL → m'.nodes.length = m.nodes.length →
        m'.edges = m.edges ++ [{ src := i, decision := d, cost := p.cost (m.node i).state d, next := (m.node k).inbound }] → (∀ j, j ≠ k → m'.node j = m.node j) →
        (∀ z : Way, (m.node k).value = z.value p m0 → Way.ousts v p m0 (i, d) z →
          (m'.node k).best = some m.edges.length ∧ (m'.node k).value = satAdd (m.node i).value (p.cost (m.node i).state d) ∧ (v = .barrier → (m'.node k).flags = (m.node i).flags)) →
        (∀ z : Way, (m.node k).value = z.value p m0 → ¬ Way.ousts v p m0 (i, d) z →
          (m'.node k).best = (m.node k).best ∧ (m'.node k).value = (m.node k).value ∧ (v = .barrier → (m'.node k).flags = (m.node k).flags)) →
        Tied v p m0 m' (done ++ [(i, d)]) := by
      intro m' hnl hlen hedges hold hyes hno
      have hpre : m.edges <+: m'.edges := ⟨_, hedges.symm⟩
      have heq : m'.edge m.edges.length = { src := i, decision := d, cost := p.cost (m.node i).state d, next := (m.node k).inbound } := by
        unfold edge; rw [hedges]; exact getD_append_len _ _ _
      refine ⟨by rw [hlen]; exact h.len, ?_, ?_, by rw [hnl]; exact h.keys, by rw [hnl]; exact h.ids, ?_, ?_⟩
      · intro j hj
        rw [hold j (by omega)]; exact h.old j hj
      · intro q hq; rw [hnl] at hq; rw [hlen]; exact h.rng q hq
      · intro q hq
        rw [hnl] at hq
        by_cases hqk : q.2 = k
        · have hqs : q = (p.trans (m.node i).state d, k) := by
            exact inj_of_nodup (f := fun x : σ × Nat => x.2) h.ids hq hmem hqk
          subst hqs
          obtain ⟨l1, z, l2, b, h1, h2, h3, h4, h5, h6, h7, h8, h9, h10⟩ := h.pick _ hmem
          simp only at h2 h3 h7 h8 h9 h10 ⊢
          by_cases ho : Way.ousts v p m0 (i, d) z
          · obtain ⟨g1, g2, g3⟩ := hyes z h7 ho
            refine ⟨done, (i, d), [], m.edges.length, rfl, ht.symm, g1, by rw [hedges]; simp, by rw [heq], by rw [heq], g2.trans hv, fun e => (g3 e).trans o3, ?_, by simp⟩
            intro y hy hty
            rw [h1] at hy
            rcases List.mem_append.1 hy with hy | hy
            · exact ousts_chain ho (h9 y hy hty)
            · rcases List.mem_cons.1 hy with rfl | hy
              · exact ho
              · exact ousts_trans ho (h10 y hy hty)
          · obtain ⟨g1, g2, g3⟩ := hno z h7 ho
            refine ⟨l1, z, l2 ++ [(i, d)], b, by rw [h1]; simp, h2, g1.trans h3, Nat.lt_of_lt_of_le h4 hpre.length_le, by rw [edge_frame hpre h4]; exact h5,
              by rw [edge_frame hpre h4]; exact h6, g2.trans h7, fun e => (g3 e).trans (h8 e), h9, ?_⟩
            intro y hy hty
            rcases List.mem_append.1 hy with hy | hy
            · exact h10 y hy hty
            · rw [List.mem_singleton.1 hy]; exact ho
        · refine ((h.pick q hq).snoc (y := (i, d)) ?_).frame (hold _ hqk) hpre
          intro e
          apply hqk
          have := inj_of_nodup (f := fun x : σ × Nat => x.1) h.keys hq hmem (by simp only; rw [← e, ← ht])
          rw [this]
      · intro z hz
        rw [hnl]
        rcases List.mem_append.1 hz with hz | hz
        · exact h.new z hz
        · rw [List.mem_singleton.1 hz]
          exact ⟨_, hmem, ht⟩
    cases v with
    | all =>
      unfold branchOn; simp only [hl]
      apply key
      · rfl
      · simp
      · rfl
      · intro j hj; rw [node_modNode_ne _ _ (Ne.symm hj)]; rfl
      · intro z hz ho
        rw [node_modNode_self _ _ (by simpa using hk1)]
        rcases ho with ho | ⟨h, _⟩
        · rw [if_pos (by rw [hz, hv]; exact ho)]
          exact ⟨rfl, rfl, fun e => by cases e⟩
        · cases h
      · intro z hz ho
        rw [node_modNode_self _ _ (by simpa using hk1)]
        rw [if_neg (by rw [hz, hv]; exact fun e => ho (Or.inl e))]
        exact ⟨rfl, rfl, fun e => by cases e⟩
    | barrier =>
      have hx : (m.node i).flags.isExact = Way.exact m0 (i, d) := by unfold Way.exact; rw [o3]
      unfold branchOn; simp only [hl]
      apply key
      · rfl
      · simp
      · rfl
      · intro j hj; rw [node_modNode_ne _ _ (Ne.symm hj)]; rfl
      · intro z hz ho
        rw [node_modNode_self _ _ (by simpa using hk1)]
        rw [if_pos ?_]
        · exact ⟨rfl, rfl, fun _ => rfl⟩
        · rw [hz, hv, hx]
          rcases ho with ho | ⟨_, h1, h2⟩
          · exact Or.inl ho
          · exact Or.inr ⟨h1.symm, h2⟩
      · intro z hz ho
        rw [node_modNode_self _ _ (by simpa using hk1)]
        rw [if_neg ?_]
        · exact ⟨rfl, rfl, fun _ => rfl⟩
        · rw [hz, hv, hx]
          rintro (e | ⟨e1, e2⟩)
          · exact ho (Or.inl e)
          · exact ho (Or.inr ⟨rfl, e1.symm, e2⟩)

theorem foldl_branchOn_tied {v : Variant} {p : Problem σ} {m0 : Dd σ} {i : Nat} (hi : i < m0.nodes.length) (ds : List Decision) : ∀ {m : Dd σ} {done : List Way}, Tied v p m0 m done →
    Tied v p m0 (ds.foldl (fun m d => m.branchOn v p i d) m) (done ++ ds.map fun d => (i, d)) := by
  induction ds with
  | nil => intro m done h; simpa using h
  | cons d ds ih =>
    intro m done h
    have := ih (branchOn_tied h hi d)
    simpa using this

/-- Changes of other things. -/
theorem Tied.same {v : Variant} {p : Problem σ} {m0 m m' : Dd σ} {done : List Way} (h : Tied v p m0 m done) (hedges : m'.edges = m.edges) (hlen : m'.nodes.length = m.nodes.length)
    (hnl : m'.nextL = m.nextL) (hn : ∀ j, (m0.nodes.length ≤ j → m'.node j = m.node j) ∧ (m'.node j).state = (m.node j).state ∧ (m'.node j).value = (m.node j).value ∧ (m'.node j).flags = (m.node j).flags) :
    Tied v p m0 m' done := by
  refine ⟨by rw [hlen]; exact h.len, ?_, ?_, by rw [hnl]; exact h.keys, by rw [hnl]; exact h.ids, ?_, by rw [hnl]; exact h.new⟩
  · intro j hj
    obtain ⟨_, a, b, c⟩ := hn j
    rw [a, b, c]; exact h.old j hj
  · rw [hnl, hlen]; exact h.rng
  · intro q hq
    rw [hnl] at hq
    exact (h.pick q hq).frame ((hn q.2).1 (h.rng q hq).1) ⟨[], by rw [hedges]; simp⟩

theorem modNode_kept {m : Dd σ} {i b : Nat} (hi : i < b) {f : Node σ → Node σ} (hf : ∀ n, (f n).state = n.state ∧ (f n).value = n.value ∧ (f n).flags = n.flags) (j : Nat) :
    (b ≤ j → (m.modNode i f).node j = m.node j) ∧ ((m.modNode i f).node j).state = (m.node j).state ∧ ((m.modNode i f).node j).value = (m.node j).value ∧
      ((m.modNode i f).node j).flags = (m.node j).flags := by
  refine ⟨fun h => node_modNode_ne _ _ (by omega), ?_⟩
  rw [node_modNode]
  split
  · rename_i h; obtain ⟨rfl, _⟩ := h; exact hf _
  · exact ⟨rfl, rfl, rfl⟩

theorem expandOne_tied {v : Variant} {p : Problem σ} {inp : Input σ} {var depth : Nat} {m0 m : Dd σ} {done : List Way} (h : Tied v p m0 m done) {i : Nat} (hi : i < m0.nodes.length) :
    Tied v p m0 (m.expandOne v p inp var depth i) (done ++ ways p inp.bestLb var m0 [i]) := by
  obtain ⟨o1, o2, o3⟩ := h.old i hi
  have h1 : Tied v p m0 (m.modNode i fun n => { n with rub := p.estimate (m.node i).state }) done :=
    h.same rfl (by simp) rfl (modNode_kept hi fun n => ⟨rfl, rfl, rfl⟩)
  have hval : ((m.modNode i fun n => { n with rub := p.estimate (m.node i).state }).node i).value = (m0.node i).value := (h1.old i hi).2.1
  have hw : ways p inp.bestLb var m0 [i] = if satAdd (p.estimate (m0.node i).state) (m0.node i).value > inp.bestLb then (p.dom var (m0.node i).state).map fun d => (i, d) else [] := by
    simp [ways]
  have htry : ∀ (M : Dd σ) (c : Prop) [Decidable c] (D : Nat) (s : σ) (t : Int), Tied v p m0 M (done ++ ways p inp.bestLb var m0 [i]) →
      Tied v p m0 (if c then M.tryUpdate D s t false else M) (done ++ ways p inp.bestLb var m0 [i]) := by
    intro M c _ D s t hM
    split
    · unfold tryUpdate
      split
      · exact hM
      · exact hM.same rfl rfl rfl fun j => ⟨fun _ => rfl, rfl, rfl, rfl⟩
    · exact hM
  unfold expandOne
  simp only
  split
  · rename_i hgt
    rw [hval, o1] at hgt
    rw [if_pos hgt] at hw
    have h2 := foldl_branchOn_tied hi (p.dom var (m.node i).state) h1
    rw [o1, ← hw] at h2
    rw [o1]
    have h3 : Tied v p m0 { ((p.dom var (m0.node i).state).foldl (fun m d => m.branchOn v p i d) (m.modNode i fun n => { n with rub := p.estimate (m0.node i).state })) with
        explored := ((p.dom var (m0.node i).state).foldl (fun m d => m.branchOn v p i d) (m.modNode i fun n => { n with rub := p.estimate (m0.node i).state })).explored + 1 }
        (done ++ ways p inp.bestLb var m0 [i]) := h2.same rfl rfl rfl fun j => ⟨fun _ => rfl, rfl, rfl, rfl⟩
    cases v with
    | all => exact h3
    | barrier => exact htry _ _ _ _ _ h3
  · rename_i hgt
    rw [hval, o1] at hgt
    rw [if_neg hgt] at hw
    cases v with
    | all => rw [hw, List.append_nil]; exact h1
    | barrier =>
      apply htry
      rw [hw, List.append_nil]
      exact h1.same rfl (by simp) rfl (modNode_kept hi fun n => ⟨rfl, rfl, rfl⟩)

theorem expand_tied {v : Variant} {p : Problem σ} {inp : Input σ} {var depth : Nat} {m0 : Dd σ} (cur : List Nat) : ∀ {m : Dd σ} {done : List Way}, (∀ i ∈ cur, i < m0.nodes.length) →
    Tied v p m0 m done → Tied v p m0 (cur.foldl (expandOne v p inp var depth) m) (done ++ ways p inp.bestLb var m0 cur) := by
  induction cur with
  | nil => intro m done _ h; simpa [ways] using h
  | cons i cur ih =>
    intro m done hc h
    have h1 := ih (fun j hj => hc j (by simp [hj])) (expandOne_tied (inp := inp) (var := var) (depth := depth) h (hc i (by simp)))
    have e : ways p inp.bestLb var m0 (i :: cur) = ways p inp.bestLb var m0 [i] ++ ways p inp.bestLb var m0 cur := by simp [ways]
    rw [e, ← List.append_assoc]
    exact h1

theorem start_tied {v : Variant} {p : Problem σ} {m : Dd σ} (h : m.nextL = []) : Tied v p m m [] :=
  ⟨Nat.le_refl _, fun _ _ => ⟨rfl, rfl, rfl⟩, by simp [h], by simp [h], by simp [h], by simp [h], by simp⟩

theorem max_last {m : Dd σ} {l : List Nat} {i : Nat} (h : m.maxByValue l = some i) :
    ∃ l1 l2, l = l1 ++ i :: l2 ∧ (∀ j ∈ l1, (m.node j).value ≤ (m.node i).value) ∧ ∀ j ∈ l2, (m.node j).value < (m.node i).value := by
  have key : ∀ (l l1 l2 : List Nat) (b : Nat), (∀ j ∈ l1, (m.node j).value ≤ (m.node b).value) → (∀ j ∈ l2, (m.node j).value < (m.node b).value) →
      ∃ k1 k2, l1 ++ b :: l2 ++ l = k1 ++ (l.foldl (fun b j => if (m.node j).value ≥ (m.node b).value then j else b) b) :: k2 ∧
        (∀ j ∈ k1, (m.node j).value ≤ (m.node (l.foldl (fun b j => if (m.node j).value ≥ (m.node b).value then j else b) b)).value) ∧
        ∀ j ∈ k2, (m.node j).value < (m.node (l.foldl (fun b j => if (m.node j).value ≥ (m.node b).value then j else b) b)).value := by
    intro l
    induction l with
    | nil => intro l1 l2 b h1 h2; exact ⟨l1, l2, by simp, h1, h2⟩
    | cons x l ih =>
      intro l1 l2 b h1 h2
      simp only [List.foldl_cons]
      by_cases hx : (m.node x).value ≥ (m.node b).value
      · rw [if_pos hx]
        obtain ⟨k1, k2, e, g⟩ := ih (l1 ++ b :: l2) [] x (by
          intro j hj
          rcases List.mem_append.1 hj with hj | hj
          · have := h1 j hj; omega
          · rcases List.mem_cons.1 hj with rfl | hj
            · omega
            · have := h2 j hj; omega) (by simp)
        exact ⟨k1, k2, by rw [← e]; simp, g⟩
      · rw [if_neg hx]
        obtain ⟨k1, k2, e, g⟩ := ih l1 (l2 ++ [x]) b h1 (by
          intro j hj
          rcases List.mem_append.1 hj with hj | hj
          · exact h2 j hj
          · rw [List.mem_singleton.1 hj]; omega)
        exact ⟨k1, k2, by rw [← e]; simp, g⟩
  cases l with
  | nil => cases h
  | cons x l =>
    simp only [maxByValue, Option.some.injEq] at h
    obtain ⟨k1, k2, e, g⟩ := key l [] [] x (by simp) (by simp)
    rw [h] at e g
    exact ⟨k1, k2, e, g⟩

/-- What one redirection does. -/
theorem redirect_one {r : Relaxation σ} {s : σ} {k : Nat} {m : Dd σ} (hk : k < m.nodes.length) {z : Nat × Nat} (hs : (m.edge z.2).src ≠ k) :
    (redirect r s k z.1 m z.2).nodes.length = m.nodes.length ∧ (∀ j, j ≠ k → (redirect r s k z.1 m z.2).node j = m.node j) ∧
    (∃ x, (redirect r s k z.1 m z.2).edges = m.edges ++ [x] ∧ x.src = (m.edge z.2).src ∧ x.decision = (m.edge z.2).decision) ∧
    (mergedValue r s m z < (m.node k).value → ((redirect r s k z.1 m z.2).node k).best = (m.node k).best ∧ ((redirect r s k z.1 m z.2).node k).value = (m.node k).value) ∧
    ((m.node k).value ≤ mergedValue r s m z → ((redirect r s k z.1 m z.2).node k).best = some m.edges.length ∧ ((redirect r s k z.1 m z.2).node k).value = mergedValue r s m z) := by
  have hv : ∀ (es : List Edge) (f : Node σ → Node σ), (((({ m with edges := es } : Dd σ)).modNode k f).node (m.edge z.2).src) = m.node (m.edge z.2).src := by
    intro es f; rw [node_modNode_ne _ _ (Ne.symm hs)]; rfl
  have hself : ∀ (es : List Edge) (f : Node σ → Node σ), (((({ m with edges := es } : Dd σ)).modNode k f).node k) = f (m.node k) := by
    intro es f; rw [node_modNode_self _ _ (by simpa using hk)]; rfl
  unfold redirect
  simp only [hv, hself]
  split
  · rename_i hge
    refine ⟨by simp, fun j hj => ?_, ⟨_, rfl, rfl, rfl⟩, fun h => ?_, fun _ => ?_⟩
    · rw [node_modNode_ne _ _ (Ne.symm hj), node_modNode_ne _ _ (Ne.symm hj)]; rfl
    · unfold mergedValue at h; omega
    · rw [node_modNode_self _ _ (by simpa using hk)]
      exact ⟨rfl, rfl⟩
  · rename_i hge
    refine ⟨by simp, fun j hj => ?_, ⟨_, rfl, rfl, rfl⟩, fun _ => ?_, fun h => ?_⟩
    · rw [node_modNode_ne _ _ (Ne.symm hj)]; rfl
    · rw [hself]; exact ⟨rfl, rfl⟩
    · unfold mergedValue at h; omega

theorem redirect_last {r : Relaxation σ} {s : σ} {k : Nat} (zs : List (Nat × Nat)) : ∀ {m : Dd σ}, k < m.nodes.length → (∀ z ∈ zs, z.1 ≠ k ∧ z.2 < m.edges.length ∧ (m.edge z.2).src ≠ k) →
    (((zs.foldl (fun m z => redirect r s k z.1 m z.2) m).node k).best = (m.node k).best ∧ ((zs.foldl (fun m z => redirect r s k z.1 m z.2) m).node k).value = (m.node k).value ∧
        ∀ z ∈ zs, mergedValue r s m z < (m.node k).value) ∨
    ∃ l1 z l2 b, zs = l1 ++ z :: l2 ∧ ((zs.foldl (fun m z => redirect r s k z.1 m z.2) m).node k).best = some b ∧
      ((zs.foldl (fun m z => redirect r s k z.1 m z.2) m).edge b).src = (m.edge z.2).src ∧ ((zs.foldl (fun m z => redirect r s k z.1 m z.2) m).edge b).decision = (m.edge z.2).decision ∧
      ((zs.foldl (fun m z => redirect r s k z.1 m z.2) m).node k).value = mergedValue r s m z ∧
      (m.node k).value ≤ mergedValue r s m z ∧ (∀ y ∈ l1, mergedValue r s m y ≤ mergedValue r s m z) ∧ ∀ y ∈ l2, mergedValue r s m y < mergedValue r s m z := by
  -- all of the edges so far are kept
  have hpre : ∀ (zs : List (Nat × Nat)) (m : Dd σ), k < m.nodes.length → (∀ z ∈ zs, z.1 ≠ k ∧ z.2 < m.edges.length ∧ (m.edge z.2).src ≠ k) →
      m.edges <+: (zs.foldl (fun m z => redirect r s k z.1 m z.2) m).edges := by
    intro zs
    induction zs with
    | nil => intro m _ _; exact List.prefix_refl _
    | cons z zs ih =>
      intro m hk hz
      obtain ⟨g1, _, ⟨x, g3, _⟩, _⟩ := redirect_one (r := r) (s := s) hk (hz z (by simp)).2.2
      have hp : m.edges <+: (redirect r s k z.1 m z.2).edges := ⟨_, g3.symm⟩
      refine hp.trans (ih _ (by rw [g1]; exact hk) fun y hy => ?_)
      obtain ⟨a, b, c⟩ := hz y (by simp [hy])
      exact ⟨a, Nat.lt_of_lt_of_le b hp.length_le, by rw [edge_frame hp b]; exact c⟩
  induction zs with
  | nil => intro m _ _; exact Or.inl ⟨rfl, rfl, by simp⟩
  | cons z zs ih =>
    intro m hk hz
    obtain ⟨g1, g2, ⟨x, g3, gs, gd⟩, g4, g5⟩ := redirect_one (r := r) (s := s) hk (hz z (by simp)).2.2
    have hp : m.edges <+: (redirect r s k z.1 m z.2).edges := ⟨_, g3.symm⟩
    have hz' : ∀ y ∈ zs, y.1 ≠ k ∧ y.2 < (redirect r s k z.1 m z.2).edges.length ∧ ((redirect r s k z.1 m z.2).edge y.2).src ≠ k := by
      intro y hy
      obtain ⟨a, b, c⟩ := hz y (by simp [hy])
      exact ⟨a, Nat.lt_of_lt_of_le b hp.length_le, by rw [edge_frame hp b]; exact c⟩
    have hk' : k < (redirect r s k z.1 m z.2).nodes.length := by rw [g1]; exact hk
    have hmv : ∀ y ∈ zs, mergedValue r s (redirect r s k z.1 m z.2) y = mergedValue r s m y := by
      intro y hy
      obtain ⟨a, b, c⟩ := hz y (by simp [hy])
      unfold mergedValue
      rw [edge_frame hp b, g2 _ c, g2 _ a]
    have hih := ih hk' hz'
    have hpre' := hpre zs _ hk' hz'
    simp only [List.foldl_cons]
    generalize hM : zs.foldl (fun m z => redirect r s k z.1 m z.2) (redirect r s k z.1 m z.2) = M at hih hpre' ⊢
    have hnew : (redirect r s k z.1 m z.2).edge m.edges.length = x := by unfold edge; rw [g3]; exact getD_append_len _ _ _
    rcases hih with ⟨h1, h2, h3⟩ | ⟨l1, y, l2, b, h1, h2, h3, h4, h5, h6, h7, h8⟩
    · by_cases hlt : mergedValue r s m z < (m.node k).value
      · obtain ⟨e1, e2⟩ := g4 hlt
        refine Or.inl ⟨h1.trans e1, h2.trans e2, fun y hy => ?_⟩
        rcases List.mem_cons.1 hy with rfl | hy
        · exact hlt
        · have := h3 y hy; rw [hmv y hy, e2] at this; exact this
      · obtain ⟨e1, e2⟩ := g5 (by omega)
        have hlen : m.edges.length < (redirect r s k z.1 m z.2).edges.length := by rw [g3]; simp
        refine Or.inr ⟨[], z, zs, m.edges.length, rfl, h1.trans e1, ?_, ?_, h2.trans e2, by omega, by simp, fun y hy => ?_⟩
        · rw [edge_frame hpre' hlen, hnew]; exact gs
        · rw [edge_frame hpre' hlen, hnew]; exact gd
        · have := h3 y hy; rw [hmv y hy, e2] at this; exact this
    · have hy : y ∈ zs := by rw [h1]; simp
      have hb := (hz y (by simp [hy])).2.1
      have hge : (m.node k).value ≤ mergedValue r s m y ∧ mergedValue r s m z ≤ mergedValue r s m y := by
        rw [hmv y hy] at h6
        by_cases hlt : mergedValue r s m z < (m.node k).value
        · rw [(g4 hlt).2] at h6; omega
        · rw [(g5 (by omega)).2] at h6; omega
      refine Or.inr ⟨z :: l1, y, l2, b, by rw [h1]; rfl, h2, ?_, ?_, ?_, hge.1, ?_, ?_⟩
      · rw [h3, edge_frame hp hb]
      · rw [h4, edge_frame hp hb]
      · rw [h5, hmv y hy]
      · intro w hw
        rcases List.mem_cons.1 hw with rfl | hw
        · exact hge.2
        · have := h7 w hw
          rw [hmv y hy, hmv w (by rw [h1]; simp [hw])] at this; exact this
      · intro w hw
        have := h8 w hw
        rw [hmv y hy, hmv w (by rw [h1]; simp [hw])] at this; exact this

end Verif.Dd
