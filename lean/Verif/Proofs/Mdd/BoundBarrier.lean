import Verif.Proofs.Mdd.BoundLayers
/-! `compute_local_bounds_and_theta` of `with_barrier.rs`. -/
set_option autoImplicit false

namespace Verif.Dd
open Verif Spec
variable {σ : Type} [DecidableEq σ] [Inhabited σ]

/-- Effect of one edge of the sweep. -/
structure ThetaStep (m m' : Dd σ) (i s : Nat) (cost : Int) : Prop where
  skel : Skel m m'
  other : ∀ q, q ≠ s → m'.node q = m.node q
  bot : (m'.node s).valueBot = if (m.node i).flags.isMarked then max (m.node s).valueBot (satAdd (m.node i).valueBot cost) else (m.node s).valueBot
  mark : (m'.node s).flags.isMarked = ((m.node i).flags.isMarked || (m.node s).flags.isMarked)
  theta : (m'.node s).theta = min (m.node s).theta (satSub (m.node i).theta cost)
  cutF : (m'.node s).flags.isCutset = ((m.node s).flags.isCutset || decide (Front m i s))
  cut : m'.cutset = if Front m i s ∧ (m.node s).flags.isCutset = false then m.cutset ++ [s] else m.cutset
  upd : m'.updates = m.updates

theorem thetaEdge_spec (m : Dd σ) (i e : Nat) (hs : (m.edge e).src < m.nodes.length) (hne : i ≠ (m.edge e).src) :
    ThetaStep m (thetaEdge i m e) i (m.edge e).src (m.edge e).cost := by
  obtain ⟨s, hsd⟩ : ∃ s, s = (m.edge e).src := ⟨_, rfl⟩
  rw [← hsd] at hs hne ⊢
  obtain ⟨m1, hm1⟩ : ∃ m1 : Dd σ, m1 = if (m.node i).flags.isMarked then
      m.modNode s fun n => { n with valueBot := max n.valueBot (satAdd (m.node i).valueBot (m.edge e).cost), flags := n.flags.setMarked true }
      else m := ⟨_, rfl⟩
  have k1 : Skel m m1 := by
    rw [hm1]; split
    · exact Skel.modNode _ _ _ (fun n => ⟨rfl, rfl, rfl, rfl, rfl, rfl, by simp, by simp, by simp, by simp⟩)
    · exact .refl m
  have n1o : ∀ q, q ≠ s → m1.node q = m.node q := fun q hq => by
    rw [hm1]; split
    · rw [node_modNode_ne _ _ (Ne.symm hq)]
    · rfl
  have n1s : (m1.node s).valueBot = (if (m.node i).flags.isMarked then max (m.node s).valueBot (satAdd (m.node i).valueBot (m.edge e).cost) else (m.node s).valueBot) ∧
      (m1.node s).flags.isMarked = ((m.node i).flags.isMarked || (m.node s).flags.isMarked) ∧ (m1.node s).theta = (m.node s).theta ∧
      (m1.node s).flags.isCutset = (m.node s).flags.isCutset ∧ (m1.node s).flags.isExact = (m.node s).flags.isExact := by
    rw [hm1]; split
    · rename_i h; rw [node_modNode_self _ _ hs]; simp [h]
    · rename_i h; simp [h]
  have r1 : m1.rest = m.rest ∧ m1.updates = m.updates := by
    rw [hm1]; split <;> exact ⟨rfl, rfl⟩
  have l1 : s < m1.nodes.length := by rw [k1.len]; exact hs
  obtain ⟨m2, hm2⟩ : ∃ m2 : Dd σ, m2 = m1.modNode s fun n => { n with theta := min n.theta (satSub (m1.node i).theta (m.edge e).cost) } := ⟨_, rfl⟩
  have k2 : Skel m m2 := by
    rw [hm2]; exact k1.trans (Skel.modNode _ _ _ (fun n => ⟨rfl, rfl, rfl, rfl, rfl, rfl, rfl, rfl, rfl, rfl⟩))
  have n2o : ∀ q, q ≠ s → m2.node q = m.node q := fun q hq => by
    rw [hm2, node_modNode_ne _ _ (Ne.symm hq)]; exact n1o q hq
  have n2s : m2.node s = { m1.node s with theta := min (m1.node s).theta (satSub (m1.node i).theta (m.edge e).cost) } := by
    rw [hm2, node_modNode_self _ _ l1]
  have r2 : m2.rest = m.rest ∧ m2.updates = m.updates := by rw [hm2]; exact r1
  have l2 : s < m2.nodes.length := by rw [k2.len]; exact hs
  have hct : m2.cutsetType = m.cutsetType := congrArg Rest.cutsetType r2.1
  have hcu : m2.cutset = m.cutset := congrArg Rest.cutset r2.1
  have hstep : thetaEdge i m e =
      (if m2.cutsetType = .frontier ∧ (m2.node i).flags.isMarked = true ∧ (m2.node i).flags.isExact = false ∧
      (m2.node s).flags.isExact = true ∧ (m2.node s).flags.isCutset = false then
        { m2.modNode s (fun n => { n with flags := n.flags.setCutset true }) with cutset := m2.cutset ++ [s] } else m2) := by
    unfold thetaEdge
    simp only [← hsd]
    rw [← hm1, ← hm2]
  rw [hstep]
  have hcond : (m2.cutsetType = .frontier ∧ (m2.node i).flags.isMarked = true ∧ (m2.node i).flags.isExact = false ∧
      (m2.node s).flags.isExact = true ∧ (m2.node s).flags.isCutset = false) ↔ (Front m i s ∧ (m.node s).flags.isCutset = false) := by
    unfold Front
    rw [hct, n2o i hne, n2s]
    simp only [n1s.2.2.2.1, n1s.2.2.2.2, and_assoc]
  by_cases hF : Front m i s ∧ (m.node s).flags.isCutset = false
  · rw [if_pos (hcond.2 hF)]
    obtain ⟨m3, hm3⟩ : ∃ m3 : Dd σ, m3 = { m2.modNode s (fun n => { n with flags := n.flags.setCutset true }) with cutset := m2.cutset ++ [s] } := ⟨_, rfl⟩
    rw [← hm3]
    have n3 : ∀ q, m3.node q = (m2.modNode s (fun n => { n with flags := n.flags.setCutset true })).node q := fun q => by rw [hm3]; rfl
    have k3 : Skel m2 m3 := by
      have := Skel.modNode m2 s (fun n => { n with flags := n.flags.setCutset true }) (fun n => ⟨rfl, rfl, rfl, rfl, rfl, rfl, by simp, by simp, by simp, by simp⟩)
      rw [hm3]
      exact ⟨this.edges, this.len, this.node, rfl, rfl, rfl, rfl, rfl, rfl⟩
    refine ⟨k2.trans k3, ?_, ?_, ?_, ?_, ?_, ?_, ?_⟩
    · intro q hq; rw [n3, node_modNode_ne _ _ (Ne.symm hq)]; exact n2o q hq
    · rw [n3, node_modNode_self _ _ l2, n2s]; exact n1s.1
    · rw [n3, node_modNode_self _ _ l2, n2s]; simp [n1s.2.1]
    · rw [n3, node_modNode_self _ _ l2, n2s]; simp only []; rw [n1s.2.2.1, n1o i hne]
    · rw [n3, node_modNode_self _ _ l2, n2s]; simp [hF.1]
    · rw [if_pos hF, hm3, ← hcu]
    · rw [hm3]; exact r2.2
  · rw [if_neg (fun h => hF (hcond.1 h))]
    refine ⟨k2, n2o, by rw [n2s]; exact n1s.1, by rw [n2s]; exact n1s.2.1, by rw [n2s]; simp only []; rw [n1s.2.2.1, n1o i hne], ?_,
      by rw [if_neg hF]; exact hcu, r2.2⟩
    rw [n2s]
    simp only [n1s.2.2.2.1]
    cases hcs : (m.node s).flags.isCutset
    · have : ¬ Front m i s := fun h => hF ⟨h, hcs⟩
      simp [this]
    · simp

/-- Values move in one direction only. -/
structure Mono (m m' : Dd σ) : Prop where
  bot : ∀ q, (m.node q).valueBot ≤ (m'.node q).valueBot
  mark : ∀ q, (m.node q).flags.isMarked = true → (m'.node q).flags.isMarked = true
  theta : ∀ q, (m'.node q).theta ≤ (m.node q).theta
  cutF : ∀ q, (m.node q).flags.isCutset = true → (m'.node q).flags.isCutset = true
  cutM : ∀ x ∈ m.cutset, x ∈ m'.cutset

theorem Mono.refl (m : Dd σ) : Mono m m := ⟨fun _ => Int.le_refl _, fun _ h => h, fun _ => Int.le_refl _, fun _ h => h, fun _ h => h⟩
theorem Mono.trans {a b c : Dd σ} (h : Mono a b) (h' : Mono b c) : Mono a c :=
  ⟨fun q => Int.le_trans (h.bot q) (h'.bot q), fun q hq => h'.mark q (h.mark q hq), fun q => Int.le_trans (h'.theta q) (h.theta q),
   fun q hq => h'.cutF q (h.cutF q hq), fun x hx => h'.cutM x (h.cutM x hx)⟩

/-- Invariant while the inbound edges of node `n` are processed. -/
structure TInv (m0 m : Dd σ) (n : Nat) (done : List Nat) : Prop where
  skel : Skel m0 m
  off : ∀ q, n ≤ q → m.node q = m0.node q
  mono : Mono m0 m
  fin : ∀ e ∈ done, ((m0.node n).flags.isMarked = true → (m.node (m0.edge e).src).flags.isMarked = true ∧
      satAdd (m0.node n).valueBot (m0.edge e).cost ≤ (m.node (m0.edge e).src).valueBot) ∧
    (m.node (m0.edge e).src).theta ≤ satSub (m0.node n).theta (m0.edge e).cost
  cutN : ∀ x ∈ m.cutset, x ∈ m0.cutset ∨ (∃ e ∈ done, (m0.edge e).src = x ∧ Front m0 n x)
  flag : ∀ q, (m.node q).flags.isCutset = ((m0.node q).flags.isCutset || decide (q ∈ m.cutset ∧ q ∉ m0.cutset))
  nodup : m0.cutset.Nodup → m.cutset.Nodup
  front : ∀ e ∈ done, Front m0 n (m0.edge e).src → (m.node (m0.edge e).src).flags.isCutset = true
  upd : m.updates = m0.updates
  mk' : ∀ q, (m.node q).flags.isMarked = true → (m0.node q).flags.isMarked = true ∨
    ((m0.node n).flags.isMarked = true ∧ ∃ e ∈ done, (m0.edge e).src = q)
  att : ∀ q, (m.node q).theta = (m0.node q).theta ∨ ∃ e ∈ done, (m0.edge e).src = q ∧ (m.node q).theta = satSub (m0.node n).theta (m0.edge e).cost
  unb : ∀ q, (m.node q).flags.isMarked = false → (m.node q).valueBot = (m0.node q).valueBot

theorem TInv.step {m0 m : Dd σ} {n : Nat} {done : List Nat} (h : TInv m0 m n done) (hc0 : ∀ x ∈ m0.cutset, (m0.node x).flags.isCutset = true)
    {e : Nat} (hlt : (m0.edge e).src < n) (hn : n < m0.nodes.length) : TInv m0 (thetaEdge n m e) n (e :: done) := by
  have hee : m.edge e = m0.edge e := h.skel.edge e
  have hs := thetaEdge_spec m n e (by rw [hee, h.skel.len]; omega) (by rw [hee]; omega)
  rw [hee] at hs
  obtain ⟨s, hsd⟩ : ∃ s, s = (m0.edge e).src := ⟨_, rfl⟩
  rw [← hsd] at hlt hs
  generalize thetaEdge n m e = m' at hs
  have hmn : m.node n = m0.node n := h.off n (Nat.le_refl _)
  have hFr : Front m n s ↔ Front m0 n s := by
    unfold Front
    rw [h.skel.cutsetType, hmn, (h.skel.node s).exact]
  have hmono : Mono m m' := by
    constructor
    · intro q
      by_cases hq : q = s
      · subst hq; rw [hs.bot]; split <;> omega
      · rw [hs.other q hq]; exact Int.le_refl _
    · intro q hq
      by_cases hqs : q = s
      · subst hqs; rw [hs.mark, hq]; simp
      · rw [hs.other q hqs]; exact hq
    · intro q
      by_cases hq : q = s
      · subst hq; rw [hs.theta]; omega
      · rw [hs.other q hq]; exact Int.le_refl _
    · intro q hq
      by_cases hqs : q = s
      · subst hqs; rw [hs.cutF, hq]; simp
      · rw [hs.other q hqs]; exact hq
    · intro x hx; rw [hs.cut]; split
      · exact List.mem_append_left _ hx
      · exact hx
  have hcutEq : ∀ x, x ∈ m'.cutset ↔ x ∈ m.cutset ∨ (x = s ∧ Front m n s ∧ (m.node s).flags.isCutset = false) := by
    intro x; rw [hs.cut]; split
    · rename_i hh; simp [hh]
    · rename_i hh; simp [hh]
  have hcs : ∀ x ∈ m.cutset, (m.node x).flags.isCutset = true := by
    intro x hx
    rw [h.flag x]
    by_cases hx0 : x ∈ m0.cutset
    · simp [hc0 x hx0]
    · simp [hx, hx0]
  refine ⟨h.skel.trans hs.skel, ?_, h.mono.trans hmono, ?_, ?_, ?_, ?_, ?_, by rw [hs.upd]; exact h.upd, ?_, ?_, ?_⟩
  · intro q hq; rw [hs.other q (by omega)]; exact h.off q hq
  · intro e' he'
    rcases List.mem_cons.1 he' with rfl | he'
    · simp only [← hsd]
      refine ⟨fun hm => ⟨by rw [hs.mark, hmn, hm]; simp, ?_⟩, by rw [hs.theta, hmn]; omega⟩
      rw [hs.bot, hmn, hm]
      simp only [if_true]; omega
    · have := h.fin e' he'
      exact ⟨fun hm => ⟨hmono.mark _ (this.1 hm).1, Int.le_trans (this.1 hm).2 (hmono.bot _)⟩, Int.le_trans (hmono.theta _) this.2⟩
  · intro x hx
    rcases (hcutEq x).1 hx with hx | ⟨rfl, hF, _⟩
    · rcases h.cutN x hx with h1 | ⟨e', he', h1⟩
      · exact Or.inl h1
      · exact Or.inr ⟨e', by simp [he'], h1⟩
    · exact Or.inr ⟨e, by simp, hsd.symm, hFr.1 hF⟩
  · intro q
    by_cases hq : q = s
    · subst hq
      rw [hs.cutF]
      cases hb : (m.node q).flags.isCutset
      · have hnm : q ∉ m.cutset := fun hx => by rw [hcs q hx] at hb; cases hb
        have hnm0 : q ∉ m0.cutset := fun hx => hnm (h.mono.cutM q hx)
        have h0 : (m0.node q).flags.isCutset = false := by
          cases hh : (m0.node q).flags.isCutset
          · rfl
          · rw [h.mono.cutF q hh] at hb; cases hb
        have : (q ∈ m'.cutset) ↔ Front m n q := by rw [hcutEq]; simp [hnm, hb]
        simp [h0, this, hnm0]
      · have hiff : q ∈ m'.cutset ↔ q ∈ m.cutset := by rw [hcutEq]; simp [hb]
        have h1 := h.flag q
        rw [hb] at h1
        rw [Bool.true_or, h1]
        simp only [hiff]
    · rw [hs.other q hq, h.flag q]
      have : q ∈ m'.cutset ↔ q ∈ m.cutset := by rw [hcutEq]; simp [hq]
      simp only [this]
  · intro hnd
    have := h.nodup hnd
    rw [hs.cut]
    split
    · rename_i hF
      rw [List.nodup_append]
      refine ⟨this, by simp, ?_⟩
      intro a ha b hb
      simp at hb
      intro hab
      rw [hab, hb] at ha
      rw [hcs s ha] at hF
      cases hF.2
    · exact this
  · intro e' he'
    rcases List.mem_cons.1 he' with rfl | he'
    · intro hF
      simp only [← hsd] at hF ⊢
      rw [hs.cutF]; simp [hFr.2 hF]
    · intro hF; exact hmono.cutF _ (h.front e' he' hF)
  · intro q hq
    by_cases hqs : q = s
    · subst hqs
      rw [hs.mark, hmn] at hq
      by_cases hm : (m0.node n).flags.isMarked = true
      · exact Or.inr ⟨hm, e, by simp, hsd.symm⟩
      · simp only [Bool.or_eq_true] at hq
        rcases hq with hq | hq
        · exact absurd hq hm
        · rcases h.mk' q hq with h1 | ⟨h1, _⟩
          · exact Or.inl h1
          · exact absurd h1 hm
    · rw [hs.other q hqs] at hq
      rcases h.mk' q hq with h1 | ⟨h1, e', he', h2⟩
      · exact Or.inl h1
      · exact Or.inr ⟨h1, e', by simp [he'], h2⟩
  · intro q
    have old : (m.node q).theta = (m0.node q).theta ∨ ∃ e' ∈ e :: done, (m0.edge e').src = q ∧ (m.node q).theta = satSub (m0.node n).theta (m0.edge e').cost := by
      rcases h.att q with h1 | ⟨e', he', h1⟩
      · exact Or.inl h1
      · exact Or.inr ⟨e', by simp [he'], h1⟩
    by_cases hqs : q = s
    · subst hqs
      have ht := hs.theta
      rw [hmn] at ht
      by_cases hle : (m.node q).theta ≤ satSub (m0.node n).theta (m0.edge e).cost
      · rw [show (m'.node q).theta = (m.node q).theta by omega]; exact old
      · exact Or.inr ⟨e, by simp, hsd.symm, by omega⟩
    · rw [hs.other q hqs]; exact old
  · intro q hq
    by_cases hqs : q = s
    · subst hqs
      rw [hs.mark, hmn] at hq
      simp only [Bool.or_eq_false_iff] at hq
      rw [hs.bot, hmn, hq.1]
      simp only [Bool.false_eq_true, if_false]
      exact h.unb q hq.2
    · rw [hs.other q hqs] at hq ⊢; exact h.unb q hq

theorem TInv.edges {m0 : Dd σ} {n : Nat} (hc0 : ∀ x ∈ m0.cutset, (m0.node x).flags.isCutset = true) (hn : n < m0.nodes.length) :
    ∀ (es : List Nat), (∀ e ∈ es, (m0.edge e).src < n) → ∀ (m : Dd σ) (done : List Nat), TInv m0 m n done →
    ∃ done', TInv m0 (es.foldl (thetaEdge n) m) n done' ∧ (∀ e ∈ es, e ∈ done') ∧ (∀ e ∈ done, e ∈ done') ∧ (∀ e ∈ done', e ∈ done ∨ e ∈ es) := by
  intro es
  induction es with
  | nil => intro _ m done h; exact ⟨done, h, by simp, fun _ h => h, fun _ h => Or.inl h⟩
  | cons e es ih =>
    intro hes m done h
    have h1 := h.step hc0 (hes e (by simp)) hn
    obtain ⟨d', k1, k2, k3, k4⟩ := ih (fun e' he' => hes e' (by simp [he'])) _ _ h1
    refine ⟨d', k1, ?_, fun e' he' => k3 e' (by simp [he']), ?_⟩
    · intro e' he'
      rcases List.mem_cons.1 he' with rfl | he'
      · exact k3 _ (by simp)
      · exact k2 e' he'
    · intro e' he'
      rcases k4 e' he' with h1 | h1
      · rcases List.mem_cons.1 h1 with rfl | h1
        · exact Or.inr (by simp)
        · exact Or.inl h1
      · exact Or.inr (by simp [h1])

/-- The bound a cutset node puts on its own threshold. -/
def cutBound (lb : Int) (n : Node σ) : Int := if satAdd n.value n.valueBot < lb then satSub lb n.valueBot else n.value

/-- Stores below the last exact layer are suppressed. -/
def Stored (b : Dd σ) (depth : Nat) : Prop := ¬ (b.cutsetType = .lastExactLayer ∧ (b.lelDepth.any fun l => depth > l) = true)

instance (b : Dd σ) (d : Nat) : Decidable (Stored b d) := inferInstanceAs (Decidable (¬ _))

/-- Invariant of the sweep: the nodes with ids `n` and above have been processed. -/
structure SInv (b m : Dd σ) (lb : Int) (n : Nat) : Prop where
  skel : Skel b m
  mono : Mono b m
  edge : ∀ i, n ≤ i → i < b.nodes.length → (b.node i).flags.isDeleted = false → ∀ e ∈ b.inIds i,
    ((m.node i).flags.isMarked = true → (m.node (b.edge e).src).flags.isMarked = true ∧
      satAdd (m.node i).valueBot (b.edge e).cost ≤ (m.node (b.edge e).src).valueBot) ∧
    (m.node (b.edge e).src).theta ≤ satSub (m.node i).theta (b.edge e).cost
  cutTheta : ∀ i, n ≤ i → i < b.nodes.length → (b.node i).flags.isDeleted = false → (m.node i).flags.isCutset = true →
    (m.node i).theta ≤ cutBound lb (m.node i)
  cutN : ∀ x ∈ m.cutset, x ∈ b.cutset ∨ (∃ i, n ≤ i ∧ i < b.nodes.length ∧ (b.node i).flags.isDeleted = false ∧
    ∃ e ∈ b.inIds i, (b.edge e).src = x ∧ Front m i x)
  flag : ∀ q, (m.node q).flags.isCutset = ((b.node q).flags.isCutset || decide (q ∈ m.cutset ∧ q ∉ b.cutset))
  nodup : b.cutset.Nodup → m.cutset.Nodup
  front : ∀ i, n ≤ i → i < b.nodes.length → (b.node i).flags.isDeleted = false → ∀ e ∈ b.inIds i, Front m i (b.edge e).src →
    (m.node (b.edge e).src).flags.isCutset = true
  upd : ∀ u ∈ m.updates, u ∈ b.updates ∨ ∃ i, n ≤ i ∧ i < b.nodes.length ∧ (b.node i).flags.isDeleted = false ∧
    (b.node i).flags.isExact = true ∧ (b.node i).flags.isPrunedByBarrier = false ∧ Stored b (b.node i).depth ∧
    u = ⟨(b.node i).depth, (b.node i).state, (m.node i).theta, !(m.node i).flags.isCutset⟩
  mk' : ∀ q, (m.node q).flags.isMarked = true → (b.node q).flags.isMarked = true ∨ ∃ i, n ≤ i ∧ i < b.nodes.length ∧
    (b.node i).flags.isDeleted = false ∧ ∃ e ∈ b.inIds i, (b.edge e).src = q
  att : ∀ q, (m.node q).theta = (b.node q).theta ∨ (n ≤ q ∧ (m.node q).flags.isCutset = true ∧ (m.node q).theta = cutBound lb (m.node q)) ∨
    ∃ i, n ≤ i ∧ i < b.nodes.length ∧ (b.node i).flags.isDeleted = false ∧ ∃ e ∈ b.inIds i, (b.edge e).src = q ∧
      (m.node q).theta = satSub (m.node i).theta (b.edge e).cost
  unb : ∀ q, (m.node q).flags.isMarked = false → (m.node q).valueBot = (b.node q).valueBot
  updM : ∀ u ∈ b.updates, u ∈ m.updates
  updA : ∀ i, n ≤ i → i < b.nodes.length → (b.node i).flags.isDeleted = false → (b.node i).flags.isExact = true →
    (b.node i).flags.isPrunedByBarrier = false → Stored b (b.node i).depth →
    ⟨(b.node i).depth, (b.node i).state, (m.node i).theta, !(m.node i).flags.isCutset⟩ ∈ m.updates

theorem Front.congr {m m' : Dd σ} {i s : Nat} (h : Skel m m') (hi : (m'.node i).flags.isMarked = (m.node i).flags.isMarked) :
    Front m' i s ↔ Front m i s := by
  unfold Front
  rw [h.cutsetType, hi, (h.node i).exact, (h.node s).exact]

theorem SInv.step {b m : Dd σ} {lb : Int} {n : Nat} (hsrc : ∀ i, i < b.nodes.length → ∀ e ∈ b.inIds i, (b.edge e).src < i)
    (hc0 : ∀ x ∈ b.cutset, (b.node x).flags.isCutset = true) (h : SInv b m lb (n+1)) (hn : n < b.nodes.length) :
    SInv b (thetaNode lb m n) lb n := by
  by_cases hdel : (b.node n).flags.isDeleted = true
  · have hm : thetaNode lb m n = m := by
      unfold thetaNode; rw [(h.skel.node n).deleted, hdel]; simp
    rw [hm]
    have ex : ∀ i, n ≤ i → (b.node i).flags.isDeleted = false → n + 1 ≤ i := by
      intro i hi hd
      by_cases hin : i = n
      · subst hin; rw [hdel] at hd; cases hd
      · omega
    refine ⟨h.skel, h.mono, fun i hi hl hd => h.edge i (ex i hi hd) hl hd, fun i hi hl hd => h.cutTheta i (ex i hi hd) hl hd, ?_, h.flag, h.nodup,
      fun i hi hl hd => h.front i (ex i hi hd) hl hd, ?_, ?_, ?_, h.unb, h.updM, fun i hi hl hd => h.updA i (ex i hi hd) hl hd⟩
    · intro x hx
      rcases h.cutN x hx with h1 | ⟨i, h1, h2⟩
      · exact Or.inl h1
      · exact Or.inr ⟨i, by omega, h2⟩
    · intro u hu
      rcases h.upd u hu with h1 | ⟨i, h1, h2⟩
      · exact Or.inl h1
      · exact Or.inr ⟨i, by omega, h2⟩
    · intro u hu
      rcases h.mk' u hu with h1 | ⟨i, h1, h2⟩
      · exact Or.inl h1
      · exact Or.inr ⟨i, by omega, h2⟩
    · intro q
      rcases h.att q with h1 | ⟨h1, h2⟩ | ⟨i, h1, h2⟩
      · exact Or.inl h1
      · exact Or.inr (Or.inl ⟨by omega, h2⟩)
      · exact Or.inr (Or.inr ⟨i, by omega, h2⟩)
  · have hdel' : (b.node n).flags.isDeleted = false := by simpa using hdel
    obtain ⟨m1, hm1⟩ : ∃ m1 : Dd σ, m1 = m.modNode n (cutsetTheta lb) := ⟨_, rfl⟩
    have hnm : n < m.nodes.length := by rw [h.skel.len]; exact hn
    have k1 : Skel m m1 := by
      rw [hm1]; apply Skel.modNode
      intro x; unfold cutsetTheta
      split
      · dsimp only
        split <;> exact ⟨rfl, rfl, rfl, rfl, rfl, rfl, rfl, rfl, rfl, rfl⟩
      · exact .refl x
    have n1o : ∀ q, q ≠ n → m1.node q = m.node q := fun q hq => by rw [hm1, node_modNode_ne _ _ (Ne.symm hq)]
    have n1n : m1.node n = cutsetTheta lb (m.node n) := by rw [hm1, node_modNode_self _ _ hnm]
    have n1f : (m1.node n).flags = (m.node n).flags ∧ (m1.node n).valueBot = (m.node n).valueBot ∧ (m1.node n).value = (m.node n).value ∧
        (m1.node n).theta ≤ (m.node n).theta ∧ ((m1.node n).flags.isCutset = true → (m1.node n).theta ≤ cutBound lb (m1.node n)) ∧
        ((m1.node n).theta = (m.node n).theta ∨ ((m1.node n).flags.isCutset = true ∧ (m1.node n).theta = cutBound lb (m1.node n))) := by
      rw [n1n]; unfold cutsetTheta cutBound
      by_cases hcu : (m.node n).flags.isCutset = true
      · simp only [hcu, if_true]
        split
        · refine ⟨rfl, rfl, rfl, ?_, ?_, ?_⟩
          · simp only []; omega
          · rename_i hh; intro _; simp only []; omega
          · rename_i hh; simp only [true_and, hcu]; omega
        · refine ⟨rfl, rfl, rfl, ?_, ?_, ?_⟩
          · simp only []; omega
          · rename_i hh; intro _; simp only []; omega
          · rename_i hh; simp only [true_and, hcu]; omega
      · simp [hcu]
    have hmono1 : Mono m m1 := by
      constructor
      · intro q; by_cases hq : q = n
        · subst hq; rw [n1f.2.1]; exact Int.le_refl _
        · rw [n1o q hq]; exact Int.le_refl _
      · intro q hq; by_cases hqn : q = n
        · subst hqn; rw [n1f.1]; exact hq
        · rw [n1o q hqn]; exact hq
      · intro q; by_cases hq : q = n
        · subst hq; exact n1f.2.2.2.1
        · rw [n1o q hq]; exact Int.le_refl _
      · intro q hq; by_cases hqn : q = n
        · subst hqn; rw [n1f.1]; exact hq
        · rw [n1o q hqn]; exact hq
      · intro x hx; rw [hm1]; exact hx
    obtain ⟨m2, hm2⟩ : ∃ m2 : Dd σ, m2 = if (m1.node n).flags.isExact = true ∧ (m1.node n).flags.isPrunedByBarrier = false then
        m1.tryUpdate (m1.node n).depth (m1.node n).state (m1.node n).theta (!(m1.node n).flags.isCutset) else m1 := ⟨_, rfl⟩
    have hkb1 : Skel b m1 := h.skel.trans k1
    have k2 : Skel m1 m2 ∧ (∀ q, m2.node q = m1.node q) ∧ m2.cutset = m1.cutset ∧
        (∀ u ∈ m2.updates, u ∈ m1.updates ∨ ((b.node n).flags.isExact = true ∧ (b.node n).flags.isPrunedByBarrier = false ∧ Stored b (b.node n).depth ∧
          u = ⟨(b.node n).depth, (b.node n).state, (m1.node n).theta, !(m1.node n).flags.isCutset⟩)) ∧ (∀ u ∈ m1.updates, u ∈ m2.updates) ∧
        ((b.node n).flags.isExact = true → (b.node n).flags.isPrunedByBarrier = false → Stored b (b.node n).depth →
          ⟨(b.node n).depth, (b.node n).state, (m1.node n).theta, !(m1.node n).flags.isCutset⟩ ∈ m2.updates) := by
      rw [hm2]
      split
      · rename_i hh
        unfold tryUpdate
        split
        · rename_i hst
          refine ⟨.refl _, fun _ => rfl, rfl, fun u hu => Or.inl hu, fun _ h => h, fun _ _ h3 => absurd ?_ h3⟩
          rw [hkb1.cutsetType, hkb1.lelDepth, (hkb1.node n).depth] at hst; exact hst
        · rename_i hst
          refine ⟨⟨rfl, rfl, fun _ => .refl _, rfl, rfl, rfl, rfl, rfl, rfl⟩, fun _ => rfl, rfl, ?_, fun u hu => List.mem_append_left _ hu, fun _ _ _ => ?_⟩
          rotate_left
          · rw [← (hkb1.node n).depth, ← (hkb1.node n).state]; exact List.mem_append_right _ (List.mem_singleton.2 rfl)
          intro u hu
          simp only [List.mem_append, List.mem_singleton] at hu
          rcases hu with hu | hu
          · exact Or.inl hu
          · right
            rw [← (hkb1.node n).exact, ← (hkb1.node n).pruned, ← (hkb1.node n).depth, ← (hkb1.node n).state]
            refine ⟨hh.1, hh.2, ?_, hu⟩
            unfold Stored
            rw [← hkb1.cutsetType, ← hkb1.lelDepth]; exact hst
      · rename_i hh
        refine ⟨.refl _, fun _ => rfl, rfl, fun u hu => Or.inl hu, fun _ h => h, fun h1 h2 _ => absurd ⟨?_, ?_⟩ hh⟩
        · rw [(hkb1.node n).exact]; exact h1
        · rw [(hkb1.node n).pruned]; exact h2
    obtain ⟨k2, n2, c2, u2, u3, u4⟩ := k2
    have hkb2 : Skel b m2 := hkb1.trans k2
    have hthn : thetaNode lb m n = (m2.inIds n).foldl (thetaEdge n) m2 := by
      unfold thetaNode
      rw [(h.skel.node n).deleted, hdel']
      simp only [Bool.false_eq_true, if_false]
      rw [← hm1, ← hm2]
    have hmono2 : Mono m m2 := hmono1.trans ⟨fun q => by rw [n2]; exact Int.le_refl _, fun q hq => by rw [n2]; exact hq,
      fun q => by rw [n2]; exact Int.le_refl _, fun q hq => by rw [n2]; exact hq, fun x hx => by rw [c2]; exact hx⟩
    have hcm2 : m2.cutset = m.cutset := by rw [c2, hm1]; rfl
    have hfl2 : ∀ q, (m2.node q).flags = (m.node q).flags := by
      intro q; rw [n2]; by_cases hq : q = n
      · subst hq; exact n1f.1
      · rw [n1o q hq]
    have hc2 : ∀ x ∈ m2.cutset, (m2.node x).flags.isCutset = true := by
      intro x hx
      rw [hcm2] at hx
      rw [hfl2, h.flag x]
      by_cases hx0 : x ∈ b.cutset
      · simp [hc0 x hx0]
      · simp [hx, hx0]
    have hT0 : TInv m2 m2 n [] := ⟨.refl _, fun _ _ => rfl, .refl _, by simp, fun x hx => Or.inl hx, fun q => by simp, fun h => h, by simp, rfl, fun q hq => Or.inl hq, fun q => Or.inl rfl, fun _ _ => rfl⟩
    have hin2 : m2.inIds n = b.inIds n := hkb2.inIds n
    obtain ⟨done, hT, hd1, _, hd3⟩ := TInv.edges hc2 (by rw [hkb2.len]; exact hn) (m2.inIds n)
      (fun e he => by rw [hkb2.edge e]; exact hsrc n hn e (by rw [← hin2]; exact he)) m2 [] hT0
    rw [← hthn] at hT
    generalize thetaNode lb m n = m' at hT
    have hsk := hkb2.trans hT.skel
    have hmm : Mono m m' := hmono2.trans hT.mono
    have hgt : ∀ q, n < q → m'.node q = m.node q := by
      intro q hq; rw [hT.off q (by omega), n2, n1o q (by omega)]
    have hnn : m'.node n = m1.node n := by rw [hT.off n (Nat.le_refl _), n2]
    have hee : ∀ e, m2.edge e = b.edge e := hkb2.edge
    have hFgt : ∀ i, n < i → ∀ s, Front m' i s ↔ Front m i s := by
      intro i hi s
      exact Front.congr (hkb2.trans hT.skel |> fun hs => ⟨hs.edges.trans h.skel.edges.symm, hs.len.trans h.skel.len.symm,
        fun q => ⟨(hs.node q).state.trans (h.skel.node q).state.symm, (hs.node q).value.trans (h.skel.node q).value.symm,
          (hs.node q).best.trans (h.skel.node q).best.symm, (hs.node q).inbound.trans (h.skel.node q).inbound.symm,
          (hs.node q).depth.trans (h.skel.node q).depth.symm, (hs.node q).rub.trans (h.skel.node q).rub.symm,
          (hs.node q).exact.trans (h.skel.node q).exact.symm, (hs.node q).relaxed.trans (h.skel.node q).relaxed.symm,
          (hs.node q).deleted.trans (h.skel.node q).deleted.symm, (hs.node q).pruned.trans (h.skel.node q).pruned.symm⟩,
        hs.rootPa.trans h.skel.rootPa.symm, hs.bestN.trans h.skel.bestN.symm, hs.exact.trans h.skel.exact.symm,
        hs.approximate.trans h.skel.approximate.symm, hs.cutsetType.trans h.skel.cutsetType.symm, hs.lelDepth.trans h.skel.lelDepth.symm⟩)
        (by rw [hgt i hi])
    have hFn : ∀ s, Front m' n s ↔ Front m2 n s := fun s => Front.congr hT.skel (by rw [hT.off n (Nat.le_refl _)])
    constructor
    · exact hsk
    · exact h.mono.trans hmm
    · intro i hi hl hd e he
      by_cases hin : i = n
      · subst hin
        have := hT.fin e (hd1 e (by rw [hin2]; exact he))
        rw [hee] at this
        rw [hT.off i (Nat.le_refl _)]
        exact this
      · have := h.edge i (by omega) hl hd e he
        rw [hgt i (by omega)]
        exact ⟨fun hm => ⟨hmm.mark _ (this.1 hm).1, Int.le_trans (this.1 hm).2 (hmm.bot _)⟩, Int.le_trans (hmm.theta _) this.2⟩
    · intro i hi hl hd hcf
      by_cases hin : i = n
      · subst hin; rw [hnn] at hcf ⊢; exact n1f.2.2.2.2.1 hcf
      · rw [hgt i (by omega)] at hcf ⊢; exact h.cutTheta i (by omega) hl hd hcf
    · intro x hx
      rcases hT.cutN x hx with h1 | ⟨e, he, h1, h2⟩
      · rw [hcm2] at h1
        rcases h.cutN x h1 with h1 | ⟨i, g1, g2, g3, e, g4, g5, g6⟩
        · exact Or.inl h1
        · exact Or.inr ⟨i, by omega, g2, g3, e, g4, g5, (hFgt i (by omega) x).2 g6⟩
      · refine Or.inr ⟨n, Nat.le_refl _, hn, hdel', e, ?_, by rw [← hee]; exact h1, (hFn x).2 h2⟩
        rcases hd3 e he with h3 | h3
        · cases h3
        · rw [← hin2]; exact h3
    · intro q
      have h1 := hT.flag q
      rw [hfl2, hcm2, h.flag q] at h1
      rw [h1]
      by_cases hb : q ∈ b.cutset
      · simp [hc0 q hb]
      · by_cases hmc : q ∈ m.cutset
        · have : q ∈ m'.cutset := hmm.cutM q hmc
          simp [hb, hmc, this]
        · simp [hb, hmc]
    · intro hnd; exact hT.nodup (by rw [hcm2]; exact h.nodup hnd)
    · intro i hi hl hd e he hF
      by_cases hin : i = n
      · subst hin
        have := hT.front e (hd1 e (by rw [hin2]; exact he))
        rw [hee] at this
        exact this ((hFn _).1 hF)
      · exact hmm.cutF _ (h.front i (by omega) hl hd e he ((hFgt i (by omega) _).1 hF))
    · intro u hu
      rw [hT.upd] at hu
      rcases u2 u hu with h1 | ⟨h1, h2, h3, h4⟩
      · have h1' : u ∈ m.updates := by rw [hm1] at h1; exact h1
        rcases h.upd u h1' with h1 | ⟨i, g1, g2, g3, g4, g5, g6, g7⟩
        · exact Or.inl h1
        · exact Or.inr ⟨i, by omega, g2, g3, g4, g5, g6, by rw [g7, hgt i (by omega)]⟩
      · exact Or.inr ⟨n, Nat.le_refl _, hn, hdel', h1, h2, h3, by rw [h4, hnn]⟩
    · intro q hq
      rcases hT.mk' q hq with h1 | ⟨_, e, he, h2⟩
      · rw [hfl2] at h1
        rcases h.mk' q h1 with h1 | ⟨i, g1, g2⟩
        · exact Or.inl h1
        · exact Or.inr ⟨i, by omega, g2⟩
      · refine Or.inr ⟨n, Nat.le_refl _, hn, hdel', e, ?_, by rw [← hee]; exact h2⟩
        rcases hd3 e he with h3 | h3
        · cases h3
        · rw [← hin2]; exact h3
    · intro q
      have old : (m.node q).theta = (b.node q).theta ∨ (n + 1 ≤ q ∧ (m.node q).flags.isCutset = true ∧ (m.node q).theta = cutBound lb (m.node q)) ∨
          ∃ i, n ≤ i ∧ i < b.nodes.length ∧ (b.node i).flags.isDeleted = false ∧ ∃ e ∈ b.inIds i, (b.edge e).src = q ∧
            (m.node q).theta = satSub (m'.node i).theta (b.edge e).cost := by
        rcases h.att q with h1 | h1 | ⟨i, g1, g2⟩
        · exact Or.inl h1
        · exact Or.inr (Or.inl h1)
        · exact Or.inr (Or.inr ⟨i, by omega, by rw [hgt i (by omega)]; exact g2⟩)
      rcases Nat.lt_trichotomy q n with hq | hq | hq
      · rcases hT.att q with h1 | ⟨e, he, h1, h2⟩
        · rw [n2, n1o q (by omega)] at h1
          rw [h1]
          rcases old with g | g | g
          · exact Or.inl g
          · omega
          · exact Or.inr (Or.inr g)
        · refine Or.inr (Or.inr ⟨n, Nat.le_refl _, hn, hdel', e, ?_, by rw [← hee]; exact h1, ?_⟩)
          · rcases hd3 e he with h3 | h3
            · cases h3
            · rw [← hin2]; exact h3
          · rw [h2, hee, hT.off n (Nat.le_refl _)]
      · subst hq
        rw [hnn]
        rcases n1f.2.2.2.2.2 with h1 | h1
        · rw [h1]
          rcases old with g | g | g
          · exact Or.inl g
          · omega
          · exact Or.inr (Or.inr g)
        · exact Or.inr (Or.inl ⟨Nat.le_refl _, h1⟩)
      · rw [hgt q hq]
        rcases old with g | g | g
        · exact Or.inl g
        · exact Or.inr (Or.inl ⟨by omega, g.2⟩)
        · exact Or.inr (Or.inr g)
    · intro q hq
      have h1 := hT.unb q hq
      have hq2 : (m.node q).flags.isMarked = false := by
        cases hh : (m.node q).flags.isMarked
        · rfl
        · rw [hmm.mark q hh] at hq; cases hq
      rw [h1, n2]
      by_cases hqn : q = n
      · subst hqn; rw [n1f.2.1]; exact h.unb _ hq2
      · rw [n1o q hqn]; exact h.unb q hq2
    · intro u hu
      rw [hT.upd]
      exact u3 u (by rw [hm1]; exact h.updM u hu)
    · intro i hi hl hd hx hp hst
      rw [hT.upd]
      by_cases hin : i = n
      · subst hin; rw [hnn]; exact u4 hx hp hst
      · rw [hgt i (by omega)]
        exact u3 _ (by rw [hm1]; exact h.updA i (by omega) hl hd hx hp hst)

/-- The whole sweep. -/
theorem sweep_spec {b : Dd σ} {lb : Int} (hsrc : ∀ i, i < b.nodes.length → ∀ e ∈ b.inIds i, (b.edge e).src < i)
    (hc0 : ∀ x ∈ b.cutset, (b.node x).flags.isCutset = true) :
    SInv b ((List.range b.nodes.length).reverse.foldl (thetaNode lb) b) lb 0 := by
  have key : ∀ n, n ≤ b.nodes.length → ∀ m, SInv b m lb n → SInv b ((List.range n).reverse.foldl (thetaNode lb) m) lb 0 := by
    intro n
    induction n with
    | zero => intro _ m h; simpa using h
    | succ n ih =>
      intro hn m h
      rw [List.range_succ, List.reverse_append]
      simp only [List.reverse_cons, List.reverse_nil, List.nil_append, List.singleton_append, List.foldl_cons]
      exact ih (by omega) _ (h.step hsrc hc0 (by omega))
  apply key _ (Nat.le_refl _)
  refine ⟨.refl b, .refl b, fun i hi hl => by omega, fun i hi hl => by omega, fun x hx => Or.inl hx, fun q => by simp, fun h => h,
    fun i hi hl => by omega, fun u hu => Or.inl hu, fun q hq => Or.inl hq, fun q => Or.inl rfl, fun _ _ => rfl, fun _ h => h,
    fun i hi hl => by omega⟩

end Verif.Dd
