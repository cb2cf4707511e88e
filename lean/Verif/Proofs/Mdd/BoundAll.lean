import Verif.Proofs.Mdd.Skel
/-! `compute_local_bounds` of `with_all.rs`. -/
set_option autoImplicit false

namespace Verif.Dd
open Verif Spec
variable {σ : Type} [DecidableEq σ] [Inhabited σ]

/-- The condition under which an edge makes its source a member of the frontier cutset. -/
def Front (m : Dd σ) (i s : Nat) : Prop :=
  m.cutsetType = .frontier ∧ (m.node i).flags.isMarked = true ∧ (m.node i).flags.isExact = false ∧
    (m.node s).flags.isExact = true

instance (m : Dd σ) (i s : Nat) : Decidable (Front m i s) := inferInstanceAs (Decidable (_ ∧ _))

/-- Effect of one edge. -/
structure EdgeStep (m m' : Dd σ) (i s : Nat) (cost : Int) (visit visit' : List Nat) : Prop where
  skel : Skel m m'
  other : ∀ q, q ≠ s → m'.node q = m.node q
  bot : (m'.node s).valueBot = max (m.node s).valueBot (satAdd (m.node i).valueBot cost)
  mark : (m'.node s).flags.isMarked = true
  cutF : (m'.node s).flags.isCutset = ((m.node s).flags.isCutset || decide (Front m i s))
  vis : visit' = if (m.node s).flags.isMarked = false ∧ (m.node s).flags.isCutset = false then visit ++ [s] else visit
  cut : m'.cutset = if Front m i s ∧ (m.node s).flags.isCutset = false then m.cutset ++ [s] else m.cutset
  upd : m'.updates = m.updates

theorem boundEdge_spec (m : Dd σ) (i e : Nat) (visit : List Nat) (hs : (m.edge e).src < m.nodes.length) (hne : i ≠ (m.edge e).src) :
    EdgeStep m (boundEdge i (m, visit) e).1 i (m.edge e).src (m.edge e).cost visit (boundEdge i (m, visit) e).2 := by
  obtain ⟨s, hsd⟩ : ∃ s, s = (m.edge e).src := ⟨_, rfl⟩
  rw [← hsd] at hs hne ⊢
  have hne' : s ≠ i := fun h => hne h.symm
  obtain ⟨m1, hm1⟩ : ∃ m1 : Dd σ, m1 = m.modNode s fun n => { n with valueBot := max n.valueBot (satAdd (m.node i).valueBot (m.edge e).cost) } := ⟨_, rfl⟩
  have k1 : Skel m m1 := by rw [hm1]; exact Skel.modNode _ _ _ (fun n => ⟨rfl, rfl, rfl, rfl, rfl, rfl, rfl, rfl, rfl, rfl⟩)
  have n1s : m1.node s = { m.node s with valueBot := max (m.node s).valueBot (satAdd (m.node i).valueBot (m.edge e).cost) } := by
    rw [hm1, node_modNode_self _ _ hs]
  have n1o : ∀ q, q ≠ s → m1.node q = m.node q := fun q hq => by rw [hm1, node_modNode_ne _ _ (Ne.symm hq)]
  have r1 : m1.rest = m.rest := by rw [hm1]; rfl
  have u1 : m1.updates = m.updates := by rw [hm1]; rfl
  have l1 : s < m1.nodes.length := by rw [k1.len]; exact hs
  obtain ⟨m2, hm2⟩ : ∃ m2 : Dd σ, m2 = if (m1.node s).flags.isMarked then m1 else m1.modNode s fun n => { n with flags := n.flags.setMarked true } := ⟨_, rfl⟩
  have k2 : Skel m m2 := by
    rw [hm2]; split
    · exact k1
    · exact k1.trans (Skel.modNode _ _ _ (fun n => ⟨rfl, rfl, rfl, rfl, rfl, rfl, by simp, by simp, by simp, by simp⟩))
  have n2s : (m2.node s).valueBot = max (m.node s).valueBot (satAdd (m.node i).valueBot (m.edge e).cost) ∧
      (m2.node s).flags.isMarked = true ∧ (m2.node s).flags.isCutset = (m.node s).flags.isCutset ∧
      (m2.node s).flags.isExact = (m.node s).flags.isExact := by
    rw [hm2]; split
    · rename_i h; rw [n1s] at h ⊢; exact ⟨rfl, h, rfl, rfl⟩
    · rw [node_modNode_self _ _ l1, n1s]; simp
  have n2o : ∀ q, q ≠ s → m2.node q = m.node q := fun q hq => by
    rw [hm2]; split
    · exact n1o q hq
    · rw [node_modNode_ne _ _ (Ne.symm hq)]; exact n1o q hq
  have r2 : m2.rest = m.rest ∧ m2.updates = m.updates := by
    rw [hm2]; split
    · exact ⟨r1, u1⟩
    · exact ⟨r1, u1⟩
  have l2 : s < m2.nodes.length := by rw [k2.len]; exact hs
  have hct : m2.cutsetType = m.cutsetType := congrArg Rest.cutsetType r2.1
  have hcu : m2.cutset = m.cutset := congrArg Rest.cutset r2.1
  have hstep : boundEdge i (m, visit) e =
      (if m2.cutsetType = .frontier ∧ (m2.node i).flags.isMarked = true ∧ (m2.node i).flags.isExact = false ∧
      (m2.node s).flags.isExact = true ∧ (m2.node s).flags.isCutset = false then
        { m2.modNode s (fun n => { n with flags := n.flags.setCutset true }) with cutset := m2.cutset ++ [s] } else m2,
       if (m.node s).flags.isMarked = false ∧ (m.node s).flags.isCutset = false then visit ++ [s] else visit) := by
    unfold boundEdge
    simp only [← hsd]
    rw [← hm1]
    have hmk : (m1.node s).flags = (m.node s).flags := by rw [n1s]
    by_cases hk : (m1.node s).flags.isMarked = true
    · have hm2' : m2 = m1 := by rw [hm2, if_pos hk]
      simp only [hk, if_true, hm2']
      rw [hmk] at hk
      have hvis : (if (m.node s).flags.isMarked = false ∧ (m.node s).flags.isCutset = false then visit ++ [s] else visit) = visit := by
        rw [hk]; simp
      rw [hvis]
      split <;> rfl
    · have hm2' : m2 = m1.modNode s fun n => { n with flags := n.flags.setMarked true } := by rw [hm2, if_neg hk]
      simp only [hk, Bool.false_eq_true, if_false, ← hm2']
      have hk' : (m.node s).flags.isMarked = false := by rw [← hmk]; simpa using hk
      have hvis : (if (m2.node s).flags.isCutset = true then visit else visit ++ [s]) =
          if (m.node s).flags.isMarked = false ∧ (m.node s).flags.isCutset = false then visit ++ [s] else visit := by
        rw [n2s.2.2.1, hk']
        cases (m.node s).flags.isCutset <;> simp
      rw [hvis]
      split <;> rfl
  rw [hstep]
  have hcond : (m2.cutsetType = .frontier ∧ (m2.node i).flags.isMarked = true ∧ (m2.node i).flags.isExact = false ∧
      (m2.node s).flags.isExact = true ∧ (m2.node s).flags.isCutset = false) ↔ (Front m i s ∧ (m.node s).flags.isCutset = false) := by
    unfold Front
    rw [hct, n2o i hne, n2s.2.2.2, n2s.2.2.1]
    simp only [and_assoc]
  by_cases hF : Front m i s ∧ (m.node s).flags.isCutset = false
  · simp only []
    rw [if_pos (hcond.2 hF)]
    obtain ⟨m3, hm3⟩ : ∃ m3 : Dd σ, m3 = { m2.modNode s (fun n => { n with flags := n.flags.setCutset true }) with cutset := m2.cutset ++ [s] } := ⟨_, rfl⟩
    rw [← hm3]
    have n3 : ∀ q, m3.node q = (m2.modNode s (fun n => { n with flags := n.flags.setCutset true })).node q := fun q => by rw [hm3]; rfl
    have k3 : Skel m2 m3 := by
      have := Skel.modNode m2 s (fun n => { n with flags := n.flags.setCutset true }) (fun n => ⟨rfl, rfl, rfl, rfl, rfl, rfl, by simp, by simp, by simp, by simp⟩)
      rw [hm3]
      exact ⟨this.edges, this.len, this.node, rfl, rfl, rfl, rfl, rfl, rfl⟩
    refine ⟨k2.trans k3, ?_, ?_, ?_, ?_, rfl, ?_, ?_⟩
    · intro q hq; rw [n3, node_modNode_ne _ _ (Ne.symm hq)]; exact n2o q hq
    · rw [n3, node_modNode_self _ _ l2]; exact n2s.1
    · rw [n3, node_modNode_self _ _ l2]; simp [n2s.2.1]
    · rw [n3, node_modNode_self _ _ l2]; simp [hF.1]
    · rw [if_pos hF, hm3, ← hcu]
    · rw [hm3]; exact r2.2
  · simp only []
    rw [if_neg (fun h => hF (hcond.1 h))]
    refine ⟨k2, n2o, n2s.1, n2s.2.1, ?_, rfl, by rw [if_neg hF]; exact hcu, r2.2⟩
    rw [n2s.2.2.1]
    cases hcs : (m.node s).flags.isCutset
    · have : ¬ Front m i s := fun h => hF ⟨h, hcs⟩
      simp [this]
    · simp

/-- Invariant of one round: `m0` at its beginning, `Lj` the layer of the sources. -/
structure BInv (m0 m : Dd σ) (Lj : List Nat) (visit : List Nat) (done : List (Nat × Nat)) : Prop where
  skel : Skel m0 m
  off : ∀ q, q ∉ Lj → m.node q = m0.node q
  bot : ∀ q, (m0.node q).valueBot ≤ (m.node q).valueBot
  mark : ∀ q, (m0.node q).flags.isMarked = true → (m.node q).flags.isMarked = true
  fin : ∀ z ∈ done, (m.node (m0.edge z.2).src).flags.isMarked = true ∧
    satAdd (m0.node z.1).valueBot (m0.edge z.2).cost ≤ (m.node (m0.edge z.2).src).valueBot
  push : ∀ q, (m.node q).flags.isMarked = true → (m0.node q).flags.isMarked = true ∨ (m0.node q).flags.isCutset = true ∨ q ∈ visit
  unm : ∀ q, (m.node q).flags.isMarked = false → (m.node q).flags.isCutset = (m0.node q).flags.isCutset
  vsub : ∀ q ∈ visit, q ∈ Lj
  cutM : ∀ x ∈ m0.cutset, x ∈ m.cutset
  cutN : ∀ x ∈ m.cutset, x ∈ m0.cutset ∨ (x ∈ Lj ∧ (m.node x).flags.isMarked = true ∧ m0.cutsetType = .frontier ∧
    (m0.node x).flags.isExact = true ∧ ∃ z ∈ done, (m0.edge z.2).src = x ∧ (m0.node z.1).flags.isExact = false ∧
    (m0.node z.1).flags.isMarked = true)
  flag : ∀ q ∈ Lj, (m.node q).flags.isCutset = decide (q ∈ m.cutset)
  nodup : m0.cutset.Nodup → m.cutset.Nodup
  front : ∀ z ∈ done, Front m0 z.1 (m0.edge z.2).src → (m0.edge z.2).src ∈ m.cutset
  upd : m.updates = m0.updates

theorem BInv.step {m0 m : Dd σ} {Lj visit : List Nat} {done : List (Nat × Nat)} (h : BInv m0 m Lj visit done) {i e : Nat}
    (hi : i ∉ Lj) (hsL : (m0.edge e).src ∈ Lj) (hlt : (m0.edge e).src < m0.nodes.length) :
    BInv m0 (boundEdge i (m, visit) e).1 Lj (boundEdge i (m, visit) e).2 ((i, e) :: done) := by
  have hee : m.edge e = m0.edge e := h.skel.edge e
  have hne : i ≠ (m0.edge e).src := fun hh => hi (by rw [hh]; exact hsL)
  have hs := boundEdge_spec m i e visit (by rw [hee, h.skel.len]; exact hlt) (by rw [hee]; exact hne)
  rw [hee] at hs
  obtain ⟨s, hsd⟩ : ∃ s, s = (m0.edge e).src := ⟨_, rfl⟩
  rw [← hsd] at hsL hlt hs hne
  generalize (boundEdge i (m, visit) e).1 = m' at hs
  generalize (boundEdge i (m, visit) e).2 = visit' at hs
  have hmi : m.node i = m0.node i := h.off i hi
  have hbot : ∀ q, (m.node q).valueBot ≤ (m'.node q).valueBot := by
    intro q
    by_cases hq : q = s
    · subst hq; rw [hs.bot]; omega
    · rw [hs.other q hq]; exact Int.le_refl _
  have hmk : ∀ q, (m.node q).flags.isMarked = true → (m'.node q).flags.isMarked = true := by
    intro q hq
    by_cases hqs : q = s
    · subst hqs; exact hs.mark
    · rw [hs.other q hqs]; exact hq
  have hcutM : ∀ x ∈ m.cutset, x ∈ m'.cutset := by
    intro x hx; rw [hs.cut]; split
    · exact List.mem_append_left _ hx
    · exact hx
  have hFr : Front m i s ↔ Front m0 i s := by
    unfold Front
    rw [h.skel.cutsetType, hmi, (h.skel.node s).exact]
  have hfl : (m.node s).flags.isCutset = decide (s ∈ m.cutset) := h.flag s hsL
  refine ⟨h.skel.trans hs.skel, ?_, fun q => Int.le_trans (h.bot q) (hbot q), fun q hq => hmk q (h.mark q hq), ?_, ?_, ?_, ?_, ?_, ?_, ?_, ?_, ?_, ?_⟩
  · intro q hq
    rw [hs.other q (fun hh => hq (by rw [hh]; exact hsL))]; exact h.off q hq
  · intro z hz
    simp only [List.mem_cons] at hz
    rcases hz with rfl | hz
    · simp only [← hsd]
      refine ⟨hs.mark, ?_⟩
      rw [hs.bot, hmi]; omega
    · have := h.fin z hz
      exact ⟨hmk _ this.1, Int.le_trans this.2 (hbot _)⟩
  · intro q hq
    have hv : ∀ x ∈ visit, x ∈ visit' := by
      intro x hx; rw [hs.vis]; split
      · exact List.mem_append_left _ hx
      · exact hx
    by_cases hqs : q = s
    · subst hqs
      by_cases hm : (m.node q).flags.isMarked = true
      · rcases h.push q hm with h1 | h1 | h1
        · exact Or.inl h1
        · exact Or.inr (Or.inl h1)
        · exact Or.inr (Or.inr (hv q h1))
      · have hm' : (m.node q).flags.isMarked = false := by simpa using hm
        by_cases hcs : (m.node q).flags.isCutset = true
        · rw [h.unm q hm'] at hcs; exact Or.inr (Or.inl hcs)
        · right; right; rw [hs.vis, if_pos ⟨hm', by simpa using hcs⟩]; simp
    · rw [hs.other q hqs] at hq
      rcases h.push q hq with h1 | h1 | h1
      · exact Or.inl h1
      · exact Or.inr (Or.inl h1)
      · exact Or.inr (Or.inr (hv q h1))
  · intro q hq
    by_cases hqs : q = s
    · subst hqs; rw [hs.mark] at hq; cases hq
    · rw [hs.other q hqs] at hq ⊢; exact h.unm q hq
  · intro q hq
    rw [hs.vis] at hq
    split at hq
    · rcases List.mem_append.1 hq with hq | hq
      · exact h.vsub q hq
      · simp at hq; rw [hq]; exact hsL
    · exact h.vsub q hq
  · intro x hx; exact hcutM x (h.cutM x hx)
  · intro x hx
    have old : x ∈ m.cutset → _ := fun hx => h.cutN x hx
    rw [hs.cut] at hx
    by_cases hF : Front m i s ∧ (m.node s).flags.isCutset = false
    · rw [if_pos hF] at hx
      rcases List.mem_append.1 hx with hx | hx
      · rcases old hx with h1 | ⟨h1, h2, h3, h4, z, hz, h5⟩
        · exact Or.inl h1
        · exact Or.inr ⟨h1, hmk x h2, h3, h4, z, List.mem_cons_of_mem _ hz, h5⟩
      · simp at hx
        subst hx
        have hF0 := hFr.1 hF.1
        exact Or.inr ⟨hsL, hs.mark, hF0.1, hF0.2.2.2, (i, e), List.mem_cons_self .., hsd.symm, hF0.2.2.1, hF0.2.1⟩
    · rw [if_neg hF] at hx
      rcases old hx with h1 | ⟨h1, h2, h3, h4, z, hz, h5⟩
      · exact Or.inl h1
      · exact Or.inr ⟨h1, hmk x h2, h3, h4, z, List.mem_cons_of_mem _ hz, h5⟩
  · intro q hq
    by_cases hqs : q = s
    · subst hqs
      rw [hs.cutF, hs.cut, hfl]
      by_cases hF : Front m i q
      · by_cases hc : q ∈ m.cutset <;> simp [hF, hc]
      · simp [hF]
    · rw [hs.other q hqs, h.flag q hq, hs.cut]
      split
      · simp [hqs]
      · rfl
  · intro hnd
    have := h.nodup hnd
    rw [hs.cut]
    split
    · rename_i hF
      rw [hfl] at hF
      rw [List.nodup_append]
      refine ⟨this, by simp, ?_⟩
      intro a ha b hb
      simp at hb
      intro hab
      rw [hab, hb] at ha
      simp [ha] at hF
    · exact this
  · intro z hz
    simp only [List.mem_cons] at hz
    rcases hz with rfl | hz
    · intro hF
      simp only [← hsd] at hF ⊢
      have hF' := hFr.2 hF
      rw [hs.cut]
      by_cases hc : s ∈ m.cutset
      · split
        · exact List.mem_append_left _ hc
        · exact hc
      · rw [if_pos ⟨hF', by rw [hfl]; simp [hc]⟩]; simp
    · intro hF; exact hcutM _ (h.front z hz hF)
  · rw [hs.upd]; exact h.upd

theorem BInv.edges {m0 : Dd σ} {Lj : List Nat} {i : Nat} (hi : i ∉ Lj) :
    ∀ (es : List Nat), (∀ e ∈ es, (m0.edge e).src ∈ Lj ∧ (m0.edge e).src < m0.nodes.length) →
    ∀ (acc : Dd σ × List Nat) (done : List (Nat × Nat)), BInv m0 acc.1 Lj acc.2 done →
    ∃ done', BInv m0 (es.foldl (boundEdge i) acc).1 Lj (es.foldl (boundEdge i) acc).2 done' ∧ (∀ z ∈ done, z ∈ done') ∧
      (∀ e ∈ es, (i, e) ∈ done') ∧ ∀ z ∈ done', z ∈ done ∨ (z.1 = i ∧ z.2 ∈ es) := by
  intro es
  induction es with
  | nil => intro _ acc done h; exact ⟨done, h, fun _ h => h, by simp, fun _ h => Or.inl h⟩
  | cons e es ih =>
    intro hes acc done h
    have h1 := BInv.step (m := acc.1) (visit := acc.2) h hi (hes e (by simp)).1 (hes e (by simp)).2
    obtain ⟨done', k1, k2, k3, k4⟩ := ih (fun e' he' => hes e' (by simp [he'])) (boundEdge i acc e) _ h1
    refine ⟨done', k1, fun z hz => k2 z (by simp [hz]), ?_, ?_⟩
    · intro e' he'
      rcases List.mem_cons.1 he' with rfl | he'
      · exact k2 _ (by simp)
      · exact k3 e' he'
    · intro z hz
      rcases k4 z hz with hz | ⟨hz, hz'⟩
      · rcases List.mem_cons.1 hz with rfl | hz
        · exact Or.inr ⟨rfl, by simp⟩
        · exact Or.inl hz
      · exact Or.inr ⟨hz, by simp [hz']⟩

theorem BInv.round {m0 : Dd σ} {Lj : List Nat} :
    ∀ (vs : List Nat), (∀ i ∈ vs, i ∉ Lj ∧ ∀ e ∈ m0.inIds i, (m0.edge e).src ∈ Lj ∧ (m0.edge e).src < m0.nodes.length) →
    ∀ (acc : Dd σ × List Nat) (done : List (Nat × Nat)), BInv m0 acc.1 Lj acc.2 done →
    ∃ done', BInv m0 (vs.foldl (fun acc i => (acc.1.inIds i).foldl (boundEdge i) acc) acc).1 Lj
        (vs.foldl (fun acc i => (acc.1.inIds i).foldl (boundEdge i) acc) acc).2 done' ∧ (∀ z ∈ done, z ∈ done') ∧
      (∀ i ∈ vs, ∀ e ∈ m0.inIds i, (i, e) ∈ done') ∧ ∀ z ∈ done', z ∈ done ∨ (z.1 ∈ vs ∧ z.2 ∈ m0.inIds z.1) := by
  intro vs
  induction vs with
  | nil => intro _ acc done h; exact ⟨done, h, fun _ h => h, by simp, fun _ h => Or.inl h⟩
  | cons i vs ih =>
    intro hvs acc done h
    have hin : acc.1.inIds i = m0.inIds i := h.skel.inIds i
    obtain ⟨d1, k1, k2, k3, k4⟩ := BInv.edges (hvs i (by simp)).1 (m0.inIds i) (hvs i (by simp)).2 acc done h
    obtain ⟨d2, g1, g2, g3, g4⟩ := ih (fun i' hi' => hvs i' (by simp [hi'])) ((m0.inIds i).foldl (boundEdge i) acc) d1 k1
    refine ⟨d2, ?_, fun z hz => g2 z (k2 z hz), ?_, ?_⟩
    · simp only [List.foldl_cons, hin]; exact g1
    · intro i' hi' e he
      rcases List.mem_cons.1 hi' with rfl | hi'
      · exact g2 _ (k3 e he)
      · exact g3 i' hi' e he
    · intro z hz
      rcases g4 z hz with hz | ⟨hz, hz'⟩
      · rcases k4 z hz with hz | ⟨hz, hz'⟩
        · exact Or.inl hz
        · exact Or.inr ⟨by simp [hz], by rw [hz]; exact hz'⟩
      · exact Or.inr ⟨by simp [hz], hz'⟩

end Verif.Dd
