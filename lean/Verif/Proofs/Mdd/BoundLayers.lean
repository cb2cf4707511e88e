import Verif.Proofs.Mdd.BoundAll
/-! The breadth-first pass of `compute_local_bounds` proceeds layer by layer. -/
set_option autoImplicit false

namespace Verif.Dd
open Verif Spec
variable {σ : Type} [DecidableEq σ] [Inhabited σ]

/-- A diagram arranged in layers `Lay 0 .. Lay k`. -/
structure Layers (b : Dd σ) (Lay : Nat → List Nat) (k : Nat) (B : Int) : Prop where
  src : ∀ j, j < k → ∀ i ∈ Lay (j+1), ∀ e ∈ b.inIds i, (b.edge e).src ∈ Lay j
  src0 : ∀ i ∈ Lay 0, b.inIds i = []
  lt : ∀ j, j ≤ k → ∀ i ∈ Lay j, i < b.nodes.length ∧ j ≤ i
  disj : ∀ j j' i, j ≤ k → j' ≤ k → i ∈ Lay j → i ∈ Lay j' → j = j'
  cost : ∀ j, j < k → ∀ i ∈ Lay (j+1), ∀ e ∈ b.inIds i, -B ≤ (b.edge e).cost ∧ (b.edge e).cost ≤ B
  small : ∀ n : Nat, n ≤ k → InISize ((n : Int) * B) ∧ InISize (-((n : Int) * B))

section
variable {b : Dd σ} {Lay : Nat → List Nat} {k : Nat} {B : Int}

theorem Layers.walk (h : Layers b Lay k B) {q t : Nat} {w : Int} (hw : Walk b q t w) (ht : t ∈ Lay k) :
    ∃ j, j ≤ k ∧ q ∈ Lay j ∧ -(((k - j : Nat) : Int) * B) ≤ w ∧ w ≤ ((k - j : Nat) : Int) * B := by
  induction hw with
  | nil i => exact ⟨k, Nat.le_refl _, ht, by simp, by simp⟩
  | @cons i t e w he hw ih =>
    obtain ⟨j, hj, hi, h1, h2⟩ := ih ht
    cases j with
    | zero => rw [h.src0 i hi] at he; cases he
    | succ j =>
      have hc := h.cost j (by omega) i hi e he
      refine ⟨j, by omega, h.src j (by omega) i hi e he, ?_, ?_⟩
      · have : ((k - j : Nat) : Int) = ((k - (j+1) : Nat) : Int) + 1 := by omega
        rw [this, Int.add_mul]; omega
      · have : ((k - j : Nat) : Int) = ((k - (j+1) : Nat) : Int) + 1 := by omega
        rw [this, Int.add_mul]; omega

theorem Layers.walk_in (h : Layers b Lay k B) {q t : Nat} {w : Int} (hw : Walk b q t w) (ht : t ∈ Lay k) : InISize w := by
  obtain ⟨j, _, _, h1, h2⟩ := h.walk hw ht
  have := h.small (k - j) (by omega)
  simp only [InISize] at this ⊢
  omega

/-- A walk from a layer to the last one passes through every layer in between. -/
theorem Layers.walk_through (h : Layers b Lay k B) {q t : Nat} {w : Int} (hw : Walk b q t w) (ht : t ∈ Lay k) :
    ∀ {j' j : Nat}, j' ≤ j → j ≤ k → q ∈ Lay j' → ∃ q' ∈ Lay j, ∃ w', Walk b q' t w' := by
  induction hw with
  | nil i =>
    intro j' j h1 h2 h3
    have : j' = k := h.disj _ _ i (by omega) (Nat.le_refl _) h3 ht
    have : j = k := by omega
    subst this
    exact ⟨i, ht, 0, .nil i⟩
  | @cons i t e w he hw ih =>
    intro j' j h1 h2 h3
    by_cases hjj : j' = j
    · subst hjj; exact ⟨_, h3, _, .cons he hw⟩
    · obtain ⟨j1, hj1, hi, _⟩ := h.walk hw ht
      cases j1 with
      | zero => rw [h.src0 i hi] at he; cases he
      | succ j1 =>
        have := h.disj _ _ _ (by omega) (by omega) h3 (h.src j1 (by omega) i hi e he)
        subst this
        exact ih ht (by omega) h2 hi

/-- The state of the pass before layer `j` is visited. -/
structure LInv (b m : Dd σ) (Lay : Nat → List Nat) (k lo j : Nat) (visit : List Nat) : Prop where
  skel : Skel b m
  vis : ∀ q ∈ visit, q ∈ Lay j
  A : ∀ j', j ≤ j' → lo ≤ j' → j' ≤ k → ∀ q ∈ Lay j', ∀ t ∈ Lay k, ∀ w, Walk b q t w →
    (m.node q).flags.isMarked = true ∧ w ≤ (m.node q).valueBot
  V : lo < j → ∀ q ∈ Lay j, (m.node q).flags.isMarked = true → q ∈ visit
  low : ∀ j', j' < j → ∀ q ∈ Lay j', m.node q = b.node q
  cutM : ∀ x ∈ b.cutset, x ∈ m.cutset
  cutN : ∀ x ∈ m.cutset, x ∈ b.cutset ∨ (b.cutsetType = .frontier ∧ ∃ j', j ≤ j' ∧ j' < k ∧ x ∈ Lay j' ∧
    (b.node x).flags.isExact = true ∧ (m.node x).flags.isMarked = true ∧
    ∃ i ∈ Lay (j'+1), ∃ e ∈ b.inIds i, (b.edge e).src = x ∧ (b.node i).flags.isExact = false ∧ (m.node i).flags.isMarked = true)
  front : b.cutsetType = .frontier → ∀ j', j ≤ j' → lo ≤ j' → j' < k → ∀ i ∈ Lay (j'+1), (m.node i).flags.isMarked = true →
    (b.node i).flags.isExact = false → ∀ e ∈ b.inIds i, (b.node (b.edge e).src).flags.isExact = true → (b.edge e).src ∈ m.cutset
  nodup : b.cutset.Nodup → m.cutset.Nodup
  upd : m.updates = b.updates

/-- What the pass establishes. -/
structure Bounds (b m : Dd σ) (Lay : Nat → List Nat) (k lo : Nat) : Prop where
  skel : Skel b m
  A : ∀ j', lo ≤ j' → j' ≤ k → ∀ q ∈ Lay j', ∀ t ∈ Lay k, ∀ w, Walk b q t w →
    (m.node q).flags.isMarked = true ∧ w ≤ (m.node q).valueBot
  cutM : ∀ x ∈ b.cutset, x ∈ m.cutset
  cutN : ∀ x ∈ m.cutset, x ∈ b.cutset ∨ (b.cutsetType = .frontier ∧ ∃ j', j' < k ∧ x ∈ Lay j' ∧
    (b.node x).flags.isExact = true ∧ (m.node x).flags.isMarked = true ∧
    ∃ i ∈ Lay (j'+1), ∃ e ∈ b.inIds i, (b.edge e).src = x ∧ (b.node i).flags.isExact = false ∧ (m.node i).flags.isMarked = true)
  front : b.cutsetType = .frontier → ∀ j', lo ≤ j' → j' < k → ∀ i ∈ Lay (j'+1), (m.node i).flags.isMarked = true →
    (b.node i).flags.isExact = false → ∀ e ∈ b.inIds i, (b.node (b.edge e).src).flags.isExact = true → (b.edge e).src ∈ m.cutset
  nodup : b.cutset.Nodup → m.cutset.Nodup

/-- What must hold before the pass: no layer but the last one is marked, cutset flags are consistent, and the cutset lies in layer `lo`. -/
structure Pre (b : Dd σ) (Lay : Nat → List Nat) (k lo : Nat) : Prop where
  unm : ∀ j, j < k → ∀ q ∈ Lay j, (b.node q).flags.isMarked = false
  flag : ∀ j, j < k → ∀ q ∈ Lay j, (b.node q).flags.isCutset = decide (q ∈ b.cutset)
  only : ∀ x ∈ b.cutset, x ∈ Lay lo
  lo_le : lo ≤ k

theorem LInv.round (hL : Layers b Lay k B) {m : Dd σ} {lo j : Nat} {visit : List Nat} (hp : Pre b Lay k lo) (h : LInv b m Lay k lo (j+1) visit)
    (hj : j < k) : LInv b (m.boundRound visit).1 Lay k lo j (m.boundRound visit).2 := by
  have hLj : ∀ i ∈ visit, i ∉ Lay j ∧ ∀ e ∈ m.inIds i, (m.edge e).src ∈ Lay j ∧ (m.edge e).src < m.nodes.length := by
    intro i hi
    have hi' := h.vis i hi
    refine ⟨fun hh => ?_, ?_⟩
    · have := hL.disj _ _ i (by omega) (by omega) hi' hh; omega
    · intro e he
      rw [h.skel.inIds i] at he
      rw [h.skel.edge e, h.skel.len]
      have := hL.src j hj i hi' e he
      exact ⟨this, (hL.lt j (by omega) _ this).1⟩
  have hlow := h.low j (by omega)
  have hflag0 : ∀ q ∈ Lay j, (m.node q).flags.isCutset = decide (q ∈ m.cutset) := by
    intro q hq
    rw [hlow q hq, hp.flag j hj q hq]
    by_cases hb : q ∈ b.cutset
    · simp [hb, h.cutM q hb]
    · have : q ∉ m.cutset := by
        intro hm
        rcases h.cutN q hm with h1 | ⟨_, j', h1, h2, h3, _⟩
        · exact hb h1
        · have := hL.disj _ _ q (by omega) (by omega) hq h3; omega
      simp [hb, this]
  have hstart : BInv m m (Lay j) [] [] := by
    refine ⟨.refl m, fun _ _ => rfl, fun _ => Int.le_refl _, fun _ h => h, by simp, fun q hq => Or.inl hq, fun _ _ => rfl, by simp,
      fun _ h => h, fun x hx => Or.inl hx, hflag0, fun h => h, by simp, rfl⟩
  obtain ⟨done, hB, _, hd2, hd3⟩ := BInv.round visit hLj (m, []) [] hstart
  change BInv m (m.boundRound visit).1 (Lay j) (m.boundRound visit).2 done at hB
  generalize (m.boundRound visit).1 = m' at hB
  generalize (m.boundRound visit).2 = visit' at hB
  have hoff : ∀ j', j' ≤ k → j' ≠ j → ∀ q ∈ Lay j', m'.node q = m.node q := by
    intro j' hj' hne q hq
    exact hB.off q (fun hh => hne (hL.disj _ _ q hj' (by omega) hq hh))
  have hsk := h.skel.trans hB.skel
  constructor
  · exact hsk
  · exact hB.vsub
  · intro j' h1 h2 h3 q hq t ht w hw
    by_cases hjj : j' = j
    · subst hjj
      cases hw with
      | nil =>
        have := hL.disj _ _ q (by omega) (Nat.le_refl _) hq ht; omega
      | @cons i _ e w he hw =>
        obtain ⟨j1, hj1, hi, _⟩ := hL.walk hw ht
        cases j1 with
        | zero => rw [hL.src0 i hi] at he; cases he
        | succ j1 =>
          have := hL.disj _ _ _ (by omega) (by omega) hq (hL.src j1 (by omega) i hi e he)
          subst this
          obtain ⟨a1, a2⟩ := h.A (j'+1) (Nat.le_refl _) (by omega) hj1 i hi t ht w hw
          have hv := h.V (by omega) i hi a1
          have hd := hd2 i hv e (by rw [h.skel.inIds i]; exact he)
          have := hB.fin (i, e) hd
          simp only [h.skel.edge e] at this
          refine ⟨this.1, Int.le_trans ?_ this.2⟩
          exact le_satAdd (hL.walk_in (.cons he hw) ht) (by omega)
    · rw [hoff j' h3 hjj q hq]
      exact h.A j' (by omega) h2 h3 q hq t ht w hw
  · intro hlo q hq hm
    rcases hB.push q hm with h1 | h1 | h1
    · rw [hlow q hq, hp.unm j hj q hq] at h1; cases h1
    · exfalso
      rw [hlow q hq, hp.flag j hj q hq] at h1
      have := hp.only q (by simpa using h1)
      have := hL.disj _ _ q (by omega) hp.lo_le hq this
      omega
    · exact h1
  · intro j' h1 q hq
    rw [hoff j' (by omega) (by omega) q hq]; exact h.low j' (by omega) q hq
  · intro x hx; exact hB.cutM x (h.cutM x hx)
  · intro x hx
    rcases hB.cutN x hx with h1 | ⟨h1, h2, h3, h4, z, hz, h5, h6, h7⟩
    · rcases h.cutN x h1 with h1 | ⟨g0, j', g1, g2, g3, g4, g5, i, g6, e, g7, g8, g9, g10⟩
      · exact Or.inl h1
      · refine Or.inr ⟨g0, j', by omega, g2, g3, g4, ?_, i, g6, e, g7, g8, g9, ?_⟩
        · rw [hoff j' (by omega) (by omega) x g3]; exact g5
        · rw [hoff (j'+1) (by omega) (by omega) i g6]; exact g10
    · refine Or.inr ⟨by rw [← h.skel.cutsetType]; exact h3, j, Nat.le_refl _, hj, h1, by rw [← (h.skel.node x).exact]; exact h4, h2, z.1, ?_, z.2, ?_, ?_, ?_, ?_⟩
      · rcases hd3 z hz with hz | hz
        · cases hz
        · exact h.vis _ hz.1
      · rcases hd3 z hz with hz | hz
        · cases hz
        · rw [← h.skel.inIds]; exact hz.2
      · rw [← h.skel.edge]; exact h5
      · rw [← (h.skel.node z.1).exact]; exact h6
      · have hz1 : z.1 ∈ Lay (j+1) := by
          rcases hd3 z hz with hz | hz
          · cases hz
          · exact h.vis _ hz.1
        rw [hoff (j+1) (by omega) (by omega) z.1 hz1]; exact h7
  · intro hf j' h1 h2 h3 i hi hm hex e he hs
    by_cases hjj : j' = j
    · subst hjj
      rw [hoff (j'+1) (by omega) (by omega) i hi] at hm
      have hv := h.V (by omega) i hi hm
      have hd := hd2 i hv e (by rw [h.skel.inIds i]; exact he)
      have := hB.front (i, e) hd
      simp only [h.skel.edge e] at this
      exact this ⟨by rw [h.skel.cutsetType]; exact hf, hm, by rw [(h.skel.node i).exact]; exact hex,
        by rw [(h.skel.node _).exact]; exact hs⟩
    · by_cases hj2 : j' + 1 = j
      · omega
      · rw [hoff (j'+1) (by omega) hj2 i hi] at hm
        exact hB.cutM _ (h.front hf j' (by omega) h2 h3 i hi hm hex e he hs)
  · intro hn; exact hB.nodup (h.nodup hn)
  · rw [hB.upd]; exact h.upd

theorem LInv.done (hL : Layers b Lay k B) {m : Dd σ} {lo j : Nat} (hp : Pre b Lay k lo) (h : LInv b m Lay k lo j []) (hj : j ≤ k) :
    Bounds b m Lay k lo := by
  refine ⟨h.skel, ?_, h.cutM, ?_, ?_, h.nodup⟩
  · intro j' h1 h2 q hq t ht w hw
    by_cases hjj : j ≤ j'
    · exact h.A j' hjj h1 h2 q hq t ht w hw
    · exfalso
      obtain ⟨q', hq', w', hw'⟩ := hL.walk_through hw ht (j' := j') (j := j) (by omega) hj hq
      have := h.A j (Nat.le_refl _) (by omega) hj q' hq' t ht w' hw'
      exact absurd (h.V (by omega) q' hq' this.1) (by simp)
  · intro x hx
    rcases h.cutN x hx with h1 | ⟨g0, j', g1, g2, g3, g4, g5⟩
    · exact Or.inl h1
    · exact Or.inr ⟨g0, j', g2, g3, g4, g5⟩
  · intro hf j' h1 h2 i hi hm hex e he hs
    by_cases hjj : j ≤ j'
    · exact h.front hf j' hjj h1 h2 i hi hm hex e he hs
    · exfalso
      by_cases hj2 : j' + 1 = j
      · subst hj2
        exact absurd (h.V (by omega) i hi hm) (by simp)
      · rw [h.low (j'+1) (by omega) i hi, hp.unm (j'+1) (by omega) i hi] at hm; cases hm

theorem boundLoop_spec (hL : Layers b Lay k B) {lo : Nat} (hp : Pre b Lay k lo) :
    ∀ (fuel j : Nat) (m : Dd σ) (visit : List Nat), LInv b m Lay k lo j visit → j ≤ k → (visit ≠ [] → j < fuel) →
      Bounds b (boundLoop fuel m visit) Lay k lo := by
  intro fuel
  induction fuel with
  | zero =>
    intro j m visit h hj hf
    by_cases hv : visit = []
    · subst hv; exact h.done hL hp hj
    · have := hf hv; omega
  | succ fuel ih =>
    intro j m visit h hj hf
    unfold boundLoop
    by_cases hv : visit = []
    · subst hv; simp only [List.isEmpty_nil, if_true]; exact h.done hL hp hj
    · have hf' := hf hv
      have : visit.isEmpty = false := by simpa using hv
      simp only [this, Bool.false_eq_true, if_false]
      cases j with
      | zero =>
        have h0 : m.boundRound visit = (m, []) := by
          have : ∀ (vs : List Nat), (∀ q ∈ vs, q ∈ Lay 0) → vs.foldl (fun acc i => (acc.1.inIds i).foldl (boundEdge i) acc) (m, []) = (m, []) := by
            intro vs
            induction vs with
            | nil => intro _; rfl
            | cons i vs ih =>
              intro hvs
              simp only [List.foldl_cons]
              rw [h.skel.inIds i, hL.src0 i (hvs i (by simp))]
              exact ih (fun q hq => hvs q (by simp [hq]))
          exact this visit h.vis
        rw [h0]
        have h' : LInv b m Lay k lo 0 [] :=
          ⟨h.skel, by simp, h.A, fun hh => by omega, h.low, h.cutM, h.cutN, h.front, h.nodup, h.upd⟩
        cases fuel with
        | zero => exact h'.done hL hp hj
        | succ f => unfold boundLoop; simp only [List.isEmpty_nil, if_true]; exact h'.done hL hp hj
      | succ j =>
        have := LInv.round hL hp h (by omega)
        exact ih j _ _ this (by omega) (fun _ => by omega)
end

end Verif.Dd
