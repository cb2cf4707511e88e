import Verif.Proofs.Mdd.Result
/-! The bottom-up pass gives no node a bound above that of its longest walk to the last layer. -/
set_option autoImplicit false

namespace Verif.Dd
open Verif Spec
variable {σ : Type} [DecidableEq σ] [Inhabited σ]

/-- Every bound set so far is attained by a walk to `T`. -/
structure Tight (b m : Dd σ) (T : List Nat) : Prop where
  skel : Skel b m
  att : ∀ q, (m.node q).flags.isMarked = true → ∃ t ∈ T, ∃ w, Walk b q t w ∧ (m.node q).valueBot ≤ w
  un : ∀ i, i < b.nodes.length → ∀ e ∈ b.inIds i, (m.node (b.edge e).src).flags.isMarked = false →
    (m.node (b.edge e).src).valueBot ≤ isizeMin

theorem satAdd_le_of_in {a c w : Int} (h : a ≤ w) (hin : InISize (c + w)) : satAdd a c ≤ c + w := by
  simp only [satAdd, clamp, InISize] at hin ⊢
  omega

/-- One edge out of a node that is marked. -/
theorem Tight.edge {b m m' : Dd σ} {T : List Nat} (h : Tight b m T) (hin : ∀ q t w, t ∈ T → Walk b q t w → InISize w) {i e : Nat}
    (hi : i < b.nodes.length) (he : e ∈ b.inIds i) (hm : (m.node i).flags.isMarked = true) (hsk : Skel m m')
    (hoth : ∀ q, q ≠ (b.edge e).src → m'.node q = m.node q)
    (hbot : (m'.node (b.edge e).src).valueBot = max (m.node (b.edge e).src).valueBot (satAdd (m.node i).valueBot (b.edge e).cost)) :
    (m'.node (b.edge e).src).flags.isMarked = true → Tight b m' T := by
  intro hmk
  refine ⟨h.skel.trans hsk, ?_, ?_⟩
  · intro q hq
    by_cases hqs : q = (b.edge e).src
    · subst hqs
      obtain ⟨t, ht, w, hw, hle⟩ := h.att i hm
      have hi1 := hin _ _ _ ht (.cons he hw)
      have h1 := satAdd_le_of_in (c := (b.edge e).cost) hle hi1
      cases hs : (m.node (b.edge e).src).flags.isMarked with
      | false =>
        have h2 := h.un i hi e he hs
        refine ⟨t, ht, _, .cons he hw, ?_⟩
        rw [hbot]
        simp only [InISize] at hi1
        omega
      | true =>
        obtain ⟨t2, ht2, w2, hw2, hle2⟩ := h.att _ hs
        by_cases hcmp : w2 ≤ (b.edge e).cost + w
        · exact ⟨t, ht, _, .cons he hw, by rw [hbot]; omega⟩
        · exact ⟨t2, ht2, _, hw2, by rw [hbot]; omega⟩
    · rw [hoth q hqs] at hq ⊢; exact h.att q hq
  · intro i' hi' e' he' hu
    by_cases hqs : (b.edge e').src = (b.edge e).src
    · rw [hqs, hmk] at hu; cases hu
    · rw [hoth _ hqs] at hu ⊢; exact h.un i' hi' e' he' hu

section all
variable {b : Dd σ} {T : List Nat}

/-- A node that is marked stays so. -/
theorem boundEdge_mark (hsrc : ∀ i, i < b.nodes.length → ∀ e ∈ b.inIds i, (b.edge e).src < i) {m : Dd σ} (hsk : Skel b m) {i e : Nat} {visit : List Nat}
    (hi : i < b.nodes.length) (he : e ∈ b.inIds i) :
    (∀ q, (m.node q).flags.isMarked = true → (((boundEdge i (m, visit) e).1).node q).flags.isMarked = true) ∧
    (((boundEdge i (m, visit) e).1).node (b.edge e).src).flags.isMarked = true := by
  have hs := boundEdge_spec m i e visit (by rw [hsk.edge, hsk.len]; have := hsrc i hi e he; omega)
    (by rw [hsk.edge]; have := hsrc i hi e he; omega)
  rw [hsk.edge] at hs
  refine ⟨fun q hq => ?_, hs.mark⟩
  by_cases hqs : q = (b.edge e).src
  · subst hqs; exact hs.mark
  · rw [hs.other q hqs]; exact hq

theorem Tight.boundEdges (hin : ∀ q t w, t ∈ T → Walk b q t w → InISize w) (hsrc : ∀ i, i < b.nodes.length → ∀ e ∈ b.inIds i, (b.edge e).src < i)
    {i : Nat} (hi : i < b.nodes.length) : ∀ (es : List Nat), (∀ e ∈ es, e ∈ b.inIds i) → ∀ acc : Dd σ × List Nat, Tight b acc.1 T →
      (acc.1.node i).flags.isMarked = true → (∀ q ∈ acc.2, q < b.nodes.length ∧ (acc.1.node q).flags.isMarked = true) →
      Tight b (es.foldl (boundEdge i) acc).1 T ∧ (∀ q, (acc.1.node q).flags.isMarked = true → ((es.foldl (boundEdge i) acc).1.node q).flags.isMarked = true) ∧
      ∀ q ∈ (es.foldl (boundEdge i) acc).2, q < b.nodes.length ∧ ((es.foldl (boundEdge i) acc).1.node q).flags.isMarked = true := by
  intro es
  induction es with
  | nil => intro _ acc h _ hv; exact ⟨h, fun _ h => h, hv⟩
  | cons e es ih =>
    intro hes acc h hm hv
    obtain ⟨m, visit⟩ := acc
    have he := hes e (by simp)
    have hlt := hsrc i hi e he
    have hs := boundEdge_spec m i e visit (by rw [h.skel.edge, h.skel.len]; omega) (by rw [h.skel.edge]; omega)
    rw [h.skel.edge] at hs
    obtain ⟨k1, k2⟩ := boundEdge_mark (visit := visit) hsrc h.skel hi he
    have h1 : Tight b (boundEdge i (m, visit) e).1 T := h.edge hin hi he hm hs.skel hs.other hs.bot hs.mark
    have hv1 : ∀ q ∈ (boundEdge i (m, visit) e).2, q < b.nodes.length ∧ ((boundEdge i (m, visit) e).1.node q).flags.isMarked = true := by
      intro q hq
      rw [hs.vis] at hq
      split at hq
      · rcases List.mem_append.1 hq with hq | hq
        · exact ⟨(hv q hq).1, k1 q (hv q hq).2⟩
        · rw [List.mem_singleton] at hq; subst hq; exact ⟨by omega, k2⟩
      · exact ⟨(hv q hq).1, k1 q (hv q hq).2⟩
    obtain ⟨g1, g2, g3⟩ := ih (fun e' he' => hes e' (by simp [he'])) _ h1 (k1 i hm) hv1
    exact ⟨g1, fun q hq => g2 q (k1 q hq), g3⟩

theorem Tight.boundRound (hin : ∀ q t w, t ∈ T → Walk b q t w → InISize w) (hsrc : ∀ i, i < b.nodes.length → ∀ e ∈ b.inIds i, (b.edge e).src < i) :
    ∀ (vs : List Nat) (acc : Dd σ × List Nat), Tight b acc.1 T → (∀ q ∈ vs, q < b.nodes.length ∧ (acc.1.node q).flags.isMarked = true) →
      (∀ q ∈ acc.2, q < b.nodes.length ∧ (acc.1.node q).flags.isMarked = true) →
      Tight b (vs.foldl (fun acc i => (acc.1.inIds i).foldl (boundEdge i) acc) acc).1 T ∧
      ∀ q ∈ (vs.foldl (fun acc i => (acc.1.inIds i).foldl (boundEdge i) acc) acc).2, q < b.nodes.length ∧
        ((vs.foldl (fun acc i => (acc.1.inIds i).foldl (boundEdge i) acc) acc).1.node q).flags.isMarked = true := by
  intro vs
  induction vs with
  | nil => intro acc h _ hv; exact ⟨h, hv⟩
  | cons i vs ih =>
    intro acc h hvs hv
    simp only [List.foldl_cons]
    obtain ⟨g1, g2, g3⟩ := Tight.boundEdges hin hsrc (hvs i (by simp)).1 (acc.1.inIds i) (fun e he => by rw [h.skel.inIds] at he; exact he) acc h (hvs i (by simp)).2 hv
    exact ih _ g1 (fun q hq => ⟨(hvs q (by simp [hq])).1, g2 q (hvs q (by simp [hq])).2⟩) g3

theorem Tight.boundLoop (hin : ∀ q t w, t ∈ T → Walk b q t w → InISize w) (hsrc : ∀ i, i < b.nodes.length → ∀ e ∈ b.inIds i, (b.edge e).src < i) :
    ∀ (fuel : Nat) (m : Dd σ) (visit : List Nat), Tight b m T → (∀ q ∈ visit, q < b.nodes.length ∧ (m.node q).flags.isMarked = true) →
      Tight b (Dd.boundLoop fuel m visit) T := by
  intro fuel
  induction fuel with
  | zero => intro m visit h _; exact h
  | succ fuel ih =>
    intro m visit h hv
    unfold Dd.boundLoop
    split
    · exact h
    · obtain ⟨g1, g2⟩ := Tight.boundRound hin hsrc visit (m, []) h hv (by simp)
      exact ih _ _ g1 g2
end all

section barrier
variable {b : Dd σ} {T : List Nat}

theorem Tight.thetaEdges (hin : ∀ q t w, t ∈ T → Walk b q t w → InISize w) (hsrc : ∀ i, i < b.nodes.length → ∀ e ∈ b.inIds i, (b.edge e).src < i)
    {i : Nat} (hi : i < b.nodes.length) : ∀ (es : List Nat), (∀ e ∈ es, e ∈ b.inIds i) → ∀ m : Dd σ, Tight b m T → Tight b (es.foldl (thetaEdge i) m) T := by
  intro es
  induction es with
  | nil => intro _ m h; exact h
  | cons e es ih =>
    intro hes m h
    have he := hes e (by simp)
    have hlt := hsrc i hi e he
    have hs := thetaEdge_spec m i e (by rw [h.skel.edge, h.skel.len]; omega) (by rw [h.skel.edge]; omega)
    rw [h.skel.edge] at hs
    refine ih (fun e' he' => hes e' (by simp [he'])) _ ?_
    cases hm : (m.node i).flags.isMarked with
    | true =>
      have h1 := hs.bot
      have h2 := hs.mark
      rw [hm] at h1 h2
      exact h.edge hin hi he hm hs.skel hs.other (by simpa using h1) (by simpa using h2)
    | false =>
      have h1 := hs.bot
      have h2 := hs.mark
      rw [hm] at h1 h2
      simp only [Bool.false_eq_true, if_false, Bool.false_or] at h1 h2
      refine ⟨h.skel.trans hs.skel, ?_, ?_⟩
      · intro q hq
        by_cases hqs : q = (b.edge e).src
        · subst hqs; rw [h1]; rw [h2] at hq; exact h.att _ hq
        · rw [hs.other q hqs] at hq ⊢; exact h.att q hq
      · intro i' hi' e' he' hu
        by_cases hqs : (b.edge e').src = (b.edge e).src
        · rw [hqs, h2] at hu; rw [hqs, h1]; exact h.un i hi e he hu
        · rw [hs.other _ hqs] at hu ⊢; exact h.un i' hi' e' he' hu

theorem Tight.same {m m' : Dd σ} (h : Tight b m T) (hsk : Skel m m') (hn : ∀ q, (m'.node q).flags.isMarked = (m.node q).flags.isMarked ∧
    (m'.node q).valueBot = (m.node q).valueBot) : Tight b m' T :=
  ⟨h.skel.trans hsk, fun q hq => by rw [(hn q).1] at hq; rw [(hn q).2]; exact h.att q hq,
    fun i hi e he hu => by rw [(hn _).1] at hu; rw [(hn _).2]; exact h.un i hi e he hu⟩

theorem cutsetTheta_core (lb : Int) (n : Node σ) : SameCore n (cutsetTheta lb n) ∧ (cutsetTheta lb n).flags = n.flags ∧ (cutsetTheta lb n).valueBot = n.valueBot := by
  unfold cutsetTheta
  split
  · dsimp only
    split <;> exact ⟨⟨rfl, rfl, rfl, rfl, rfl, rfl, rfl, rfl, rfl, rfl⟩, rfl, rfl⟩
  · exact ⟨.refl n, rfl, rfl⟩

theorem Tight.thetaNode (hin : ∀ q t w, t ∈ T → Walk b q t w → InISize w) (hsrc : ∀ i, i < b.nodes.length → ∀ e ∈ b.inIds i, (b.edge e).src < i)
    {i : Nat} (hi : i < b.nodes.length) (lb : Int) {m : Dd σ} (h : Tight b m T) : Tight b (Dd.thetaNode lb m i) T := by
  unfold Dd.thetaNode
  split
  · exact h
  · have h1 : Tight b (m.modNode i (cutsetTheta lb)) T := by
      refine h.same (Skel.modNode _ _ _ (fun n => (cutsetTheta_core lb n).1)) (fun q => ?_)
      rw [node_modNode]
      split
      · rename_i hq
        have := (cutsetTheta_core lb (m.node i)).2
        rw [← hq.1]
        exact ⟨by rw [this.1], this.2⟩
      · exact ⟨rfl, rfl⟩
    generalize m.modNode i (cutsetTheta lb) = m1 at h1
    dsimp only
    have h2 : Tight b (if (m1.node i).flags.isExact = true ∧ (m1.node i).flags.isPrunedByBarrier = false then
        m1.tryUpdate (m1.node i).depth (m1.node i).state (m1.node i).theta (!(m1.node i).flags.isCutset) else m1) T := by
      split
      · unfold tryUpdate
        split
        · exact h1
        · exact h1.same ⟨rfl, rfl, fun _ => .refl _, rfl, rfl, rfl, rfl, rfl, rfl⟩ (fun _ => ⟨rfl, rfl⟩)
      · exact h1
    exact Tight.thetaEdges hin hsrc hi _ (fun e he => by rw [h2.skel.inIds] at he; exact he) _ h2

theorem Tight.sweep (hin : ∀ q t w, t ∈ T → Walk b q t w → InISize w) (hsrc : ∀ i, i < b.nodes.length → ∀ e ∈ b.inIds i, (b.edge e).src < i) (lb : Int) :
    ∀ (is : List Nat), (∀ i ∈ is, i < b.nodes.length) → ∀ m : Dd σ, Tight b m T → Tight b (is.foldl (Dd.thetaNode lb) m) T := by
  intro is
  induction is with
  | nil => intro _ m h; exact h
  | cons i is ih =>
    intro his m h
    exact ih (fun i' hi' => his i' (by simp [hi'])) _ (h.thetaNode hin hsrc (his i (by simp)) lb)
end barrier

end Verif.Dd
