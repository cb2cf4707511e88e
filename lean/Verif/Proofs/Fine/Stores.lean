import Verif.Proofs.Mdd.Loop
import Verif.Model.BarrierFine
/-! The stores a compilation makes layer by layer. -/
set_option autoImplicit false

namespace Verif.Dd
open Verif Spec
variable {σ : Type} [DecidableEq σ] [Inhabited σ]

theorem foldl_keep {α β γ : Type} (g : α → γ) (f : α → β → α) (h : ∀ a b, g (f a b) = g a) : ∀ (l : List β) (a : α), g (l.foldl f a) = g a
  | [], _ => rfl
  | b :: l, a => by rw [List.foldl_cons, foldl_keep g f h l]; exact h a b

theorem modNode_updates (m : Dd σ) (i : Nat) (f : Node σ → Node σ) : (m.modNode i f).updates = m.updates := rfl

theorem branchOn_updates (v : Variant) (p : Problem σ) (m : Dd σ) (i : Nat) (d : Decision) : (m.branchOn v p i d).updates = m.updates := by
  unfold branchOn
  simp only
  split
  · rfl
  · cases v <;> rfl

theorem markLel_updates (m : Dd σ) : m.markLel.updates = m.updates := by
  unfold markLel
  generalize m.prevL = l
  induction l generalizing m with
  | nil => rfl
  | cons i l ih => rw [List.foldl_cons, ih]; rfl

theorem redirect_updates (r : Relaxation σ) (s : σ) (a b : Nat) (m : Dd σ) (e : Nat) : (redirect r s a b m e).updates = m.updates := by
  unfold redirect
  simp only
  split <;> rfl

theorem mergeOne_updates (v : Variant) (r : Relaxation σ) (s : σ) (a : Nat) (m : Dd σ) (b : Nat) : (mergeOne v r s a m b).updates = m.updates := by
  unfold mergeOne
  simp only
  rw [foldl_keep (fun m : Dd σ => m.updates) _ (fun x y => redirect_updates r s a b x y)]
  cases v <;> rfl

theorem relaxLayer_updates {v : Variant} {o : Oracle σ} {rank : σ → σ → Ordering} {r : Relaxation σ} {w : Nat} {m m' : Dd σ} {l l' : List Nat}
    (h : m.relaxLayer v o rank r w l = some (m', l')) : m'.updates = m.updates := by
  unfold relaxLayer at h
  split at h
  · cases h
  · simp only at h
    have hm : ∀ (x : Dd σ) (s : σ) (a : Nat) (l : List Nat), (l.foldl (mergeOne v r s a) x).updates = x.updates :=
      fun x s a l => foldl_keep (fun m : Dd σ => m.updates) _ (fun x y => mergeOne_updates v r s a x y) l x
    have h0 : ∀ x : Dd σ, ({ (if x.cutsetType = .lastExactLayer ∧ x.approximate = false then x.markLel else x) with approximate := true } : Dd σ).updates = x.updates := by
      intro x
      simp only
      split
      · exact markLel_updates x
      · rfl
    split at h
    · cases h
      rename_i h1
      cases v <;> simp only [modNode_updates, hm] <;> exact h0 m
    · cases h
      rw [hm, modNode_updates]
      exact h0 m

theorem squashLayer_updates {v : Variant} {o : Oracle σ} {rank : σ → σ → Ordering} {r : Relaxation σ} {inp : Input σ} {rootDepth depth : Nat} {m m' : Dd σ}
    {l l' : List Nat} (h : m.squashLayer v o rank r inp rootDepth depth l = some (m', l')) : m'.updates = m.updates := by
  unfold squashLayer at h
  cases hc : inp.compType with
  | exact => rw [hc] at h; cases h; rfl
  | restricted =>
    rw [hc] at h
    simp only at h
    split at h
    · cases h; rfl
    · cases h; rfl
  | relaxed =>
    rw [hc] at h
    simp only at h
    split at h
    · exact relaxLayer_updates h
    · cases h; rfl

theorem pruneOne_updates (rd : Reads σ) (depth : Nat) (a : Dd σ × List Nat) (i : Nat) : (pruneOne rd depth a i).1.updates = a.1.updates := by
  unfold pruneOne
  simp only
  split
  · rfl
  · split <;> rfl

/-- The expansion of a node stores thresholds in its layer only. -/
theorem expandOne_updates (v : Variant) (p : Problem σ) (inp : Input σ) (var depth : Nat) (m : Dd σ) (i : Nat) :
    ∃ us, (expandOne v p inp var depth m i).updates = m.updates ++ us ∧ ∀ u ∈ us, u.depth = depth := by
  have hf : ∀ (x : Dd σ) (l : List Decision), (l.foldl (fun m d => m.branchOn v p i d) x).updates = x.updates :=
    fun x l => foldl_keep (fun m : Dd σ => m.updates) _ (fun x y => branchOn_updates v p x i y) l x
  have ht : ∀ (x : Dd σ) (s : σ) (t : Int) (e : Bool), x.updates = m.updates →
      ∃ us, (x.tryUpdate depth s t e).updates = m.updates ++ us ∧ ∀ u ∈ us, u.depth = depth := by
    intro x s t e hx
    unfold tryUpdate
    split
    · exact ⟨[], by simpa using hx, by simp⟩
    · exact ⟨[⟨depth, s, t, e⟩], by simp [hx], by simp⟩
  unfold expandOne
  simp only
  split
  · cases v with
    | all => exact ⟨[], by simp [hf, modNode_updates], by simp⟩
    | barrier =>
      simp only
      split
      · exact ht _ _ _ _ (by simp [hf, modNode_updates])
      · exact ⟨[], by simp [hf, modNode_updates], by simp⟩
  · cases v with
    | all => exact ⟨[], by simp [modNode_updates], by simp⟩
    | barrier =>
      simp only
      split
      · exact ht _ _ _ _ (by simp [modNode_updates])
      · exact ⟨[], by simp [modNode_updates], by simp⟩

theorem expand_updates (v : Variant) (p : Problem σ) (inp : Input σ) (var depth : Nat) : ∀ (l : List Nat) (m : Dd σ),
    ∃ us, (l.foldl (expandOne v p inp var depth) m).updates = m.updates ++ us ∧ ∀ u ∈ us, u.depth = depth
  | [], m => ⟨[], by simp, by simp⟩
  | i :: l, m => by
    obtain ⟨us, h1, h2⟩ := expandOne_updates v p inp var depth m i
    obtain ⟨us', h3, h4⟩ := expand_updates v p inp var depth l (expandOne v p inp var depth m i)
    refine ⟨us ++ us', by rw [List.foldl_cons, h3, h1, List.append_assoc], ?_⟩
    intro u hu
    rcases List.mem_append.1 hu with hu | hu
    · exact h2 u hu
    · exact h4 u hu

theorem tryUpdate_grows (m : Dd σ) (d : Nat) (s : σ) (t : Int) (e : Bool) : ∃ us, (m.tryUpdate d s t e).updates = m.updates ++ us := by
  unfold tryUpdate
  split
  · exact ⟨[], by simp⟩
  · exact ⟨_, rfl⟩

theorem thetaEdge_updates (n : Nat) (m : Dd σ) (e : Nat) : (thetaEdge n m e).updates = m.updates := by
  unfold thetaEdge
  simp only
  split <;> split <;> rfl

theorem thetaNode_grows (lb : Int) (m : Dd σ) (i : Nat) : ∃ us, (thetaNode lb m i).updates = m.updates ++ us := by
  unfold thetaNode
  split
  · exact ⟨[], by simp⟩
  · simp only
    rw [foldl_keep (fun m : Dd σ => m.updates) _ (fun x y => thetaEdge_updates i x y)]
    split
    · exact tryUpdate_grows _ _ _ _ _
    · exact ⟨[], by simp [modNode_updates]⟩

theorem initTerminal_updates (m : Dd σ) (i : Nat) : (m.initTerminal i).updates = m.updates := by
  unfold initTerminal
  simp only
  split
  · rfl
  · split <;> rfl

theorem foldl_grows {β : Type} (f : Dd σ → β → Dd σ) (h : ∀ a b, ∃ us, (f a b).updates = a.updates ++ us) :
    ∀ (l : List β) (a : Dd σ), ∃ us, (l.foldl f a).updates = a.updates ++ us
  | [], a => ⟨[], by simp⟩
  | b :: l, a => by
    obtain ⟨us, h1⟩ := h a b
    obtain ⟨us', h2⟩ := foldl_grows f h l (f a b)
    exact ⟨us ++ us', by rw [List.foldl_cons, h2, h1, List.append_assoc]⟩

/-- What `finish` stores comes after what has been stored before. -/
theorem finish_grows (o : Oracle σ) (inp : Input σ) (m : Dd σ) : ∃ us, (m.finish .barrier o inp).updates = m.updates ++ us := by
  unfold finish
  simp only
  split
  · unfold computeLocalBoundsAndTheta
    obtain ⟨us, h⟩ := foldl_grows (thetaNode inp.bestLb) (thetaNode_grows inp.bestLb) (List.range
      (((o.hashOrd m.nextL).map (·.2)).foldl (fun m i => m.initTerminal i)
        ({ ({ m with bestN := m.maxByValue ((o.hashOrd m.nextL).map (·.2)) } : Dd σ) with
          exact := ({ m with bestN := m.maxByValue ((o.hashOrd m.nextL).map (·.2)) } : Dd σ).isExactDd inp.compType } : Dd σ)).nodes.length).reverse
      (((o.hashOrd m.nextL).map (·.2)).foldl (fun m i => m.initTerminal i)
        ({ ({ m with bestN := m.maxByValue ((o.hashOrd m.nextL).map (·.2)) } : Dd σ) with
          exact := ({ m with bestN := m.maxByValue ((o.hashOrd m.nextL).map (·.2)) } : Dd σ).isExactDd inp.compType } : Dd σ))
    refine ⟨us, ?_⟩
    rw [foldl_keep (fun m : Dd σ => m.updates) _ (fun x y => initTerminal_updates x y)] at h
    exact h
  · exact ⟨[], by simp⟩

/-- The effect of the test on a node (B:280-293) on the states of the nodes: none. -/
theorem pruneOne_state (rd : Reads σ) (depth : Nat) (a : Dd σ × List Nat) (i j : Nat) : ((pruneOne rd depth a i).1.node j).state = (a.1.node j).state := by
  unfold pruneOne
  simp only
  split
  · rfl
  · split
    · rfl
    · simp only [node_modNode]
      split <;> simp_all

end Verif.Dd
