import Verif.Model.Mdd
/-! Which parts of a compilation change the number of expanded nodes. -/
set_option autoImplicit false

namespace Verif.Dd
open Verif
variable {σ : Type} [DecidableEq σ] [Inhabited σ]

theorem foldl_same {α β γ : Type} (g : α → β) (f : α → γ → α) (h : ∀ a c, g (f a c) = g a) : ∀ (l : List γ) (a : α), g (l.foldl f a) = g a := by
  intro l
  induction l with
  | nil => intro a; rfl
  | cons c l ih => intro a; rw [List.foldl_cons, ih, h]

@[simp] theorem modNode_explored (m : Dd σ) (i : Nat) (f : Node σ → Node σ) : (m.modNode i f).explored = m.explored := rfl

theorem branchOn_explored (v : Variant) (p : Problem σ) (i : Nat) (m : Dd σ) (d : Decision) : (m.branchOn v p i d).explored = m.explored := by
  unfold branchOn
  simp only []
  split
  · rfl
  · cases v <;> rfl

theorem branchOn_edges (v : Variant) (p : Problem σ) (i : Nat) (m : Dd σ) (d : Decision) {e : Edge} (he : e ∈ (m.branchOn v p i d).edges) :
    e ∈ m.edges ∨ e.src = i := by
  have key : ∀ e' : Edge, e ∈ m.edges ++ [e'] → e'.src = i → e ∈ m.edges ∨ e.src = i := by
    intro e' h h'
    rcases List.mem_append.1 h with h | h
    · exact Or.inl h
    · simp only [List.mem_singleton] at h; subst h; exact Or.inr h'
  unfold branchOn at he
  simp only [] at he
  split at he
  · exact key _ he rfl
  · cases v <;> exact key _ he rfl

theorem foldl_branchOn_edges (v : Variant) (p : Problem σ) (i : Nat) {e : Edge} : ∀ (ds : List Decision) (m : Dd σ),
    e ∈ (ds.foldl (fun m d => m.branchOn v p i d) m).edges → e ∈ m.edges ∨ e.src = i := by
  intro ds
  induction ds with
  | nil => intro m h; exact Or.inl h
  | cons d ds ih =>
    intro m h
    rcases ih _ h with h | h
    · exact branchOn_edges v p i m d h
    · exact Or.inr h

theorem tryUpdate_explored (m : Dd σ) (D : Nat) (s : σ) (t : Int) (b : Bool) : (m.tryUpdate D s t b).explored = m.explored := by
  unfold tryUpdate; split <;> rfl

theorem pruneLayer_explored (v : Variant) (rd : Reads σ) (rt d : Nat) (m : Dd σ) (l : List Nat) : (m.pruneLayer v rd rt d l).1.explored = m.explored := by
  unfold pruneLayer
  cases v with
  | all => rfl
  | barrier =>
    simp only []
    split
    · refine foldl_same (fun a : Dd σ × List Nat => a.1.explored) _ (fun a i => ?_) l (m, [])
      unfold pruneOne
      simp only []
      split
      · rfl
      · split <;> rfl
    · rfl

theorem markLel_explored (m : Dd σ) : m.markLel.explored = m.explored := by
  unfold markLel
  refine foldl_same (fun m : Dd σ => m.explored) _ ?_ _ _
  intro a i; rfl

theorem redirect_explored (r : Relaxation σ) (s : σ) (mid d : Nat) (m : Dd σ) (e : Nat) : (m.redirect r s mid d e).explored = m.explored := by
  unfold redirect; simp only []; split <;> rfl

theorem mergeOne_explored (v : Variant) (r : Relaxation σ) (s : σ) (mid : Nat) (m : Dd σ) (d : Nat) : (m.mergeOne v r s mid d).explored = m.explored := by
  unfold mergeOne
  refine (foldl_same (fun m : Dd σ => m.explored) _ (fun a e => redirect_explored r s mid d a e) _ _).trans ?_
  cases v <;> rfl

theorem relaxLayer_explored {v : Variant} {o : Oracle σ} {rank : σ → σ → Ordering} {r : Relaxation σ} {w : Nat} {m m' : Dd σ} {l l' : List Nat}
    (h : m.relaxLayer v o rank r w l = some (m', l')) : m'.explored = m.explored := by
  unfold relaxLayer at h
  split at h
  · cases h
  · simp only [] at h
    have hlel : ∀ b : Bool, ({ (if m.cutsetType = .lastExactLayer ∧ m.approximate = false then m.markLel else m) with approximate := b } : Dd σ).explored = m.explored := by
      intro b
      split
      · exact markLel_explored m
      · rfl
    have key : ∀ (s : σ) (mid : Nat) (ms : List Nat) (ma : Dd σ), ma.explored = m.explored → (ms.foldl (mergeOne v r s mid) ma).explored = m.explored := by
      intro s mid ms ma hma
      exact (foldl_same (fun m : Dd σ => m.explored) _ (fun a d => mergeOne_explored v r s mid a d) _ _).trans hma
    split at h
    · cases h
      cases v
      · refine key _ _ _ _ ?_
        rw [modNode_explored]
        split <;> first | exact hlel true | exact markLel_explored m | rfl
      · simp only [modNode_explored]
        refine key _ _ _ _ ?_
        rw [modNode_explored]
        split <;> first | exact hlel true | exact markLel_explored m | rfl
    · cases h
      refine key _ _ _ _ ?_
      rw [modNode_explored]
      split <;> first | exact hlel true | exact markLel_explored m | rfl

theorem squashLayer_explored {v : Variant} {o : Oracle σ} {rank : σ → σ → Ordering} {r : Relaxation σ} {inp : Input σ} {rt d : Nat} {m m' : Dd σ} {l l' : List Nat}
    (h : m.squashLayer v o rank r inp rt d l = some (m', l')) : m'.explored = m.explored := by
  unfold squashLayer at h
  split at h
  · cases h; rfl
  · split at h
    · cases h; rfl
    · cases h; rfl
  · split at h
    · exact relaxLayer_explored h
    · cases h; rfl

theorem boundEdge_explored (i : Nat) (a : Dd σ × List Nat) (e : Nat) : (boundEdge i a e).1.explored = a.1.explored := by
  obtain ⟨m, vis⟩ := a
  unfold boundEdge
  simp only []
  repeat' split
  all_goals rfl

theorem boundRound_explored (m : Dd σ) (l : List Nat) : (m.boundRound l).1.explored = m.explored := by
  unfold boundRound
  exact foldl_same (fun a : Dd σ × List Nat => a.1.explored) _
    (fun a i => foldl_same (fun a : Dd σ × List Nat => a.1.explored) _ (fun a e => boundEdge_explored i a e) _ a) l (m, [])

theorem boundLoop_explored (fuel : Nat) : ∀ (m : Dd σ) (l : List Nat), (boundLoop fuel m l).explored = m.explored := by
  induction fuel with
  | zero => intro m l; rfl
  | succ fuel ih =>
    intro m l
    unfold boundLoop
    split
    · rfl
    · simp only []
      rw [ih, boundRound_explored]

theorem thetaEdge_explored (i : Nat) (m : Dd σ) (e : Nat) : (thetaEdge i m e).explored = m.explored := by
  unfold thetaEdge
  simp only []
  repeat' split
  all_goals rfl

theorem thetaNode_explored (lb : Int) (m : Dd σ) (i : Nat) : (thetaNode lb m i).explored = m.explored := by
  unfold thetaNode
  split
  · rfl
  · simp only []
    refine (foldl_same (fun m : Dd σ => m.explored) _ (fun a e => thetaEdge_explored i a e) _ _).trans ?_
    split
    · exact tryUpdate_explored _ _ _ _ _
    · rfl

theorem finish_explored (v : Variant) (o : Oracle σ) (inp : Input σ) (m : Dd σ) : (m.finish v o inp).explored = m.explored := by
  unfold finish
  simp only []
  cases inp.compType with
  | exact => rfl
  | restricted => rfl
  | relaxed =>
    cases v with
    | all =>
      simp only []
      unfold computeLocalBounds
      split
      · rfl
      · simp only []
        rw [boundLoop_explored]
        exact foldl_same (fun m : Dd σ => m.explored) (fun m i => m.modNode i fun n => { n with valueBot := 0, flags := n.flags.setMarked true }) (fun _ _ => rfl) _ _
    | barrier =>
      simp only []
      unfold computeLocalBoundsAndTheta
      simp only []
      refine (foldl_same (fun m : Dd σ => m.explored) _ (fun a i => thetaNode_explored _ a i) _ _).trans ?_
      refine (foldl_same (fun m : Dd σ => m.explored) (fun m i => m.initTerminal i) (fun a i => ?_) _ _).trans rfl
      unfold initTerminal
      simp only []
      split
      · rfl
      · split <;> rfl

end Verif.Dd
