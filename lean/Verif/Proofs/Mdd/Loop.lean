import Verif.Proofs.Mdd.Core
/-! The loop of a compilation ends, and its result satisfies the layer invariant. -/
set_option autoImplicit false

namespace Verif.Dd
open Verif Spec
variable {σ : Type} [DecidableEq σ] [Inhabited σ]
variable {v : Variant} {o : Oracle σ} {p : Problem σ} {r : Relaxation σ} {rank : σ → σ → Ordering} {S : Layering σ} {B : Int}
  {inp : Input σ} {rd : Reads σ}

/-- The diagram when the loop ended: the last layer is `P k`, and it is empty or its states are terminal. -/
structure Done (v : Variant) (p : Problem σ) (r : Relaxation σ) (S : Layering σ) (B : Int) (inp : Input σ) (rd : Reads σ)
    (m : Dd σ) (k jx : Nat) (P L : Nat → List Nat) (c : CutsetType) : Prop where
  head : Head v p r S B inp rd m k jx P L c
  fin : P k = [] ∨ p.nbVars ≤ inp.residual.path.length + k
  start : k = 0 → jx = 0 ∧ m.approximate = false ∧ m.updates = []

/-- One iteration of the loop. -/
theorem loop_iter (ho : o.Valid) (hwf : WellFormed p S B) (hr : inp.compType = .relaxed → LayeredRelaxation p r S B)
    (hw : inp.compType = .relaxed → 1 ≤ inp.maxWidth) {c : CutsetType} {k jx : Nat} {m : Dd σ} {P L : Nat → List Nat} {currL : List Nat}
    (h : Head v p r S B inp rd m k jx P L c) (h0 : k = 0 → jx = 0 ∧ m.approximate = false ∧ m.updates = []) (hcur : ∀ j, k = j + 1 → currL = L j)
    {x : Nat} (hnv : p.nextVar ((o.hashOrd m.nextL).map (·.1)) = some x) :
    inp.residual.path.length + k < p.nbVars ∧ ((o.hashOrd m.nextL).map (·.2)).isEmpty = false ∧
      ∃ m2 cur1 m4 cur2 jx', ({ m with prevL := currL, nextL := [] } : Dd σ).pruneLayer v rd inp.residual.path.length
            (inp.residual.path.length + k) ((o.hashOrd m.nextL).map (·.2)) = (m2, cur1) ∧
          m2.squashLayer v o rank r inp inp.residual.path.length (inp.residual.path.length + k) cur1 = some (m4, cur2) ∧
          Head v p r S B inp rd (cur2.foldl (expandOne v p inp x (inp.residual.path.length + k)) m4) (k + 1) jx'
            (upd P (k + 1) ((cur2.foldl (expandOne v p inp x (inp.residual.path.length + k)) m4).nextL.map (·.2))) (upd L k cur2) c := by
  have hc := h.core
  have hids : ((o.hashOrd m.nextL).map (·.2)).Perm (P k) := by rw [← h.ids]; exact (ho.hash m.nextL).map _
  have hPk : ∀ i ∈ P k, InLay P L k k k i := fun i hi => Or.inl ⟨Nat.le_refl _, hi⟩
  have hsts : ∀ s ∈ (o.hashOrd m.nextL).map (·.1), S.ok s ∧ S.lvl s = inp.residual.path.length + k := by
    intro s hs
    obtain ⟨q, hq, rfl⟩ := List.mem_map.1 hs
    have hq' := (ho.hash m.nextL).mem_iff.1 hq
    have := hc.st k q.2 (hPk _ (by rw [← h.ids]; exact List.mem_map.2 ⟨q, hq', rfl⟩))
    rw [h.sts q hq'] at this
    exact ⟨this.1, this.2.1⟩
  have hnil : o.hashOrd m.nextL ≠ [] := by
    intro hh
    rw [hh] at hnv
    have := hwf.next_nil
    simp only [List.map_nil] at hnv
    rw [this] at hnv; cases hnv
  have hvar : inp.residual.path.length + k < p.nbVars ∧ x = S.var (inp.residual.path.length + k) := by
    rw [hwf.next_var _ _ (by simpa using hnil) hsts] at hnv
    split at hnv
    · simp at hnv; exact ⟨by assumption, hnv.symm⟩
    · cases hnv
  obtain ⟨hvar, rfl⟩ := hvar
  have hne : ((o.hashOrd m.nextL).map (·.2)).isEmpty = false := by simpa using hnil
  have key : ∃ m2 cur1 m4 cur2 jx', ({ m with prevL := currL, nextL := [] } : Dd σ).pruneLayer v rd inp.residual.path.length
        (inp.residual.path.length + k) ((o.hashOrd m.nextL).map (·.2)) = (m2, cur1) ∧
      m2.squashLayer v o rank r inp inp.residual.path.length (inp.residual.path.length + k) cur1 = some (m4, cur2) ∧
      Mid v p r S B inp rd m4 k jx' P (upd L k cur2) c := by
    cases k with
    | zero =>
      obtain ⟨rfl, happ, hupd⟩ := h0 rfl
      have h0ids : (o.hashOrd m.nextL).map (·.2) = [0] := by
        rw [hc.root.1] at hids; exact List.perm_singleton.1 hids
      rw [h0ids]
      have hpr : ({ m with prevL := currL, nextL := [] } : Dd σ).pruneLayer v rd inp.residual.path.length
          (inp.residual.path.length + 0) [0] = ({ m with prevL := currL, nextL := [] }, [0]) := by
        unfold pruneLayer
        cases v
        · rfl
        · simp
      rw [hpr]
      obtain ⟨m1, hm1⟩ : ∃ m1 : Dd σ, m1 = { m with prevL := currL, nextL := [] } := ⟨_, rfl⟩
      rw [← hm1]
      have hap1 : m1.approximate = false := by rw [hm1]; exact happ
      have heta : ({ m1 with approximate := false } : Dd σ) = m1 := by rw [← hap1]
      by_cases hres : inp.compType = .restricted
      · by_cases hw0 : 1 > inp.maxWidth
        · have hw0' : inp.maxWidth = 0 := by omega
          refine ⟨m1, [0], { m1 with approximate := true }, [], 1, rfl, ?_, h.squash0 happ hupd (by simpa using hvar) hm1 (Or.inr ⟨rfl, rfl, hres⟩)⟩
          unfold squashLayer
          simp [hres, hw0', restrict]
        · refine ⟨m1, [0], m1, [0], 1, rfl, ?_, ?_⟩
          · unfold squashLayer
            simp only [hres]
            rw [if_neg (by simpa using hw0)]
          · have := h.squash0 happ hupd (by simpa using hvar) hm1 (b := false) (cur := [0]) (Or.inl ⟨rfl, rfl, fun _ => by omega⟩)
            rw [heta] at this; exact this
      · refine ⟨m1, [0], m1, [0], 1, rfl, ?_, ?_⟩
        · unfold squashLayer
          cases hct : inp.compType with
          | exact => rfl
          | restricted => exact absurd hct hres
          | relaxed => simp only []; rw [if_neg (by simp)]
        · have := h.squash0 happ hupd (by simpa using hvar) hm1 (b := false) (cur := [0]) (Or.inl ⟨rfl, rfl, fun hh => absurd hh hres⟩)
          rw [heta] at this; exact this
    | succ k =>
      have hcl := hcur k rfl
      subst hcl
      obtain ⟨m1, hm1⟩ : ∃ m1 : Dd σ, m1 = { m with prevL := L k, nextL := [] } := ⟨_, rfl⟩
      rw [← hm1]
      have hin := h.layerIn hwf m1 hm1
      obtain ⟨m2, cur1, hpl⟩ : ∃ m2 cur1, m1.pruneLayer v rd inp.residual.path.length
        (inp.residual.path.length + (k+1)) ((o.hashOrd m.nextL).map (·.2)) = (m2, cur1) := ⟨_, _, rfl⟩
      obtain ⟨m4, cur2, hs1, hs2⟩ := squash_spec (rank := rank) ho hin hids hpl hr (by rw [hm1]) hw
      have hPne : P (k+1) ≠ [] := by
        intro hh; rw [hh] at hids
        exact hnil (by simpa using List.perm_nil.1 hids)
      obtain ⟨jx', hmid, _⟩ := h.squash hwf hvar hPne hm1 hs2 (by
        have h1 := pruneLayer_explored v rd inp.residual.path.length (inp.residual.path.length + (k+1)) m1 ((o.hashOrd m.nextL).map (·.2))
        rw [hpl] at h1
        rw [squashLayer_explored hs1]
        exact h1.trans (by rw [hm1]))
      exact ⟨m2, cur1, m4, cur2, jx', hpl, hs1, hmid⟩
  obtain ⟨m2, cur1, m4, cur2, jx', k1, k2, k3⟩ := key
  have hexp := k3.expand hwf rfl
  rw [upd_self] at hexp
  exact ⟨hvar, hne, m2, cur1, m4, cur2, jx', k1, k2, hexp⟩

theorem loop_spec (ho : o.Valid) (hwf : WellFormed p S B) (hr : inp.compType = .relaxed → LayeredRelaxation p r S B)
    (hw : inp.compType = .relaxed → 1 ≤ inp.maxWidth) {c : CutsetType} :
    ∀ (fuel k jx : Nat) (m : Dd σ) (P L : Nat → List Nat) (currL : List Nat), Head v p r S B inp rd m k jx P L c →
      (k = 0 → jx = 0 ∧ m.approximate = false ∧ m.updates = []) → (∀ j, k = j + 1 → currL = L j) → fuel ≠ 0 →
      p.nbVars + 1 ≤ fuel + (inp.residual.path.length + k) →
      ∃ m' k' jx' P' L', loop v o p r rank rd inp inp.residual.path.length fuel (inp.residual.path.length + k) m currL =
        some (m', .finished) ∧ Done v p r S B inp rd m' k' jx' P' L' c := by
  intro fuel
  induction fuel with
  | zero => intro _ _ _ _ _ _ _ _ _ h; exact absurd rfl h
  | succ fuel ih =>
    intro k jx m P L currL h h0 hcur _ hf
    have hc := h.core
    have hids : ((o.hashOrd m.nextL).map (·.2)).Perm (P k) := by rw [← h.ids]; exact (ho.hash m.nextL).map _
    have hPk : ∀ i ∈ P k, InLay P L k k k i := fun i hi => Or.inl ⟨Nat.le_refl _, hi⟩
    have hsts : ∀ s ∈ (o.hashOrd m.nextL).map (·.1), S.ok s ∧ S.lvl s = inp.residual.path.length + k := by
      intro s hs
      obtain ⟨q, hq, rfl⟩ := List.mem_map.1 hs
      have hq' := (ho.hash m.nextL).mem_iff.1 hq
      have := hc.st k q.2 (hPk _ (by rw [← h.ids]; exact List.mem_map.2 ⟨q, hq', rfl⟩))
      rw [h.sts q hq'] at this
      exact ⟨this.1, this.2.1⟩
    unfold loop
    simp only []
    cases hnv : p.nextVar ((o.hashOrd m.nextL).map (·.1)) with
    | none =>
      refine ⟨m, k, jx, P, L, rfl, h, ?_, h0⟩
      by_cases hnil : o.hashOrd m.nextL = []
      · left
        rw [hnil] at hids
        exact List.nil_perm.1 hids
      · right
        rw [hwf.next_var _ _ (by simpa using hnil) hsts] at hnv
        split at hnv
        · cases hnv
        · omega
    | some x =>
      obtain ⟨hvar, hne, m2, cur1, m4, cur2, jx', k1, k2, hexp⟩ := loop_iter (rank := rank) ho hwf hr hw h h0 hcur hnv
      simp only [hne, Bool.false_eq_true, if_false]
      rw [k1]
      simp only [k2]
      have := ih (k+1) jx' _ _ _ cur2 hexp (fun hh => by omega) (fun j hj => by
        have : j = k := by omega
        subst this; rw [upd_self]) (by omega) (by omega)
      exact this

/-- The diagram with its root only satisfies the invariant. -/
theorem start_head (hroot : RootOK p S B inp.residual) (m : Dd σ) :
    Head v p r S B inp rd (m.start inp) 0 0 (fun _ => [0]) (fun _ => []) m.cutsetType ∧
      (m.start inp).approximate = false ∧ (m.start inp).updates = [] := by
  have hn : (m.start inp).node 0 = Node.mk inp.residual.state inp.residual.value none none inp.residual.path.length isizeMin isizeMax
    (inp.residual.ub - inp.residual.value) NodeFlags.newExact := rfl
  have hfl : NodeFlags.newExact.isMarked = false ∧ NodeFlags.newExact.isCutset = false ∧ NodeFlags.newExact.isDeleted = false ∧
      NodeFlags.newExact.isPrunedByBarrier = false ∧ NodeFlags.newExact.isExact = true ∧ NodeFlags.newExact.isRelaxed = false := by decide
  have hlen : (m.start inp).nodes.length = 1 := rfl
  have hedges : (m.start inp).edges = [] := rfl
  have hInl : ∀ j i, InLay (fun _ => [0]) (fun _ => []) 0 0 j i → j = 0 ∧ i = 0 := by
    intro j i hi
    rcases hi with ⟨h1, h2⟩ | ⟨h1, _⟩
    · exact ⟨by omega, by simpa using h2⟩
    · omega
  refine ⟨⟨?_, rfl, by simp [start, clear], ?_, ?_, ?_⟩, rfl, rfl⟩
  rotate_left
  · intro q hq
    have : q = (inp.residual.state, 0) := by simpa [start, clear] using hq
    subst this; rw [hn]
  · intro i hi
    have : i = 0 := by simpa using hi
    subst this; rw [hn]
    exact ⟨⟨hfl.1, hfl.2.1, hfl.2.2.1, hfl.2.2.2.1⟩, rfl, rfl⟩
  · intro i hi e he
    have : i = 0 := by simpa using hi
    subst this
    have : (m.start inp).inIds 0 = [] := by unfold inIds; rw [hn]; exact chain_none _ _
    rw [this] at he; cases he
  constructor
  · constructor
    · intro e he; rw [hedges] at he; simp at he
    · intro i hi x hx
      have : i = 0 := by rw [hlen] at hi; omega
      subst this; rw [hn] at hx; cases hx
  · rw [hn]; exact ⟨rfl, rfl, rfl, rfl, rfl⟩
  · intro i hi; exact (hInl 0 i hi).2
  · intro j i hi; rw [(hInl j i hi).2, hlen]; omega
  · intro i hi; rw [hlen] at hi; exact ⟨0, Or.inl ⟨Nat.le_refl _, by simp; omega⟩⟩
  · intro j hj; simp
  · intro j hj; omega
  · intro j i hi
    obtain ⟨rfl, rfl⟩ := hInl j i hi
    rw [hn]; exact ⟨hroot.ok, hroot.lvl, rfl⟩
  · intro j i hi; have := hInl _ i hi; omega
  · intro j i hi; have := hInl _ i hi; omega
  · intro j hj; omega
  · intro j hj; omega
  · intro j hj; omega
  · intro j hj; omega
  · intro j hj; omega
  · intro j hj; omega
  · omega
  · intro _; exact ⟨fun _ => rfl, fun h => by cases h⟩
  · intro _; rfl
  · intro _; rfl
  · intro j hj; omega
  · intro j _ i hi
    obtain ⟨rfl, rfl⟩ := hInl j i hi
    rw [hn]; exact hfl.2.2.2.2
  · intro _ _ h; cases h
  · intro _; exact ⟨rfl, rfl⟩
  · exact ⟨by simp [start, clear], rfl, rfl, rfl⟩
  · exact ⟨fun _ j hj => by omega, fun _ j _ hj => by omega⟩
  · intro u hu; cases hu
  · intro e he; rw [hedges] at he; cases he
  · rfl
  · intro _ h; cases h
  · intro j i hi
    obtain ⟨rfl, rfl⟩ := hInl j i hi
    rw [hn]; exact hfl.1
  · intro j _ i hi i' hi' _
    rw [List.mem_singleton.1 hi, List.mem_singleton.1 hi']

/-- A compilation never panics or hangs: it ends with a diagram described by `Done`, to which `finish` is applied. -/
theorem compile_done (ho : o.Valid) (hwf : WellFormed p S B) (hr : inp.compType = .relaxed → LayeredRelaxation p r S B)
    (hw : inp.compType = .relaxed → 1 ≤ inp.maxWidth) (hroot : RootOK p S B inp.residual) (m : Dd σ) :
    ∃ m' k jx P L, m.compile v o p r rank rd inp = some (m'.finish v o inp) ∧ Done v p r S B inp rd m' k jx P L m.cutsetType := by
  obtain ⟨h1, h2, h3⟩ := start_head (v := v) (r := r) (rd := rd) (inp := inp) hroot m
  obtain ⟨m', k, jx, P, L, hl, hd⟩ := loop_spec (o := o) (rank := rank) ho hwf hr hw (p.nbVars + 2) 0 0 _ _ _ [] h1 (fun _ => ⟨rfl, h2, h3⟩)
    (fun j hj => by omega) (by omega) (by omega)
  refine ⟨m', k, jx, P, L, ?_, hd⟩
  unfold compile
  simp only [Nat.add_zero] at hl
  simp only [hl]

end Verif.Dd
