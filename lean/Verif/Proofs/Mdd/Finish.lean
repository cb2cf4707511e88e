import Verif.Proofs.Mdd.BoundBarrier
import Verif.Proofs.Mdd.Reuse
/-! The end of a compilation: best node, exactness, and the bottom-up pass. -/
set_option autoImplicit false

namespace Verif.Dd
open Verif Spec
variable {σ : Type} [DecidableEq σ] [Inhabited σ]

theorem fin0_node (o : Oracle σ) (inp : Input σ) (m : Dd σ) (i : Nat) : (m.fin0 o inp).node i = m.node i := rfl
theorem fin0_edge (o : Oracle σ) (inp : Input σ) (m : Dd σ) (i : Nat) : (m.fin0 o inp).edge i = m.edge i := rfl
theorem fin0_inIds (o : Oracle σ) (inp : Input σ) (m : Dd σ) (i : Nat) : (m.fin0 o inp).inIds i = m.inIds i := rfl

theorem Walk.congr {m m' : Dd σ} (he : ∀ e, m'.edge e = m.edge e) (hi : ∀ i, m'.inIds i = m.inIds i) {q t : Nat} {w : Int} (h : Walk m q t w) :
    Walk m' q t w := by
  induction h with
  | nil i => exact .nil i
  | @cons i t e w hm _ ih =>
    have := Walk.cons (m := m') (e := e) (by rw [hi]; exact hm) ih
    rw [he] at this; exact this

theorem Skel.walk {m m' : Dd σ} (h : Skel m m') {q t : Nat} {w : Int} (hw : Walk m q t w) : Walk m' q t w := hw.congr h.edge h.inIds
theorem Skel.walk' {m m' : Dd σ} (h : Skel m m') {q t : Nat} {w : Int} (hw : Walk m' q t w) : Walk m q t w :=
  hw.congr (fun e => (h.edge e).symm) (fun i => (h.inIds i).symm)

theorem maxByValue_spec (m : Dd σ) (l : List Nat) : (m.maxByValue l = none ∧ l = []) ∨
    ∃ t ∈ l, m.maxByValue l = some t ∧ ∀ t' ∈ l, (m.node t').value ≤ (m.node t).value := by
  cases l with
  | nil => exact Or.inl ⟨rfl, rfl⟩
  | cons i l =>
    right
    simp only [maxByValue]
    suffices h : ∀ (l : List Nat) (b : Nat), ∃ t, l.foldl (fun b j => if (m.node j).value ≥ (m.node b).value then j else b) b = t ∧
        (t = b ∨ t ∈ l) ∧ (m.node b).value ≤ (m.node t).value ∧ ∀ t' ∈ l, (m.node t').value ≤ (m.node t).value by
      obtain ⟨t, h1, h2, h3, h4⟩ := h l i
      refine ⟨t, by simpa using h2, by rw [h1], ?_⟩
      intro t' ht'
      rcases List.mem_cons.1 ht' with rfl | ht'
      · exact h3
      · exact h4 t' ht'
    intro l
    induction l with
    | nil => intro b; exact ⟨b, rfl, Or.inl rfl, Int.le_refl _, by simp⟩
    | cons j l ih =>
      intro b
      simp only [List.foldl_cons]
      by_cases hj : (m.node j).value ≥ (m.node b).value
      · rw [if_pos hj]
        obtain ⟨t, h1, h2, h3, h4⟩ := ih j
        refine ⟨t, h1, ?_, by omega, ?_⟩
        · rcases h2 with h2 | h2
          · right; simp [h2]
          · right; simp [h2]
        · intro t' ht'
          rcases List.mem_cons.1 ht' with rfl | ht'
          · exact h3
          · exact h4 t' ht'
      · rw [if_neg hj]
        obtain ⟨t, h1, h2, h3, h4⟩ := ih b
        refine ⟨t, h1, ?_, h3, ?_⟩
        · rcases h2 with h2 | h2
          · exact Or.inl h2
          · right; simp [h2]
        · intro t' ht'
          rcases List.mem_cons.1 ht' with rfl | ht'
          · omega
          · exact h4 t' ht'

/-- Initialisation of the nodes of the last layer. -/
structure TermInit (m m' : Dd σ) (ids : List Nat) (cf : Nat → Bool) : Prop where
  skel : Skel m m'
  other : ∀ q, q ∉ ids → m'.node q = m.node q
  term : ∀ q ∈ ids, q < m.nodes.length → (m'.node q).valueBot = 0 ∧ (m'.node q).flags.isMarked = true ∧
    (m'.node q).theta = (m.node q).theta ∧ (m'.node q).flags.isCutset = ((m.node q).flags.isCutset || cf q)
  cut : m'.cutset = m.cutset
  upd : m'.updates = m.updates

theorem TermInit.fold (g : Dd σ → Nat → Dd σ) (cf : Nat → Bool) (m0 : Dd σ)
    (hg : ∀ m i, Skel m0 m → TermInit m (g m i) [i] cf) : ∀ (ids : List Nat) (m : Dd σ), Skel m0 m → TermInit m (ids.foldl g m) ids cf := by
  intro ids
  induction ids with
  | nil => intro m _; exact ⟨.refl m, fun _ _ => rfl, by simp, rfl, rfl⟩
  | cons i ids ih =>
    intro m hm
    have h1 := hg m i hm
    have h2 := ih (g m i) (hm.trans h1.skel)
    simp only [List.foldl_cons]
    refine ⟨h1.skel.trans h2.skel, ?_, ?_, h2.cut.trans h1.cut, h2.upd.trans h1.upd⟩
    · intro q hq
      simp only [List.mem_cons, not_or] at hq
      rw [h2.other q hq.2, h1.other q (by simp [hq.1])]
    · intro q hq hl
      by_cases hqi : q ∈ ids
      · obtain ⟨a, b, c, d⟩ := h2.term q hqi (by rw [h1.skel.len]; exact hl)
        refine ⟨a, b, ?_, ?_⟩
        · by_cases hqe : q = i
          · subst hqe; rw [c, (h1.term q (by simp) hl).2.2.1]
          · rw [c, h1.other q (by simpa using hqe)]
        · by_cases hqe : q = i
          · subst hqe; rw [d, (h1.term q (by simp) hl).2.2.2]; cases cf q <;> simp
          · rw [d, h1.other q (by simpa using hqe)]
      · have hqe : q = i := by simpa [hqi] using hq
        subst hqe
        rw [h2.other q hqi]
        exact h1.term q (by simp) hl

theorem termAll (m0 : Dd σ) (ids : List Nat) :
    TermInit m0 (ids.foldl (fun m i => m.modNode i fun n => { n with valueBot := 0, flags := n.flags.setMarked true }) m0) ids (fun _ => false) := by
  apply TermInit.fold _ _ m0 _ _ _ (.refl m0)
  intro m i _
  refine ⟨Skel.modNode _ _ _ (fun n => ⟨rfl, rfl, rfl, rfl, rfl, rfl, by simp, by simp, by simp, by simp⟩), ?_, ?_, rfl, rfl⟩
  · intro q hq; rw [node_modNode_ne _ _ (by simpa using Ne.symm (by simpa using hq))]
  · intro q hq hl
    simp only [List.mem_singleton] at hq
    subst hq
    rw [node_modNode_self _ _ hl]
    simp

theorem termBarrier (m0 : Dd σ) (ids : List Nat) (cf : Nat → Bool)
    (hcf : ∀ q, cf q = (decide (m0.cutsetType = .lastExactLayer ∧ m0.approximate = false) ||
      decide (m0.cutsetType = .frontier ∧ (m0.node q).flags.isExact = true))) :
    TermInit m0 (ids.foldl (fun m i => m.initTerminal i) m0) ids cf := by
  apply TermInit.fold _ _ m0 _ _ _ (.refl m0)
  intro m i hm
  obtain ⟨m1, hm1⟩ : ∃ m1 : Dd σ, m1 = m.modNode i fun n => { n with valueBot := 0, flags := n.flags.setMarked true } := ⟨_, rfl⟩
  have k1 : TermInit m m1 [i] (fun _ => false) := by
    rw [hm1]
    refine ⟨Skel.modNode _ _ _ (fun n => ⟨rfl, rfl, rfl, rfl, rfl, rfl, by simp, by simp, by simp, by simp⟩), ?_, ?_, rfl, rfl⟩
    · intro q hq; rw [node_modNode_ne _ _ (by simpa using Ne.symm (by simpa using hq))]
    · intro q hq hl
      simp only [List.mem_singleton] at hq
      subst hq
      rw [node_modNode_self _ _ hl]
      simp
  obtain ⟨m2, hm2⟩ : ∃ m2 : Dd σ, m2 = m1.modNode i fun n => { n with flags := n.flags.setCutset true } := ⟨_, rfl⟩
  have k2 : Skel m1 m2 := by
    rw [hm2]; exact Skel.modNode _ _ _ (fun n => ⟨rfl, rfl, rfl, rfl, rfl, rfl, by simp, by simp, by simp, by simp⟩)
  have k2' : cf i = true → TermInit m m2 [i] cf := by
    intro hcfi
    refine ⟨k1.skel.trans k2, ?_, ?_, by rw [hm2]; exact k1.cut, by rw [hm2]; exact k1.upd⟩
    · intro q hq; rw [hm2, node_modNode_ne _ _ (by simpa using Ne.symm (by simpa using hq))]; exact k1.other q hq
    · intro q hq hl
      have hq' := hq
      simp only [List.mem_singleton] at hq
      subst hq
      obtain ⟨a, b, c, d⟩ := k1.term q hq' hl
      rw [hm2, node_modNode_self _ _ (by rw [k1.skel.len]; exact hl)]
      refine ⟨a, by simpa using b, c, ?_⟩
      rw [hcfi]; simp
  have hc := hcf i
  rw [← hm.cutsetType, ← hm.approximate, ← (hm.node i).exact, ← k1.skel.cutsetType, ← k1.skel.approximate, ← (k1.skel.node i).exact] at hc
  unfold initTerminal
  simp only [← hm1]
  by_cases ha : m1.cutsetType = .lastExactLayer ∧ m1.approximate = false
  · rw [if_pos ha, ← hm2]
    exact k2' (by rw [hc]; simp [ha])
  · rw [if_neg ha]
    by_cases hb : m1.cutsetType = .frontier ∧ (m1.node i).flags.isExact = true
    · rw [if_pos hb, ← hm2]
      exact k2' (by rw [hc]; simp [hb])
    · rw [if_neg hb]
      have hcfi : cf i = false := by rw [hc]; simp only [ha, hb]; rfl
      refine ⟨k1.skel, k1.other, ?_, k1.cut, k1.upd⟩
      intro q hq hl
      obtain ⟨a, b, c, d⟩ := k1.term q hq hl
      simp only [List.mem_singleton] at hq
      subst hq
      exact ⟨a, b, c, by rw [d, hcfi]⟩

section
variable {v : Variant} {p : Problem σ} {r : Relaxation σ} {S : Layering σ} {B : Int} {inp : Input σ} {rd : Reads σ} {o : Oracle σ}
  {m : Dd σ} {k jx : Nat} {P L : Nat → List Nat} {c : CutsetType}

/-- Layers as they end up: squashed, but for the last one. -/
def Lay (P L : Nat → List Nat) (k j : Nat) : List Nat := if j < k then L j else P k

theorem Lay_lt {P L : Nat → List Nat} {k j : Nat} (h : j < k) : Lay P L k j = L j := by unfold Lay; rw [if_pos h]
theorem Lay_k (P L : Nat → List Nat) (k : Nat) : Lay P L k k = P k := by unfold Lay; rw [if_neg (by omega)]

theorem Lay_in {P L : Nat → List Nat} {k j i : Nat} (hj : j ≤ k) (h : i ∈ Lay P L k j) : InLay P L k k j i := by
  by_cases hjk : j < k
  · rw [Lay_lt hjk] at h; exact Or.inr ⟨hjk, h⟩
  · have : j = k := by omega
    subst this
    rw [Lay_k] at h; exact Or.inl ⟨Nat.le_refl _, h⟩

theorem Lay_iff {P L : Nat → List Nat} {k j i : Nat} (hj : j ≤ k) : i ∈ Lay P L k j ↔ ((j < k ∧ i ∈ L j) ∨ (j = k ∧ i ∈ P k)) := by
  by_cases hjk : j < k
  · rw [Lay_lt hjk]; constructor
    · intro h; exact Or.inl ⟨hjk, h⟩
    · rintro (h | h)
      · exact h.2
      · omega
  · have : j = k := by omega
    subst this
    rw [Lay_k]; simp

theorem Core.k_le (h : Core v p r S B inp rd m k k jx P L c) (hroot : RootOK p S B inp.residual) : inp.residual.path.length + k ≤ p.nbVars := by
  cases k with
  | zero => exact hroot.le
  | succ k => have := h.var k (by omega); omega

theorem Core.inIds_zero (hc : Core v p r S B inp rd m k k jx P L c) : m.inIds 0 = [] := by
  unfold Dd.inIds; rw [hc.root.2.2.2.2]; exact chain_none _ _

theorem Done.layers (hwf : WellFormed p S B) (hroot : RootOK p S B inp.residual) (hd : Done v p r S B inp rd m k jx P L c) (b : Dd σ)
    (he : ∀ e, b.edge e = m.edge e) (hi : ∀ i, b.inIds i = m.inIds i) (hl : b.nodes.length = m.nodes.length) :
    Layers b (Lay P L k) k B := by
  have hc := hd.head.core
  refine ⟨?_, ?_, ?_, ?_, ?_, ?_⟩
  · intro j hj i hi' e he'
    rw [hi] at he'
    rw [he, Lay_lt hj]
    exact (hc.src_layer (Lay_in (by omega) hi') he' (Nat.le_refl _) (by omega)).1
  · intro i hi'
    have := hc.root1 i (Lay_in (by omega) hi')
    subst this
    rw [hi]; exact hc.inIds_zero
  · intro j hj i hi'
    rw [hl]
    exact ⟨hc.lt j i (Lay_in hj hi'), hc.id_ge (Nat.le_refl _) (by omega) j i (Lay_in hj hi')⟩
  · intro j j' i hj hj' h1 h2
    exact hc.layer_unique (Lay_in hj h1) (Lay_in hj' h2)
  · intro j hj i hi' e he'
    rw [hi] at he'
    rw [he]
    exact hc.edge_bound hwf (Nat.le_refl _) (by omega) (Lay_in (by omega) hi') he'
  · intro n hn
    have := hc.k_le hroot
    have h0 := mulB hwf (Nat.zero_le n)
    simp only [Int.natCast_zero, Int.zero_mul] at h0
    exact ⟨(fits hwf (n := n) (by omega) (by omega) (by omega)).1, (fits hwf (n := n) (by omega) (by omega) (by omega)).1⟩

/-- What a finished relaxed compilation looks like (when the bottom-up pass ran). -/
structure Final (inp : Input σ) (m D : Dd σ) (k jx : Nat) (P L : Nat → List Nat) (o : Oracle σ) : Prop where
  skel : Skel (m.fin0 o inp) D
  A : ∀ j, j ≤ k → (m.cutsetType = .lastExactLayer → m.approximate = true → jx - 1 ≤ j) → ∀ q ∈ Lay P L k j, ∀ t ∈ P k, ∀ w, Walk m q t w →
    (D.node q).flags.isMarked = true ∧ w ≤ (D.node q).valueBot
  cutL : ∀ x ∈ m.cutset, x ∈ D.cutset
  cutN : ∀ x ∈ D.cutset, x ∈ m.cutset ∨ (m.cutsetType = .frontier ∧ ∃ j', j' < k ∧ x ∈ L j' ∧ (m.node x).flags.isExact = true ∧
    ∃ i ∈ Lay P L k (j'+1), ∃ e ∈ m.inIds i, (m.edge e).src = x ∧ (m.node i).flags.isExact = false ∧ (D.node i).flags.isMarked = true)
  front : m.cutsetType = .frontier → ∀ j', j' < k → ∀ i ∈ Lay P L k (j'+1), (D.node i).flags.isMarked = true →
    (m.node i).flags.isExact = false → ∀ e ∈ m.inIds i, (m.node (m.edge e).src).flags.isExact = true → (m.edge e).src ∈ D.cutset
  nodup : D.cutset.Nodup

theorem Done.ids_perm (ho : o.Valid) (hd : Done v p r S B inp rd m k jx P L c) : ((o.hashOrd m.nextL).map (·.2)).Perm (P k) := by
  rw [← hd.head.ids]; exact (ho.hash _).map _

theorem Done.cut_nodup (hd : Done v p r S B inp rd m k jx P L c) : m.cutset.Nodup := by
  have hc := hd.head.core
  by_cases h : c = .lastExactLayer ∧ inp.compType = .relaxed ∧ m.approximate = true
  · have h2 := hc.cut1 h.1 h.2.1 h.2.2
    have := (hc.jxr h.2.1).2 h.2.2
    rw [h2.1]; exact hc.nodupL _ (by omega)
  · rw [(hc.cut0 h).1]; exact List.nodup_nil

theorem isizeMin_lt_zero : isizeMin < 0 := by decide

theorem Done.finalAll (hwf : WellFormed p S B) (ho : o.Valid) (hroot : RootOK p S B inp.residual) (hd : Done .all p r S B inp rd m k jx P L c)
    (hrel : inp.compType = .relaxed) (hne : (m.fin0 o inp).exact = false) :
    Final inp m (m.finish .all o inp) k jx P L o := by
  have hc := hd.head.core
  have hperm := hd.ids_perm (o := o) ho
  have happ : m.approximate = true := by
    have : (m.fin0 o inp).exact = (!m.approximate || _) := rfl
    rw [this] at hne
    cases h : m.approximate
    · rw [h] at hne; simp at hne
    · rfl
  have hjx := (hc.jxr hrel).2 happ
  obtain ⟨ids, hids⟩ : ∃ ids, ids = (o.hashOrd m.nextL).map (·.2) := ⟨_, rfl⟩
  rw [← hids] at hperm
  obtain ⟨b, hb⟩ : ∃ b : Dd σ, b = ids.foldl (fun m i => m.modNode i fun n => { n with valueBot := 0, flags := n.flags.setMarked true }) (m.fin0 o inp) := ⟨_, rfl⟩
  have hfin : m.finish .all o inp = boundLoop (b.nodes.length + 1) b ids := by
    have h1 : m.finish .all o inp = (m.fin0 o inp).computeLocalBounds o := by
      simp only [finish, fin0, hrel]
    rw [h1]
    unfold computeLocalBounds
    rw [hne]
    simp only [Bool.false_eq_true, if_false]
    have : (m.fin0 o inp).nextL = m.nextL := rfl
    rw [this, ← hids, ← hb]
  rw [hfin]
  have hT : TermInit (m.fin0 o inp) b ids (fun _ => false) := by rw [hb]; exact termAll _ _
  have hsk := hT.skel
  have hbe : ∀ e, b.edge e = m.edge e := fun e => (hsk.edge e).trans (fin0_edge o inp m e)
  have hbi : ∀ i, b.inIds i = m.inIds i := fun i => (hsk.inIds i).trans (fin0_inIds o inp m i)
  have hbl : b.nodes.length = m.nodes.length := hsk.len
  have hmi : ∀ i, i ∈ ids ↔ i ∈ P k := fun i => hperm.mem_iff
  have hL := hd.layers hwf hroot b hbe hbi hbl
  have hnotin : ∀ j, j < k → ∀ q ∈ Lay P L k j, q ∉ ids := by
    intro j hj q hq hqi
    have := hc.layer_unique (Lay_in (by omega) hq) (Or.inl ⟨Nat.le_refl _, (hmi q).1 hqi⟩)
    omega
  have hct : b.cutsetType = m.cutsetType := hsk.cutsetType
  have hcu : b.cutset = m.cutset := hT.cut
  obtain ⟨lo, hlo⟩ : ∃ lo, lo = if m.cutsetType = .lastExactLayer then jx - 1 else 0 := ⟨_, rfl⟩
  have hlok : lo < k := by rw [hlo]; split <;> omega
  have hp : Pre b (Lay P L k) k lo := by
    refine ⟨?_, ?_, ?_, by omega⟩
    · intro j hj q hq
      rw [hT.other q (hnotin j hj q hq)]
      rw [Lay_lt hj] at hq
      exact (hc.lclean j hj q hq).2.2.1
    · intro j hj q hq
      rw [hT.other q (hnotin j hj q hq), hcu]
      rw [Lay_lt hj] at hq
      exact (hc.lclean j hj q hq).2.2.2.2
    · intro x hx
      rw [hcu] at hx
      by_cases hcc : m.cutsetType = .lastExactLayer
      · have h1 := (hc.cut1 (by rw [← hc.misc.2.2.2]; exact hcc) hrel happ).1
        rw [h1] at hx
        rw [hlo, if_pos hcc, Lay_lt (by omega)]
        exact hx
      · have h1 := (hc.cut0 (fun h => hcc (by rw [hc.misc.2.2.2]; exact h.1))).1
        rw [h1] at hx; cases hx
  have hI : LInv b b (Lay P L k) k lo k ids := by
    refine ⟨.refl b, ?_, ?_, ?_, fun _ _ _ _ => rfl, fun _ h => h, fun _ h => Or.inl h, ?_, fun h => h, rfl⟩
    · intro q hq; rw [Lay_k]; exact (hmi q).1 hq
    · intro j' h1 _ h2 q hq t ht w hw
      have : j' = k := by omega
      subst this
      rw [Lay_k] at hq
      have hlt := hc.lt j' q (Or.inl ⟨Nat.le_refl _, hq⟩)
      obtain ⟨a, b', _, _⟩ := hT.term q ((hmi q).2 hq) hlt
      refine ⟨b', ?_⟩
      rw [a]
      obtain ⟨j, hj, hqj, h3, h4⟩ := hL.walk hw ht
      have : j = j' := hc.layer_unique (Lay_in (by omega) hqj) (Or.inl ⟨Nat.le_refl _, hq⟩)
      subst this
      simp at h4; exact h4
    · intro _ q hq _; rw [Lay_k] at hq; exact (hmi q).2 hq
    · intro _ j' h1 _ h2; omega
  have hfuel : ids ≠ [] → k < b.nodes.length + 1 := by
    intro hne'
    obtain ⟨t, ht⟩ := List.exists_mem_of_ne_nil ids hne'
    have := hL.lt k (Nat.le_refl _) t (by rw [Lay_k]; exact (hmi t).1 ht)
    omega
  have hB := boundLoop_spec hL hp (b.nodes.length + 1) k b ids hI (Nat.le_refl _) hfuel
  generalize boundLoop (b.nodes.length + 1) b ids = D at hB
  refine ⟨hsk.trans hB.skel, ?_, ?_, ?_, ?_, ?_⟩
  · intro j hj hj' q hq t ht w hw
    refine hB.A j ?_ hj q hq t (by rw [Lay_k]; exact ht) w (hw.congr hbe hbi)
    rw [hlo]; split
    · rename_i h; exact hj' h happ
    · omega
  · intro x hx; exact hB.cutM x (by rw [hcu]; exact hx)
  · intro x hx
    rcases hB.cutN x hx with h1 | ⟨h0, j', h1, h2, h3, _, i, h5, e, h6, h7, h8, h9⟩
    · left; rw [← hcu]; exact h1
    · right
      refine ⟨by rw [← hct]; exact h0, j', h1, by rw [Lay_lt h1] at h2; exact h2, ?_, i, h5, e, by rw [← hbi]; exact h6, by rw [← hbe]; exact h7, ?_, h9⟩
      · rw [(hsk.node x).exact] at h3; exact h3
      · rw [(hsk.node i).exact] at h8; exact h8
  · intro hf j' hj' i hi hm hx e he hs
    have := hB.front (by rw [hct]; exact hf) j' (by
      rw [hlo]
      rw [if_neg (by rw [hf]; simp)]; omega) hj' i hi hm (by rw [(hsk.node i).exact]; exact hx) e (by rw [hbi]; exact he)
      (by rw [(hsk.node _).exact, hbe]; exact hs)
    rw [hbe] at this; exact this
  · exact hB.nodup (by rw [hcu]; exact hd.cut_nodup)

/-- The state of the barrier diagram after its sweep. -/
theorem Done.sweep (ho : o.Valid) (hd : Done .barrier p r S B inp rd m k jx P L c)
    (hrel : inp.compType = .relaxed) :
    ∃ b, TermInit (m.fin0 o inp) b (P k) (fun q => decide (m.cutsetType = .lastExactLayer ∧ m.approximate = false) ||
      decide (m.cutsetType = .frontier ∧ (m.node q).flags.isExact = true)) ∧
      (∀ i, i < b.nodes.length → ∀ e ∈ b.inIds i, (b.edge e).src < i) ∧
      SInv b (m.finish .barrier o inp) inp.bestLb 0 := by
  have hc := hd.head.core
  have hperm := hd.ids_perm (o := o) ho
  obtain ⟨ids, hids⟩ : ∃ ids, ids = (o.hashOrd m.nextL).map (·.2) := ⟨_, rfl⟩
  rw [← hids] at hperm
  obtain ⟨b, hb⟩ : ∃ b : Dd σ, b = ids.foldl (fun m i => m.initTerminal i) (m.fin0 o inp) := ⟨_, rfl⟩
  have hfin : m.finish .barrier o inp = (List.range b.nodes.length).reverse.foldl (thetaNode inp.bestLb) b := by
    have h1 : m.finish .barrier o inp = (m.fin0 o inp).computeLocalBoundsAndTheta o inp.bestLb := by
      simp only [finish, fin0, hrel]
    rw [h1]
    unfold computeLocalBoundsAndTheta
    have : (m.fin0 o inp).nextL = m.nextL := rfl
    simp only [this, ← hids, ← hb]
  have hT : TermInit (m.fin0 o inp) b ids (fun q => decide (m.cutsetType = .lastExactLayer ∧ m.approximate = false) ||
      decide (m.cutsetType = .frontier ∧ (m.node q).flags.isExact = true)) := by
    rw [hb]; exact termBarrier _ _ _ (fun q => rfl)
  have hsk := hT.skel
  have hbe : ∀ e, b.edge e = m.edge e := fun e => (hsk.edge e).trans (fin0_edge o inp m e)
  have hbi : ∀ i, b.inIds i = m.inIds i := fun i => (hsk.inIds i).trans (fin0_inIds o inp m i)
  have hbl : b.nodes.length = m.nodes.length := hsk.len
  have hsrc : ∀ i, i < b.nodes.length → ∀ e ∈ b.inIds i, (b.edge e).src < i := by
    intro i hi e he
    rw [hbi] at he; rw [hbe]; rw [hbl] at hi
    obtain ⟨j, hj⟩ := hc.all i hi
    cases j with
    | zero =>
      have := hc.root1 i hj
      subst this
      rw [hc.inIds_zero] at he; cases he
    | succ j =>
      exact hc.incr j i hj _ (hc.src_layer hj he (Nat.le_refl _) (by omega)).1
  refine ⟨b, ⟨hsk, fun q hq => hT.other q (fun h => hq (hperm.mem_iff.1 h)), fun q hq => hT.term q (hperm.mem_iff.2 hq), hT.cut, hT.upd⟩, hsrc, ?_⟩
  rw [hfin]
  apply sweep_spec hsrc
  intro x hx
  rw [hT.cut] at hx
  have hx' : x ∈ m.cutset := hx
  by_cases h : c = .lastExactLayer ∧ inp.compType = .relaxed ∧ m.approximate = true
  · have h2 := hc.cut1 h.1 h.2.1 h.2.2
    have := (hc.jxr h.2.1).2 h.2.2
    have hx : x ∈ L (jx - 1) := by rw [h2.1] at hx'; exact hx'
    have hxk : x ∉ ids := by
      intro hh
      have := hc.layer_unique (Or.inr ⟨by omega, hx⟩) (Or.inl ⟨Nat.le_refl _, hperm.mem_iff.1 hh⟩)
      omega
    rw [hT.other x hxk]
    have := (hc.lclean (jx-1) (by omega) x hx).2.2.2.2
    rw [fin0_node, this]; simp [hx']
  · rw [(hc.cut0 h).1] at hx'; cases hx'

theorem Done.finalBarrier (hwf : WellFormed p S B) (ho : o.Valid) (hroot : RootOK p S B inp.residual) (hd : Done .barrier p r S B inp rd m k jx P L c)
    (hrel : inp.compType = .relaxed) :
    Final inp m (m.finish .barrier o inp) k jx P L o := by
  have hc := hd.head.core
  obtain ⟨b, hT, hsrc, hS⟩ := hd.sweep ho hrel
  generalize m.finish .barrier o inp = D at hS
  have hsk := hT.skel
  have hbe : ∀ e, b.edge e = m.edge e := fun e => (hsk.edge e).trans (fin0_edge o inp m e)
  have hbi : ∀ i, b.inIds i = m.inIds i := fun i => (hsk.inIds i).trans (fin0_inIds o inp m i)
  have hbl : b.nodes.length = m.nodes.length := hsk.len
  have hct : b.cutsetType = m.cutsetType := hsk.cutsetType
  have hL := hd.layers hwf hroot m (fun _ => rfl) (fun _ => rfl) rfl
  have hdel : ∀ j, j ≤ k → ∀ q ∈ Lay P L k j, (b.node q).flags.isDeleted = false := by
    intro j hj q hq
    rw [(hsk.node q).deleted, fin0_node]
    rcases (Lay_iff hj).1 hq with ⟨h1, h2⟩ | ⟨_, h2⟩
    · exact (hc.lclean j h1 q h2).1
    · exact (hd.head.clean q h2).1.deleted
  have hA : ∀ q t w, Walk m q t w → ∀ j, j ≤ k → q ∈ Lay P L k j → t ∈ P k → (D.node q).flags.isMarked = true ∧ w ≤ (D.node q).valueBot := by
    intro q t w hw
    induction hw with
    | nil i =>
      intro j hj _ ht
      have hlt := hc.lt k i (Or.inl ⟨Nat.le_refl _, ht⟩)
      obtain ⟨a, b', _, _⟩ := hT.term i ht hlt
      exact ⟨hS.mono.mark i b', by have := hS.mono.bot i; omega⟩
    | @cons q t e w he hw ih =>
      intro j hj hs ht
      obtain ⟨j1, hj1, hq1, hb1, hb2⟩ := hL.walk hw (by rw [Lay_k]; exact ht)
      obtain ⟨h1, h2⟩ := ih j1 hj1 hq1 ht
      have hlt := hc.lt j1 q (Lay_in hj1 hq1)
      have := (hS.edge q (by omega) (by rw [hbl]; exact hlt) (hdel j1 hj1 q hq1) e (by rw [hbi]; exact he)).1 h1
      rw [hbe] at this
      refine ⟨this.1, ?_⟩
      have hin := hL.walk_in (Walk.cons he hw) (by rw [Lay_k]; exact ht)
      have := le_satAdd (a := (D.node q).valueBot) (b := (m.edge e).cost) hin (by omega)
      omega
  refine ⟨hsk.trans hS.skel, fun j hj _ q hq t ht w hw => hA q t w hw j hj hq ht, fun x hx => hS.mono.cutM x (by rw [hT.cut]; exact hx), ?_, ?_,
    hS.nodup (by rw [hT.cut]; exact hd.cut_nodup)⟩
  · intro x hx
    rcases hS.cutN x hx with h1 | ⟨i, _, h2, h3, e, h4, h5, h6⟩
    · left; rw [hT.cut] at h1; exact h1
    · right
      obtain ⟨f1, f2, f3, f4⟩ := h6
      have f1' : m.cutsetType = .frontier := by rw [← hct, ← hS.skel.cutsetType]; exact f1
      rw [hbi] at h4
      rw [hbe] at h5
      have hex : (m.node x).flags.isExact = true := by
        rw [(hS.skel.node x).exact, (hsk.node x).exact, fin0_node] at f4; exact f4
      have hix : (m.node i).flags.isExact = false := by
        rw [(hS.skel.node i).exact, (hsk.node i).exact, fin0_node] at f3; exact f3
      -- the marked node `i` belongs to a squashed layer
      obtain ⟨j, hj⟩ := hc.all i (by rw [← hbl]; exact h2)
      cases j with
      | zero =>
        have := hc.root1 i hj
        subst this
        rw [hc.inIds_zero] at h4; cases h4
      | succ j =>
        obtain ⟨s1, s2⟩ := hc.src_layer hj h4 (Nat.le_refl _) (by omega)
        rw [h5] at s1 s2
        have hjk : j < k := by
          rcases hj with hj | hj <;> omega
        have hiLay : i ∈ Lay P L k (j+1) := by
          rcases hj with ⟨hj1, hj2⟩ | ⟨hj1, hj2⟩
          · by_cases hjk' : j + 1 = k
            · rw [hjk', Lay_k]; rw [hjk'] at hj2; exact hj2
            · rw [Lay_lt (by omega)]
              rcases hc.fate (j+1) (by omega) i hj2 with g | g | g | g
              · exact g
              · -- pruned nodes stay unmarked
                exfalso
                rcases hS.mk' i f2 with g1 | ⟨i', _, g2, _, e', g3, g4⟩
                · have hik : i ∉ P k := fun hh => by
                    have := hc.layer_unique (Or.inl ⟨hj1, hj2⟩) (Or.inl ⟨Nat.le_refl _, hh⟩)
                    omega
                  rw [hT.other i hik, fin0_node, g.mark] at g1; cases g1
                · rw [hbi] at g3
                  rw [hbe] at g4
                  obtain ⟨j2, hj2'⟩ := hc.all i' (by rw [← hbl]; exact g2)
                  cases j2 with
                  | zero =>
                    have := hc.root1 i' hj2'
                    subst this
                    rw [hc.inIds_zero] at g3; cases g3
                  | succ j2 =>
                    obtain ⟨s3, s4⟩ := hc.src_layer hj2' g3 (Nat.le_refl _) (by omega)
                    rw [g4] at s3 s4
                    have := hc.layer_unique s4 (Or.inl ⟨hj1, hj2⟩)
                    subst this
                    have := (hc.lclean (j+1) (by rcases hj2' with hh | hh <;> omega) i s3).2.1
                    rw [g.flag] at this; cases this
              · by_cases hh : i ∈ L (j+1)
                · exact hh
                · exfalso
                  have := g.2.2.del rfl hh
                  rw [(hsk.node i).deleted, fin0_node, this] at h3; cases h3
              · rw [hrel] at g; cases g.1
          · rw [Lay_lt hj1]; exact hj2
        exact ⟨f1', j, hjk, s1, hex, i, hiLay, e, h4, h5, hix, f2⟩
  · intro hf j' hj' i hi hm hx e he hs
    have hlt := hc.lt (j'+1) i (Lay_in (by omega) hi)
    have hF : Front D i (b.edge e).src := by
      refine ⟨by rw [hS.skel.cutsetType, hct]; exact hf, hm, ?_, ?_⟩
      · rw [(hS.skel.node i).exact, (hsk.node i).exact]; exact hx
      · rw [(hS.skel.node _).exact, (hsk.node _).exact, hbe]; exact hs
    have h1 := hS.front i (by omega) (by rw [hbl]; exact hlt) (hdel (j'+1) (by omega) i hi) e (by rw [hbi]; exact he) hF
    rw [hbe] at h1
    obtain ⟨s1, s2⟩ := hc.src_layer (Lay_in (by omega) hi) he (Nat.le_refl _) (by omega)
    have hnk : (m.edge e).src ∉ P k := fun hh => by
      have := hc.layer_unique s2 (Or.inl ⟨Nat.le_refl _, hh⟩)
      omega
    rw [hS.flag, hT.other _ hnk, fin0_node, (hc.lclean j' hj' _ s1).2.2.2.2] at h1
    simp only [Bool.or_eq_true, decide_eq_true_eq] at h1
    rcases h1 with h1 | h1
    · exact hS.mono.cutM _ (by rw [hT.cut]; exact h1)
    · exact h1.1
end
end Verif.Dd
