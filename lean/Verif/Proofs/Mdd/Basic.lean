import Verif.Spec.Problem
import Verif.Proofs.Flags
/-! Elementary facts about the node and edge tables of a diagram and the linked lists of inbound edges. -/
set_option autoImplicit false

namespace Verif.Dd
open Verif Spec
variable {σ : Type} [DecidableEq σ] [Inhabited σ]

theorem insertBy_perm {α : Type} (le : α → α → Bool) (a : α) (l : List α) : (insertBy le a l).Perm (a :: l) := by
  induction l with
  | nil => exact .refl _
  | cons b l ih =>
    unfold insertBy
    split
    · exact .refl _
    · exact (ih.cons b).trans (.swap a b l)

theorem sortBy_perm {α : Type} (le : α → α → Bool) (l : List α) : (sortBy le l).Perm l := by
  unfold sortBy
  induction l with
  | nil => exact .refl _
  | cons a l ih => exact (insertBy_perm le a _).trans (ih.cons a)

theorem insertBy_sorted {α : Type} (le : α → α → Bool) (ht : ∀ a b, le a b = false → le b a = true)
    (htr : ∀ a b c, le a b = true → le b c = true → le a c = true) (a : α) (l : List α)
    (h : l.Pairwise (fun a b => le a b = true)) : (insertBy le a l).Pairwise (fun a b => le a b = true) := by
  induction l with
  | nil => simp [insertBy]
  | cons b l ih =>
    rw [List.pairwise_cons] at h
    unfold insertBy
    split
    · rename_i hab
      rw [List.pairwise_cons, List.pairwise_cons]
      refine ⟨?_, h⟩
      intro c hc
      rcases List.mem_cons.1 hc with rfl | hc
      · exact hab
      · exact htr _ _ _ hab (h.1 c hc)
    · rename_i hab
      rw [List.pairwise_cons]
      refine ⟨?_, ih h.2⟩
      intro c hc
      rcases List.mem_cons.1 ((insertBy_perm le a l).mem_iff.1 hc) with rfl | hc
      · exact ht _ _ (by simpa using hab)
      · exact h.1 c hc

/-- `sortBy` sorts. -/
theorem sortBy_sorted {α : Type} (le : α → α → Bool) (ht : ∀ a b, le a b = false → le b a = true)
    (htr : ∀ a b c, le a b = true → le b c = true → le a c = true) (l : List α) : (sortBy le l).Pairwise (fun a b => le a b = true) := by
  unfold sortBy
  induction l with
  | nil => exact .nil
  | cons a l ih => exact insertBy_sorted le ht htr a _ ih

theorem node_modNode (m : Dd σ) (i j : Nat) (f : Node σ → Node σ) :
    (m.modNode i f).node j = if i = j ∧ j < m.nodes.length then f (m.node j) else m.node j := by
  simp only [node, modNode, List.getD_eq_getElem?_getD, List.getElem?_modify]
  by_cases h : j < m.nodes.length
  · by_cases h2 : i = j <;> simp [h, h2]
  · by_cases h2 : i = j <;> simp [h]

theorem node_modNode_ne (m : Dd σ) {i j : Nat} (f : Node σ → Node σ) (h : i ≠ j) :
    (m.modNode i f).node j = m.node j := by simp [node_modNode, h]

theorem node_modNode_self (m : Dd σ) {i : Nat} (f : Node σ → Node σ) (h : i < m.nodes.length) :
    (m.modNode i f).node i = f (m.node i) := by simp [node_modNode, h]

@[simp] theorem modNode_edges (m : Dd σ) (i : Nat) (f : Node σ → Node σ) : (m.modNode i f).edges = m.edges := rfl
@[simp] theorem modNode_length (m : Dd σ) (i : Nat) (f : Node σ → Node σ) :
    (m.modNode i f).nodes.length = m.nodes.length := by simp [modNode]
@[simp] theorem modNode_edge (m : Dd σ) (i : Nat) (f : Node σ → Node σ) (e : Nat) : (m.modNode i f).edge e = m.edge e := rfl

/-- The fields other than nodes and edges. -/
structure Rest (σ : Type) where
  rootPa : List Decision
  prevL : List Nat
  nextL : List (σ × Nat)
  cutset : List Nat
  lelDepth : Option Nat
  bestN : Option Nat
  exact : Bool
  approximate : Bool
  cutsetType : CutsetType

def rest (m : Dd σ) : Rest σ :=
  ⟨m.rootPa, m.prevL, m.nextL, m.cutset, m.lelDepth, m.bestN, m.exact, m.approximate, m.cutsetType⟩

@[simp] theorem modNode_rest (m : Dd σ) (i : Nat) (f : Node σ → Node σ) : (m.modNode i f).rest = m.rest := rfl

theorem getD_append_lt {α : Type} (l l' : List α) (d : α) {i : Nat} (h : i < l.length) :
    (l ++ l').getD i d = l.getD i d := by
  simp [List.getD_eq_getElem?_getD, List.getElem?_append_left h]

theorem getD_append_len {α : Type} (l : List α) (x d : α) : (l ++ [x]).getD l.length d = x := by
  simp

/-- Linked lists point backwards and inside the edge table. -/
structure ChainOK (m : Dd σ) : Prop where
  next : ∀ e, e < m.edges.length → ∀ x, (m.edge e).next = some x → x < e
  inb : ∀ i, i < m.nodes.length → ∀ x, (m.node i).inbound = some x → x < m.edges.length

theorem chain_stable (es ext : List Edge)
    (hn : ∀ e, e < es.length → ∀ x, (es.getD e default).next = some x → x < e) :
    ∀ (f f' : Nat) (o : Option Nat), (∀ x, o = some x → x < es.length ∧ x < f ∧ x < f') →
      chain es f o = chain (es ++ ext) f' o := by
  intro f
  induction f with
  | zero =>
    intro f' o h
    cases o with
    | none => cases f' <;> simp [chain]
    | some x => exact absurd (h x rfl).2.1 (by omega)
  | succ f ih =>
    intro f' o h
    cases o with
    | none => cases f' <;> simp [chain]
    | some x =>
      obtain ⟨h1, h2, h3⟩ := h x rfl
      cases f' with
      | zero => omega
      | succ f' =>
        simp only [chain]
        rw [getD_append_lt es ext default h1]
        congr 1
        apply ih
        intro y hy
        have := hn x h1 y hy
        omega

theorem chain_lt (es : List Edge)
    (hn : ∀ e, e < es.length → ∀ x, (es.getD e default).next = some x → x < e) :
    ∀ (f : Nat) (o : Option Nat), (∀ x, o = some x → x < es.length) → ∀ e ∈ chain es f o, e < es.length := by
  intro f
  induction f with
  | zero => intro o _ e he; simp [chain] at he
  | succ f ih =>
    intro o h e he
    cases o with
    | none => simp [chain] at he
    | some x =>
      simp only [chain, List.mem_cons] at he
      rcases he with rfl | he
      · exact h _ rfl
      · exact ih _ (fun y hy => Nat.lt_trans (hn x (h x rfl) y hy) (h x rfl)) e he

theorem inIds_lt {m : Dd σ} (hc : ChainOK m) {i : Nat} (hi : i < m.nodes.length) {e : Nat} (he : e ∈ m.inIds i) :
    e < m.edges.length :=
  chain_lt m.edges hc.next _ _ (fun x hx => hc.inb i hi x hx) e he

/-- Same inbound list when the head and the old edges are the same. -/
theorem inIds_frame {m m' : Dd σ} (hc : ChainOK m) {i : Nat} (hi : i < m.nodes.length) (hpre : m.edges <+: m'.edges)
    (hinb : (m'.node i).inbound = (m.node i).inbound) : m'.inIds i = m.inIds i := by
  obtain ⟨ext, hext⟩ := hpre
  unfold inIds
  rw [hinb, ← hext]
  symm
  apply chain_stable m.edges ext hc.next
  intro x hx
  have := hc.inb i hi x hx
  simp; omega

theorem edge_frame {m m' : Dd σ} (hpre : m.edges <+: m'.edges) {e : Nat} (he : e < m.edges.length) :
    m'.edge e = m.edge e := by
  obtain ⟨ext, hext⟩ := hpre
  unfold edge
  rw [← hext]
  exact getD_append_lt _ _ _ he

/-- Linking a new edge in front of the inbound list of node `k`. -/
theorem inIds_link {m m' : Dd σ} (hc : ChainOK m) {k : Nat} {ed : Edge}
    (hedges : m'.edges = m.edges ++ [ed])
    (hnext : ∀ x, ed.next = some x → x < m.edges.length)
    (hk : (m'.node k).inbound = some m.edges.length) :
    m'.inIds k = m.edges.length :: chain m.edges (m.edges.length + 1) ed.next := by
  unfold inIds
  rw [hk, hedges]
  simp only [List.length_append, List.length_singleton, chain]
  rw [getD_append_len]
  congr 1
  symm
  apply chain_stable m.edges [ed] hc.next
  intro x hx
  have := hnext x hx
  omega

theorem chain_none (es : List Edge) (f : Nat) : chain es f none = [] := by cases f <;> rfl

/-- Effect of pushing an edge and, at node `k`, making it the head. -/
theorem link_chainOK {m m' : Dd σ} (hc : ChainOK m) {k : Nat} {ed : Edge}
    (hedges : m'.edges = m.edges ++ [ed])
    (hnext : ∀ x, ed.next = some x → x < m.edges.length)
    (hk : (m'.node k).inbound = some m.edges.length)
    (hlen : ∀ j, j < m'.nodes.length → j < m.nodes.length ∨ j = k)
    (hne : ∀ j, j ≠ k → (m'.node j).inbound = (m.node j).inbound) : ChainOK m' := by
  constructor
  · intro e he x hx
    rw [hedges] at he
    simp only [List.length_append, List.length_singleton] at he
    by_cases h : e < m.edges.length
    · have : m'.edge e = m.edge e := edge_frame ⟨[ed], hedges.symm⟩ h
      rw [this] at hx
      exact hc.next e h x hx
    · have : e = m.edges.length := by omega
      subst this
      have : m'.edge m.edges.length = ed := by unfold edge; rw [hedges]; exact getD_append_len _ _ _
      rw [this] at hx
      exact hnext x hx
  · intro i hi x hx
    rw [hedges]
    simp only [List.length_append, List.length_singleton]
    by_cases h : i = k
    · subst h; rw [hk] at hx; cases hx; omega
    · rw [hne i h] at hx
      rcases hlen i hi with h1 | h1
      · have := hc.inb i h1 x hx; omega
      · exact absurd h1 h

/-- Same ids in the same table: nothing is changed by updates that keep `inbound`. -/
theorem chainOK_of_same {m m' : Dd σ} (hc : ChainOK m) (hedges : m'.edges = m.edges)
    (hlen : m'.nodes.length = m.nodes.length)
    (hinb : ∀ j, (m'.node j).inbound = (m.node j).inbound) : ChainOK m' := by
  constructor
  · intro e he x hx
    rw [hedges] at he
    have : m'.edge e = m.edge e := by unfold edge; rw [hedges]
    rw [this] at hx
    exact hc.next e he x hx
  · intro i hi x hx
    rw [hinb] at hx; rw [hlen] at hi; rw [hedges]
    exact hc.inb i hi x hx

end Verif.Dd
