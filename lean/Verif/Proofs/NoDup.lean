import Verif.Model.NoDup
import Verif.Spec.Frontier
/-! Invariants of the updatable heap. -/
set_option autoImplicit false

namespace Verif.Proofs
open Verif

/-! ### Order lemmas on abstract heaps -/
section order
variable {α : Type} (le : α → α → Prop)

/-- `K` is heap ordered. -/
def Ord (K : Nat → α) (len : Nat) : Prop := ∀ i, 0 < i → i < len → le (K i) (K ((i - 1) / 2))

/-- Heap ordered except that position `me` may be larger than its parent. -/
def UpOrd (K : Nat → α) (len me : Nat) : Prop :=
  ∀ i, 0 < i → i < len →
    (i ≠ me → le (K i) (K ((i - 1) / 2))) ∧
    ((i - 1) / 2 = me → 0 < me → le (K i) (K ((me - 1) / 2)))

/-- Heap ordered except that position `me` may be smaller than its children. -/
def DownOrd (K : Nat → α) (len me : Nat) : Prop :=
  ∀ i, 0 < i → i < len →
    ((i - 1) / 2 ≠ me → le (K i) (K ((i - 1) / 2))) ∧
    ((i - 1) / 2 = me → 0 < me → le (K i) (K ((me - 1) / 2)))

/-- `K` with two positions exchanged. -/
def swapK (K : Nat → α) (a b : Nat) : Nat → α := fun i => if i = a then K b else if i = b then K a else K i

variable {le}
variable (htr : ∀ a b c, le a b → le b c → le a c) (hrefl : ∀ a, le a a)

include htr in
theorem UpOrd.step {K : Nat → α} {len me : Nat} (hme : 0 < me) (hlt : me < len) (h : UpOrd le K len me)
    (hgt : le (K ((me - 1) / 2)) (K me)) : UpOrd le (swapK K me ((me - 1) / 2)) len ((me - 1) / 2) := by
  intro i hi hil
  have hi1 := h i hi hil
  have hme1 := h me hme hlt
  have hp : (me - 1) / 2 < me := by omega
  generalize hpd : (me - 1) / 2 = p at *
  refine ⟨fun hip => ?_, fun hip hp0 => ?_⟩
  · unfold swapK
    by_cases h1 : i = me
    · subst h1
      have : p ≠ i := by omega
      simp [hpd, this, hgt]
    · by_cases h2 : (i - 1) / 2 = me
      · have : me ≠ p := by omega
        simp only [h1, if_false, hip, h2, if_true]
        exact hi1.2 h2 hme
      · by_cases h3 : (i - 1) / 2 = p
        · have : p ≠ me := by omega
          simp only [h1, if_false, hip, h3, this, if_true]
          have := hi1.1 h1
          rw [h3] at this
          exact htr _ _ _ this hgt
        · simp only [h1, if_false, hip, h2, h3]
          exact hi1.1 h1
  · have hq : (p - 1) / 2 < p := by omega
    have hpp := (h p hp0 (by omega)).1 (by omega)
    generalize hqd : (p - 1) / 2 = q at *
    have e1 : swapK K me p q = K q := by
      unfold swapK
      have : q ≠ me := by omega
      have h2 : q ≠ p := by omega
      simp [this, h2]
    rw [e1]
    unfold swapK
    by_cases h1 : i = me
    · simp [h1]; exact hpp
    · have h2 : i ≠ p := by omega
      simp only [h1, h2, if_false]
      have := hi1.1 h1
      rw [hip] at this
      exact htr _ _ _ this hpp

theorem UpOrd.done {K : Nat → α} {len me : Nat} (h : UpOrd le K len me)
    (hd : 0 < me → le (K me) (K ((me - 1) / 2))) : Ord le K len := by
  intro i hi hil
  by_cases h1 : i = me
  · subst h1; exact hd hi
  · exact (h i hi hil).1 h1

include htr in
theorem DownOrd.step {K : Nat → α} {len me kid : Nat} (h : DownOrd le K len me)
    (hk0 : 0 < kid) (hkl : kid < len) (hkm : (kid - 1) / 2 = me)
    (hmax : ∀ i, 0 < i → i < len → (i - 1) / 2 = me → le (K i) (K kid))
    (hlt : le (K me) (K kid)) : DownOrd le (swapK K me kid) len kid := by
  intro i hi hil
  have hi1 := h i hi hil
  have hmk : me < kid := by omega
  refine ⟨fun hik => ?_, fun hik _ => ?_⟩
  · unfold swapK
    by_cases h1 : i = me
    · subst h1
      have h2 : (i - 1) / 2 ≠ i := by omega
      have h3 : (i - 1) / 2 ≠ kid := by omega
      simp only [if_true, h2, h3, if_false]
      exact (h kid hk0 hkl).2 hkm hi
    · by_cases h2 : i = kid
      · subst h2
        simp only [h1, if_false, if_true, hkm]
        exact hlt
      · by_cases h3 : (i - 1) / 2 = me
        · simp only [h1, h2, h3, if_false, if_true]
          exact hmax i hi hil h3
        · simp only [h1, h2, h3, hik, if_false]
          exact hi1.1 h3
  · unfold swapK
    have h1 : i ≠ me := by omega
    have h2 : i ≠ kid := by omega
    simp only [hkm, h1, h2, if_false, if_true]
    have := hi1.1 (by omega)
    rwa [hik] at this

theorem DownOrd.done {K : Nat → α} {len me : Nat} (h : DownOrd le K len me)
    (hd : ∀ i, 0 < i → i < len → (i - 1) / 2 = me → le (K i) (K me)) : Ord le K len := by
  intro i hi hil
  by_cases h1 : (i - 1) / 2 = me
  · rw [h1]; exact hd i hi hil h1
  · exact (h i hi hil).1 h1

include htr hrefl in
theorem Ord.root {K : Nat → α} {len : Nat} (h : Ord le K len) (i : Nat) (hi : i < len) : le (K i) (K 0) := by
  induction i using Nat.strongRecOn with
  | ind i ih =>
    by_cases h0 : i = 0
    · subst h0; exact hrefl _
    · exact htr _ _ _ (h i (by omega) hi) (ih _ (by omega) (by omega))

end order

/-! ### The comparator -/
section cmp
variable {σ : Type} (rank : σ → σ → Ordering)

/-- Not better than, lifted to optional nodes with `none` at the bottom. -/
def leO : Option (SubProblem σ) → Option (SubProblem σ) → Prop
  | none, _ => True
  | some _, none => False
  | some a, some b => (maxUB rank a b).isLE = true

variable [Std.TransCmp rank]

instance : Std.TransCmp (maxUB rank) := by
  have h1 : Std.TransCmp (fun (a b : SubProblem σ) => compare a.ub b.ub) :=
    inferInstanceAs (Std.TransCmp (compareOn SubProblem.ub))
  have h2 : Std.TransCmp (fun (a b : SubProblem σ) => rank a.state b.state) :=
    { eq_swap := fun {a b} => Std.OrientedCmp.eq_swap (cmp := rank)
      isLE_trans := fun {a b c} => Std.TransCmp.isLE_trans (cmp := rank) }
  exact inferInstanceAs (Std.TransCmp (compareLex (fun (a b : SubProblem σ) => compare a.ub b.ub)
    (fun (a b : SubProblem σ) => rank a.state b.state)))

theorem leO_trans (a b c : Option (SubProblem σ)) (h1 : leO rank a b) (h2 : leO rank b c) : leO rank a c := by
  cases a <;> cases b <;> cases c <;> simp_all only [leO]
  exact Std.TransCmp.isLE_trans h1 h2

theorem leO_refl (a : Option (SubProblem σ)) : leO rank a a := by
  cases a <;> simp only [leO]
  exact Std.ReflCmp.isLE_rfl

theorem leO_of_gt {a b : SubProblem σ} (h : maxUB rank a b = .gt) : leO rank (some b) (some a) := by
  simp only [leO]
  rw [Std.OrientedCmp.eq_swap (cmp := maxUB rank), h]; rfl

theorem leO_of_not_gt {a b : SubProblem σ} (h : maxUB rank a b ≠ .gt) : leO rank (some a) (some b) := by
  simp only [leO]
  cases hc : maxUB rank a b <;> simp_all

theorem leO_of_lt {a b : SubProblem σ} (h : maxUB rank a b = .lt) : leO rank (some a) (some b) := by
  simp [leO, h]

theorem leO_of_not_lt {a b : SubProblem σ} (h : maxUB rank a b ≠ .lt) : leO rank (some b) (some a) := by
  simp only [leO]
  rw [Std.OrientedCmp.eq_swap (cmp := maxUB rank)]
  cases hc : maxUB rank a b <;> simp_all

omit [Std.TransCmp rank] in
theorem cmp_int (a b : Int) : compare a b = if a < b then .lt else if a = b then .eq else .gt := rfl

omit [Std.TransCmp rank] in
theorem leO_ub {a b : SubProblem σ} (h : leO rank (some a) (some b)) : a.ub ≤ b.ub := by
  simp only [leO, maxUB] at h
  rw [cmp_int] at h
  split at h
  · omega
  · split at h
    · omega
    · simp at h

end cmp

/-! ### The heap -/
section heap
variable {σ : Type} [DecidableEq σ] (rank : σ → σ → Ordering)

/-- The node at a heap position. -/
def K (f : NoDup σ) (i : Nat) : Option (SubProblem σ) := f.heap[i]?.bind (f.nodes[·]?)

/-- `pos` inverts `heap`. -/
structure Base (f : NoDup σ) : Prop where
  lenEq : f.pos.length = f.nodes.length
  hp : ∀ (i id : Nat), f.heap[i]? = some id → f.pos[id]? = some i

omit [DecidableEq σ] in
theorem Base.node {f : NoDup σ} (h : Base f) {i id : Nat} (hi : f.heap[i]? = some id) :
    ∃ n, f.nodes[id]? = some n ∧ K f i = some n := by
  have h1 := h.hp i id hi
  have h2 : id < f.pos.length := (List.getElem?_eq_some_iff.mp h1).1
  rw [h.lenEq] at h2
  refine ⟨f.nodes[id], by simp [h2], ?_⟩
  simp [K, hi, h2]

omit [DecidableEq σ] in
theorem Base.inj {f : NoDup σ} (h : Base f) {i j id : Nat} (hi : f.heap[i]? = some id)
    (hj : f.heap[j]? = some id) : i = j := by
  have := (h.hp i id hi).symm.trans (h.hp j id hj)
  simpa using this

theorem Base.compare {f : NoDup σ} (h : Base f) {x y : Nat} (hx : x < f.heap.length) (hy : y < f.heap.length) :
    ∃ a b, K f x = some a ∧ K f y = some b ∧ f.compareAtPos rank x y = some (maxUB rank a b) := by
  have hx' : f.heap[x]? = some f.heap[x] := by simp [hx]
  have hy' : f.heap[y]? = some f.heap[y] := by simp [hy]
  obtain ⟨a, ha, ha'⟩ := h.node hx'
  obtain ⟨b, hb, hb'⟩ := h.node hy'
  refine ⟨a, b, ha', hb', ?_⟩
  simp [NoDup.compareAtPos, hx, hy, ha, hb]

/-- `f'` is `f` with its heap rearranged. -/
structure Rearr (f f' : NoDup σ) : Prop where
  base : Base f'
  nodes : f'.nodes = f.nodes
  states : f'.states = f.states
  bin : f'.bin = f.bin
  len : f'.heap.length = f.heap.length
  mem : ∀ x, x ∈ f'.heap ↔ x ∈ f.heap

theorem swapWith_spec {f : NoDup σ} (h : Base f) {id oid me other : Nat}
    (hme : f.heap[me]? = some id) (hot : f.heap[other]? = some oid) (hne : me ≠ other) :
    ∃ f', f.swapWith id me other = some f' ∧ Rearr f f' ∧ f'.heap[other]? = some id ∧
      ∀ i, K f' i = swapK (K f) me other i := by
  have hpid := h.hp _ _ hme
  have hpoid := h.hp _ _ hot
  have l1 : id < f.pos.length := (List.getElem?_eq_some_iff.mp hpid).1
  have l2 : oid < f.pos.length := (List.getElem?_eq_some_iff.mp hpoid).1
  have l3 : me < f.heap.length := (List.getElem?_eq_some_iff.mp hme).1
  have l4 : other < f.heap.length := (List.getElem?_eq_some_iff.mp hot).1
  have hidne : id ≠ oid := by
    intro e; subst e; exact hne (h.inj hme hot)
  let f' : NoDup σ := { f with pos := (f.pos.set oid me).set id other, heap := (f.heap.set me oid).set other id }
  have hget : ∀ i, f'.heap[i]? = if i = other then some id else if i = me then some oid else f.heap[i]? := by
    intro i
    simp only [f', List.getElem?_set, List.length_set]
    by_cases h1 : i = other
    · subst h1; simp [l4]
    · by_cases h2 : i = me
      · subst h2; rw [if_neg (Ne.symm h1), if_neg h1]; simp [l3]
      · rw [if_neg (Ne.symm h1), if_neg (Ne.symm h2), if_neg h1, if_neg h2]
  have hpos : ∀ i, f'.pos[i]? = if i = id then some other else if i = oid then some me else f.pos[i]? := by
    intro i
    simp only [f', List.getElem?_set, List.length_set]
    by_cases h1 : i = id
    · subst h1; simp [l1]
    · by_cases h2 : i = oid
      · subst h2
        rw [if_neg (Ne.symm h1)]; simp [l2, h1]
      · rw [if_neg (Ne.symm h1), if_neg (Ne.symm h2), if_neg h1, if_neg h2]
  refine ⟨f', ?_, ⟨⟨?_, ?_⟩, rfl, rfl, rfl, ?_, ?_⟩, ?_, ?_⟩
  · simp only [NoDup.swapWith, setChk, hot, l1, l2, l3, l4, f', List.length_set, if_true,
      Option.bind_eq_bind, Option.bind_some, Option.pure_def]
  · simp [f', h.lenEq]
  · intro i x hx
    rw [hget] at hx
    rw [hpos]
    split at hx
    · cases hx; simp_all
    · split at hx
      · cases hx
        rw [if_neg (Ne.symm hidne)]; simp_all
      · rename_i h1 h2
        have h3 : x ≠ id := by rintro rfl; exact h2 (h.inj hx hme)
        have h4 : x ≠ oid := by rintro rfl; exact h1 (h.inj hx hot)
        simp only [h3, h4, if_false]
        exact h.hp i x hx
  · simp [f']
  · intro x
    simp only [List.mem_iff_getElem?]
    constructor
    · rintro ⟨i, hi⟩
      rw [hget] at hi
      split at hi
      · cases hi; exact ⟨me, hme⟩
      · split at hi
        · cases hi; exact ⟨other, hot⟩
        · exact ⟨i, hi⟩
    · rintro ⟨i, hi⟩
      by_cases h1 : i = me
      · subst h1
        refine ⟨other, ?_⟩
        rw [hget, if_pos rfl, ← hme, hi]
      · by_cases h2 : i = other
        · subst h2
          refine ⟨me, ?_⟩
          rw [hget, if_neg hne, if_pos rfl, ← hot, hi]
        · exact ⟨i, by rw [hget, if_neg h2, if_neg h1, hi]⟩
  · rw [hget, if_pos rfl]
  · intro i
    unfold K swapK
    rw [hget]
    show Option.bind _ (f.nodes[·]?) = _
    by_cases h1 : i = other
    · subst h1; simp only [if_true, Ne.symm hne, if_false, hme]
    · by_cases h2 : i = me
      · subst h2; simp only [if_true, h1, if_false, hot]
      · simp only [h1, h2, if_false]

theorem Rearr.refl {f : NoDup σ} (h : Base f) : Rearr f f := ⟨h, rfl, rfl, rfl, rfl, fun _ => Iff.rfl⟩

theorem Rearr.trans {f g k : NoDup σ} (h : Rearr f g) (h' : Rearr g k) : Rearr f k :=
  ⟨h'.base, h'.nodes.trans h.nodes, h'.states.trans h.states, h'.bin.trans h.bin, h'.len.trans h.len,
    fun x => (h'.mem x).trans (h.mem x)⟩

theorem parent_eq (p : Nat) : NoDup.parent p = (p - 1) / 2 := by
  unfold NoDup.parent
  repeat' split
  all_goals omega

variable [Std.TransCmp rank]

theorem bubbleUpLoop_spec (fuel : Nat) {f : NoDup σ} (h : Base f) {id me : Nat} (hf : me < fuel)
    (hme : f.heap[me]? = some id) (ho : UpOrd (leO rank) (K f) f.heap.length me) :
    ∃ f', NoDup.bubbleUpLoop rank fuel f id me = some f' ∧ Rearr f f' ∧
      Ord (leO rank) (K f') f'.heap.length := by
  induction fuel generalizing f me with
  | zero => omega
  | succ fuel ih =>
    have l3 : me < f.heap.length := (List.getElem?_eq_some_iff.mp hme).1
    unfold NoDup.bubbleUpLoop
    by_cases h0 : me = 0
    · rw [if_pos h0]
      exact ⟨f, rfl, .refl h, ho.done (by omega)⟩
    · rw [if_neg h0, parent_eq]
      obtain ⟨a, b, ha, hb, hc⟩ := h.compare rank l3 (y := (me - 1) / 2) (by omega)
      simp only [hc, Option.bind_eq_bind, Option.bind_some]
      by_cases hgt : maxUB rank a b = .gt
      · rw [if_pos hgt]
        have l4 : (me - 1) / 2 < f.heap.length := by omega
        obtain ⟨f1, h1, h2, h3, h4⟩ := swapWith_spec h hme (other := (me - 1) / 2)
          (oid := f.heap[(me - 1) / 2]) (by simp [l4]) (by omega)
        simp only [h1, Option.bind_some]
        have hst := UpOrd.step (leO_trans rank) (by omega) l3 ho
          (by rw [ha, hb]; exact leO_of_gt rank hgt)
        obtain ⟨f2, g1, g2, g3⟩ := ih (f := f1) (me := (me - 1) / 2) h2.base (by omega) h3 (by
          rw [h2.len]
          have : K f1 = swapK (K f) me ((me - 1) / 2) := funext h4
          rw [this]; exact hst)
        exact ⟨f2, g1, h2.trans g2, g3⟩
      · rw [if_neg hgt]
        exact ⟨f, rfl, .refl h, ho.done (fun _ => by rw [ha, hb]; exact leO_of_not_gt rank hgt)⟩

theorem maxChildOf_spec {f : NoDup σ} (h : Base f) (me : Nat) :
    (f.heap.length ≤ 2 * me + 1 ∧ f.maxChildOf rank me = some 0) ∨
    ∃ kid, f.maxChildOf rank me = some kid ∧ 0 < kid ∧ kid < f.heap.length ∧ (kid - 1) / 2 = me ∧
      ∀ i, 0 < i → i < f.heap.length → (i - 1) / 2 = me → leO rank (K f i) (K f kid) := by
  unfold NoDup.maxChildOf NoDup.len NoDup.leftChild NoDup.rightChild
  by_cases h1 : me * 2 + 1 ≥ f.heap.length
  · left; exact ⟨by omega, by simp only [h1, if_true]⟩
  · right
    simp only [h1, if_false]
    by_cases h2 : me * 2 + 2 ≥ f.heap.length
    · refine ⟨me * 2 + 1, by simp only [h2, if_true], by omega, by omega, by omega, ?_⟩
      intro i hi hil him
      have : i = me * 2 + 1 := by omega
      subst this; exact leO_refl rank _
    · simp only [h2, if_false]
      obtain ⟨a, b, ha, hb, hc⟩ := h.compare rank (x := me * 2 + 1) (y := me * 2 + 2) (by omega) (by omega)
      simp only [hc, Option.bind_eq_bind, Option.bind_some, Option.pure_def]
      by_cases hgt : maxUB rank a b = .gt
      · refine ⟨me * 2 + 1, by simp only [hgt, if_true], by omega, by omega, by omega, ?_⟩
        intro i hi hil him
        have : i = me * 2 + 1 ∨ i = me * 2 + 2 := by omega
        rcases this with rfl | rfl
        · exact leO_refl rank _
        · rw [ha, hb]; exact leO_of_gt rank hgt
      · refine ⟨me * 2 + 2, by simp only [hgt, if_false], by omega, by omega, by omega, ?_⟩
        intro i hi hil him
        have : i = me * 2 + 1 ∨ i = me * 2 + 2 := by omega
        rcases this with rfl | rfl
        · rw [ha, hb]; exact leO_of_not_gt rank hgt
        · exact leO_refl rank _

theorem bubbleDownLoop_spec (fuel : Nat) {f : NoDup σ} (h : Base f) {id me : Nat} (hf : f.heap.length ≤ me + fuel)
    (hme : f.heap[me]? = some id) (ho : DownOrd (leO rank) (K f) f.heap.length me) :
    ∃ f', NoDup.bubbleDownLoop rank fuel f id me = some f' ∧ Rearr f f' ∧
      Ord (leO rank) (K f') f'.heap.length := by
  induction fuel generalizing f me with
  | zero =>
    have l3 : me < f.heap.length := (List.getElem?_eq_some_iff.mp hme).1
    omega
  | succ fuel ih =>
    have l3 : me < f.heap.length := (List.getElem?_eq_some_iff.mp hme).1
    unfold NoDup.bubbleDownLoop
    rcases maxChildOf_spec rank h me with ⟨hl, hk⟩ | ⟨kid, hk, hk0, hkl, hkm, hmax⟩
    · simp only [hk, Option.bind_eq_bind, Option.bind_some]
      exact ⟨f, rfl, .refl h, ho.done (by intro i _ _ _; omega)⟩
    · simp only [hk, Option.bind_eq_bind, Option.bind_some, gt_iff_lt, hk0, if_true]
      obtain ⟨a, b, ha, hb, hc⟩ := h.compare rank l3 hkl
      simp only [hc, Option.bind_some]
      by_cases hlt : maxUB rank a b = .lt
      · rw [if_pos hlt]
        obtain ⟨f1, h1, h2, h3, h4⟩ := swapWith_spec h hme (other := kid)
          (oid := f.heap[kid]) (by simp [hkl]) (by omega)
        simp only [h1, Option.bind_some]
        have hst := DownOrd.step (leO_trans rank) ho hk0 hkl hkm hmax
          (by rw [ha, hb]; exact leO_of_lt rank hlt)
        obtain ⟨f2, g1, g2, g3⟩ := ih (f := f1) (me := kid) h2.base (by rw [h2.len]; omega) h3 (by
          rw [h2.len]
          have : K f1 = swapK (K f) me kid := funext h4
          rw [this]; exact hst)
        exact ⟨f2, g1, h2.trans g2, g3⟩
      · rw [if_neg hlt]
        refine ⟨f, rfl, .refl h, ho.done ?_⟩
        intro i hi hil him
        refine leO_trans rank _ _ _ (hmax i hi hil him) ?_
        rw [ha, hb]; exact leO_of_not_lt rank hlt

end heap
end Verif.Proofs
