import Verif.Proofs.NoDup
/-! The invariant of `NoDupFrontier` and the effect of each operation on the held nodes. -/
set_option autoImplicit false

namespace Verif.Proofs
open Verif
variable {σ : Type} [DecidableEq σ] (rank : σ → σ → Ordering)

/-- Invariant of the frontier. -/
structure Inv (f : NoDup σ) : Prop where
  base : Base f
  ord : Ord (leO rank) (K f) f.heap.length
  st : ∀ (s : σ) (id : Nat), f.states s = some id ↔ id ∈ f.heap ∧ ∃ n, f.nodes[id]? = some n ∧ n.state = s
  binNodup : f.bin.Nodup
  binOk : ∀ id ∈ f.bin, id < f.nodes.length ∧ id ∉ f.heap

/-- The node held for a state. -/
def held (f : NoDup σ) (s : σ) : Option (SubProblem σ) := (f.states s).bind (f.nodes[·]?)

/-- What a push makes of the held node. -/
def mergeEntry : Option (SubProblem σ) → SubProblem σ → SubProblem σ
  | none, n => n
  | some o, n => { state := n.state, value := if n.value > o.value then n.value else o.value,
                   path := if n.value > o.value then n.path else o.path, ub := max n.ub o.ub }

omit [DecidableEq σ] in
theorem Inv.nodup {f : NoDup σ} (h : Base f) : f.heap.Nodup := by
  rw [List.nodup_iff_pairwise_ne, List.pairwise_iff_getElem]
  intro i j hi hj hij e
  have := h.inj (i := i) (j := j) (id := f.heap[i]) (by simp [hi]) (by simp [hj, e])
  omega

omit [DecidableEq σ] in
theorem Inv.held_mem {f : NoDup σ} (h : Inv rank f) {s : σ} {n : SubProblem σ} (hh : held f s = some n) :
    n.state = s ∧ ∃ id, f.states s = some id ∧ f.nodes[id]? = some n ∧ id ∈ f.heap := by
  unfold held at hh
  cases hs : f.states s with
  | none => rw [hs] at hh; cases hh
  | some id =>
    rw [hs] at hh
    obtain ⟨h1, m, h2, h3⟩ := (h.st s id).mp hs
    simp only [Option.bind_some] at hh
    rw [h2] at hh; cases hh
    exact ⟨h3, id, rfl, h2, h1⟩

omit [DecidableEq σ] in
theorem Inv.held_of {f : NoDup σ} (h : Inv rank f) {id : Nat} {n : SubProblem σ}
    (hn : f.nodes[id]? = some n) (hm : id ∈ f.heap) : held f n.state = some n := by
  have := (h.st n.state id).mpr ⟨hm, n, hn, rfl⟩
  simp [held, this, hn]

/-- The comparison only looks at the bound and the state. -/
theorem maxUB_congr {a a' b : SubProblem σ} (h1 : a.ub = a'.ub) (h2 : a.state = a'.state) :
    maxUB rank a b = maxUB rank a' b := by
  simp [maxUB, h1, h2]

omit [DecidableEq σ] in
theorem new_inv : Inv rank (NoDup.new : NoDup σ) := by
  constructor
  · constructor <;> simp [NoDup.new]
  · intro i _ h; simp [NoDup.new] at h
  · simp [NoDup.new]
  · simp [NoDup.new]
  · simp [NoDup.new]

variable [Std.TransCmp rank]

theorem bubbleUp_spec {f : NoDup σ} (h : Base f) {id me : Nat}
    (hme : f.heap[me]? = some id) (ho : UpOrd (leO rank) (K f) f.heap.length me) :
    ∃ f', f.bubbleUp rank id = some f' ∧ Rearr f f' ∧ Ord (leO rank) (K f') f'.heap.length := by
  have l3 : me < f.heap.length := (List.getElem?_eq_some_iff.mp hme).1
  unfold NoDup.bubbleUp
  simp only [h.hp me id hme, Option.bind_eq_bind, Option.bind_some]
  exact bubbleUpLoop_spec rank _ h (by omega) hme ho

theorem bubbleDown_spec {f : NoDup σ} (h : Base f) {id me : Nat}
    (hme : f.heap[me]? = some id) (ho : DownOrd (leO rank) (K f) f.heap.length me) :
    ∃ f', f.bubbleDown rank id = some f' ∧ Rearr f f' ∧ Ord (leO rank) (K f') f'.heap.length := by
  unfold NoDup.bubbleDown
  simp only [h.hp me id hme, Option.bind_eq_bind, Option.bind_some]
  exact bubbleDownLoop_spec rank _ h (by omega) hme ho

omit [Std.TransCmp rank] in
/-- A rearrangement with restored order keeps the invariant and the held nodes. -/
theorem Rearr.inv {f f' : NoDup σ} (r : Rearr f f') (ho : Ord (leO rank) (K f') f'.heap.length)
    (st : ∀ (s : σ) (id : Nat), f.states s = some id ↔ id ∈ f.heap ∧ ∃ n, f.nodes[id]? = some n ∧ n.state = s)
    (bn : f.bin.Nodup) (bo : ∀ id ∈ f.bin, id < f.nodes.length ∧ id ∉ f.heap) :
    Inv rank f' ∧ held f' = held f := by
  refine ⟨⟨r.base, ho, ?_, ?_, ?_⟩, ?_⟩
  · intro s id; rw [r.states, r.mem, r.nodes]; exact st s id
  · rw [r.bin]; exact bn
  · intro id; rw [r.bin, r.nodes, r.mem]; exact bo id
  · funext s; simp [held, r.states, r.nodes]

/-- Replacing the node at one heap position by one with the same state and a larger or equal bound. -/
theorem replace_spec {f : NoDup σ} (h : Inv rank f) {id : Nat} {old n : SubProblem σ}
    (hn : f.nodes[id]? = some old) (hm : id ∈ f.heap) (hst : n.state = old.state)
    (f1 : NoDup σ) (hf1 : f1 = { f with nodes := f.nodes.set id n })
    (hub : old.ub ≤ n.ub) :
    Base f1 ∧ (∃ me, f1.heap[me]? = some id ∧ UpOrd (leO rank) (K f1) f1.heap.length me) ∧
    (maxUB rank n old ≠ .gt → Ord (leO rank) (K f1) f1.heap.length) ∧
    (∀ (s : σ) (id : Nat), f1.states s = some id ↔ id ∈ f1.heap ∧ ∃ m, f1.nodes[id]? = some m ∧ m.state = s) ∧
    (∀ s, held f1 s = if s = n.state then some n else held f s) := by
  have hlt : id < f.nodes.length := (List.getElem?_eq_some_iff.mp hn).1
  obtain ⟨me, hme⟩ := List.mem_iff_getElem?.mp hm
  have hget : ∀ j, f1.nodes[j]? = if j = id then some n else f.nodes[j]? := by
    intro j; subst hf1
    simp only [List.getElem?_set]
    by_cases hj : j = id
    · subst hj; simp [hlt]
    · rw [if_neg (Ne.symm hj), if_neg hj]
  have hh : f1.heap = f.heap := by rw [hf1]
  have hs : f1.states = f.states := by rw [hf1]
  have hb : Base f1 := ⟨by subst hf1; simp [h.base.lenEq], by subst hf1; exact h.base.hp⟩
  have hKme : K f me = some old := by simp [K, hme, hn]
  have hK : ∀ i, K f1 i = if i = me then some n else K f i := by
    intro i
    by_cases hi : i = me
    · subst hi; simp [K, hh, hme, hget]
    · rw [if_neg hi]
      unfold K; rw [hh]
      cases hx : f.heap[i]? with
      | none => rfl
      | some x =>
        have : x ≠ id := by rintro rfl; exact hi (h.base.inj hx hme)
        simp [hget, this]
  have hle : leO rank (some old) (some n) := by
    simp only [leO, maxUB, hst]
    rw [cmp_int]
    have hr : rank old.state old.state = .eq := Std.ReflCmp.compare_self
    rw [hr]
    split
    · rfl
    · rw [if_pos (by omega)]; rfl
  have hup : UpOrd (leO rank) (K f1) f1.heap.length me := by
    intro i hi hil
    rw [hh] at hil
    constructor
    · intro hne
      rw [hK, hK, if_neg hne]
      have h1 := h.ord i hi hil
      split
      · rename_i hp
        rw [hp, hKme] at h1
        exact leO_trans rank _ _ _ h1 hle
      · exact h1
    · intro hp h0
      have h1 := h.ord i hi hil
      have l3 : me < f.heap.length := (List.getElem?_eq_some_iff.mp hme).1
      have h2 := h.ord me h0 l3
      rw [hp] at h1
      rw [hK, hK, if_neg (by omega), if_neg (by omega)]
      exact leO_trans rank _ _ _ h1 h2
  refine ⟨hb, ⟨me, by rw [hh]; exact hme, hup⟩, ?_, ?_, ?_⟩
  · intro hng
    apply hup.done
    intro h0
    have l3 : me < f.heap.length := (List.getElem?_eq_some_iff.mp hme).1
    have h2 := h.ord me h0 l3
    rw [hKme] at h2
    rw [hK, hK, if_pos rfl, if_neg (by omega)]
    exact leO_trans rank _ _ _ (leO_of_not_gt rank hng) h2
  · intro s j
    rw [hs, hh, h.st s j]
    by_cases hj : j = id
    · subst hj
      simp only [hget, if_true, hn, Option.some.injEq, exists_eq_left', hst]
    · simp only [hget, hj, if_false]
  · intro s
    unfold held
    rw [hs]
    by_cases hsn : s = n.state
    · subst hsn
      have : f.states n.state = some id := (h.st n.state id).mpr ⟨hm, old, hn, hst.symm⟩
      simp [this, hget]
    · rw [if_neg hsn]
      cases hx : f.states s with
      | none => rfl
      | some j =>
        have : j ≠ id := by
          rintro rfl
          obtain ⟨-, m, h1, h2⟩ := (h.st s j).mp hx
          rw [hn] at h1; cases h1
          exact hsn (h2.symm.trans hst.symm)
        simp [hget, this]

theorem push_spec {f : NoDup σ} (h : Inv rank f) (n : SubProblem σ) :
    ∃ f', f.push rank n = some f' ∧ Inv rank f' ∧
      ∀ s, held f' s = if s = n.state then some (mergeEntry (held f s) n) else held f s := by
  unfold NoDup.push
  cases hs : f.states n.state with
  | some id =>
    simp only
    obtain ⟨hm, old, hn, hst⟩ := (h.st n.state id).mp hs
    have hheld : held f n.state = some old := by simp [held, hs, hn]
    have hlt : id < f.nodes.length := (List.getElem?_eq_some_iff.mp hn).1
    let n' : SubProblem σ := mergeEntry (some old) n
    obtain ⟨hb, ⟨me, hme, hup⟩, hng, hst1, hheld1⟩ := replace_spec rank h hn hm (n := n') hst.symm
      { f with nodes := f.nodes.set id n' } rfl (by simp only [n', mergeEntry]; omega)
    have hupd : f.pushOccupied rank n id =
        (if maxUB rank n' old = .gt then ({ f with nodes := f.nodes.set id n' }).bubbleUp rank id
          else some { f with nodes := f.nodes.set id n' }) := by
      have hmax : maxUB rank { n with ub := max n.ub old.ub } old = maxUB rank n' old :=
        maxUB_congr rank rfl rfl
      have hset : f.nodes.set id old = f.nodes := by
        have : f.nodes[id] = old := by simpa [hlt] using hn
        rw [← this]; exact List.set_getElem_self hlt
      unfold NoDup.pushOccupied
      simp only [hn, Option.bind_eq_bind, Option.bind_some, hmax, setChk, hlt, if_true]
      by_cases c1 : n.value > old.value <;> by_cases c2 : n.ub > old.ub <;>
        simp only [c1, c2, if_true, if_false, Option.bind_some, hn, List.length_set,
          List.getElem?_set_self hlt, hlt, List.set_set]
      · have : n' = { n with ub := n.ub } := by
          simp only [n', mergeEntry, c1, if_true]
          congr 1; omega
        rw [this]
      · have : n' = { n with ub := max n.ub old.ub } := by
          simp only [n', mergeEntry, c1, if_true]
        rw [this]
      · have : n' = { old with ub := n.ub } := by
          simp only [n', mergeEntry, c1, if_false, hst]
          congr 1; omega
        rw [this]
      · have : n' = old := by
          simp only [n', mergeEntry, c1, if_false]
          cases old; simp_all; omega
        rw [this, hset]
    rw [hupd]
    have hheld2 : ∀ s, held { f with nodes := f.nodes.set id n' } s =
        if s = n.state then some (mergeEntry (held f s) n) else held f s := by
      intro s
      rw [hheld1 s]
      by_cases e : s = n.state
      · subst e; rw [if_pos rfl, hheld]; exact if_pos rfl
      · rw [if_neg e]; rw [if_neg (show ¬ s = n'.state from e)]
    by_cases c : maxUB rank n' old = .gt
    · rw [if_pos c]
      obtain ⟨f2, g1, g2, g3⟩ := bubbleUp_spec rank hb hme hup
      have := g2.inv rank g3 hst1 h.binNodup (by simpa using h.binOk)
      exact ⟨f2, g1, this.1, by rw [this.2]; exact hheld2⟩
    · rw [if_neg c]
      exact ⟨_, rfl, ⟨hb, hng c, hst1, h.binNodup, by simpa using h.binOk⟩, hheld2⟩
  | none =>
    simp only
    -- common part of the two sub-cases
    have key : ∀ (id : Nat) (f1 : NoDup σ), f1.heap = f.heap → f1.states = f.states →
        (∀ j ∈ f.heap, f1.nodes[j]? = f.nodes[j]?) → f1.nodes[id]? = some n → id ∉ f.heap →
        f1.pos.length = f1.nodes.length → (∀ j ∈ f.heap, f1.pos[j]? = f.pos[j]?) →
        f1.bin.Nodup → (∀ j ∈ f1.bin, j < f1.nodes.length ∧ j ∉ f.heap ∧ j ≠ id) →
        ∃ f', ((setChk f1.pos id ((f1.heap ++ [id]).length - 1)).bind fun pos =>
          NoDup.bubbleUp rank { f1 with
            heap := f1.heap ++ [id]
            pos := pos
            states := fun s => if s = n.state then some id else f1.states s } id)
            = some f' ∧ Inv rank f' ∧
          ∀ s, held f' s = if s = n.state then some (mergeEntry (held f s) n) else held f s := by
      intro id f1 e1 e2 e3 e4 e5 e6 e7 e8 e9
      have hidl : id < f1.pos.length := by rw [e6]; exact (List.getElem?_eq_some_iff.mp e4).1
      simp only [setChk, hidl, if_true, Option.bind_eq_bind, Option.bind_some, List.length_append,
        List.length_singleton, Nat.add_sub_cancel]
      let f2 : NoDup σ := { f1 with
        heap := f1.heap ++ [id]
        pos := f1.pos.set id f1.heap.length
        states := fun s => if s = n.state then some id else f1.states s }
      have hheap : ∀ i, f2.heap[i]? = if i = f.heap.length then some id else f.heap[i]? := by
        intro i
        simp only [f2, e1, List.getElem?_append]
        by_cases hi : i < f.heap.length
        · rw [if_pos hi, if_neg (by omega)]
        · rw [if_neg hi]
          by_cases hi2 : i = f.heap.length
          · subst hi2; simp
          · rw [if_neg hi2]
            have h1 : f.heap[i]? = none := List.getElem?_eq_none (by omega)
            rw [h1]; exact List.getElem?_eq_none (by simp; omega)
      have hpos : ∀ j, f2.pos[j]? = if j = id then some f.heap.length else f1.pos[j]? := by
        intro j
        simp only [f2, e1, List.getElem?_set]
        by_cases hj : j = id
        · subst hj; simp [hidl]
        · rw [if_neg (Ne.symm hj), if_neg hj]
      have hb : Base f2 := by
        refine ⟨by simp [f2, e6], ?_⟩
        intro i x hx
        rw [hheap] at hx
        rw [hpos]
        split at hx
        · cases hx; simp_all
        · have hxm : x ∈ f.heap := List.mem_of_getElem? hx
          rw [if_neg (by rintro rfl; exact e5 hxm), e7 x hxm]
          exact h.base.hp i x hx
      have hK : ∀ i, K f2 i = if i = f.heap.length then some n else K f i := by
        intro i
        unfold K
        rw [hheap]
        by_cases hi : i = f.heap.length
        · simp only [hi, if_true, Option.bind_some]; exact e4
        · simp only [hi, if_false]
          cases hx : f.heap[i]? with
          | none => rfl
          | some x => simp only [Option.bind_some]; exact e3 x (List.mem_of_getElem? hx)
      have hlen : f2.heap.length = f.heap.length + 1 := by simp [f2, e1]
      have hup : UpOrd (leO rank) (K f2) f2.heap.length f.heap.length := by
        intro i hi hil
        rw [hlen] at hil
        constructor
        · intro hne
          rw [hK, hK, if_neg hne, if_neg (by omega)]
          exact h.ord i hi (by omega)
        · intro hp _; omega
      obtain ⟨f3, g1, g2, g3⟩ := bubbleUp_spec rank hb (me := f.heap.length) (id := id)
        (by rw [hheap, if_pos rfl]) hup
      have hmem2 : ∀ x, x ∈ f2.heap ↔ x ∈ f.heap ∨ x = id := by
        intro x; simp [f2, e1]
      have hst2 : ∀ (s : σ) (j : Nat), f2.states s = some j ↔
          j ∈ f2.heap ∧ ∃ m, f2.nodes[j]? = some m ∧ m.state = s := by
        intro s j
        show (if s = n.state then some id else f1.states s) = some j ↔ _
        rw [hmem2]
        by_cases hsn : s = n.state
        · subst hsn
          rw [if_pos rfl]
          constructor
          · rintro ⟨⟩
            exact ⟨Or.inr rfl, n, e4, rfl⟩
          · rintro ⟨hj | hj, m, hm1, hm2⟩
            · have hm1' : f.nodes[j]? = some m := by rw [← e3 j hj]; exact hm1
              have := (h.st n.state j).mpr ⟨hj, m, hm1', hm2⟩
              rw [hs] at this; cases this
            · rw [hj]
        · rw [if_neg hsn, e2, h.st s j]
          constructor
          · rintro ⟨hj, m, hm1, hm2⟩
            exact ⟨Or.inl hj, m, by rw [← e3 j hj] at hm1; exact hm1, hm2⟩
          · rintro ⟨hj | hj, m, hm1, hm2⟩
            · exact ⟨hj, m, by rw [← e3 j hj]; exact hm1, hm2⟩
            · subst hj
              have hm1' : f1.nodes[j]? = some m := hm1
              rw [e4] at hm1'; cases hm1'
              exact absurd hm2.symm hsn
      have hbin2 : ∀ j ∈ f2.bin, j < f2.nodes.length ∧ j ∉ f2.heap := by
        intro j hj
        have := e9 j hj
        refine ⟨this.1, ?_⟩
        rw [hmem2]; rintro (h1 | h1)
        · exact this.2.1 h1
        · exact this.2.2 h1
      have hinv := g2.inv rank g3 hst2 e8 hbin2
      refine ⟨f3, g1, hinv.1, ?_⟩
      rw [hinv.2]
      intro s
      show ((if s = n.state then some id else f1.states s).bind (f1.nodes[·]?)) = _
      by_cases hsn : s = n.state
      · subst hsn
        have hnone : held f n.state = none := by simp [held, hs]
        rw [if_pos rfl, if_pos rfl, hnone]; exact e4
      · rw [if_neg hsn, if_neg hsn, e2]
        unfold held
        cases hx : f.states s with
        | none => rfl
        | some j =>
          exact e3 j ((h.st s j).mp hx).1
    unfold NoDup.pushVacant
    have hposlt : ∀ j ∈ f.heap, j < f.pos.length := by
      intro j hj
      obtain ⟨i, hi⟩ := List.mem_iff_getElem?.mp hj
      exact (List.getElem?_eq_some_iff.mp (h.base.hp i j hi)).1
    cases hbin : f.bin.getLast? with
    | none =>
      simp only [Option.bind_eq_bind, Option.bind_some]
      have hbin' : f.bin = [] := List.getLast?_eq_none_iff.mp hbin
      apply key f.nodes.length { f with nodes := f.nodes ++ [n], pos := f.pos ++ [0] } rfl rfl
      · intro j hj
        have := hposlt j hj
        rw [h.base.lenEq] at this
        simp [List.getElem?_append, this]
      · simp
      · intro hc
        have := hposlt _ hc
        rw [h.base.lenEq] at this; omega
      · simp [h.base.lenEq]
      · intro j hj
        simp [List.getElem?_append, hposlt j hj]
      · exact h.binNodup
      · simp [hbin']
    | some id =>
      have hmem : id ∈ f.bin := List.mem_of_getLast? hbin
      obtain ⟨h1, h2⟩ := h.binOk id hmem
      simp only [setChk, h1, if_true, Option.bind_eq_bind, Option.bind_some]
      apply key id { f with nodes := f.nodes.set id n, bin := f.bin.dropLast } rfl rfl
      · intro j hj
        have : id ≠ j := by rintro rfl; exact h2 hj
        simp [List.getElem?_set, this]
      · simp [h1]
      · exact h2
      · simp [h.base.lenEq]
      · intro j _; rfl
      · exact h.binNodup.sublist (List.dropLast_sublist _)
      · intro j hj
        have hjb : j ∈ f.bin := (List.dropLast_sublist _).subset hj
        refine ⟨by simpa using (h.binOk j hjb).1, (h.binOk j hjb).2, ?_⟩
        rintro rfl
        have hsplit : f.bin = f.bin.dropLast ++ [j] := by
          obtain ⟨ys, hys⟩ := List.getLast?_eq_some_iff.mp hbin
          rw [hys]; simp
        have hnd := h.binNodup
        rw [hsplit, List.nodup_append] at hnd
        exact hnd.2.2 j hj j (by simp) rfl

theorem swapRemove0_spec (id : Nat) (t : List Nat) :
    (t = [] ∧ NoDup.swapRemove0 (id :: t) = []) ∨
    ∃ l ys, t = ys ++ [l] ∧ NoDup.swapRemove0 (id :: t) = l :: ys := by
  cases h : t.getLast? with
  | none => left; exact ⟨List.getLast?_eq_none_iff.mp h, by simp [NoDup.swapRemove0, h]⟩
  | some l =>
    right
    obtain ⟨ys, hys⟩ := List.getLast?_eq_some_iff.mp h
    refine ⟨l, ys, hys, ?_⟩
    simp only [NoDup.swapRemove0, h]
    rw [hys]; simp

theorem pop_spec {f : NoDup σ} (h : Inv rank f) :
    (f.pop rank = some (f, none) ∧ ∀ s, held f s = none) ∨
    ∃ f' n, f.pop rank = some (f', some n) ∧ Inv rank f' ∧ held f n.state = some n ∧
      (∀ s, held f' s = if s = n.state then none else held f s) ∧
      (∀ s m, held f s = some m → leO rank (some m) (some n)) ∧ f.heap.length = f'.heap.length + 1 := by
  unfold NoDup.pop
  cases hheap : f.heap with
  | nil =>
    left
    refine ⟨by simp, ?_⟩
    intro s
    cases hh : held f s with
    | none => rfl
    | some n =>
      obtain ⟨-, id, -, -, hm⟩ := h.held_mem rank hh
      rw [hheap] at hm; simp at hm
  | cons id t =>
    right
    simp only [List.head?_cons]
    have h0 : f.heap[0]? = some id := by simp [hheap]
    obtain ⟨n, hn, hK0⟩ := h.base.node h0
    have hidm : id ∈ f.heap := by simp [hheap]
    have hheldn := h.held_of rank hn hidm
    have hidlt : id < f.nodes.length := (List.getElem?_eq_some_iff.mp hn).1
    have hbest : ∀ s m, held f s = some m → leO rank (some m) (some n) := by
      intro s m hm
      obtain ⟨-, j, -, hj, hjm⟩ := h.held_mem rank hm
      obtain ⟨i, hi⟩ := List.mem_iff_getElem?.mp hjm
      have hlt : i < f.heap.length := (List.getElem?_eq_some_iff.mp hi).1
      have := Ord.root (leO_trans rank) (leO_refl rank) h.ord i hlt
      rw [hK0] at this
      have hKi : K f i = some m := by simp [K, hi, hj]
      rwa [hKi] at this
    have hnodup := Inv.nodup h.base
    -- the common end of both cases
    have fin : ∀ f2 : NoDup σ, Base f2 → Ord (leO rank) (K f2) f2.heap.length → f2.nodes = f.nodes →
        f2.states = f.states → f2.bin = f.bin → (∀ x, x ∈ f2.heap ↔ x ∈ f.heap ∧ x ≠ id) →
        f.heap.length = f2.heap.length + 1 →
        Inv rank ({ f2 with bin := f2.bin ++ [id], states := fun s => if s = n.state then none else f2.states s } : NoDup σ) ∧
        (∀ s, held ({ f2 with bin := f2.bin ++ [id], states := fun s => if s = n.state then none else f2.states s } : NoDup σ) s
          = if s = n.state then none else held f s) := by
      intro f2 hb ho e1 e2 e3 e4 e5
      refine ⟨⟨⟨hb.lenEq, hb.hp⟩, ho, ?_, ?_, ?_⟩, ?_⟩
      · intro s j
        show (if s = n.state then none else f2.states s) = some j ↔ j ∈ f2.heap ∧ ∃ m, f2.nodes[j]? = some m ∧ m.state = s
        rw [e4, e1, e2]
        have hsid := (h.st n.state id).mpr ⟨hidm, n, hn, rfl⟩
        by_cases hs : s = n.state
        · subst hs
          rw [if_pos rfl]
          constructor
          · intro hc; cases hc
          · rintro ⟨⟨hj, hne⟩, m, hm1, hm2⟩
            have := (h.st n.state j).mpr ⟨hj, m, hm1, hm2⟩
            rw [hsid] at this; cases this; exact absurd rfl hne
        · rw [if_neg hs, h.st s j]
          constructor
          · rintro ⟨hj, m, hm1, hm2⟩
            refine ⟨⟨hj, ?_⟩, m, hm1, hm2⟩
            rintro rfl
            rw [hn] at hm1; cases hm1; exact hs hm2.symm
          · rintro ⟨⟨hj, -⟩, hm⟩; exact ⟨hj, hm⟩
      · show (f2.bin ++ [id]).Nodup
        rw [e3, List.nodup_append]
        refine ⟨h.binNodup, by simp, ?_⟩
        intro a ha b hb' hab
        simp at hb'; subst hb'; subst hab
        exact (h.binOk a ha).2 hidm
      · intro j hj
        show j < f2.nodes.length ∧ j ∉ f2.heap
        have hj' : j ∈ f2.bin ++ [id] := hj
        rw [e3] at hj'
        rw [e1, e4]
        rcases List.mem_append.mp hj' with hj1 | hj1
        · exact ⟨(h.binOk j hj1).1, fun hc => (h.binOk j hj1).2 hc.1⟩
        · simp at hj1; subst hj1
          exact ⟨hidlt, fun hc => hc.2 rfl⟩
      · intro s
        show ((if s = n.state then none else f2.states s).bind (f2.nodes[·]?)) = _
        by_cases hs : s = n.state
        · rw [if_pos hs, if_pos hs]; rfl
        · rw [if_neg hs, if_neg hs, e1, e2]; rfl
    rcases swapRemove0_spec id t with ⟨ht, hsr⟩ | ⟨l, ys, ht, hsr⟩
    · -- the heap had one element
      simp only [hsr, List.head?_nil, Option.bind_eq_bind, Option.bind_some, hn, Option.pure_def]
      refine ⟨_, n, rfl, ?_⟩
      subst ht
      have := fin { f with heap := [] } ⟨h.base.lenEq, by simp⟩ (by intro i _ hi; simp at hi) rfl rfl rfl
        (by intro x; rw [hheap]; simp) (by rw [hheap]; simp)
      exact ⟨this.1, hheldn, this.2, hbest, by simp⟩
    · simp only [hsr, List.head?_cons, setChk, Option.bind_eq_bind]
      have hlen : f.heap.length = ys.length + 2 := by rw [hheap, ht]; simp
      have hl : f.heap[ys.length + 1]? = some l := by rw [hheap, ht]; simp
      have hllt : l < f.pos.length := (List.getElem?_eq_some_iff.mp (h.base.hp _ _ hl)).1
      have hi0 : ∀ i, 0 < i → i < ys.length + 1 → (l :: ys)[i]? = f.heap[i]? := by
        intro i hi hil
        obtain ⟨k, rfl⟩ : ∃ k, i = k + 1 := ⟨i - 1, by omega⟩
        rw [hheap, ht]
        simp only [List.getElem?_cons_succ]
        rw [List.getElem?_append_left (by omega)]
      simp only [hllt, if_true, Option.bind_some]
      let f1 : NoDup σ := { f with heap := l :: ys, pos := f.pos.set l 0 }
      have hb1 : Base f1 := by
        refine ⟨by simp [f1, h.base.lenEq], ?_⟩
        intro i x hx
        have hx' : (l :: ys)[i]? = some x := hx
        show (f.pos.set l 0)[x]? = some i
        have hil : i < ys.length + 1 := by simpa using (List.getElem?_eq_some_iff.mp hx').1
        by_cases hi : i = 0
        · subst hi; simp at hx'; subst hx'; simp [hllt]
        · rw [hi0 i (by omega) hil] at hx'
          have hne : l ≠ x := by
            rintro rfl
            have := h.base.inj hx' hl; omega
          rw [List.getElem?_set_ne hne]
          exact h.base.hp i x hx'
      have hK1 : ∀ i, 0 < i → i < ys.length + 1 → K f1 i = K f i := by
        intro i hi hil
        unfold K
        show ((l :: ys)[i]?).bind _ = _
        rw [hi0 i hi hil]
      have hd : DownOrd (leO rank) (K f1) f1.heap.length 0 := by
        intro i hi hil
        have hil' : i < ys.length + 1 := by simpa [f1] using hil
        refine ⟨fun hp => ?_, by omega⟩
        rw [hK1 i hi hil', hK1 _ (by omega) (by omega)]
        exact h.ord i hi (by omega)
      obtain ⟨f2, g1, g2, g3⟩ := bubbleDown_spec rank hb1 (id := l) (me := 0) (by simp [f1]) hd
      have g1' : NoDup.bubbleDown rank { f with heap := l :: ys, pos := f.pos.set l 0 } l = some f2 := g1
      have hlen2 : f2.heap.length = ys.length + 1 := by rw [g2.len]; simp [f1]
      have hfin := fin f2 g2.base g3 g2.nodes g2.states g2.bin (by
        intro x
        rw [g2.mem]
        show x ∈ l :: ys ↔ _
        rw [hheap, ht]
        have hnd : id ∉ ys ∧ id ≠ l := by
          rw [hheap, ht] at hnodup
          have := (List.nodup_cons.mp hnodup).1
          simp at this; exact ⟨this.1, this.2⟩
        simp only [List.mem_cons, List.mem_append, List.mem_singleton, List.not_mem_nil, or_false]
        constructor
        · rintro (rfl | hx)
          · exact ⟨Or.inr (Or.inr rfl), fun e => hnd.2 e.symm⟩
          · exact ⟨Or.inr (Or.inl hx), by rintro rfl; exact hnd.1 hx⟩
        · rintro ⟨rfl | hx | rfl, hne⟩
          · exact absurd rfl hne
          · exact Or.inr hx
          · exact Or.inl rfl) (by rw [hlen, hlen2])
      have hn2 : f2.nodes[id]? = some n := by rw [g2.nodes]; exact hn
      rw [g1']
      simp only [Option.bind_some, hn2, Option.pure_def]
      refine ⟨_, n, rfl, hfin.1, hheldn, hfin.2, hbest, ?_⟩
      show (id :: t).length = f2.heap.length + 1
      rw [hlen2, ht]; simp

omit [Std.TransCmp rank] [DecidableEq σ] in
/-- The states held, as a list without repetition of length `len()`. -/
theorem len_spec {f : NoDup σ} (h : Inv rank f) :
    ∃ l : List σ, l.Nodup ∧ (∀ s, s ∈ l ↔ held f s ≠ none) ∧ l.length = f.len := by
  have hall : ∀ id ∈ f.heap, ∃ n, f.nodes[id]? = some n := by
    intro id hid
    obtain ⟨i, hi⟩ := List.mem_iff_getElem?.mp hid
    obtain ⟨n, hn, -⟩ := h.base.node hi
    exact ⟨n, hn⟩
  have hlt : ∀ id ∈ f.heap, id < f.nodes.length := by
    intro id hid
    obtain ⟨n, hn⟩ := hall id hid
    exact (List.getElem?_eq_some_iff.mp hn).1
  refine ⟨f.heap.attach.map (fun x => (f.nodes[x.1]'(hlt x.1 x.2)).state), ?_, ?_, ?_⟩
  · have hnd := Inv.nodup h.base
    have hnd' : f.heap.attach.Nodup := by
      have : (f.heap.attach.map Subtype.val).Nodup := by rw [List.attach_map_subtype_val]; exact hnd
      rw [List.nodup_iff_pairwise_ne, List.pairwise_map] at this
      exact List.nodup_iff_pairwise_ne.mpr (this.imp (fun hab e => hab (by rw [e])))
    rw [List.nodup_iff_pairwise_ne] at *
    rw [List.pairwise_map]
    refine hnd'.imp ?_
    intro a b hab e
    apply hab
    have h1 := (h.st (f.nodes[a.1]'(hlt a.1 a.2)).state a.1).mpr ⟨a.2, _, by simp [hlt a.1 a.2], rfl⟩
    have h2 := (h.st (f.nodes[b.1]'(hlt b.1 b.2)).state b.1).mpr ⟨b.2, _, by simp [hlt b.1 b.2], rfl⟩
    rw [e, h2] at h1
    exact Subtype.ext (by simpa using h1.symm)
  · intro s
    simp only [List.mem_map, List.mem_attach, true_and, Subtype.exists]
    constructor
    · rintro ⟨id, hid, rfl⟩
      rw [h.held_of rank (id := id) (by simp [hlt id hid]) hid]; simp
    · intro hne
      cases hh : held f s with
      | none => exact absurd hh hne
      | some n =>
        obtain ⟨hs, id, -, hn, hm⟩ := h.held_mem rank hh
        refine ⟨id, hm, ?_⟩
        have := hlt id hm
        have e : f.nodes[id] = n := by simpa [this] using hn
        rw [e, hs]
  · simp [NoDup.len]

end Verif.Proofs
