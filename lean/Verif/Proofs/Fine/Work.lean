import Verif.Proofs.Fine.Stores
import Verif.Proofs.Bar.Trans
/-! A compilation performed access by access is a compilation for some `Reads`. -/
set_option autoImplicit false

namespace Verif.Fine
open Verif Spec Dd
variable {σ : Type} [DecidableEq σ] [Inhabited σ] {cfg : SolverCfg σ} {S : Layering σ} {B : Int} {o : Oracle σ} {inp : Input σ}

section cont
variable (cfg o inp)

/-- The end of `compile`. -/
def endOf : Option (Dd σ × LoopEnd) → Option (Dd σ)
  | none => none
  | some (m, .emptyLayer) => some m
  | some (m, .finished) => some (m.finish .barrier o inp)

/-- The rest of a compilation from the top of the loop. -/
def contLoop (rd : Reads σ) (fuel depth : Nat) (m : Dd σ) (currL : List Nat) : Option (Dd σ) :=
  endOf o inp (loop .barrier o cfg.p cfg.r cfg.rank rd inp inp.residual.path.length fuel depth m currL)

/-- The rest of a compilation from the moment a layer has been pruned. -/
def contLayer (rd : Reads σ) (fuel depth var : Nat) (x : Dd σ × List Nat) : Option (Dd σ) :=
  match x.1.squashLayer .barrier o cfg.rank cfg.r inp inp.residual.path.length depth x.2 with
  | none => none
  | some (m, l) => contLoop cfg o inp rd fuel (depth + 1) (l.foldl (expandOne .barrier cfg.p inp var depth) m) l

def contK (rd : Reads σ) : Cont σ → Option (Dd σ)
  | .more fuel depth m currL => contLoop cfg o inp rd fuel depth m currL
  | .last D => some D

/-- The rest of a compilation. -/
def cont (rd : Reads σ) : Work σ → Option (Dd σ)
  | .top fuel depth m currL => contLoop cfg o inp rd fuel depth m currL
  | .look fuel depth var m currL =>
    contLayer cfg o inp rd fuel depth var (if rd.isEmpty depth = false then currL.foldl (pruneOne rd depth) (m, []) else (m, currL))
  | .prune fuel depth var m todo kept => contLayer cfg o inp rd fuel depth var (todo.foldl (pruneOne rd depth) (m, kept))
  | .test _ k => contK cfg o inp rd k
  | .write _ _ k => contK cfg o inp rd k
end cont

theorem compile_cont (rd : Reads σ) (m : Dd σ) : m.compile .barrier o cfg.p cfg.r cfg.rank rd inp =
    cont cfg o inp rd (.top (cfg.p.nbVars + 2) inp.residual.path.length (m.start inp) []) := by
  unfold compile cont contLoop endOf
  simp only
  split <;> simp_all

theorem cont_layerEnd (rd : Reads σ) (fuel depth var : Nat) (m : Dd σ) (l : List Nat) :
    contLayer cfg o inp rd fuel depth var (m, l) = match layerEnd cfg o inp fuel depth var m l with
      | none => none
      | some w => cont cfg o inp rd w := by
  unfold contLayer layerEnd
  simp only
  cases hs : m.squashLayer .barrier o cfg.rank cfg.r inp inp.residual.path.length depth l with
  | none => rfl
  | some x => rfl

theorem cont_top (rd : Reads σ) (fuel depth : Nat) (m : Dd σ) (l : List Nat) :
    contLoop cfg o inp rd fuel depth m l = match layerTop cfg o inp fuel depth m l with
      | none => none
      | some w => cont cfg o inp rd w := by
  cases fuel with
  | zero => rfl
  | succ fuel =>
    unfold contLoop loop layerTop
    simp only
    cases hv : cfg.p.nextVar ((o.hashOrd m.nextL).map (·.1)) with
    | none => rfl
    | some var =>
      simp only
      by_cases he : ((o.hashOrd m.nextL).map (·.2)).isEmpty = true
      · rw [if_pos he, if_pos he]; rfl
      · rw [if_neg he, if_neg he]
        by_cases hd : depth > inp.residual.path.length
        · rw [if_pos hd]
          simp only [cont, pruneLayer, hd, true_and, contLayer, contLoop]
          generalize (if rd.isEmpty depth = false then _ else _ : Dd σ × List Nat) = x
          cases x.1.squashLayer .barrier o cfg.rank cfg.r inp inp.residual.path.length depth x.2 with
          | none => rfl
          | some y => rfl
        · rw [if_neg hd, ← cont_layerEnd]
          simp only [pruneLayer, hd, false_and, if_false, contLayer, contLoop]
          cases ({ m with prevL := l, nextL := [] } : Dd σ).squashLayer .barrier o cfg.rank cfg.r inp inp.residual.path.length depth
            ((o.hashOrd m.nextL).map (·.2)) with
          | none => rfl
          | some y => rfl

/-! ### What has been read so far -/

/-- The two agree on the layers before `depth`. -/
def Below (V rd : Reads σ) (depth : Nat) : Prop := ∀ d, d < depth → rd.isEmpty d = V.isEmpty d ∧ ∀ s, rd.theta d s = V.theta d s

theorem Below.refl (V : Reads σ) (d : Nat) : Below V V d := fun _ _ => ⟨rfl, fun _ => rfl⟩

theorem Below.mono {V rd : Reads σ} {d d' : Nat} (h : Below V rd d) (hd : d' ≤ d) : Below V rd d' := fun x hx => h x (by omega)

/-- `V` with `is_empty` of a layer replaced. -/
def setEmpty (V : Reads σ) (d : Nat) (e : Bool) : Reads σ := ⟨fun x => if x = d then e else V.isEmpty x, V.theta⟩

/-- `V` with the threshold of a state replaced. -/
def setTheta (V : Reads σ) (d : Nat) (s : σ) (t : Option Int) : Reads σ := ⟨V.isEmpty, fun x y => if x = d ∧ y = s then t else V.theta x y⟩

theorem Below.of_setEmpty {V rd : Reads σ} {d : Nat} {e : Bool} (h : Below (setEmpty V d e) rd d) : Below V rd d := by
  intro x hx
  have := h x hx
  simp only [setEmpty, show ¬ x = d by omega, if_false] at this
  exact this

theorem Below.of_setTheta {V rd : Reads σ} {d : Nat} {s : σ} {t : Option Int} (h : Below (setTheta V d s t) rd d) : Below V rd d := by
  intro x hx
  have := h x hx
  simp only [setTheta, show ¬ x = d by omega, false_and, if_false] at this
  exact this

/-- The state of a compilation at the top of an iteration. -/
structure TopOK (cfg : SolverCfg σ) (S : Layering σ) (B : Int) (o : Oracle σ) (inp : Input σ) (m0 : Dd σ) (V : Reads σ) (fuel depth : Nat) (m : Dd σ) (currL : List Nat) : Prop where
  pos : fuel ≠ 0
  enough : cfg.p.nbVars + 1 ≤ fuel + depth
  deep : inp.residual.path.length ≤ depth
  comp : ∀ rd, Below V rd depth → m0.compile .barrier o cfg.p cfg.r cfg.rank rd inp = contLoop cfg o inp rd fuel depth m currL
  head : ∀ rd, Below V rd depth → ∃ k jx P L, depth = inp.residual.path.length + k ∧ Head .barrier cfg.p cfg.r S B inp rd m k jx P L m0.cutsetType ∧
    (k = 0 → jx = 0 ∧ m.approximate = false ∧ m.updates = []) ∧ (∀ j, k = j + 1 → currL = L j)

/-- What is known of a layer that has been pruned. -/
def IterOK (cfg : SolverCfg σ) (S : Layering σ) (B : Int) (o : Oracle σ) (inp : Input σ) (c : CutsetType) (rd : Reads σ) (depth var : Nat) (x : Dd σ × List Nat) : Prop :=
  ∃ m4 cur2 k jx P L, x.1.squashLayer .barrier o cfg.rank cfg.r inp inp.residual.path.length depth x.2 = some (m4, cur2) ∧
    depth = inp.residual.path.length + k ∧
    Head .barrier cfg.p cfg.r S B inp rd (cur2.foldl (expandOne .barrier cfg.p inp var depth) m4) (k + 1) jx P L c ∧ cur2 = L k

/-- The state of a compilation after the reads described by `V`. -/
def WorkOK (cfg : SolverCfg σ) (S : Layering σ) (B : Int) (o : Oracle σ) (inp : Input σ) (m0 : Dd σ) (V : Reads σ) : Work σ → Prop
  | .top fuel depth m currL => TopOK cfg S B o inp m0 V fuel depth m currL
  | .look fuel depth var m currL =>
    fuel ≠ 0 ∧ cfg.p.nbVars ≤ fuel + depth ∧ depth < cfg.p.nbVars ∧ inp.residual.path.length < depth ∧ (currL.map fun i => (m.node i).state).Nodup ∧
      ∀ rd, Below V rd depth →
        m0.compile .barrier o cfg.p cfg.r cfg.rank rd inp = cont cfg o inp rd (.look fuel depth var m currL) ∧
          IterOK cfg S B o inp m0.cutsetType rd depth var (if rd.isEmpty depth = false then currL.foldl (pruneOne rd depth) (m, []) else (m, currL))
  | .prune fuel depth var m todo kept =>
    fuel ≠ 0 ∧ cfg.p.nbVars ≤ fuel + depth ∧ depth < cfg.p.nbVars ∧ inp.residual.path.length < depth ∧ V.isEmpty depth = false ∧
      ∃ done : List σ, (done ++ todo.map fun i => (m.node i).state).Nodup ∧
      ∀ rd, Below V rd depth → rd.isEmpty depth = false → (∀ s ∈ done, rd.theta depth s = V.theta depth s) →
        m0.compile .barrier o cfg.p cfg.r cfg.rank rd inp = cont cfg o inp rd (.prune fuel depth var m todo kept) ∧
          IterOK cfg S B o inp m0.cutsetType rd depth var (todo.foldl (pruneOne rd depth) (m, kept))
  | .test us k => (∀ u ∈ us, u.depth ≤ cfg.p.nbVars) ∧ ContOK k
  | .write u us k => u.depth ≤ cfg.p.nbVars ∧ (∀ u ∈ us, u.depth ≤ cfg.p.nbVars) ∧ ContOK k
where
  ContOK : Cont σ → Prop
    | .more fuel depth m currL => TopOK cfg S B o inp m0 V fuel depth m currL
    | .last D => m0.compile .barrier o cfg.p cfg.r cfg.rank V inp = some D

/-- A pruned layer is squashed and expanded. -/
theorem layerEnd_ok {m0 : Dd σ} {V : Reads σ} {fuel depth var : Nat} {m : Dd σ} {l : List Nat} (hf : fuel ≠ 0) (hn : cfg.p.nbVars ≤ fuel + depth)
    (hd : depth < cfg.p.nbVars) (hr : inp.residual.path.length ≤ depth)
    (h : ∀ rd, Below V rd (depth + 1) → m0.compile .barrier o cfg.p cfg.r cfg.rank rd inp = contLayer cfg o inp rd fuel depth var (m, l) ∧
      IterOK cfg S B o inp m0.cutsetType rd depth var (m, l)) :
    ∃ w, layerEnd cfg o inp fuel depth var m l = some w ∧ WorkOK cfg S B o inp m0 V w := by
  obtain ⟨m4, cur2, k, jx, P, L, hs, -⟩ := (h V (Below.refl V _)).2
  simp only at hs
  refine ⟨.test ((cur2.foldl (expandOne .barrier cfg.p inp var depth) m4).updates.drop m.updates.length)
    (.more fuel (depth + 1) (cur2.foldl (expandOne .barrier cfg.p inp var depth) m4) cur2), by simp only [layerEnd, hs], ?_, ?_⟩
  · intro u hu
    obtain ⟨us, h1, h2⟩ := expand_updates .barrier cfg.p inp var depth cur2 m4
    rw [h1, squashLayer_updates hs, List.drop_left] at hu
    rw [h2 u hu]; omega
  · refine ⟨hf, by omega, by omega, ?_, ?_⟩
    · intro rd hb
      rw [(h rd hb).1]
      simp only [contLayer, hs]
    · intro rd hb
      obtain ⟨m4', cur2', k', jx', P', L', hs', hk, hh, hl⟩ := (h rd hb).2
      simp only at hs'
      rw [hs] at hs'
      cases hs'
      exact ⟨k' + 1, jx', P', L', by omega, hh, fun hz => by omega, fun j hj => by rw [hl]; congr 1; omega⟩

theorem pruneLayer_eq (rd : Reads σ) {root depth : Nat} (h : root < depth) (m : Dd σ) (l : List Nat) :
    m.pruneLayer .barrier rd root depth l = if rd.isEmpty depth = false then l.foldl (pruneOne rd depth) (m, []) else (m, l) := by
  simp only [pruneLayer, gt_iff_lt, h, true_and]

/-- The beginning of an iteration. -/
theorem layerTop_ok (ho : o.Valid) (hwf : WellFormed cfg.p S B) (hr : inp.compType = .relaxed → LayeredRelaxation cfg.p cfg.r S B)
    (hw : inp.compType = .relaxed → 1 ≤ inp.maxWidth) {m0 : Dd σ}
    (hup : ∀ rd D, m0.compile .barrier o cfg.p cfg.r cfg.rank rd inp = some D → ∀ u ∈ D.updates, u.depth ≤ cfg.p.nbVars)
    {V : Reads σ} {fuel depth : Nat} {m : Dd σ} {l : List Nat} (h : TopOK cfg S B o inp m0 V fuel depth m l) :
    ∃ w, layerTop cfg o inp fuel depth m l = some w ∧ WorkOK cfg S B o inp m0 V w := by
  obtain ⟨fuel, rfl⟩ : ∃ f, fuel = f + 1 := ⟨fuel - 1, by have := h.pos; omega⟩
  have hcomp := h.comp
  simp only [cont_top, layerTop] at hcomp
  unfold layerTop
  simp only
  cases hv : cfg.p.nextVar ((o.hashOrd m.nextL).map (·.1)) with
  | none =>
    simp only [hv] at hcomp
    have hD := hcomp V (Below.refl V _)
    simp only [cont, contK] at hD
    refine ⟨_, rfl, ?_, hD⟩
    intro u hu
    exact hup V _ hD u (List.mem_of_mem_drop hu)
  | some var =>
    simp only [hv] at hcomp
    simp only
    have hit : ∀ rd, Below V rd depth → depth < cfg.p.nbVars ∧ ((o.hashOrd m.nextL).map (·.2)).isEmpty = false ∧
        (((o.hashOrd m.nextL).map (·.2)).map fun i => (m.node i).state).Nodup ∧
        IterOK cfg S B o inp m0.cutsetType rd depth var
          (({ m with prevL := l, nextL := [] } : Dd σ).pruneLayer .barrier rd inp.residual.path.length depth ((o.hashOrd m.nextL).map (·.2))) := by
      intro rd hb
      obtain ⟨k, jx, P, L, hk, hh, h0, hc⟩ := h.head rd hb
      subst hk
      obtain ⟨a1, a2, m2, cur1, m4, cur2, jx', a3, a4, a5⟩ := loop_iter (rank := cfg.rank) ho hwf hr hw hh h0 hc hv
      refine ⟨a1, a2, ?_, m4, cur2, k, jx', _, _, by rw [a3]; exact a4, rfl, a5, by rw [upd_self]⟩
      have e : ((o.hashOrd m.nextL).map (·.2)).map (fun i => (m.node i).state) = (o.hashOrd m.nextL).map (·.1) := by
        rw [List.map_map]
        apply List.map_congr_left
        intro q hq
        exact hh.sts q ((ho.hash m.nextL).mem_iff.1 hq)
      rw [e]
      exact ((ho.hash m.nextL).map (·.1)).nodup_iff.2 hh.keys
    obtain ⟨b1, b2, b3, b4⟩ := hit V (Below.refl V _)
    simp only [b2, Bool.false_eq_true, if_false] at hcomp ⊢
    have hfl := h.enough
    by_cases hd : depth > inp.residual.path.length
    · simp only [hd, if_true] at hcomp ⊢
      refine ⟨_, rfl, by omega, by omega, b1, hd, b3, ?_⟩
      intro rd hb
      refine ⟨hcomp rd hb, ?_⟩
      have := (hit rd hb).2.2.2
      rw [pruneLayer_eq rd hd] at this
      exact this
    · simp only [hd, if_false] at hcomp ⊢
      apply layerEnd_ok (by omega) (by omega) b1 h.deep
      intro rd hb
      refine ⟨?_, ?_⟩
      · rw [hcomp rd (hb.mono (by omega)), ← cont_layerEnd]
      · have := (hit rd (hb.mono (by omega))).2.2.2
        simp only [pruneLayer, hd, false_and, if_false] at this
        exact this

/-- Outcome of a step of a compilation. -/
def StepOK (cfg : SolverCfg σ) (S : Layering σ) (B : Int) (o : Oracle σ) (inp : Input σ) (m0 : Dd σ) (V : Reads σ) (b : Bars σ) : WorkRes σ → Prop
  | .panic => False
  | .next w' b' => b'.length = b.length ∧ ∃ V', (∀ d x y, V'.theta d x = some y → V.theta d x = some y ∨ b.view.reads.theta d x = some y) ∧ WorkOK cfg S B o inp m0 V' w'
  | .finished D => m0.compile .barrier o cfg.p cfg.r cfg.rank V inp = some D

/-- One step of a compilation. -/
theorem stepWork_ok (ho : o.Valid) (hwf : WellFormed cfg.p S B) (hr : inp.compType = .relaxed → LayeredRelaxation cfg.p cfg.r S B)
    (hw : inp.compType = .relaxed → 1 ≤ inp.maxWidth) {m0 : Dd σ}
    (hup : ∀ rd D, m0.compile .barrier o cfg.p cfg.r cfg.rank rd inp = some D → ∀ u ∈ D.updates, u.depth ≤ cfg.p.nbVars)
    {V : Reads σ} {w : Work σ} (h : WorkOK cfg S B o inp m0 V w) {b : Bars σ} (hb : b.length = cfg.p.nbVars + 1) :
    StepOK cfg S B o inp m0 V b (stepWork cfg o inp b w) := by
  cases w with
  | top fuel depth m l =>
    obtain ⟨w, h1, h2⟩ := layerTop_ok ho hwf hr hw hup h
    simp only [stepWork, h1]
    exact ⟨rfl, V, fun _ _ _ h => Or.inl h, h2⟩
  | look fuel depth var m l =>
    obtain ⟨h1, h2, h3, h4, h5, h6⟩ := h
    have hlt : depth < b.length := by omega
    simp only [stepWork, List.getElem?_eq_getElem hlt]
    by_cases he : b[depth].isEmpty = true
    · rw [if_pos he]
      obtain ⟨w, g1, g2⟩ := layerEnd_ok (V := setEmpty V depth true) (m := m) (l := l) (var := var) (S := S) (B := B) (o := o) (inp := inp) (m0 := m0) h1 h2 h3 (by omega) (by
        intro rd hrd
        have hb' : Below V rd depth := (hrd.mono (by omega)).of_setEmpty
        have he' : rd.isEmpty depth = true := by
          have := (hrd depth (by omega)).1
          simpa [setEmpty] using this
        obtain ⟨k1, k2⟩ := h6 rd hb'
        simp only [cont, he', Bool.true_eq_false, if_false] at k1 k2
        exact ⟨k1, k2⟩)
      simp only [g1]
      exact ⟨rfl, setEmpty V depth true, fun _ _ _ h => Or.inl h, g2⟩
    · rw [if_neg he]
      refine ⟨rfl, setEmpty V depth false, fun _ _ _ h => Or.inl h, h1, h2, h3, h4, by simp [setEmpty], [], by simpa using h5, ?_⟩
      intro rd hrd he' _
      obtain ⟨k1, k2⟩ := h6 rd hrd.of_setEmpty
      simp only [cont, he', if_true] at k1 k2
      exact ⟨k1, k2⟩
  | prune fuel depth var m todo kept =>
    obtain ⟨h1, h2, h3, h4, h5, done, h6, h7⟩ := h
    cases todo with
    | nil =>
      obtain ⟨w, g1, g2⟩ := layerEnd_ok (V := V) (m := m) (l := kept) (var := var) (S := S) (B := B) (o := o) (inp := inp) (m0 := m0) h1 h2 h3 (by omega) (by
        intro rd hrd
        have := hrd depth (by omega)
        exact h7 rd (hrd.mono (by omega)) (this.1.trans h5) (fun s _ => this.2 s))
      simp only [stepWork, g1]
      exact ⟨rfl, _, fun _ _ _ h => Or.inl h, g2⟩
    | cons i todo =>
      have hlt : depth < b.length := by omega
      simp only [stepWork, hlt, if_true]
      obtain ⟨s, hs⟩ : ∃ s, s = (m.node i).state := ⟨_, rfl⟩
      have hsd : s ∉ done := by
        intro hd
        have := (List.nodup_append.1 h6).2.2 s hd s (by simp [hs])
        exact this rfl
      refine ⟨rfl, setTheta V depth s (b.view.reads.theta depth s), ?_, h1, h2, h3, h4, h5, done ++ [s], ?_, ?_⟩
      · intro d x y h
        simp only [setTheta] at h
        split at h
        · rename_i e; rw [e.1, e.2]; exact Or.inr h
        · exact Or.inl h
      · have : (todo.map fun j => ((pruneOne b.view.reads depth (m, kept) i).1.node j).state) = todo.map fun j => (m.node j).state := by
          apply List.map_congr_left
          intro j _
          exact pruneOne_state _ _ _ _ _
        rw [this]
        simpa [hs] using h6
      · intro rd hrd he hdone
        have hth : rd.theta depth s = b.view.reads.theta depth s := by
          have := hdone s (by simp)
          simpa [setTheta] using this
        have hp : pruneOne rd depth (m, kept) i = pruneOne b.view.reads depth (m, kept) i := by
          unfold pruneOne
          simp only [← hs, hth]
        obtain ⟨k1, k2⟩ := h7 rd hrd.of_setTheta he (by
          intro x hx
          have := hdone x (by simp [hx])
          rw [this]
          have hne : x ≠ s := fun e => hsd (e ▸ hx)
          simp [setTheta, hne])
        simp only [cont, List.foldl_cons, hp] at k1 k2
        exact ⟨k1, k2⟩
  | test us k =>
    obtain ⟨h1, h2⟩ := h
    cases us with
    | nil =>
      cases k with
      | more fuel depth m l => exact ⟨rfl, V, fun _ _ _ h => Or.inl h, h2⟩
      | last D => exact h2
    | cons u us =>
      have hu := h1 u (by simp)
      simp only [stepWork, show u.depth < b.length by omega, if_true]
      split
      · exact ⟨rfl, V, fun _ _ _ h => Or.inl h, hu, fun x hx => h1 x (by simp [hx]), h2⟩
      · exact ⟨rfl, V, fun _ _ _ h => Or.inl h, fun x hx => h1 x (by simp [hx]), h2⟩
  | write u us k =>
    obtain ⟨h1, h2, h3⟩ := h
    obtain ⟨b', hb'⟩ := Bars.insert_total (b := b) (d := u.depth) (by omega) u.state ⟨u.theta, u.explored⟩
    simp only [stepWork, hb']
    exact ⟨Bars.length_insert hb', V, fun _ _ _ h => Or.inl h, h2, h3⟩

/-- The beginning of a compilation. -/
theorem start_ok (hroot : RootOK cfg.p S B inp.residual) (m : Dd σ) :
    WorkOK cfg S B o inp m Reads.none (.top (cfg.p.nbVars + 2) inp.residual.path.length (m.start inp) []) := by
  refine ⟨by omega, by omega, Nat.le_refl _, fun rd _ => compile_cont rd m, fun rd _ => ?_⟩
  obtain ⟨h1, h2, h3⟩ := start_head (v := .barrier) (r := cfg.r) (rd := rd) (inp := inp) hroot m
  exact ⟨0, 0, _, _, rfl, h1, fun _ => ⟨rfl, h2, h3⟩, fun j hj => by omega⟩

end Verif.Fine
