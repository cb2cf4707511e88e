import Verif.Proofs.Fine.Work
/-! A compilation performed access by access while no other thread accesses the barrier is `compile` for the contents of the barrier at its start. -/
set_option autoImplicit false

namespace Verif.Fine
open Verif Spec Dd
variable {σ : Type} [DecidableEq σ] [Inhabited σ] {cfg : SolverCfg σ} {o : Oracle σ} {inp : Input σ}

omit [Inhabited σ] in
theorem insert_other {b b' : Bars σ} {d d' : Nat} {s : σ} {i : BarrierInfo} (h : b.insert d s i = some b') (hd : d' ≠ d) : b'[d']? = b[d']? := by
  unfold Bars.insert at h
  split at h
  · cases h
  · cases h; rw [List.getElem?_set_ne (Ne.symm hd)]

omit [Inhabited σ] in
theorem tryUpdate_other {b b' : Bars σ} {u : Update σ} {d : Nat} (h : b.tryUpdate u = some b') (hd : u.depth ≠ d) : b'[d]? = b[d]? := by
  unfold Bars.tryUpdate at h
  split at h
  · split at h
    · exact insert_other h (Ne.symm hd)
    · cases h; rfl
  · cases h

omit [Inhabited σ] in
theorem tryUpdates_other {d : Nat} : ∀ (us : List (Update σ)) (b b' : Bars σ), b.tryUpdates us = some b' → (∀ u ∈ us, u.depth ≠ d) → b'[d]? = b[d]?
  | [], b, b', h, _ => by cases h; rfl
  | u :: us, b, b', h, hd => by
    unfold Bars.tryUpdates at h
    split at h
    · cases h
    · rename_i b1 h1
      rw [tryUpdates_other us b1 b' h (fun x hx => hd x (by simp [hx])), tryUpdate_other h1 (hd u (by simp))]

omit [Inhabited σ] in
theorem tryUpdates_append : ∀ (us us' : List (Update σ)) (b b' : Bars σ), b.tryUpdates us = some b' → b.tryUpdates (us ++ us') = b'.tryUpdates us'
  | [], _, _, _, h => by cases h; rfl
  | u :: us, us', b, b', h => by
    simp only [Bars.tryUpdates, List.cons_append] at h ⊢
    split at h
    · cases h
    · rename_i b1 h1
      exact tryUpdates_append us us' b1 b' h

theorem pruneOne_congr {rd rd' : Reads σ} {d : Nat} (h : rd.theta d = rd'.theta d) (a : Dd σ × List Nat) (i : Nat) : pruneOne rd d a i = pruneOne rd' d a i := by
  unfold pruneOne; rw [h]

/-- The diagram as it will be when the stores are done. -/
def kDd : Cont σ → Dd σ
  | .more _ _ m _ => m
  | .last D => D

/-- What has been stored so far concerns other layers than those which will be read. -/
def KOK : Cont σ → Prop
  | .more _ d m _ => ∀ u ∈ m.updates, u.depth < d
  | .last _ => True

/-- A compilation from a barrier with contents `b0`, when it has turned them into `b`. -/
def Alone (cfg : SolverCfg σ) (o : Oracle σ) (inp : Input σ) (m0 : Dd σ) (b0 b : Bars σ) (w : Work σ) : Prop :=
  m0.compile .barrier o cfg.p cfg.r cfg.rank b0.view.reads inp = cont cfg o inp b0.view.reads w ∧
  match w with
  | .top _ d m _ => b0.tryUpdates m.updates = some b ∧ ∀ u ∈ m.updates, u.depth < d
  | .look _ d _ m _ => b0.tryUpdates m.updates = some b ∧ ∀ u ∈ m.updates, u.depth < d
  | .prune _ d _ m _ _ => b0.tryUpdates m.updates = some b ∧ ∀ u ∈ m.updates, u.depth < d
  | .test us k => ∃ done, done ++ us = (kDd k).updates ∧ b0.tryUpdates done = some b ∧ KOK k
  | .write u us k => ∃ done, done ++ u :: us = (kDd k).updates ∧ b0.tryUpdates done = some b ∧ KOK k ∧ u.depth < b.length ∧
      Bars.improves (b.get u.depth u.state) u.theta u.explored = true

/-- Outcome of a step of a compilation. -/
def AloneStep (cfg : SolverCfg σ) (o : Oracle σ) (inp : Input σ) (m0 : Dd σ) (b0 b : Bars σ) : WorkRes σ → Prop
  | .panic => True
  | .next w' b' => Alone cfg o inp m0 b0 b' w'
  | .finished D => m0.compile .barrier o cfg.p cfg.r cfg.rank b0.view.reads inp = some D ∧ b0.tryUpdates D.updates = some b

theorem layerEnd_alone {m0 : Dd σ} {b0 b : Bars σ} {f d var : Nat} {m : Dd σ} {l : List Nat}
    (hc : m0.compile .barrier o cfg.p cfg.r cfg.rank b0.view.reads inp = contLayer cfg o inp b0.view.reads f d var (m, l))
    (hu : b0.tryUpdates m.updates = some b) (hd : ∀ u ∈ m.updates, u.depth < d) {w : Work σ} (h : layerEnd cfg o inp f d var m l = some w) :
    Alone cfg o inp m0 b0 b w := by
  rw [cont_layerEnd, h] at hc
  refine ⟨hc, ?_⟩
  unfold layerEnd at h
  split at h
  · cases h
  · rename_i m1 l1 h1
    cases h
    obtain ⟨us, e1, e2⟩ := expand_updates .barrier cfg.p inp var d l1 m1
    have e3 := squashLayer_updates h1
    refine ⟨m.updates, ?_, hu, ?_⟩
    · simp only [kDd, e1, e3, List.drop_left]
    · intro u hu'
      rw [e1, e3] at hu'
      rcases List.mem_append.1 hu' with h | h
      · have := hd u h; omega
      · have := e2 u h; omega

theorem stepWork_alone {m0 : Dd σ} {b0 b : Bars σ} {w : Work σ} (h : Alone cfg o inp m0 b0 b w) : AloneStep cfg o inp m0 b0 b (stepWork cfg o inp b w) := by
  obtain ⟨hc, hw⟩ := h
  cases w with
  | top f d m l =>
    simp only [stepWork]
    cases hl : layerTop cfg o inp f d m l with
    | none => trivial
    | some w =>
      simp only [AloneStep]
      simp only [cont] at hc
      rw [cont_top, hl] at hc
      simp only at hc
      cases f with
      | zero => cases hl
      | succ f =>
        unfold layerTop at hl
        simp only at hl
        cases hv : cfg.p.nextVar ((o.hashOrd m.nextL).map (·.1)) with
        | none =>
          simp only [hv] at hl
          cases hl
          refine ⟨hc, m.updates, ?_, hw.1, trivial⟩
          obtain ⟨us, e⟩ := finish_grows o inp m
          simp only [kDd, e, List.drop_left]
        | some var =>
          simp only [hv] at hl
          by_cases h1 : ((o.hashOrd m.nextL).map (·.2)).isEmpty = true
          · rw [if_pos h1] at hl
            cases hl
            exact ⟨hc, m.updates, by simp [kDd], hw.1, trivial⟩
          · rw [if_neg h1] at hl
            by_cases h2 : d > inp.residual.path.length
            · rw [if_pos h2] at hl
              cases hl
              exact ⟨hc, hw⟩
            · rw [if_neg h2] at hl
              refine layerEnd_alone (m := { m with prevL := l, nextL := [] }) ?_ hw.1 hw.2 hl
              rw [cont_layerEnd, hl]; exact hc
  | look f d var m l =>
    simp only [stepWork]
    have hb := tryUpdates_other (d := d) _ _ _ hw.1 (fun u hu => Nat.ne_of_lt (hw.2 u hu))
    cases hbd : b[d]? with
    | none => trivial
    | some x =>
      rw [hbd] at hb
      have he : b0.view.reads.isEmpty d = x.isEmpty := by simp [Bars.view, View.reads, List.getD, ← hb]
      simp only [cont, he] at hc
      simp only
      cases hx : x.isEmpty with
      | true =>
        simp only [hx] at hc
        simp only [if_true]
        cases hl : layerEnd cfg o inp f d var m l with
        | none => trivial
        | some w => exact layerEnd_alone hc hw.1 hw.2 hl
      | false =>
        simp only [hx, if_true] at hc
        exact ⟨hc, hw⟩
  | prune f d var m todo kept =>
    cases todo with
    | nil =>
      simp only [stepWork]
      cases hl : layerEnd cfg o inp f d var m kept with
      | none => trivial
      | some w => exact layerEnd_alone hc hw.1 hw.2 hl
    | cons i todo =>
      simp only [stepWork]
      split
      · have hb := tryUpdates_other (d := d) _ _ _ hw.1 (fun u hu => Nat.ne_of_lt (hw.2 u hu))
        have e : b.view.reads.theta d = b0.view.reads.theta d := by
          funext s
          simp only [Bars.view, View.reads, Bars.get, List.getD, hb]
        refine ⟨?_, ?_⟩
        · simp only [cont, List.foldl_cons] at hc ⊢
          rw [pruneOne_congr e]; exact hc
        · simp only [pruneOne_updates]; exact hw
      · trivial
  | test us k =>
    obtain ⟨done, h1, h2, h3⟩ := hw
    cases us with
    | nil =>
      rw [List.append_nil] at h1
      subst h1
      cases k with
      | more f d m l => exact ⟨hc, h2, h3⟩
      | last D => exact ⟨hc, h2⟩
    | cons u us =>
      simp only [stepWork]
      split
      · rename_i hlt
        split
        · rename_i him
          exact ⟨hc, done, h1, h2, h3, hlt, him⟩
        · rename_i him
          refine ⟨hc, done ++ [u], by rw [← h1]; simp, ?_, h3⟩
          rw [tryUpdates_append _ _ _ _ h2]
          simp only [Bars.tryUpdates, Bars.tryUpdate, if_pos hlt, if_neg him]
      · trivial
  | write u us k =>
    obtain ⟨done, h1, h2, h3, h4, h5⟩ := hw
    simp only [stepWork]
    split
    · trivial
    · rename_i b' hb'
      refine ⟨hc, done ++ [u], by rw [← h1]; simp, ?_, h3⟩
      rw [tryUpdates_append _ _ _ _ h2]
      simp only [Bars.tryUpdates, Bars.tryUpdate, if_pos h4, if_pos h5, hb']

theorem start_alone (m : Dd σ) (b0 : Bars σ) :
    Alone cfg o inp m b0 b0 (.top (cfg.p.nbVars + 2) inp.residual.path.length (m.start inp) []) :=
  ⟨compile_cont _ m, rfl, fun u hu => by cases hu⟩

end Verif.Fine
