import Verif.Proofs.Bar.Turns
import Verif.Proofs.Bar.Session
import Verif.Spec.Uncapped
import Mathlib.Data.Fintype.Card
import Mathlib.Data.Set.Finite.Basic
/-! With any number of workers nothing is lost, as long as bounds are not lowered to that of the parent. -/
set_option autoImplicit false

namespace Verif.Bar
open Verif Spec
open Verif.Par (toPush mem_toPush input rootNode mem_split root_through)
variable {σ : Type} [DecidableEq σ] [Inhabited σ]

/-! ### Thresholds that rely on thresholds -/

section abstract
variable {p : Problem σ} {S : Layering σ} {B : Int}

/-- A solution worth at least `w` runs through the state of the threshold, with a value that is not above it. -/
def Cuts (p : Problem σ) (B : Int) (a : Update σ) (w : Int) : Prop :=
  ∃ y ds u, -(((a.depth : Int) + 1) * B) ≤ y ∧ y ≤ ((a.depth : Int) + 1) * B ∧ y ≤ a.theta ∧ Completion p a.state ds u ∧ w ≤ y + u

/-- `a` may rely on `a'`. -/
def Above (a a' : Update σ) : Prop :=
  a.depth < a'.depth ∨ (a.depth = a'.depth ∧ (a.theta < a'.theta ∨ (a.theta = a'.theta ∧ a.explored = false ∧ a'.explored = true)))

theorem Cuts.le {a : Update σ} {w w' : Int} (h : Cuts p B a w') (hw : w ≤ w') : Cuts p B a w := by
  obtain ⟨y, ds, u, h1, h2, h3, h4, h5⟩ := h
  exact ⟨y, ds, u, h1, h2, h3, h4, by omega⟩

variable (p B) in
/-- `K`: the values known, `F`: the nodes that wait, `W`: the nodes worked on, `A`: all thresholds of the run. -/
def Backs (A : List (Update σ)) (K : Int → Prop) (F W : SubProblem σ → Prop) (a : Update σ) (w : Int) : Prop :=
  K w ∨ (∃ m, (F m ∨ W m) ∧ Leads p m w ∧
    (a.depth < m.path.length ∨ (m.path.length = a.depth ∧ m.state = a.state ∧ a.theta ≤ m.value ∧ (a.explored = false ∨ W m)))) ∨
  ∃ a' ∈ A, Above a a' ∧ Cuts p B a' w

/-- Nothing is lost: `T` are the thresholds stored so far. -/
structure MCov (p : Problem σ) (B : Int) (root : SubProblem σ) (A T : List (Update σ)) (K : Int → Prop) (F W : SubProblem σ → Prop) : Prop where
  cov : ∀ w, Through p root w → K w ∨ (∃ m, (F m ∨ W m) ∧ Leads p m w) ∨ ∃ a ∈ A, Cuts p B a w
  thr : ∀ a ∈ T, ∀ w, Cuts p B a w → Backs p B A K F W a w
  bnd : ∀ m, F m ∨ W m → ∀ w, Through p m w → K w ∨ w ≤ m.ub ∨ ∃ a ∈ A, m.path.length < a.depth ∧ Cuts p B a w

variable (p B) in
/-- What `m` may lead to is found elsewhere. -/
def Repl (A : List (Update σ)) (K' : Int → Prop) (W F' W' : SubProblem σ → Prop) (m : SubProblem σ) (w : Int) : Prop :=
  K' w ∨ (∃ m', (F' m' ∨ W' m') ∧ Leads p m' w ∧
    (m.path.length < m'.path.length ∨ (m'.path.length = m.path.length ∧ m'.state = m.state ∧ m.value ≤ m'.value ∧ (W m → W' m')))) ∨
  ∃ a ∈ A, Cuts p B a w ∧ (m.path.length < a.depth ∨ (a.depth = m.path.length ∧ ¬ W m ∧ (m.value < a.theta ∨ (m.value = a.theta ∧ a.explored = true))))

variable {root : SubProblem σ} {A T X : List (Update σ)} {K K' : Int → Prop} {F F' W W' : SubProblem σ → Prop}

theorem MCov.step (h : MCov p B root A T K F W) (hK : ∀ w, K w → K' w) (hR : ∀ m, F m ∨ W m → ∀ w, Leads p m w → Repl p B A K' W F' W' m w)
    (hB : ∀ m, F' m ∨ W' m → ∀ w, Through p m w → K' w ∨ w ≤ m.ub ∨ ∃ a ∈ A, m.path.length < a.depth ∧ Cuts p B a w)
    (hT : ∀ a ∈ X, ∀ w, Cuts p B a w → Backs p B A K' F' W' a w) : MCov p B root A (T ++ X) K' F' W' := by
  refine ⟨?_, ?_, hB⟩
  · intro w hw
    rcases h.cov w hw with h1 | ⟨m, h1, h2⟩ | h1
    · exact Or.inl (hK w h1)
    · rcases hR m h1 w h2 with h3 | ⟨m', h3, h4, _⟩ | ⟨a, h3, h4, _⟩
      · exact Or.inl h3
      · exact Or.inr (Or.inl ⟨m', h3, h4⟩)
      · exact Or.inr (Or.inr ⟨a, h3, h4⟩)
    · exact Or.inr (Or.inr h1)
  · intro a ha w hw
    rcases List.mem_append.1 ha with ha | ha
    · rcases h.thr a ha w hw with h1 | ⟨m, h1, h2, h3⟩ | h1
      · exact Or.inl (hK w h1)
      · rcases hR m h1 w h2 with h4 | ⟨m', h4, h5, h6⟩ | ⟨a', h4, h5, h6⟩
        · exact Or.inl h4
        · refine Or.inr (Or.inl ⟨m', h4, h5, ?_⟩)
          rcases h3 with h3 | ⟨g1, g2, g3, g4⟩
          · left; rcases h6 with h6 | h6 <;> omega
          · rcases h6 with h6 | ⟨k1, k2, k3, k4⟩
            · left; omega
            · exact Or.inr ⟨by omega, k2.trans g2, by omega, g4.imp id k4⟩
        · refine Or.inr (Or.inr ⟨a', h4, ?_, h5⟩)
          rcases h3 with h3 | ⟨g1, g2, g3, g4⟩
          · left; rcases h6 with h6 | h6 <;> omega
          · rcases h6 with h6 | ⟨k1, k2, k3⟩
            · left; omega
            · right
              refine ⟨by omega, ?_⟩
              have he : a.explored = false := g4.resolve_right k2
              rcases k3 with k3 | ⟨k3, k4⟩
              · left; omega
              · by_cases hlt : a.theta < a'.theta
                · exact Or.inl hlt
                · exact Or.inr ⟨by omega, he, k4⟩
      · exact Or.inr (Or.inr h1)
    · exact hT a ha w hw

/-- Nothing open: what the thresholds cut off is known. -/
theorem MCov.close (h : MCov p B root A A K F W) (hF : ∀ m, ¬ F m) (hW : ∀ m, ¬ W m) :
    ∀ w, Through p root w → K w := by
  have key : ∀ a ∈ A, ∀ w, Cuts p B a w → K w := by
    let r : {a // a ∈ A} → {a // a ∈ A} → Prop := fun x y => Above y.1 x.1
    have : IsTrans {a // a ∈ A} r := ⟨fun a b c h1 h2 => by
      simp only [r, Above] at *
      rcases h1 with h1 | ⟨h1, h1'⟩ <;> rcases h2 with h2 | ⟨h2, h2'⟩
      · left; omega
      · left; omega
      · left; omega
      · right
        refine ⟨by omega, ?_⟩
        rcases h1' with h1' | ⟨h1', _, e1⟩ <;> rcases h2' with h2' | ⟨h2', e2, _⟩
        · left; omega
        · left; omega
        · left; omega
        · exact Or.inr ⟨by omega, by assumption, e1⟩⟩
    have : Std.Irrefl r := ⟨fun a h => by
      simp only [r, Above] at h
      rcases h with h | ⟨_, h | ⟨_, h1, h2⟩⟩
      · omega
      · omega
      · rw [h1] at h2; cases h2⟩
    have : Finite {a // a ∈ A} := (List.finite_toSet A).to_subtype
    have hwf := Finite.wellFounded_of_trans_of_irrefl r
    have main : ∀ a : {a // a ∈ A}, ∀ w, Cuts p B a.1 w → K w := by
      intro a
      induction a using hwf.induction with
      | _ a ih =>
        intro w hw
        rcases h.thr a.1 a.2 w hw with h1 | ⟨m, h1, _⟩ | ⟨a', h1, h2, h3⟩
        · exact h1
        · rcases h1 with h1 | h1
          · exact absurd h1 (hF m)
          · exact absurd h1 (hW m)
        · exact ih ⟨a', h1⟩ h2 w h3
    exact fun a ha w hw => main ⟨a, ha⟩ w hw
  intro w hw
  rcases h.cov w hw with h1 | ⟨m, h1 | h1, _⟩ | ⟨a, h1, h2⟩
  · exact h1
  · exact absurd h1 (hF m)
  · exact absurd h1 (hW m)
  · exact key a h1 w h2


theorem Repl.keep {m : SubProblem σ} {w : Int} (h1 : F' m ∨ W' m) (h2 : W m → W' m) (h3 : Leads p m w) : Repl p B A K' W F' W' m w :=
  Or.inr (Or.inl ⟨m, h1, h3, Or.inr ⟨rfl, rfl, Int.le_refl _, h2⟩⟩)

/-- A waiting node that a threshold of the run cuts off may be discarded. -/
theorem MCov.discard (h : MCov p B root A T K F W) {n : SubProblem σ} {i : BarrierInfo} (h1 : ∀ m, F m → F' m ∨ m = n) (h2 : ∀ m, F' m → F m)
    (hbnd : -(((n.path.length : Int) + 1) * B) ≤ n.value ∧ n.value ≤ ((n.path.length : Int) + 1) * B)
    (hi : ⟨n.path.length, n.state, i.theta, i.explored⟩ ∈ A) (hx : mustExplore (some i) n.value = false) : MCov p B root A T K F' W := by
  have := h.step (X := []) (K' := K) (F' := F') (W' := W) (fun _ h => h) ?_ (fun m hm => h.bnd m (hm.imp (h2 m) id)) (by simp)
  · simpa using this
  intro m hm w hw
  by_cases hW : W m
  · exact .keep (Or.inr hW) (fun h => h) hw
  · rcases h1 m (hm.resolve_right hW) with h3 | rfl
    · exact .keep (Or.inl h3) (fun h => h) hw
    · obtain ⟨_, w', ⟨ds, u, h4, rfl⟩, h5⟩ := hw
      have hx' : m.value < i.theta ∨ (m.value = i.theta ∧ i.explored = true) := by
        simp [mustExplore] at hx
        obtain ⟨h1, h2⟩ := hx
        by_cases he : m.value = i.theta
        · exact Or.inr ⟨he, h2 he⟩
        · exact Or.inl (by omega)
      exact Or.inr (Or.inr ⟨_, hi, ⟨m.value, ds, u, hbnd.1, hbnd.2, by simp only; omega, h4, h5⟩, Or.inr ⟨rfl, hW, hx'⟩⟩)

/-- What a compilation loses, it loses by a threshold of the run. -/
theorem pruned_cuts {v : View σ} (hv : ∀ d s i, v.get d s = some i → ∃ e, ⟨d, s, i.theta, e⟩ ∈ A) {d0 : Nat} {w : Int}
    (hp : PrunedBelow p S B v.reads d0 w) : ∃ a ∈ A, d0 < a.depth ∧ Cuts p B a w := by
  obtain ⟨d, s, θ, y, ds, u, h1, _, _, _, h5, h6, h7, h8, h9, h10⟩ := hp
  simp only [View.reads] at h5
  obtain ⟨i, h11, rfl⟩ := Option.map_eq_some_iff.1 h5
  obtain ⟨e, he⟩ := hv d s i h11
  exact ⟨_, he, h1, y, ds, u, h7, h8, h6, h9, h10⟩

end abstract

variable {cfg : SolverCfg σ} {L : FrontierLaws cfg.fr} {S : Layering σ} {B : Int} {A T : List (Update σ)}

/-! ### The state of a run -/

/-- A value a worker is about to record. -/
def tK (t : BThread σ) (w : Int) : Prop := ∃ n dd bv, t.pc = .post n dd ∧ t.mdd.exact = true ∧ t.mdd.bestValue = some bv ∧ w ≤ bv
/-- A node a worker is about to push. -/
def tF (t : BThread σ) (m : SubProblem σ) : Prop :=
  ∃ n dd q, t.pc = .post n dd ∧ t.mdd.exact = false ∧ q ∈ t.mdd.drainCutset ∧ m = { q with ub := min n.ub q.ub }
def tW (t : BThread σ) (m : SubProblem σ) : Prop := Pc.node t.pc = some m

def sK (c : BCrit σ cfg.fr.F) (ts : List (BThread σ)) (w : Int) : Prop := w ≤ c.bestLb ∨ ∃ t ∈ ts, tK t w
def sF (L : FrontierLaws cfg.fr) (c : BCrit σ cfg.fr.F) (ts : List (BThread σ)) (m : SubProblem σ) : Prop := m ∈ L.holds c.fringe ∨ ∃ t ∈ ts, tF t m
def sW (ts : List (BThread σ)) (m : SubProblem σ) : Prop := ∃ t ∈ ts, tW t m

variable (L B A T) in
def Multi (c : BCrit σ cfg.fr.F) (ts : List (BThread σ)) : Prop := MCov cfg.p B (rootNode cfg) A T (sK c ts) (sF L c ts) (sW ts)

/-- The stored thresholds are thresholds of the run. -/
def BarsIn (A : List (Update σ)) (b : Bars σ) : Prop := ∀ d s i, b.get d s = some i → ⟨d, s, i.theta, i.explored⟩ ∈ A

/-- What a step sees are thresholds of the run. -/
def SeenIn (A : List (Update σ)) (v : View σ) : Prop :=
  (∀ d s i, v.get d s = some i → ∃ e, ⟨d, s, i.theta, e⟩ ∈ A) ∧ ∀ k d s i, v.pop k d s = some i → ⟨d, s, i.theta, i.explored⟩ ∈ A

theorem seenIn {b : Bars σ} {v : Option (View σ)} (hb : BarsIn A b) (hv : ∀ v', v = some v' → SeenIn A v') : SeenIn A (seen v b) := by
  cases v with
  | none => exact ⟨fun d s i h => ⟨_, hb d s i h⟩, fun _ => hb⟩
  | some v => exact hv v rfl

theorem mic_multi (hg : GoodCfg cfg S B) {v : Option (View σ)} {c c' : BCrit σ cfg.fr.F} {b b' : Bars σ} {ts : List (BThread σ)} (hm : Mic cfg L v c b c' b')
    (hi : Inv L ⟨c, b, ts⟩) (hb : BarsIn A b) (hv : ∀ v', v = some v' → SeenIn A v') (h : Multi L B A T c ts) : Multi L B A T c' ts ∧ BarsIn A b' := by
  cases hm with
  | clean h1 h2 h3 hcl =>
    refine ⟨h, ?_⟩
    intro d s i hi'
    rw [Bars.get_clear hcl] at hi'
    split at hi'
    · cases hi'
    · exact hb d s i hi'
  | @skip n f ob k h1 hf h2 h4 h5 h6 ho =>
    refine ⟨?_, hb⟩
    have hn : n ∈ L.holds c.fringe := h2.mem_iff.2 (by simp)
    cases hp : (seen v b).pop k n.path.length n.state with
    | none => rw [hp] at h6; simp [mustExplore] at h6
    | some i =>
      rw [hp] at h6
      refine MCov.discard (F := sF L c ts) (K := sK c ts) h ?_ ?_ ((hi.genF n hn).rootOK hg.wf).bound ((seenIn hb hv).2 k _ _ i hp) h6
      · rintro m (hm | hm)
        · rcases List.mem_cons.1 (h2.mem_iff.1 hm) with h7 | h7
          · exact Or.inr h7
          · exact Or.inl (Or.inl h7)
        · exact Or.inl (Or.inr hm)
      · rintro m (hm | hm)
        · exact Or.inl (h2.mem_iff.2 (List.mem_cons_of_mem _ hm))
        · exact Or.inr hm

theorem mics_multi (hg : GoodCfg cfg S B) {v : Option (View σ)} {c c' : BCrit σ cfg.fr.F} {b b' : Bars σ} {ts : List (BThread σ)} (hm : Mics cfg L v c b c' b')
    (hv : ∀ v', v = some v' → SeenIn A v') (hi : Inv L ⟨c, b, ts⟩) (hb : BarsIn A b) (h : Multi L B A T c ts) : Multi L B A T c' ts ∧ BarsIn A b' := by
  induction hm with
  | nil => exact ⟨h, hb⟩
  | cons h1 _ ih =>
    obtain ⟨k1, k2⟩ := mic_multi hg h1 hi hb hv h
    exact ih (mic_inv h1 hi) k2 k1

/-- One worker moves. -/
theorem multi_move {c c' : BCrit σ cfg.fr.F} {t t' : BThread σ} {l1 l2 : List (BThread σ)} {X : List (Update σ)}
    (h : Multi L B A T c (l1 ++ t :: l2)) (hlb : c.bestLb ≤ c'.bestLb)
    (hK : ∀ w, tK t w → w ≤ c'.bestLb ∨ tK t' w)
    (hF : ∀ m ∈ L.holds c.fringe, (sW (l1 ++ t :: l2) m → sW (l1 ++ t' :: l2) m) → ∀ w, Leads cfg.p m w →
      Repl cfg.p B A (sK c' (l1 ++ t' :: l2)) (sW (l1 ++ t :: l2)) (sF L c' (l1 ++ t' :: l2)) (sW (l1 ++ t' :: l2)) m w)
    (hP : ∀ m, tF t m → (sW (l1 ++ t :: l2) m → sW (l1 ++ t' :: l2) m) → ∀ w, Leads cfg.p m w →
      Repl cfg.p B A (sK c' (l1 ++ t' :: l2)) (sW (l1 ++ t :: l2)) (sF L c' (l1 ++ t' :: l2)) (sW (l1 ++ t' :: l2)) m w)
    (hW : ∀ m, tW t m → ∀ w, Leads cfg.p m w →
      Repl cfg.p B A (sK c' (l1 ++ t' :: l2)) (sW (l1 ++ t :: l2)) (sF L c' (l1 ++ t' :: l2)) (sW (l1 ++ t' :: l2)) m w)
    (hB : (∀ m, sF L c (l1 ++ t :: l2) m ∨ sW (l1 ++ t :: l2) m → ∀ w, Through cfg.p m w → sK c' (l1 ++ t' :: l2) w ∨ w ≤ m.ub ∨ ∃ a ∈ A, m.path.length < a.depth ∧ Cuts cfg.p B a w) →
      ∀ m, m ∈ L.holds c'.fringe ∨ tF t' m ∨ tW t' m → ∀ w, Through cfg.p m w →
        sK c' (l1 ++ t' :: l2) w ∨ w ≤ m.ub ∨ ∃ a ∈ A, m.path.length < a.depth ∧ Cuts cfg.p B a w)
    (hT : ∀ a ∈ X, ∀ w, Cuts cfg.p B a w → Backs cfg.p B A (sK c' (l1 ++ t' :: l2)) (sF L c' (l1 ++ t' :: l2)) (sW (l1 ++ t' :: l2)) a w) :
    Multi L B A (T ++ X) c' (l1 ++ t' :: l2) := by
  have hKK : ∀ w, sK c (l1 ++ t :: l2) w → sK c' (l1 ++ t' :: l2) w := by
    rintro w (h1 | ⟨x, h1, h2⟩)
    · exact Or.inl (by omega)
    · rcases mem_split.1 h1 with h1 | rfl
      · exact Or.inr ⟨x, mem_split.2 (Or.inl h1), h2⟩
      · rcases hK w h2 with h3 | h3
        · exact Or.inl h3
        · exact Or.inr ⟨t', by simp, h3⟩
  have old : ∀ m, sF L c (l1 ++ t :: l2) m ∨ sW (l1 ++ t :: l2) m → ∀ w, Through cfg.p m w →
      sK c' (l1 ++ t' :: l2) w ∨ w ≤ m.ub ∨ ∃ a ∈ A, m.path.length < a.depth ∧ Cuts cfg.p B a w :=
    fun m hm w hw => (h.bnd m hm w hw).imp (hKK w) id
  refine MCov.step h hKK ?_ ?_ hT
  · intro m hm w hw
    by_cases htm : tW t m
    · exact hW m htm w hw
    · have hww : sW (l1 ++ t :: l2) m → sW (l1 ++ t' :: l2) m := by
        rintro ⟨x, h1, h2⟩
        rcases mem_split.1 h1 with h1 | rfl
        · exact ⟨x, mem_split.2 (Or.inl h1), h2⟩
        · exact absurd h2 htm
      rcases hm with (hm | ⟨x, h1, h2⟩) | hm
      · exact hF m hm hww w hw
      · rcases mem_split.1 h1 with h1 | rfl
        · exact .keep (Or.inl (Or.inr ⟨x, mem_split.2 (Or.inl h1), h2⟩)) hww hw
        · exact hP m h2 hww w hw
      · exact .keep (Or.inr (hww hm)) hww hw
  · intro m hm
    rcases hm with (hm | ⟨x, h1, h2⟩) | ⟨x, h1, h2⟩
    · exact hB old m (Or.inl hm)
    · rcases mem_split.1 h1 with h1 | rfl
      · exact old m (Or.inl (Or.inr ⟨x, mem_split.2 (Or.inl h1), h2⟩))
      · exact hB old m (Or.inr (Or.inl h2))
    · rcases mem_split.1 h1 with h1 | rfl
      · exact old m (Or.inr ⟨x, mem_split.2 (Or.inl h1), h2⟩)
      · exact hB old m (Or.inr (Or.inr h2))

theorem sW_mid {l1 l2 : List (BThread σ)} {t : BThread σ} {m : SubProblem σ} (h : Pc.node t.pc = some m) : sW (l1 ++ t :: l2) m := ⟨t, by simp, h⟩

theorem tK_none {t : BThread σ} (h : ∀ n dd, t.pc ≠ .post n dd) (w : Int) : ¬ tK t w := fun ⟨n, dd, _, h1, _⟩ => h n dd h1
theorem tF_none {t : BThread σ} (h : ∀ n dd, t.pc ≠ .post n dd) (m : SubProblem σ) : ¬ tF t m := fun ⟨n, dd, _, h1, _⟩ => h n dd h1

/-- The bound recorded for a node of a cutset. -/
theorem dd_drain_ub (hg : GoodCfg cfg S B) {o : Oracle σ} {n : SubProblem σ} {lb : Int} {m D : Dd σ} {rd : Reads σ} (hn : Genuine cfg.p n) (ho : o.Valid)
    (hD : m.compile .barrier o cfg.p cfg.r cfg.rank rd (input cfg .relaxed n lb) = some D) {q : SubProblem σ} (hq : q ∈ D.drainCutset) {w : Int}
    (ht : Through cfg.p q w) : w ≤ lb ∨ w ≤ q.ub ∨ PrunedBelow cfg.p S B rd q.path.length w := by
  have hroot := hn.rootOK hg.wf
  obtain ⟨m', k, jx, P, L', h, hd⟩ := Dd.compile_done (v := .barrier) (o := o) (rank := cfg.rank) (rd := rd) (inp := input cfg .relaxed n lb) ho hg.wf
    (Par.inp_rel hg.base) (Par.inp_width hg.base) hroot m
  rw [h] at hD; cases hD
  exact hd.drain_ub hg.wf ho hroot hg.adm (fun _ => hg.rel) (Or.inl rfl) hq ht

theorem act_multi (hg : GoodCfg cfg S B) (hco : CutOK cfg S) {v : Option (View σ)} {i : Nat} {c c' : BCrit σ cfg.fr.F} {b b' : Bars σ} {t t' : BThread σ}
    {l1 l2 : List (BThread σ)} (ha : Act cfg L v i c b t c' b' t') (hi : Inv L ⟨c, b, l1 ++ t :: l2⟩) (hb : BarsIn A b)
    (hv : ∀ v', v = some v' → SeenIn A v') (hA : ∀ a ∈ offer t t', a ∈ A)
    (hun : ∀ n dd, t'.pc = .post n dd → t'.mdd.exact = false → ∀ q ∈ t'.mdd.drainCutset, q.ub ≤ n.ub ∨ q.ub ≤ c'.bestLb)
    (h : c.interrupted = false → Multi L B A T c (l1 ++ t :: l2)) (hint : c'.interrupted = false) :
    Multi L B A (T ++ offer t t') c' (l1 ++ t' :: l2) ∧ BarsIn A b' := by
  have hts : t ∈ l1 ++ t :: l2 := by simp
  have hmt : t.mdd.cutsetType = cfg.cutset := hi.mdd t hts
  have hnt : ∀ n, Pc.node t.pc = some n → Genuine cfg.p n := by
    intro n hn
    exact hi.genW n (List.mem_filterMap.2 ⟨t, hts, hn⟩)
  have hlt := hi.lbs t hts
  have hpt := hi.post t hts
  have hmin := hi.min
  have hs := seenIn hb hv
  simp only at hlt hmin
  cases ha with
  | complete h1 h2 =>
    refine ⟨multi_move (h hint) (Int.le_refl _) ?_ ?_ ?_ ?_ ?_ (by simp [offer]), hb⟩
    · exact fun w hw => absurd hw (tK_none (by simp) w)
    · exact fun m hm hw w hl => .keep (Or.inl (Or.inl hm)) hw hl
    · exact fun m hm => absurd hm (tF_none (by simp) m)
    · intro m hm; cases hm
    · rintro old m (hm | hm | hm)
      · exact old m (Or.inl (Or.inl hm))
      · exact absurd hm (tF_none (by simp) m)
      · cases hm
  | stop h1 => rw [h1] at hint; cases hint
  | interrupt h1 hf h2 h3 => cases hint
  | wait h1 h2 h3 =>
    refine ⟨multi_move (h hint) (Int.le_refl _) ?_ ?_ ?_ ?_ ?_ (by simp [offer]), hb⟩
    · exact fun w hw => absurd hw (tK_none (by simp) w)
    · exact fun m hm hw w hl => .keep (Or.inl (Or.inl hm)) hw hl
    · exact fun m hm => absurd hm (tF_none (by simp) m)
    · intro m hm; cases hm
    · rintro old m (hm | hm | hm)
      · exact old m (Or.inl (Or.inl hm))
      · exact absurd hm (tF_none (by simp) m)
      · cases hm
  | @prune m n f h1 hf h2 h3 h4 h5 =>
    refine ⟨multi_move (h hint) (Int.le_refl _) ?_ ?_ ?_ ?_ ?_ (by simp [offer]), hb⟩
    · exact fun w hw => absurd hw (tK_none (by simp) w)
    · intro m hm hw w hl
      have := h4 m hm
      exact Or.inl (Or.inl (by have := hl.1; simp only; omega))
    · exact fun m hm => absurd hm (tF_none (by simp) m)
    · intro m hm; cases hm
    · rintro old m (hm | hm | hm)
      · simp only [h2] at hm; cases hm
      · exact absurd hm (tF_none (by simp) m)
      · cases hm
  | @drop m n f ob k h1 hf h2 h4 h5 h6 ho h7 =>
    have := mic_multi hg (Mic.skip h1 hf h2 h4 h5 h6 ho) hi hb hv (h h1)
    simpa [offer] using this
  | @take m n f ob gb b' k h1 hf h2 h4 h5 h6 ho hgb hbi =>
    have hn : n ∈ L.holds c.fringe := h2.mem_iff.2 (by simp)
    refine ⟨multi_move (h hint) (Int.le_refl _) ?_ ?_ ?_ ?_ ?_ ?_, ?_⟩
    · exact fun w hw => absurd hw (tK_none (by simp) w)
    · intro q hq hw w hl
      rcases List.mem_cons.1 (h2.mem_iff.1 hq) with rfl | h8
      · exact .keep (Or.inr (sW_mid rfl)) hw hl
      · exact .keep (Or.inl (Or.inl h8)) hw hl
    · exact fun m hm => absurd hm (tF_none (by simp) m)
    · intro m hm; cases hm
    · rintro old q (hm | hm | hm)
      · exact old q (Or.inl (Or.inl (h2.mem_iff.2 (List.mem_cons_of_mem _ hm))))
      · exact absurd hm (tF_none (by simp) q)
      · cases hm; exact old n (Or.inl (Or.inl hn))
    · intro a ha w hw
      simp only [offer, List.mem_singleton] at ha
      subst ha
      obtain ⟨y, ds, u, a1, a2, a3, a4, a5⟩ := hw
      simp only at a1 a2 a3 a4
      have hth : Through cfg.p n (n.value + u) := ⟨ds, u, a4, rfl⟩
      rcases (h hint).bnd n (Or.inl (Or.inl hn)) _ hth with h8 | h8 | ⟨a, h8, h9, h10⟩
      · rcases h8 with h8 | ⟨x, h8, h9⟩
        · exact Or.inl (Or.inl (by simp only; omega))
        · rcases mem_split.1 h8 with h8 | rfl
          · obtain ⟨n', dd, bv, k1, k2, k3, k4⟩ := h9
            exact Or.inl (Or.inr ⟨x, mem_split.2 (Or.inl h8), n', dd, bv, k1, k2, k3, by omega⟩)
          · exact absurd h9 (tK_none (by simp) _)
      · exact Or.inr (Or.inl ⟨n, Or.inr ⟨⟨.start n, m⟩, by simp, rfl⟩, ⟨by omega, _, hth, by omega⟩, Or.inr ⟨rfl, rfl, Int.le_refl _, Or.inr ⟨⟨.start n, m⟩, by simp, rfl⟩⟩⟩)
      · exact Or.inr (Or.inr ⟨a, h8, Or.inl h9, h10.le (by omega)⟩)
    · intro d s j hj
      rw [Bars.get_insert hbi] at hj
      split at hj
      · rename_i hds
        obtain ⟨rfl, rfl⟩ := hds
        cases hj
        exact hA _ (by simp [offer])
      · exact hb d s j hj
  | @early m n h1 =>
    refine ⟨multi_move (h hint) (Int.le_refl _) ?_ ?_ ?_ ?_ ?_ (by simp [offer]), hb⟩
    · exact fun w hw => absurd hw (tK_none (by simp) w)
    · exact fun m hm hw w hl => .keep (Or.inl (Or.inl hm)) hw hl
    · exact fun m hm => absurd hm (tF_none (by simp) m)
    · intro m hm w hl
      cases hm
      exact Or.inl (Or.inl (Int.le_trans hl.1 h1))
    · rintro old m (hm | hm | hm)
      · exact old m (Or.inl (Or.inl hm))
      · exact absurd hm (tF_none (by simp) m)
      · cases hm
  | @read1 m n h1 =>
    refine ⟨multi_move (h hint) (Int.le_refl _) ?_ ?_ ?_ ?_ ?_ (by simp [offer]), hb⟩
    · exact fun w hw => absurd hw (tK_none (by simp) w)
    · exact fun m hm hw w hl => .keep (Or.inl (Or.inl hm)) hw hl
    · exact fun m hm => absurd hm (tF_none (by simp) m)
    · intro m hm w hl
      cases hm
      exact .keep (Or.inr (sW_mid rfl)) (fun _ => sW_mid rfl) hl
    · rintro old m (hm | hm | hm)
      · exact old m (Or.inl (Or.inl hm))
      · exact absurd hm (tF_none (by simp) m)
      · cases hm; exact old n (Or.inr (sW_mid rfl))
  | @restrict m n lb o D ho hD hu =>
    have hn := hnt n rfl
    obtain ⟨lb', sol, e, g1, g2, g3⟩ := maybe_spec (D := D) hi.min hi.inc (fun b hb => dd_real hg.base hn ho hD (Or.inl (by intro h; cases h)) hb)
    rw [e] at hint ⊢
    simp only at hint
    have hc := h hint
    have hlb := hlt lb rfl
    simp only at g1
    by_cases hx : D.exact = true
    · simp only [hx, if_true]
      refine ⟨multi_move hc g1 ?_ ?_ ?_ ?_ ?_ (by simp [offer]), hb⟩
      · exact fun w hw => absurd hw (tK_none (by simp) w)
      · exact fun m hm hw w hl => .keep (Or.inl (Or.inl hm)) hw hl
      · exact fun m hm => absurd hm (tF_none (by simp) m)
      · intro q hm w hl
        cases hm
        obtain ⟨_, w', h2, h3⟩ := hl
        by_cases hlw : lb < w'
        · rcases Props.exact_flag_barrier ho hg.wf hg.adm (fun _ => hg.rel) (Par.inp_width hg.base) hn m hD hx h2 hlw with ⟨bv, k1, k2⟩ | hp
          · exact Or.inl (Or.inl (by have := g2 bv k1; simp only; omega))
          · obtain ⟨a, k1, k2, k3⟩ := pruned_cuts hs.1 hp
            exact Or.inr (Or.inr ⟨a, k1, k3.le h3, Or.inl k2⟩)
        · exact Or.inl (Or.inl (by simp only; omega))
      · rintro old m (hm | hm | hm)
        · exact old m (Or.inl (Or.inl hm))
        · exact absurd hm (tF_none (by simp) m)
        · cases hm
    · simp only [hx, Bool.false_eq_true, if_false]
      refine ⟨multi_move hc g1 ?_ ?_ ?_ ?_ ?_ (by simp [offer]), hb⟩
      · exact fun w hw => absurd hw (tK_none (by simp) w)
      · exact fun m hm hw w hl => .keep (Or.inl (Or.inl hm)) hw hl
      · exact fun m hm => absurd hm (tF_none (by simp) m)
      · intro m hm w hl
        cases hm
        exact .keep (Or.inr (sW_mid rfl)) (fun _ => sW_mid rfl) hl
      · rintro old m (hm | hm | hm)
        · exact old m (Or.inl (Or.inl hm))
        · exact absurd hm (tF_none (by simp) m)
        · cases hm; exact old n (Or.inr (sW_mid rfl))
  | @read2 m n dd =>
    refine ⟨multi_move (h hint) (Int.le_refl _) ?_ ?_ ?_ ?_ ?_ (by simp [offer]), hb⟩
    · exact fun w hw => absurd hw (tK_none (by simp) w)
    · exact fun m hm hw w hl => .keep (Or.inl (Or.inl hm)) hw hl
    · exact fun m hm => absurd hm (tF_none (by simp) m)
    · intro m hm w hl
      cases hm
      exact .keep (Or.inr (sW_mid rfl)) (fun _ => sW_mid rfl) hl
    · rintro old m (hm | hm | hm)
      · exact old m (Or.inl (Or.inl hm))
      · exact absurd hm (tF_none (by simp) m)
      · cases hm; exact old n (Or.inr (sW_mid rfl))
  | @relax m n lb dd o D b' ho hD hbu =>
    have hn := hnt n rfl
    have hc := h hint
    have hlb := hlt lb rfl
    have hun' := hun n _ rfl
    simp only at hun'
    obtain ⟨b2, k1, k2, k3⟩ := Bars.tryUpdates_spec D.updates b (fun x hx => by
      have h1 := (dd_updates hg.base hn ho hD hx).2.2.2.2
      have h2 := hi.len.2.2
      simp only at h2
      omega)
    rw [hbu] at k1; cases k1
    have hmem : (⟨.post n (dd + D.explored), D⟩ : BThread σ) ∈ l1 ++ ⟨.post n (dd + D.explored), D⟩ :: l2 := by simp
    have bv : D.exact = true → ∀ x, D.bestValue = some x → ∀ w, w ≤ x → sK c (l1 ++ ⟨.post n (dd + D.explored), D⟩ :: l2) w :=
      fun hx x hx' w hw => Or.inr ⟨_, hmem, n, _, x, rfl, hx, hx', hw⟩
    have child : D.exact = false → ∀ q ∈ D.drainCutset, sF L c (l1 ++ ⟨.post n (dd + D.explored), D⟩ :: l2) { q with ub := min n.ub q.ub } :=
      fun hx q hq => Or.inr ⟨_, hmem, n, _, q, rfl, hx, hq, rfl⟩
    refine ⟨multi_move hc (Int.le_refl _) ?_ ?_ ?_ ?_ ?_ ?_, ?_⟩
    · exact fun w hw => absurd hw (tK_none (by simp) w)
    · exact fun m hm hw w hl => .keep (Or.inl (Or.inl hm)) hw hl
    · exact fun m hm => absurd hm (tF_none (by simp) m)
    · intro q hm w hl
      cases hm
      obtain ⟨h1, w', h2, h3⟩ := hl
      have viaP : PrunedAt cfg.p S B (seen v b).reads (input cfg .relaxed n lb) w' → _ := fun hp => pruned_cuts hs.1 hp
      by_cases hlw : lb < w'
      · cases hx : D.exact with
        | true =>
          rcases Props.exact_flag_barrier ho hg.wf hg.adm (fun _ => hg.rel) (Par.inp_width hg.base) hn m hD hx h2 hlw with ⟨x, k1, k2⟩ | hp
          · exact Or.inl (bv hx x k1 w (by omega))
          · obtain ⟨a, k1, k2, k3⟩ := viaP hp
            exact Or.inr (Or.inr ⟨a, k1, k3.le h3, Or.inl k2⟩)
        | false =>
          rcases dd_cover hg hco hmt hn ho hD hx h2 hlw with ⟨q, j1, w'', j2, j3, j4⟩ | hp
          · refine Or.inr (Or.inl ⟨_, Or.inl (child hx q j1), ⟨by simp only; omega, w'', j2, by omega⟩, Or.inl ?_⟩)
            exact (dd_genuine hg.base hn ho hD j1).2
          · obtain ⟨a, k1, k2, k3⟩ := viaP hp
            exact Or.inr (Or.inr ⟨a, k1, k3.le h3, Or.inl k2⟩)
      · exact Or.inl (Or.inl (by omega))
    · rintro old q (hm | hm | hm)
      · exact old q (Or.inl (Or.inl hm))
      · obtain ⟨n', dd', q', j1, j2, j3, rfl⟩ := hm
        cases j1
        intro w hw
        have hw' : Through cfg.p q' w := hw
        rcases dd_drain_ub hg hn ho hD j3 hw' with h1 | h1 | h1
        · exact Or.inl (Or.inl (by omega))
        · rcases hun' j2 q' j3 with h2 | h2
          · exact Or.inr (Or.inl (by simp only; omega))
          · exact Or.inl (Or.inl (by omega))
        · exact Or.inr (Or.inr (pruned_cuts hs.1 h1))
      · cases hm
    · intro x hx w hw
      obtain ⟨y, ds, u, a1, a2, a3, a4, a5⟩ := hw
      obtain ⟨hdx, hpr⟩ := dd_promise hg hco hmt hn ho hD hx ds y u a1 a2 a3 a4
      rcases hpr with h1 | h1 | ⟨⟨bvx, h1, h2⟩, h3⟩
      · exact Or.inl (Or.inl (by omega))
      · obtain ⟨a, k1, k2, k3⟩ := pruned_cuts hs.1 h1
        exact Or.inr (Or.inr ⟨a, k1, Or.inl k2, k3.le a5⟩)
      · cases hx' : D.exact with
        | true => exact Or.inl (bv hx' bvx h1 w (by omega))
        | false =>
          obtain ⟨q, h4, w', h5, h6, h7, h8⟩ := h3 hx'
          rcases hun' hx' q h4 with h9 | h9
          · refine Or.inr (Or.inl ⟨_, Or.inl (child hx' q h4), ⟨by simp only; omega, w', h5, by omega⟩, ?_⟩)
            rcases h8 with h8 | ⟨h8, h14, h15, h16⟩
            · exact Or.inl h8
            · exact Or.inr ⟨h8.symm, h15, h16, Or.inl h14⟩
          · exact Or.inl (Or.inl (by omega))
    · intro d s j hj
      rcases k3 d s j hj with h1 | ⟨x, hx, rfl, rfl, rfl⟩
      · exact hb d s j h1
      · exact hA x hx
  | @postExact D n dd hx =>
    obtain ⟨hn, hcomp⟩ := hpt n dd rfl
    obtain ⟨lb', sol, e, g1, g2, g3⟩ := maybe_spec (D := D) hi.min hi.inc (fun b hb => hcomp.real hg.base hn hx hb)
    rw [e] at hint ⊢
    have hc := h hint
    refine ⟨multi_move hc g1 ?_ ?_ ?_ ?_ ?_ (by simp [offer]), hb⟩
    · rintro w ⟨n', dd', x, j1, j2, j3, j4⟩
      exact Or.inl (by have := g2 x j3; simp only; omega)
    · exact fun m hm hw w hl => .keep (Or.inl (Or.inl hm)) hw hl
    · rintro m ⟨n', dd', q, j1, j2, _⟩
      simp only at j2
      rw [hx] at j2; cases j2
    · intro m hm; cases hm
    · rintro old m (hm | hm | hm)
      · exact old m (Or.inl (Or.inl hm))
      · exact absurd hm (tF_none (by simp) m)
      · cases hm
  | @postCut D n dd f ob hx hf =>
    obtain ⟨hn, hcomp⟩ := hpt n dd rfl
    have hc := h hint
    have gen1 : ∀ q ∈ toPush c.bestLb n.ub D.drainCutset ++ L.holds c.fringe, Genuine cfg.p q := by
      intro q hq
      rcases List.mem_append.1 hq with h1 | h1
      · obtain ⟨_, a, ha, rfl⟩ := mem_toPush.1 h1
        exact (hcomp.genuine hg.base hn ha).1
      · exact hi.genF q h1
    have gen2 : ∀ q ∈ L.holds f, Genuine cfg.p q := by
      intro q hq
      obtain ⟨q', h1, h2, h3, h4, _⟩ := hf.ref.src q hq
      obtain ⟨ds, e1, e2⟩ := gen1 q' h1
      rw [h4] at e1
      rw [h2, h3] at e2
      exact ⟨ds, e1, e2⟩
    have key : ∀ m ∈ toPush c.bestLb n.ub D.drainCutset ++ L.holds c.fringe,
        (sW (l1 ++ ⟨.post n dd, D⟩ :: l2) m → sW (l1 ++ ⟨.fin n.path.length dd, { D with cutset := [] }⟩ :: l2) m) → ∀ w, Leads cfg.p m w →
        Repl cfg.p B A (sK ({ c with fringe := f, openBy := ob } : BCrit σ cfg.fr.F) (l1 ++ ⟨.fin n.path.length dd, { D with cutset := [] }⟩ :: l2)) (sW (l1 ++ ⟨.post n dd, D⟩ :: l2))
          (sF L { c with fringe := f, openBy := ob } (l1 ++ ⟨.fin n.path.length dd, { D with cutset := [] }⟩ :: l2))
          (sW (l1 ++ ⟨.fin n.path.length dd, { D with cutset := [] }⟩ :: l2)) m w := by
      intro m hm hww w hl
      by_cases hwm : sW (l1 ++ ⟨.post n dd, D⟩ :: l2) m
      · exact .keep (Or.inr (hww hwm)) hww hl
      · obtain ⟨m', k1, k2, k3, k4⟩ := hf.ref.dom m hm
        have e1 := ((gen1 m hm).rootOK hg.wf).lvl
        have e2 := ((gen2 m' k1).rootOK hg.wf).lvl
        rw [k2] at e2
        obtain ⟨h1, w', ⟨ds, u, h2, rfl⟩, h3⟩ := hl
        exact Or.inr (Or.inl ⟨m', Or.inl (Or.inl k1), ⟨by omega, m'.value + u, ⟨ds, u, by rw [k2]; exact h2, rfl⟩, by omega⟩,
          Or.inr ⟨by omega, k2, k3, fun h => absurd h hwm⟩⟩)
    refine ⟨multi_move hc (Int.le_refl _) ?_ ?_ ?_ ?_ ?_ (by simp [offer]), hb⟩
    · rintro w ⟨n', dd', x, j1, j2, _⟩
      simp only at j2
      rw [hx] at j2; cases j2
    · exact fun m hm hw w hl => key m (List.mem_append.2 (Or.inr hm)) hw w hl
    · rintro m ⟨n', dd', q, j1, j2, j3, rfl⟩ hww w hl
      cases j1
      by_cases hp : c.bestLb < min n.ub q.ub
      · exact key _ (List.mem_append.2 (Or.inl (mem_toPush.2 ⟨hp, q, j3, rfl⟩))) hww w hl
      · have := hl.1
        exact Or.inl (Or.inl (by simp only at this ⊢; omega))
    · intro m hm; cases hm
    · rintro old m (hm | hm | hm)
      · intro w hw
        obtain ⟨q, h1, h2, h3, h4, h5⟩ := hf.ref.src m hm
        have hq : sF L c (l1 ++ ⟨.post n dd, D⟩ :: l2) q := by
          rcases List.mem_append.1 h1 with h1 | h1
          · obtain ⟨_, a, ha, rfl⟩ := mem_toPush.1 h1
            exact Or.inr ⟨⟨.post n dd, D⟩, by simp, n, dd, a, rfl, hx, ha, rfl⟩
          · exact Or.inl h1
        have hw' : Through cfg.p q w := by
          obtain ⟨ds, u, h6, h7⟩ := hw
          exact ⟨ds, u, by rw [h2]; exact h6, by rw [h3]; exact h7⟩
        rcases old q (Or.inl hq) w hw' with h6 | h6 | ⟨a, h6, h7, h8⟩
        · exact Or.inl h6
        · exact Or.inr (Or.inl (by omega))
        · exact Or.inr (Or.inr ⟨a, h6, by rw [← h4]; exact h7, h8⟩)
      · exact absurd hm (tF_none (by simp) m)
      · cases hm

theorem offer_self (t : BThread σ) : offer t t = [] := by
  obtain ⟨pc, m⟩ := t
  cases pc <;> rfl

theorem offer_wake (t : BThread σ) : offer t (wake t) = [] := by
  obtain ⟨pc, m⟩ := t
  cases pc <;> rfl

theorem offers_self (l : List (BThread σ)) : ((l.zip l).flatMap fun x => offer x.1 x.2) = [] := by
  induction l with
  | nil => rfl
  | cons t l ih => simp [offer_self, ih]

theorem offers_move (l1 l2 : List (BThread σ)) (t t' : BThread σ) :
    (((l1 ++ t :: l2).zip (l1 ++ t' :: l2)).flatMap fun x => offer x.1 x.2) = offer t t' := by
  rw [List.zip_append rfl, List.flatMap_append, offers_self, List.zip_cons_cons, List.flatMap_cons, offers_self]
  simp

/-- Workers that begin or end to wait matter to nothing. -/
theorem multi_quiet {c c' : BCrit σ cfg.fr.F} {ts ts' : List (BThread σ)} (hf : c'.fringe = c.fringe) (hl : c'.bestLb = c.bestLb)
    (h1 : ∀ w, (∃ t ∈ ts, tK t w) ↔ ∃ t ∈ ts', tK t w) (h2 : ∀ m, (∃ t ∈ ts, tF t m) ↔ ∃ t ∈ ts', tF t m) (h3 : ∀ m, (∃ t ∈ ts, tW t m) ↔ ∃ t ∈ ts', tW t m)
    (h : Multi L B A T c ts) : Multi L B A T c' ts' := by
  have e1 : sK c' ts' = sK c ts := by funext w; simp only [sK, hl, h1]
  have e2 : sF L c' ts' = sF L c ts := by funext w; simp only [sF, hf, h2]
  have e3 : sW ts' = sW ts := by funext w; simp only [sW, h3]
  unfold Multi
  rw [e1, e2, e3]; exact h

theorem tK_wake {t : BThread σ} {w : Int} : tK (wake t) w ↔ tK t w := by
  obtain ⟨pc, m⟩ := t
  cases pc <;> simp [wake, tK]

theorem tF_wake {t : BThread σ} {m : SubProblem σ} : tF (wake t) m ↔ tF t m := by
  obtain ⟨pc, m⟩ := t
  cases pc <;> simp [wake, tF]

theorem tW_wake {t : BThread σ} {m : SubProblem σ} : tW (wake t) m ↔ tW t m := by
  unfold tW; rw [node_wake]

theorem quiet_iff {P : BThread σ → Prop} {l1 l2 : List (BThread σ)} {t t' : BThread σ} (h1 : ¬ P t) (h2 : ¬ P t') :
    (∃ x ∈ l1 ++ t :: l2, P x) ↔ ∃ x ∈ l1 ++ t' :: l2, P x := by
  constructor
  · rintro ⟨x, h3, h4⟩
    rcases mem_split.1 h3 with h3 | rfl
    · exact ⟨x, mem_split.2 (Or.inl h3), h4⟩
    · exact absurd h4 h1
  · rintro ⟨x, h3, h4⟩
    rcases mem_split.1 h3 with h3 | rfl
    · exact ⟨x, mem_split.2 (Or.inl h3), h4⟩
    · exact absurd h4 h2

theorem trans_multi (hg : GoodCfg cfg S B) (hco : CutOK cfg S) {v : Option (View σ)} {r : Bool} {s s' : BSys σ cfg.fr.F} (ht : Trans cfg L v r s s') (hi : Inv L s)
    (hb : BarsIn A s.bars) (hv : ∀ v', v = some v' → SeenIn A v') (hA : ∀ a ∈ offers s s', a ∈ A) (hun : Uncapped s')
    (h : s.crit.interrupted = false → Multi L B A T s.crit s.threads) (hint : s'.crit.interrupted = false) :
    Multi L B A (T ++ offers s s') s'.crit s'.threads ∧ BarsIn A s'.bars := by
  cases ht with
  | @act c b c1 b1 c' b' t t' l1 l2 hm hidle ha =>
    have hi1 := mics_inv hm hi
    obtain ⟨e1, -⟩ := mics_keep hm
    simp only [offers, offers_move] at hA ⊢
    have hb1 : BarsIn A b1 := by
      by_cases h0 : c.interrupted = false
      · exact (mics_multi hg hm hv hi hb (h h0)).2
      · have : ∀ {c c' : BCrit σ cfg.fr.F} {b b' : Bars σ}, Mics cfg L v c b c' b' → BarsIn A b → BarsIn A b' := by
          intro c c' b b' hm
          induction hm with
          | nil => exact fun h => h
          | cons h1 _ ih =>
            intro hb
            apply ih
            cases h1 with
            | clean _ _ _ hcl =>
              intro d s i hi'
              rw [Bars.get_clear hcl] at hi'
              split at hi'
              · cases hi'
              · exact hb d s i hi'
            | skip => exact hb
        exact this hm hb
    exact act_multi hg hco ha hi1 hb1 hv hA (fun n dd h1 h2 q hq => hun t' (by simp) n dd h1 h2 q hq) (fun h0 => (mics_multi hg hm hv hi hb (h (e1 ▸ h0))).1) hint
  | @finish c b m d dd gb l1 l2 h0 hgb =>
    have e : offers (⟨c, b, l1 ++ ⟨.fin d dd, m⟩ :: l2⟩ : BSys σ cfg.fr.F) ⟨{ c with
          ongoing := c.ongoing - 1
          upperBounds := c.upperBounds.set l1.length isizeMax
          ongoingBy := gb
          exploredDd := c.exploredDd + dd }, b, (l1 ++ ⟨.idle, m⟩ :: l2).map wake⟩ = [] := by
      have wk : ∀ l : List (BThread σ), ((l.zip (l.map wake)).flatMap fun x => offer x.1 x.2) = [] := by
        intro l
        induction l with
        | nil => rfl
        | cons t l ih => simp [offer_wake, ih]
      simp only [offers, List.map_append, List.map_cons]
      rw [List.zip_append (by simp), List.flatMap_append, wk, List.zip_cons_cons, List.flatMap_cons, wk]
      rfl
    rw [e, List.append_nil]
    refine ⟨multi_quiet (c := c) rfl rfl ?_ ?_ ?_ (h hint), hb⟩
    · intro w
      refine (quiet_iff (t' := ⟨.idle, m⟩) (tK_none (by simp) w) (tK_none (by simp) w)).trans ?_
      simp only [List.mem_map, exists_exists_and_eq_and, tK_wake]
    · intro w
      refine (quiet_iff (t' := ⟨.idle, m⟩) (tF_none (by simp) w) (tF_none (by simp) w)).trans ?_
      simp only [List.mem_map, exists_exists_and_eq_and, tF_wake]
    · intro w
      refine (quiet_iff (P := fun t => tW t w) (t' := ⟨.idle, m⟩) (by simp [tW, Pc.node]) (by simp [tW, Pc.node])).trans ?_
      simp only [List.mem_map, exists_exists_and_eq_and, tW_wake]
  | @spurious c b m l1 l2 =>
    simp only [offers, offers_move, show offer (⟨.waiting, m⟩ : BThread σ) ⟨.idle, m⟩ = [] from rfl, List.append_nil]
    refine ⟨multi_quiet (c := c) rfl rfl ?_ ?_ ?_ (h hint), hb⟩
    · exact fun w => quiet_iff (tK_none (by simp) w) (tK_none (by simp) w)
    · exact fun w => quiet_iff (tF_none (by simp) w) (tF_none (by simp) w)
    · exact fun w => quiet_iff (P := fun t => tW t w) (by simp [tW, Pc.node]) (by simp [tW, Pc.node])

theorem honest_view {l : BLbl σ} (h : Honest A l) : ∀ v, lblView l = some v → SeenIn A v := by
  intro v hv
  cases l with
  | run i intr o v' => simp only [lblView] at hv; subst hv; exact h
  | spurious i => cases hv

theorem runs_multi (hg : GoodCfg cfg S B) (hco : CutOK cfg S) (hn : cfg.nbThreads ≤ cfg.custom) :
    ∀ (ls : List (BLbl σ)) (s : BSys σ cfg.fr.F) (T : List (Update σ)), Inv L s → (s.crit.interrupted = false → BarsIn A s.bars ∧ Multi L B A T s.crit s.threads) →
    (∀ l ∈ ls, BValidLbl l ∧ Honest A l) → (∀ a ∈ offered cfg s ls, a ∈ A) → Along cfg Uncapped s ls → ∀ s', runs cfg s ls = .ok s' →
    Inv L s' ∧ (s'.crit.interrupted = false → Multi L B A (T ++ offered cfg s ls) s'.crit s'.threads) := by
  intro ls
  induction ls with
  | nil =>
    intro s T h hs _ _ _ s' he
    simp only [runs] at he
    cases he
    exact ⟨h, fun h0 => by simpa [offered] using (hs h0).2⟩
  | cons l ls ih =>
    intro s T h hs hl hA hal s' he
    obtain ⟨k1, k2⟩ := step_trans (L := L) hg.base (h.safe hn) (hl l (by simp)).1
    unfold runs at he
    unfold offered at hA ⊢
    cases hst : step cfg s l with
    | panic => exact absurd hst k1
    | blocked => rw [hst] at he; cases he
    | ok s1 =>
      rw [hst] at he
      simp only [hst] at hA ⊢
      have ht := k2 s1 hst
      have hal' := hal.2 s1 hst
      have hs1 : s1.crit.interrupted = false → BarsIn A s1.bars ∧ Multi L B A (T ++ offers s s1) s1.crit s1.threads := by
        intro h1
        have h0 : s.crit.interrupted = false := by
          cases h0 : s.crit.interrupted with
          | false => rfl
          | true => rw [trans_int ht h0] at h1; cases h1
        exact (trans_multi hg hco ht h (hs h0).1 (honest_view (hl l (by simp)).2) (fun a ha => hA a (List.mem_append.2 (Or.inl ha))) (along_head hal') (fun _ => (hs h0).2) h1).symm
      have := ih s1 (T ++ offers s s1) (trans_inv hg.base ht h) hs1 (fun l hl' => hl l (by simp [hl'])) (fun a ha => hA a (List.mem_append.2 (Or.inr ha))) hal' s' he
      rwa [List.append_assoc] at this

theorem init_multi (hg : GoodCfg cfg S B) {s : BSys σ cfg.fr.F} (hs : init cfg = some s) : Multi L B A [] s.crit s.threads ∧ BarsIn A s.bars := by
  obtain ⟨s0, g1, g2, g3, g4, g5, g6, g7, g8, _⟩ := init_spec (cfg := cfg) L
  rw [hs] at g1; cases g1
  have root : ∀ w, Through cfg.p (rootNode cfg) w → w ≤ (rootNode cfg).ub := by
    intro w hw
    obtain ⟨ds, h⟩ := Par.through_root hw
    exact (Par.solution_bounds hg.wf h).2
  refine ⟨⟨?_, by simp, ?_⟩, ?_⟩
  · intro w hw
    exact Or.inr (Or.inl ⟨rootNode cfg, Or.inl (Or.inl g4), root w hw, w, hw, Int.le_refl _⟩)
  · rintro m ((hm | ⟨t, h1, h2⟩) | ⟨t, h1, h2⟩) w hw
    · rw [g3 m hm] at hw ⊢
      exact Or.inr (Or.inl (root w hw))
    · exact absurd h2 (tF_none (by rw [g5 t h1]; simp) m)
    · unfold tW at h2; rw [g5 t h1] at h2; cases h2
  · intro d s' i hi'
    rw [g8] at hi'; cases hi'

theorem multi_covered {s : BSys σ cfg.fr.F} (h : Inv L s) (hs : Multi L B A A s.crit s.threads) (h0 : 0 < cfg.nbThreads) (hf : BFinished s)
    (hi : s.crit.interrupted = false) : s.crit.bestUb = s.crit.bestLb ∧ ∀ ds w, Solution cfg.p ds w → w ≤ s.crit.bestLb := by
  have hlen := h.thr
  obtain ⟨t, htm⟩ : ∃ t, t ∈ s.threads := List.exists_mem_of_length_pos (by omega)
  obtain ⟨g1, g2, g3⟩ := h.done t htm (hf t htm) hi
  refine ⟨g3, ?_⟩
  intro ds w hw
  have := MCov.close hs ?_ ?_ w (root_through hw)
  · rcases this with h1 | ⟨x, h1, h2⟩
    · exact h1
    · exact absurd h2 (tK_none (by rw [hf x h1]; simp) w)
  · rintro m (h1 | ⟨x, h1, h2⟩)
    · rw [g1] at h1; cases h1
    · exact absurd h2 (tF_none (by rw [hf x h1]; simp) m)
  · rintro m ⟨x, h1, h2⟩
    unfold tW at h2; rw [hf x h1] at h2; cases h2

end Verif.Bar
