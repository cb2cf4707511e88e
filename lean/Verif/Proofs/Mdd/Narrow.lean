import Verif.Spec.Narrow
import Verif.Proofs.Mdd.Beam
import Verif.Props.Mdd
/-! A restricted diagram is exact if no layer is wider than allowed. -/
set_option autoImplicit false

namespace Verif.Dd
open Verif Spec
variable {σ : Type} [DecidableEq σ] [Inhabited σ]
variable {v : Variant} {o : Oracle σ} {p : Problem σ} {r : Relaxation σ} {rank : σ → σ → Ordering} {S : Layering σ} {B : Int}
  {inp : Input σ} {rd : Reads σ}

theorem branchOn_approx (m : Dd σ) (i : Nat) (d : Decision) : (m.branchOn v p i d).approximate = m.approximate := by
  unfold branchOn
  simp only []
  repeat' split
  all_goals rfl

theorem foldl_approx {β : Type} (f : Dd σ → β → Dd σ) (h : ∀ m b, (f m b).approximate = m.approximate) : ∀ (l : List β) (m : Dd σ), (l.foldl f m).approximate = m.approximate
  | [], _ => rfl
  | b :: l, m => by rw [List.foldl_cons, foldl_approx f h l, h]

theorem tryUpdate_approx (m : Dd σ) (d : Nat) (s : σ) (t : Int) (e : Bool) : (m.tryUpdate d s t e).approximate = m.approximate := by
  unfold tryUpdate; split <;> rfl

theorem expandOne_approx (x D : Nat) (m : Dd σ) (i : Nat) : (expandOne v p inp x D m i).approximate = m.approximate := by
  have hb : ∀ (l : List Decision) (m : Dd σ), (l.foldl (fun m d => m.branchOn v p i d) m).approximate = m.approximate :=
    foldl_approx _ fun m d => branchOn_approx m i d
  unfold expandOne
  simp only []
  split
  · cases v with
    | all => exact hb _ _
    | barrier =>
      simp only []
      split
      · rw [tryUpdate_approx]; exact hb _ _
      · exact hb _ _
  · cases v with
    | all => rfl
    | barrier =>
      simp only []
      split
      · rw [tryUpdate_approx]; rfl
      · rfl

theorem expand_approx (x D : Nat) : ∀ (l : List Nat) (m : Dd σ), (l.foldl (expandOne v p inp x D) m).approximate = m.approximate :=
  foldl_approx _ fun m i => expandOne_approx x D m i

/-- No layer is squashed if the meaningful states of each level are few. -/
theorem narrow_exact (ho : o.Valid) (hwf : WellFormed p S B) (hct : inp.compType = .restricted) (hroot : RootOK p S B inp.residual)
    (hN : ∀ k, inp.residual.path.length + k < p.nbVars → ∃ l : List σ, l.length ≤ inp.maxWidth ∧ ∀ s, S.ok s → S.lvl s = inp.residual.path.length + k → s ∈ l)
    (m : Dd σ) : ∃ D, m.compile v o p r rank rd inp = some D ∧ D.exact = true := by
  have hnr : inp.compType ≠ .relaxed := by rw [hct]; decide
  obtain ⟨m', k, jx, P, L, h1, hd, h3⟩ := compile_inv (v := v) (r := r) (rank := rank) (rd := rd) ho hwf (fun h => absurd h hnr) (fun h => absurd h hnr) hroot m
    (fun _ m' _ => m'.approximate = false) (fun _ => rfl)
    (by
      intro k jx jx' m' P L currL m2 cur1 m4 cur2 h hk k1 k2 h' hb
      have hc := h.core
      have hperm : ((o.hashOrd m'.nextL).map (·.2)).Perm (P k) := by rw [← h.ids]; exact (ho.hash m'.nextL).map _
      have hnd : ((o.hashOrd m'.nextL).map (·.2)).Nodup := hperm.nodup_iff.2 (hc.nodupP k (Nat.le_refl _))
      have hlt : ∀ i ∈ (o.hashOrd m'.nextL).map (·.2), i < ({ m' with prevL := currL, nextL := [] } : Dd σ).nodes.length := fun i hi =>
        hc.lt k i (Or.inl ⟨Nat.le_refl _, hperm.mem_iff.1 hi⟩)
      have hps := pruneLayer_spec v rd inp.residual.path.length (inp.residual.path.length + k) ({ m' with prevL := currL, nextL := [] } : Dd σ) _ hnd hlt
      rw [k1] at hps
      obtain ⟨l, hl, hmem⟩ := hN k hk
      have hlen : cur1.length ≤ inp.maxWidth := by
        have a1 : cur1.length ≤ _ := hps.sub.length_le
        have a2 := hperm.length_eq
        have a3 : (P k).length = (m'.nextL.map (·.1)).length := by rw [← h.ids, List.length_map, List.length_map]
        have a4 := length_le_of_nodup_subset _ l h.keys (by
          intro s hs
          obtain ⟨q, hq, rfl⟩ := List.mem_map.1 hs
          have hq2 : q.2 ∈ P k := by rw [← h.ids]; exact List.mem_map_of_mem hq
          have := hc.st k q.2 (Or.inl ⟨Nat.le_refl _, hq2⟩)
          rw [h.sts q hq] at this
          exact hmem _ this.1 this.2.1)
        omega
      unfold squashLayer at k2
      rw [hct] at k2
      simp only [if_neg (show ¬ cur1.length > inp.maxWidth by omega), Option.some.injEq, Prod.mk.injEq] at k2
      obtain ⟨rfl, rfl⟩ := k2
      rw [expand_approx]
      exact (congrArg Rest.approximate hps.rest).trans hb)
  refine ⟨_, h1, ?_⟩
  have hsk := hd.skelAny hwf ho hroot (o := o)
  rw [hsk.exact]
  have he : (m'.fin0 o inp).exact = (!m'.approximate || (decide (inp.compType = .relaxed) && _)) := rfl
  rw [he, h3]; rfl

/-- The states that can be reached, as a layering. -/
def reached (p : Problem σ) (S : Layering σ) : Layering σ :=
  { ok := fun s => S.ok s ∧ ∃ ds v, Run p p.init ds v s ∧ ds.length = S.lvl s, lvl := S.lvl, var := S.var }

theorem run_snoc {s t : σ} {ds : List Decision} {u : Int} (h : Run p s ds u t) {x : Nat} {d : Decision} (hx : p.nextVar [t] = some x) (hd : d ∈ p.dom x t) :
    Run p s (ds ++ [d]) (u + p.cost t d) (p.trans t d) := by
  induction h with
  | nil s =>
    have := Run.cons (p := p) hx hd (Run.nil _)
    simpa using this
  | cons hx' hd' _ ih =>
    have := Run.cons (p := p) hx' hd' (ih hx hd)
    rwa [← Int.add_assoc] at this

theorem reached_wf (hwf : WellFormed p S B) : WellFormed p (reached p S) B where
  ok_init := ⟨hwf.ok_init, [], 0, Run.nil _, hwf.lvl_init.symm⟩
  ok_trans := by
    rintro s x d ⟨h1, ds, u, h2, h3⟩ hx hd
    refine ⟨hwf.ok_trans s x d h1 hx hd, ds ++ [d], _, run_snoc h2 hx hd, ?_⟩
    rw [hwf.lvl_trans s x d h1 hx hd, List.length_append, h3]; rfl
  lvl_init := hwf.lvl_init
  lvl_trans := fun s x d h => hwf.lvl_trans s x d h.1
  next_nil := hwf.next_nil
  next_var := fun l k hl h => hwf.next_var l k hl fun s hs => ⟨(h s hs).1.1, (h s hs).2⟩
  init_bound := hwf.init_bound
  cost_bound := fun s x d h => hwf.cost_bound s x d h.1
  no_overflow := hwf.no_overflow

theorem reached_adm (hadm : Admissible p S) : Admissible p (reached p S) := fun s h => hadm s h.1

end Verif.Dd
