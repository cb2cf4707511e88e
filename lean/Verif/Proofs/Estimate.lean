import Verif.Spec.Problem
/-!
The estimate plays no part in what the solutions of a problem are.
-/
set_option autoImplicit false

namespace Verif.Spec
variable {σ : Type} {p : Problem σ} {S : Layering σ} {B : Int}

theorem Run.estimate_iff (f : σ → Int) {s e : σ} {ds : List Decision} {v : Int} : Run { p with estimate := f } s ds v e ↔ Run p s ds v e := by
  constructor
  · intro h
    induction h with
    | nil s => exact .nil s
    | cons hx hd _ ih => exact .cons (p := p) hx hd ih
  · intro h
    induction h with
    | nil s => exact .nil s
    | cons hx hd _ ih => exact .cons (p := { p with estimate := f }) hx hd ih

theorem Completion.estimate_iff (f : σ → Int) {s : σ} {ds : List Decision} {v : Int} : Completion { p with estimate := f } s ds v ↔ Completion p s ds v := by
  constructor <;> exact fun ⟨e, h1, h2⟩ => ⟨e, (by first | exact (Run.estimate_iff f).1 h1 | exact (Run.estimate_iff f).2 h1), h2⟩

theorem Solution.estimate_iff (f : σ → Int) {ds : List Decision} {v : Int} : Solution { p with estimate := f } ds v ↔ Solution p ds v := by
  constructor <;> exact fun ⟨u, h1, h2⟩ => ⟨u, (by first | exact (Completion.estimate_iff f).1 h1 | exact (Completion.estimate_iff f).2 h1), h2⟩

theorem IsOptimum.estimate_iff (f : σ → Int) {v : Int} : IsOptimum { p with estimate := f } v ↔ IsOptimum p v := by
  constructor
  · exact fun ⟨⟨ds, h⟩, hb⟩ => ⟨⟨ds, (Solution.estimate_iff f).1 h⟩, fun ds' v' h' => hb ds' v' ((Solution.estimate_iff f).2 h')⟩
  · exact fun ⟨⟨ds, h⟩, hb⟩ => ⟨⟨ds, (Solution.estimate_iff f).2 h⟩, fun ds' v' h' => hb ds' v' ((Solution.estimate_iff f).1 h')⟩

theorem WellFormed.estimate (h : WellFormed p S B) (f : σ → Int) : WellFormed { p with estimate := f } S B :=
  { ok_init := h.ok_init, ok_trans := h.ok_trans, lvl_init := h.lvl_init, lvl_trans := h.lvl_trans, next_nil := h.next_nil, next_var := h.next_var,
    init_bound := h.init_bound, cost_bound := h.cost_bound, no_overflow := h.no_overflow }

theorem SoundRelaxation.estimate {r : Relaxation σ} (h : SoundRelaxation p r S B) (f : σ → Int) : SoundRelaxation { p with estimate := f } r S B := by
  refine ⟨⟨h.merge_ok, h.relax_cost⟩, ?_⟩
  intro l k hl s x d hs hx hd hm ds v hc
  obtain ⟨ds', v', h1, h2⟩ := h.merge_dom l k hl s x d hs hx hd hm ds v ((Completion.estimate_iff f).1 hc)
  exact ⟨ds', v', (Completion.estimate_iff f).2 h1, h2⟩

end Verif.Spec
