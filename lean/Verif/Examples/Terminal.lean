import Verif.Examples.Solvers
/-!
A problem whose complete assignments all end in the same state, although states get merged: meets the hypotheses of the theorems about the frontier cutset
(this file models no code of the repository).
-/
set_option autoImplicit false

namespace Verif
open Spec
variable {σ : Type}

/-- Fewer meaningful states. -/
def Spec.Layering.restrict (S : Layering σ) (P : σ → Prop) : Layering σ := ⟨fun s => S.ok s ∧ P s, S.lvl, S.var⟩

theorem Spec.WellFormed.restrict {p : Problem σ} {S : Layering σ} {B : Int} (h : WellFormed p S B) {P : σ → Prop} (h0 : P p.init)
    (ht : ∀ s x d, P s → p.nextVar [s] = some x → d ∈ p.dom x s → P (p.trans s d)) : WellFormed p (S.restrict P) B where
  ok_init := ⟨h.ok_init, h0⟩
  ok_trans := fun s x d hs hx hd => ⟨h.ok_trans s x d hs.1 hx hd, ht s x d hs.2 hx hd⟩
  lvl_init := h.lvl_init
  lvl_trans := fun s x d hs => h.lvl_trans s x d hs.1
  next_nil := h.next_nil
  next_var := fun l k hl hk => h.next_var l k hl fun s hs => ⟨(hk s hs).1.1, (hk s hs).2⟩
  init_bound := h.init_bound
  cost_bound := fun s x d hs => h.cost_bound s x d hs.1
  no_overflow := h.no_overflow

theorem admissible_restrict {p : Problem σ} {S : Layering σ} (h : Admissible p S) (P : σ → Prop) : Admissible p (S.restrict P) := fun s hs => h s hs.1

theorem Spec.SoundRelaxation.restrict {p : Problem σ} {r : Relaxation σ} {S : Layering σ} {B : Int} (h : SoundRelaxation p r S B) {P : σ → Prop}
    (hm : ∀ l, l ≠ [] → (∀ s ∈ l, P s) → P (r.merge l)) : SoundRelaxation p r (S.restrict P) B where
  merge_ok := fun l k hl hk =>
    have := h.merge_ok l k hl fun s hs => ⟨(hk s hs).1.1, (hk s hs).2⟩
    ⟨⟨this.1, hm l hl fun s hs => (hk s hs).1.2⟩, this.2⟩
  merge_dom := fun l k hk s x d hs => h.merge_dom l k (fun s hs => ⟨(hk s hs).1.1, (hk s hs).2⟩) s x d hs.1
  relax_cost := fun l k hk s x d hs => h.relax_cost l k (fun s hs => ⟨(hk s hs).1.1, (hk s hs).2⟩) s x d hs.1

namespace Inst

/-- Like `lossTab`, but all assignments end in the state 0. -/
def oneTab : Table.Tab :=
  [(0, [[(1, 0), (2, 0)]]),
   (2, [[(1, 2)], [(2, 1), (3, 0)]]),
   (2, [[(1, 0)], [(2, 2), (3, 2)], [(2, 0)]]),
   (10, [[(0, 10)], [(0, 0)], [(0, 0)]])]
theorem oneTab_valid : Table.valid oneTab 10 40 = true := by decide

/-- In the last layer only the state 0. -/
def oneOk (s : Table.St) : Prop := s.1 ≤ 4 ∧ (s.1 = 4 → s.2 = 0)
abbrev oneLayering : Layering Table.St := Table.layering.restrict oneOk

theorem one_trans : ∀ (s : Table.St) (x : Nat) (d : Decision), oneOk s → (Table.prob oneTab 40).nextVar [s] = some x → d ∈ (Table.prob oneTab 40).dom x s →
    oneOk ((Table.prob oneTab 40).trans s d) := by
  intro s x d hs hx hd
  obtain ⟨s', l', he, hlt, _⟩ := Table.nextVar_some hx
  cases he
  have hlt : s.1 < 4 := hlt
  have hk := Table.kid_mem hd
  refine ⟨by simp only [Table.prob]; omega, ?_⟩
  intro h4
  have h3 : s.1 = 3 := by simp only [Table.prob] at h4; omega
  show (Table.kid oneTab s d).1 = 0
  obtain ⟨k, i⟩ := s
  simp only at h3
  subst h3
  revert hk
  generalize Table.kid oneTab (3, i) d = c
  intro hk
  match i with
  | 0 => simp [Table.kids] at hk; rw [hk]
  | 1 => simp [Table.kids, oneTab] at hk; rw [hk]
  | 2 => simp [Table.kids, oneTab] at hk; rw [hk]
  | 3 => simp [Table.kids, oneTab] at hk; rw [hk]
  | i + 4 => simp [Table.kids, oneTab] at hk

theorem one_wf : WellFormed (Table.prob oneTab 40) oneLayering 10 := (Table.wellFormed oneTab_valid).restrict ⟨by decide, by decide⟩ one_trans
theorem one_adm : Admissible (Table.prob oneTab 40) oneLayering := admissible_restrict (Table.admissible oneTab_valid) _
theorem one_rel : SoundRelaxation (Table.prob oneTab 40) Table.relaxation oneLayering 10 := by
  refine (Table.soundRelaxation oneTab_valid).restrict ?_
  intro l hl h
  cases l with
  | nil => exact absurd rfl hl
  | cons a l => exact ⟨(h a (by simp)).1, fun _ => rfl⟩
theorem one_unique : UniqueTerminal (Table.prob oneTab 40) oneLayering := by
  rintro ⟨a, b⟩ ⟨c, d⟩ hs ht h1 h2
  have key : ∀ k i, oneOk (k, i) → (Table.prob oneTab 40).nextVar [(k, i)] = none → (k, i) = (4, 0) := by
    intro k i hk hn
    have h4 : ¬ k < 4 := by
      intro hlt
      simp only [Table.prob] at hn
      rw [if_pos (show k < List.length oneTab from hlt)] at hn; cases hn
    have : k = 4 := by have := hk.1; simp only at this; omega
    subst this
    have h0 : i = 0 := hk.2 rfl
    rw [h0]
  rw [key a b hs.2 h1, key c d ht.2 h2]

theorem oneCfg_good (n : Nat) (c : CutsetType) : GoodCfg (tabCfg oneTab 2 n c) oneLayering 10 := ⟨one_wf, one_adm, one_rel, fun _ => Nat.le_succ 1⟩

end Inst
end Verif
