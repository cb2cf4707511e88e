import Verif.Proofs.Bar.Cover1
import Verif.Proofs.Par.Term
/-! A well-founded measure of the states of a run with a barrier. -/
set_option autoImplicit false

namespace Verif.Bar
open Verif Spec
open Verif.Par (wt fringeWts Less less_wf dm_replace genuine_lvl toPush mem_toPush)
variable {σ : Type} [DecidableEq σ] [Inhabited σ] {cfg : SolverCfg σ} {L : FrontierLaws cfg.fr} {S : Layering σ} {B : Int}

/-- The weight of the task a thread performs. -/
def Pc.wt (cfg : SolverCfg σ) (S : Layering σ) : BPc σ → List Nat
  | .start n => [Par.wt cfg S 8 n.state]
  | .restr n _ => [Par.wt cfg S 7 n.state]
  | .relb n _ => [Par.wt cfg S 6 n.state]
  | .relx n _ _ => [Par.wt cfg S 5 n.state]
  | .post n _ => [Par.wt cfg S 4 n.state]
  | .fin _ _ => [0]
  | _ => []

def Pc.rem : BPc σ → Nat
  | .idle => 2
  | .waiting => 1
  | _ => 0

def threadWts (cfg : SolverCfg σ) (S : Layering σ) (ts : List (BThread σ)) : List Nat := ts.flatMap fun t => Pc.wt cfg S t.pc
def rems (ts : List (BThread σ)) : Nat := (ts.map fun t => Pc.rem t.pc).sum

variable (L S) in
def measure (c : BCrit σ cfg.fr.F) (ts : List (BThread σ)) : Multiset Nat × Nat :=
  ((fringeWts cfg S (L.holds c.fringe) : Multiset Nat) + (threadWts cfg S ts : Multiset Nat), rems ts)

theorem threadWts_split (l1 l2 : List (BThread σ)) (t : BThread σ) :
    (threadWts cfg S (l1 ++ t :: l2) : Multiset Nat) = (threadWts cfg S (l1 ++ l2) : Multiset Nat) + (Pc.wt cfg S t.pc : Multiset Nat) := by
  unfold threadWts
  rw [List.flatMap_append, List.flatMap_cons, List.flatMap_append, Multiset.coe_add]
  apply Quot.sound
  rw [List.append_assoc]
  exact (List.perm_append_comm).append_left _

theorem rems_split (l1 l2 : List (BThread σ)) (t : BThread σ) : rems (l1 ++ t :: l2) = rems (l1 ++ l2) + Pc.rem t.pc := by
  unfold rems; simp; omega

theorem threadWts_wake (l : List (BThread σ)) : threadWts cfg S (l.map wake) = threadWts cfg S l := by
  unfold threadWts
  rw [List.flatMap_map]
  congr 1
  funext t
  simp only [wake]
  obtain ⟨pc, m⟩ := t
  cases pc <;> rfl

theorem fringe_perm {l l' : List (SubProblem σ)} {n : SubProblem σ} (h2 : l.Perm (n :: l')) :
    (fringeWts cfg S l : Multiset Nat) = ↑(fringeWts cfg S l') + {wt cfg S 9 n.state} := by
  rw [← Multiset.coe_singleton, Multiset.coe_add]
  apply Quot.sound
  refine (h2.map _).trans ?_
  simp only [List.map_cons]
  exact (List.perm_append_comm (l₁ := [_]))

/-- Discarding a waiting node. -/
theorem less_pop {c : BCrit σ cfg.fr.F} {f : cfg.fr.F} {ob : List Nat} {n : SubProblem σ} (h2 : (L.holds c.fringe).Perm (n :: L.holds f)) (ts : List (BThread σ)) :
    Less (measure L S { c with fringe := f, openBy := ob } ts) (measure L S c ts) := by
  apply Prod.Lex.left
  rw [fringe_perm h2]
  exact dm_replace (X := ↑(fringeWts cfg S (L.holds f)) + ↑(threadWts cfg S ts)) (Y := 0) (Z := {wt cfg S 9 n.state}) (by simp) (by ac_rfl) (by simp) (by simp)

theorem mics_less {v : Option (View σ)} {c c' : BCrit σ cfg.fr.F} {b b' : Bars σ} (ts : List (BThread σ)) (hm : Mics cfg L v c b c' b') :
    measure L S c' ts = measure L S c ts ∨ Relation.TransGen Less (measure L S c' ts) (measure L S c ts) := by
  induction hm with
  | nil => exact Or.inl rfl
  | cons h _ ih =>
    cases h with
    | clean => exact ih
    | skip h1 hf h2 h4 h5 h6 ho =>
      right
      have := less_pop (S := S) (L := L) (ob := by assumption) h2 ts
      rcases ih with ih | ih
      · rw [ih]; exact .single this
      · exact .tail ih this

/-- Each step that is not a spurious wake-up decreases the measure. -/
theorem trans_less (hg : BaseCfg cfg S B) {v : Option (View σ)} {s s' : BSys σ cfg.fr.F} {e : Bool} {k : Nat} (ht : Trans cfg L v true s s') (h : Inv L s e k) :
    Relation.TransGen Less (measure L S s'.crit s'.threads) (measure L S s.crit s.threads) := by
  cases ht with
  | @finish c b m d dd gb l1 l2 hpos hgb =>
    apply Relation.TransGen.single
    apply Prod.Lex.left
    simp only [threadWts_wake, threadWts_split, Pc.wt]
    refine ⟨↑(fringeWts cfg S (L.holds c.fringe)) + ↑(threadWts cfg S (l1 ++ l2)), 0, {0}, by simp, by simp [-Multiset.coe_add], by rw [Multiset.coe_singleton]; ac_rfl, by simp⟩
  | @act c0 b0 c b c' b' t t' l1 l2 hm hidle ha =>
    have hi := mics_inv hm h
    have hgen := hi.genW
    suffices Less (measure L S c' (l1 ++ t' :: l2)) (measure L S c (l1 ++ t :: l2)) by
      rcases mics_less (S := S) (l1 ++ t :: l2) hm with e | e
      · simp only; rw [← e]; exact .single this
      · exact Relation.TransGen.trans (.single this) e
    -- replacing the task of the thread by a lighter one
    have task : ∀ a b, c'.fringe = c.fringe → Pc.wt cfg S t.pc = [a] → Pc.wt cfg S t'.pc = [b] → b < a →
        Less (measure L S c' (l1 ++ t' :: l2)) (measure L S c (l1 ++ t :: l2)) := by
      intro a b e1 e2 e3 hlt
      apply Prod.Lex.left
      simp only [threadWts_split, e1, e2, e3]
      refine dm_replace (X := ↑(fringeWts cfg S (L.holds c.fringe)) + ↑(threadWts cfg S (l1 ++ l2))) (Y := {b}) (Z := {a}) (by rw [Multiset.coe_singleton]; ac_rfl) (by rw [Multiset.coe_singleton]; ac_rfl) (by simp)
        (by simp [hlt])
    have leave : c'.fringe = c.fringe → Pc.wt cfg S t.pc = [] → Pc.wt cfg S t'.pc = [] → Pc.rem t'.pc < Pc.rem t.pc →
        Less (measure L S c' (l1 ++ t' :: l2)) (measure L S c (l1 ++ t :: l2)) := by
      intro e1 e2 e3 hlt
      unfold measure
      simp only [threadWts_split, rems_split, e1, e2, e3]
      exact Prod.Lex.right _ (by omega)
    cases ha with
    | complete h1 h2 => exact leave rfl rfl rfl (by simp [Pc.rem])
    | stop h1 => exact leave rfl rfl rfl (by simp [Pc.rem])
    | wait h1 h2 h3 => exact leave rfl rfl rfl (by simp [Pc.rem])
    | @interrupt m ub f h1 hf h2 h3 =>
      cases hh : L.holds c.fringe with
      | nil =>
        unfold measure
        simp only [threadWts_split, rems_split, h2, hh, Pc.wt]
        exact Prod.Lex.right _ (by simp [Pc.rem])
      | cons a l =>
        apply Prod.Lex.left
        simp only [threadWts_split, h2, hh, Pc.wt]
        refine dm_replace (X := ↑(threadWts cfg S (l1 ++ l2))) (Y := 0) (Z := ↑(fringeWts cfg S (a :: l))) ?_ ?_ ?_ ?_
        · simp [fringeWts]
        · simp [add_comm, -Multiset.coe_add]
        · simp [fringeWts]
        · simp
    | @prune m n f h1 hf h2 h3 h4 h5 =>
      apply Prod.Lex.left
      simp only [threadWts_split, h2, Pc.wt]
      refine dm_replace (X := ↑(threadWts cfg S (l1 ++ l2))) (Y := 0) (Z := ↑(fringeWts cfg S (L.holds c.fringe))) ?_ ?_ ?_ ?_
      · simp [fringeWts]
      · simp [add_comm, -Multiset.coe_add]
      · cases hh : L.holds c.fringe with
        | nil => rw [hh] at h3; cases h3
        | cons a l => simp [fringeWts]
      · simp
    | @drop m n f ob k h1 hf h2 h4 h5 h6 ho h7 => exact less_pop h2 _
    | @take m n f ob gb b' k h1 hf h2 h4 h5 h6 ho hgb hb =>
      apply Prod.Lex.left
      simp only [threadWts_split, Pc.wt, fringe_perm h2]
      refine dm_replace (X := ↑(fringeWts cfg S (L.holds f)) + ↑(threadWts cfg S (l1 ++ l2))) (Y := {wt cfg S 8 n.state}) (Z := {wt cfg S 9 n.state}) ?_ ?_ ?_ ?_
      · rw [Multiset.coe_singleton]; ac_rfl
      · simp only [Multiset.coe_nil, add_zero]; ac_rfl
      · simp
      · simp [wt]
    | @early m n h1 => exact task _ _ rfl rfl rfl (by simp [wt])
    | @read1 m n h1 => exact task _ _ rfl rfl rfl (by simp [wt])
    | @read2 m n h1 => exact task _ _ rfl rfl rfl (by simp [wt])
    | @restrict m n lb o D ho hD hu =>
      have e : (maybeUpdateBest cfg c D).fringe = c.fringe := by
        unfold maybeUpdateBest; simp only; split <;> rfl
      by_cases hx : D.exact = true
      · exact task (wt cfg S 7 n.state) 0 e rfl (by simp [hx, Pc.wt]) (by simp [wt])
      · exact task (wt cfg S 7 n.state) (wt cfg S 6 n.state) e rfl (by simp [hx, Pc.wt]) (by simp [wt])
    | @relax m n lb dd o D b' ho hD hb => exact task _ _ rfl rfl rfl (by simp [wt])
    | @postExact D n dd hx =>
      have e : (maybeUpdateBest cfg c D).fringe = c.fringe := by
        unfold maybeUpdateBest; simp only; split <;> rfl
      exact task _ _ e rfl rfl (by simp [wt])
    | @postCut D n dd f ob hx hf =>
      obtain ⟨hn, hcomp⟩ := hi.post _ (Par.mem_split.2 (Or.inr rfl)) n dd rfl
      obtain ⟨sub, k1, k2⟩ := hf.wts (wt cfg S 9)
      apply Prod.Lex.left
      have e : (fringeWts cfg S (L.holds f) : Multiset Nat) = ↑(fringeWts cfg S (L.holds c.fringe)) + ↑sub := by
        rw [Multiset.coe_add]
        apply Quot.sound
        exact k2.trans List.perm_append_comm
      simp only [threadWts_split, Pc.wt, e]
      refine dm_replace (X := ↑(fringeWts cfg S (L.holds c.fringe)) + ↑(threadWts cfg S (l1 ++ l2))) (Y := ↑sub + {0}) (Z := {wt cfg S 4 n.state}) ?_ ?_ ?_ ?_
      · rw [Multiset.coe_singleton]; ac_rfl
      · rw [Multiset.coe_singleton]; ac_rfl
      · simp
      · intro y hy
        refine ⟨_, Multiset.mem_singleton_self _, ?_⟩
        rcases Multiset.mem_add.1 hy with hy | hy
        · obtain ⟨q, hq, rfl⟩ := k1 y hy
          obtain ⟨_, q0, hq0, rfl⟩ := mem_toPush.1 hq
          obtain ⟨g1, g2⟩ := hcomp.genuine hg hn hq0
          have a1 := genuine_lvl hg.wf g1
          have a2 := genuine_lvl hg.wf hn
          simp only [wt]; omega
        · rw [Multiset.mem_singleton] at hy; subst hy; simp [wt]

end Verif.Bar
