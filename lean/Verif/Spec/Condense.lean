import Verif.Spec.Beam
/-!
The layers of states reached by a decision diagram that merges the least promising states of its layers.
-/
set_option autoImplicit false

namespace Verif.Spec
variable {σ : Type}

/-- The state that replaces others of the same layer does not depend on their order. -/
def OrderFree (r : Relaxation σ) (S : Layering σ) : Prop := ∀ l l' k, (∀ s ∈ l, S.ok s ∧ S.lvl s = k) → l.Perm l' → r.merge l = r.merge l'

/-- `Y` is what remains of the layer `X`: all that passes the test remains, other states may remain as well. -/
structure Sifted (pass : σ × Int → Bool) (X Y : Layer σ) : Prop where
  nodup : Y.Nodup
  sub : ∀ a ∈ Y, a ∈ X
  all : ∀ a ∈ X, pass a = true → a ∈ Y

/-- Redirecting an arc that leads from a state of the layer `W` to one of the states `ss` to the state `t` instead gives `t` the value `u`. -/
def Redirected (p : Problem σ) (r : Relaxation σ) (x : Nat) (lb : Int) (W : Layer σ) (ss : List σ) (t : σ) (u : Int) : Prop :=
  ∃ a ∈ W, lb < satAdd (p.estimate a.1) a.2 ∧ ∃ d ∈ p.dom x a.1, p.trans a.1 d ∈ ss ∧ u = satAdd a.2 (r.relax a.1 (p.trans a.1 d) t d (p.cost a.1 d))

/-- The value of the state `t` that replaces the states `ss`: the best one of all redirected arcs. -/
structure MergedValue (p : Problem σ) (r : Relaxation σ) (x : Nat) (lb : Int) (W : Layer σ) (ss : List σ) (t : σ) (u : Int) : Prop where
  real : Redirected p r x lb W ss t u
  best : ∀ u', Redirected p r x lb W ss t u' → u' ≤ u

/-- `Y` is what becomes of the layer `X`, reached from the layer `W` by deciding variable `x`, when at most `w` states may remain: the most promising `w - 1` ones are kept and
the others are merged into one.  If the merged state is among the states kept, its value may be raised and there is room for one more. -/
inductive Condensed (p : Problem σ) (r : Relaxation σ) (rank : σ → σ → Ordering) (x : Nat) (lb : Int) (w : Nat) (W X : Layer σ) : Layer σ → Prop
  | merge {Y keep rest : Layer σ} {t : σ} {u : Int} (hp : X.Perm (keep ++ rest)) (hw : keep.length + 1 = w) (hb : ∀ a ∈ keep, ∀ b ∈ rest, Preferred rank a b)
      (ht : t = r.merge (rest.map (·.1))) (hu : MergedValue p r x lb W (rest.map (·.1)) t u) (hn : ∀ a ∈ keep, a.1 ≠ t) (hY : Y.Perm ((t, u) :: keep)) :
      Condensed p r rank x lb w W X Y
  | recycle {Y keep rest : Layer σ} {t : σ} {u0 u : Int} {c : σ × Int} (hp : X.Perm ((t, u0) :: keep ++ c :: rest)) (hw : keep.length + 2 = w)
      (hb : ∀ a ∈ (t, u0) :: keep, ∀ b ∈ c :: rest, Preferred rank a b) (ht : t = r.merge ((c :: rest).map (·.1)))
      (hu : MergedValue p r x lb W ((c :: rest).map (·.1)) t u) (hc : ∀ b ∈ rest, Preferred rank c b) (hY : Y.Perm ((t, max u0 u) :: c :: keep)) :
      Condensed p r rank x lb w W X Y

/-- `Widened … n k W X`: a diagram of width `w` that merges states, built from the subproblem `n`, may have the layer `X` after `k` decisions, reached from the layer `W`.
The layers of the root and of its children are never merged. -/
inductive Widened (p : Problem σ) (r : Relaxation σ) (S : Layering σ) (rank : σ → σ → Ordering) (w : Nat) (lb : Int) (pass : Nat → σ × Int → Bool) (n : SubProblem σ) :
    Nat → Layer σ → Layer σ → Prop
  | root : Widened p r S rank w lb pass n 0 [] [(n.state, n.value)]
  | step {k : Nat} {W X X' Z : Layer σ} (h : Widened p r S rank w lb pass n k W X) (hk : n.path.length + k < p.nbVars)
      (hs : Sifted (pass (n.path.length + k)) X X') (hw : X'.length ≤ w ∨ k ≤ 1) (hc : Children p (S.var (n.path.length + k)) lb X' Z) :
      Widened p r S rank w lb pass n (k + 1) X' Z
  | merge {k : Nat} {W X X' Y Z : Layer σ} (h : Widened p r S rank w lb pass n k W X) (hk : n.path.length + k < p.nbVars)
      (hs : Sifted (pass (n.path.length + k)) X X') (hw : w < X'.length) (hk1 : 1 < k) (hm : Condensed p r rank (S.var (n.path.length + k - 1)) lb w W X' Y)
      (hc : Children p (S.var (n.path.length + k)) lb Y Z) : Widened p r S rank w lb pass n (k + 1) Y Z

end Verif.Spec
