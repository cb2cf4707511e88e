import Verif.Proofs.Fine.Solo
import Verif.Proofs.Bar.Past
/-! What a single step does to the barrier. -/
set_option autoImplicit false

namespace Verif.Fine
open Verif Spec Bar
open Verif.Par (input)
variable {σ : Type} [DecidableEq σ] [Inhabited σ] {cfg : SolverCfg σ} {L : FrontierLaws cfg.fr} {S : Layering σ} {B : Int}

/-- What a step of the thread `i` does to the barrier. -/
inductive Touch (cfg : SolverCfg σ) (i : Nat) (s s' : FSys σ cfg.fr.F) : Prop
  | none (h : s'.sys.bars = s.sys.bars)
  | clear (h : s.sys.bars.clear s.sys.crit.lowest = some s'.sys.bars) (hl : s'.sys.crit.lowest = s.sys.crit.lowest + 1)
  | take (n : SubProblem σ) (f : cfg.fr.F) (ob : List Nat) (hs : s.sub i = some (.take n f ob))
      (h : s.sys.bars.insert n.path.length n.state ⟨n.value, true⟩ = some s'.sys.bars)
  | write (o : Oracle σ) (u : Update σ) (us : List (Update σ)) (k : Cont σ) (hs : s.sub i = some (.comp o (.write u us k)))
      (h : s.sys.bars.insert u.depth u.state ⟨u.theta, u.explored⟩ = some s'.sys.bars)

theorem decide_bars {s s' : FSys σ cfg.fr.F} {i : Nat} {t : BThread σ} {intr : Bool} (h : decideWork cfg s i t intr = .ok s') : s'.sys.bars = s.sys.bars := by
  unfold decideWork at h
  simp only at h
  repeat' split at h
  all_goals first | (cases h; done) | (cases h; rfl)

theorem work_bars {o : Oracle σ} {inp : Input σ} {b b' : Bars σ} {w w' : Work σ} (h : stepWork cfg o inp b w = .next w' b') :
    b' = b ∨ ∃ u us k, w = .write u us k ∧ b.insert u.depth u.state ⟨u.theta, u.explored⟩ = some b' := by
  cases w with
  | top f d m l =>
    simp only [stepWork] at h
    split at h <;> first | (cases h; done) | (cases h; exact Or.inl rfl)
  | look f d v m l =>
    simp only [stepWork] at h
    repeat' split at h
    all_goals first | (cases h; done) | (cases h; exact Or.inl rfl)
  | prune f d v m todo kept =>
    cases todo with
    | nil =>
      simp only [stepWork] at h
      split at h <;> first | (cases h; done) | (cases h; exact Or.inl rfl)
    | cons a todo =>
      simp only [stepWork] at h
      split at h <;> first | (cases h; done) | (cases h; exact Or.inl rfl)
  | test us k =>
    cases us with
    | nil =>
      cases k <;> simp only [stepWork] at h <;> first | (cases h; done) | (cases h; exact Or.inl rfl)
    | cons u us =>
      simp only [stepWork] at h
      repeat' split at h
      all_goals first | (cases h; done) | (cases h; exact Or.inl rfl)
  | write u us k =>
    simp only [stepWork] at h
    split at h
    · cases h
    · rename_i b1 h1
      cases h
      exact Or.inr ⟨u, us, k, rfl, h1⟩

theorem other_bars {s s' : BSys σ cfg.fr.F} {i : Nat} {t : BThread σ} {intr : Bool} {o : Oracle σ} {v : Option (View σ)} (h : Bar.stepThread cfg s i t intr o v = .ok s')
    (h1 : t.pc ≠ .idle) (h2 : ∀ n lb, t.pc ≠ .restr n lb) (h3 : ∀ n lb dd, t.pc ≠ .relx n lb dd) : s'.bars = s.bars := by
  unfold Bar.stepThread at h
  simp only at h
  split at h
  · cases h
  · cases h
  · rename_i hp; exact absurd hp h1
  · split at h <;> (cases h; rfl)
  · rename_i n lb hp; exact absurd hp (h2 n lb)
  · cases h; rfl
  · rename_i n lb dd hp; exact absurd hp (h3 n lb dd)
  · repeat' split at h
    all_goals first | (cases h; done) | (cases h; rfl)
  · repeat' split at h
    all_goals first | (cases h; done) | (cases h; rfl)

/-- A step makes at most one change to the barrier. -/
theorem step_touch {s s' : FSys σ cfg.fr.F} {i : Nat} {intr : Bool} {o : Oracle σ} (h : step cfg s (.run i intr o) = .ok s') : Touch cfg i s s' := by
  simp only [step] at h
  split at h
  · cases h
  rename_i t ht
  unfold stepThread at h
  split at h
  · rename_i x hsub
    cases x with
    | clean =>
      simp only [stepSub] at h
      split at h
      · split at h
        · split at h
          · split at h
            · cases h
            · rename_i b hb
              cases h
              exact .clear hb rfl
          · exact .none (decide_bars h)
        · cases h
      · exact .none (decide_bars h)
    | pop =>
      simp only [stepSub] at h
      repeat' split at h
      all_goals first | (cases h; done) | (cases h; exact .none rfl)
    | take n f ob =>
      simp only [stepSub] at h
      split at h
      · rename_i b gb hb hg
        split at h
        · cases h; exact .take n f ob hsub hb
        · cases h
      · cases h
    | comp o' w =>
      simp only [stepSub] at h
      split at h
      · rename_i n lb hp
        split at h
        · cases h
        · rename_i w' b hw
          cases h
          rcases work_bars hw with h | ⟨u, us, k, rfl, h⟩
          · exact .none h
          · exact .write o' u us k hsub h
        · split at h
          · cases h; exact .none rfl
          · cases h
      · rename_i n lb dd hp
        split at h
        · cases h
        · rename_i w' b hw
          cases h
          rcases work_bars hw with h | ⟨u, us, k, rfl, h⟩
          · exact .none h
          · exact .write o' u us k hsub h
        · cases h; exact .none rfl
      · cases h
  · split at h
    · cases h
    · cases h
    · split at h
      · cases h; exact .none rfl
      · cases h
    · cases h; exact .none rfl
    · cases h; exact .none rfl
    · rename_i h1 h2 h3 h4 h5
      split at h
      · split at h
        · rename_i x hx
          cases h
          exact .none (other_bars hx h3 h4 h5)
        · cases h
        · cases h
      · cases h

/-- When nobody stores a threshold in between, a step does not weaken any threshold, except that it clears a layer it declares inactive. -/
theorem solo_grows {K : Bool → Oracle σ → Prop} {i : Nat} {s s' : FSys σ cfg.fr.F} {c : BSys σ cfg.fr.F} (hs : Solo K i s c) {intr : Bool} {o : Oracle σ}
    (h : step cfg s (.run i intr o) = .ok s') {d : Nat} (hd : s'.sys.crit.lowest ≤ d) (x : σ) (y : Int) (hy : mustExplore (s.sys.bars.get d x) y = false) :
    mustExplore (s'.sys.bars.get d x) y = false := by
  obtain ⟨t, ht, hx⟩ := hs.sub
  cases step_touch h with
  | none h => rw [h]; exact hy
  | clear h hl => rw [Bars.get_clear h, if_neg (by omega)]; exact hy
  | take n f ob hsub h =>
    rw [hsub] at hx
    exact insert_grows hx.2.2.1 h d x y hy
  | write o' u us k hsub h =>
    rw [hsub] at hx
    have himp : u.depth < s.sys.bars.length ∧ Bars.improves (s.sys.bars.get u.depth u.state) u.theta u.explored = true := by
      obtain ⟨-, -, -, n, lb, -, ⟨-, -, done, -, -, -, g⟩ | ⟨dd, -, -, done, -, -, -, g⟩⟩ := hx <;> exact g
    have hu : s.sys.bars.tryUpdate u = some s'.sys.bars := by
      unfold Bars.tryUpdate
      rw [if_pos himp.1, if_pos himp.2]
      exact h
    exact tryUpdate_grows hu d x y hy

end Verif.Fine
