import Verif.Proofs.Mdd.Narrow
import Verif.Proofs.Par.Final
/-! If the width suffices for all reachable states then the root is the only node. -/
set_option autoImplicit false

namespace Verif.Par
open Verif Spec
variable {σ : Type} [DecidableEq σ] [Inhabited σ] {cfg : SolverCfg σ} {L : FrontierLaws cfg.fr} {S S' : Layering σ} {B B' : Int}

section root
variable {v : Variant} {o : Oracle σ} {rd : Reads σ} {lb : Int} {m D : Dd σ}

theorem root_exact (hg : NarrowCfg cfg S B S' B') (ho : o.Valid) (hD : m.compile v o cfg.p cfg.r cfg.rank rd (input cfg .restricted (rootNode cfg) lb) = some D) :
    D.exact = true := by
  have hwf := Dd.reached_wf hg.wf
  obtain ⟨D', h1, h2⟩ := Dd.narrow_exact (v := v) (r := cfg.r) (rank := cfg.rank) (rd := rd) (inp := input cfg .restricted (rootNode cfg) lb) ho hwf rfl
    (root_genuine.rootOK hwf) (by
      intro k hk
      have h0 : (input cfg .restricted (rootNode cfg) lb).residual.path.length = 0 := rfl
      rw [h0, Nat.zero_add] at hk ⊢
      obtain ⟨l, hl, hm⟩ := hg.narrow k hk
      refine ⟨l, hl, ?_⟩
      rintro s ⟨-, ds, u, hr, hlen⟩ hs
      exact hm ds u s hr (hlen.trans hs)) m
  rw [hD] at h1; cases h1
  exact h2

/-- Only what the barrier shows below the root is missing. -/
theorem root_bound (hg : NarrowCfg cfg S B S' B') (ho : o.Valid) (hD : m.compile v o cfg.p cfg.r cfg.rank rd (input cfg .restricted (rootNode cfg) lb) = some D)
    {w : Int} (hw : Through cfg.p (rootNode cfg) w) : w ≤ lb ∨ (∃ b, D.bestValue = some b ∧ w ≤ b) ∨
      PrunedAt cfg.p S' B' rd (input cfg .restricted (rootNode cfg) lb) w := by
  have hnr : (input cfg .restricted (rootNode cfg) lb).compType ≠ .relaxed := by intro h; cases h
  by_cases h : w ≤ lb
  · exact Or.inl h
  · exact Or.inr (Props.exact_flag_barrier ho hg.wf hg.adm (fun h => absurd h hnr) (fun h => absurd h hnr) root_genuine m hD (root_exact hg ho hD) hw (by
      show lb < w; omega))
end root

theorem solution_lt (hwf : WellFormed cfg.p S B) {ds : List Decision} {w : Int} (h : Solution cfg.p ds w) : w < isizeMax := by
  obtain ⟨u, ⟨t, hr, _⟩, rfl⟩ := h
  have h1 := hr.facts hwf hwf.ok_init
  have h2 := hr.len hwf hwf.ok_init (by rw [hwf.lvl_init]; omega)
  rw [hwf.lvl_init] at h2
  have h3 := hwf.init_bound
  have h4 := hwf.no_overflow
  have hB : 0 ≤ B := by omega
  have h5 : (ds.length : Int) * B ≤ cfg.p.nbVars * B := Int.mul_le_mul_of_nonneg_right (by omega) hB
  have h6 : 4 * ((cfg.p.nbVars : Int) + 2) * B = 4 * (cfg.p.nbVars * B) + 8 * B := by
    rw [Int.mul_assoc, Int.add_mul]; omega
  rw [h6] at h4
  simp only [isizeMax] at *
  omega

theorem inc_lt (hg : BaseCfg cfg S B) {c : Crit σ cfg.fr.F} (h : Incumbent c) : c.bestLb < isizeMax := by
  rcases h with ⟨-, h⟩ | ⟨sol, -, ds, -, h⟩
  · rw [h]; decide
  · exact solution_lt hg.wf h

/-- Not about a relaxed diagram. -/
def Pc.plain : Pc σ → Bool
  | .relb _ _ => false
  | .relx _ _ _ => false
  | _ => true

variable (L) in
/-- The root is the only node there is. -/
structure Lone (s : Sys σ cfg.fr.F) : Prop where
  all : ∀ n ∈ L.holds s.crit.fringe ++ working s.threads, n = rootNode cfg
  few : (L.holds s.crit.fringe).length + s.crit.explored ≤ 1
  one : s.crit.interrupted = false → (L.holds s.crit.fringe).length + s.crit.explored = 1
  pcs : ∀ t ∈ s.threads, Pc.plain t.pc = true

theorem act_lone (hg : NarrowCfg cfg S B S' B') {c c' : Crit σ cfg.fr.F} {t t' : Thread σ} {l1 l2 : List (Thread σ)}
    (ha : Act cfg L l1.length c t c' t') (h : Inv L ⟨c, l1 ++ t :: l2⟩) (hl : Lone L ⟨c, l1 ++ t :: l2⟩) : Lone L ⟨c', l1 ++ t' :: l2⟩ := by
  obtain ⟨hall, hfew, hone, hpcs⟩ := hl
  simp only [List.mem_append, mem_working] at hall
  simp only at hfew hone
  have hpt := hpcs t (mem_split.2 (Or.inr rfl))
  have gen : (∀ n ∈ L.holds c'.fringe, n = rootNode cfg) → (∀ n, Pc.node t'.pc = some n → n = rootNode cfg) →
      (L.holds c'.fringe).length + c'.explored ≤ 1 → (c'.interrupted = false → (L.holds c'.fringe).length + c'.explored = 1) → Pc.plain t'.pc = true → Lone L ⟨c', l1 ++ t' :: l2⟩ := by
    intro h1 h2 h3 h4 h5
    refine ⟨?_, h3, h4, ?_⟩
    · intro n hn
      simp only [List.mem_append, mem_working] at hn
      rcases hn with hn | hn | hn
      · exact h1 n hn
      · exact hall n (Or.inr (Or.inl hn))
      · exact h2 n hn
    · intro x hx
      rcases mem_split.1 hx with hx | rfl
      · exact hpcs x (mem_split.2 (Or.inl hx))
      · exact h5
  have hF : ∀ n ∈ L.holds c.fringe, n = rootNode cfg := fun n hn => hall n (Or.inl hn)
  have hT : ∀ n, Pc.node t.pc = some n → n = rootNode cfg := fun n hn => hall n (Or.inr (Or.inr hn))
  cases ha with
  | complete h1 h2 => exact gen hF (by simp [Pc.node]) hfew hone rfl
  | stop h1 h2 => exact gen hF (by simp [Pc.node]) hfew hone rfl
  | interrupt h1 hf h2 h3 => exact gen (by simp [h2]) (by simp [Pc.node]) (by simp only [h2, List.length_nil]; omega) (by simp) rfl
  | wait h1 h2 h3 => exact gen hF (by simp [Pc.node]) hfew hone rfl
  | prune h1 hf h2 h3 h4 h5 =>
    have h6 := hF _ h3
    subst h6
    have := inc_lt hg.base h.inc
    have h7 : isizeMax ≤ c.bestLb := h5
    simp only at this
    omega
  | take h1 hf h2 h4 h5 =>
    have hlen := h2.length_eq
    rw [List.length_cons] at hlen
    refine gen (fun q hq => hF q (h2.mem_iff.2 (by simp [hq]))) ?_ (by simp only; omega) ?_ rfl
    · intro q hq
      simp only [Pc.node, Option.some.injEq] at hq
      subst hq
      exact hF _ (h2.mem_iff.2 (by simp))
    · intro hi
      have := hone h1
      simp only; omega
  | skip h1 => exact gen hF (by simp [Pc.node]) hfew hone rfl
  | read1 h1 => exact gen hF (fun n hn => hT n hn) hfew hone rfl
  | @restrict m n lb o D ho hD =>
    have hn := hT n rfl
    subst hn
    have hx := root_exact hg ho hD
    obtain ⟨e1, e2, -⟩ := maybe_frame (cfg := cfg) c D
    have e3 : (maybeUpdateBest cfg c D).fringe = c.fringe := by unfold maybeUpdateBest; simp only; split <;> rfl
    refine gen (by rw [e3]; exact hF) (by simp [hx, Pc.node]) (by rw [e2, e3]; exact hfew) (by rw [e1, e2, e3]; exact hone) (by simp [hx, Pc.plain])
  | read2 => cases hpt
  | relaxExact ho hD hx => cases hpt
  | relaxCut ho hD hx hf => cases hpt

theorem act_ncovered (hg : NarrowCfg cfg S B S' B') {c c' : Crit σ cfg.fr.F} {t t' : Thread σ} {l1 l2 : List (Thread σ)}
    (ha : Act cfg L l1.length c t c' t') (h : Inv L ⟨c, l1 ++ t :: l2⟩) (hl : Lone L ⟨c, l1 ++ t :: l2⟩) (hcov : Covered L ⟨c, l1 ++ t :: l2⟩) :
    Covered L ⟨c', l1 ++ t' :: l2⟩ := by
  obtain ⟨hinv, hong, hthr, hubs, hgen, hlbs, hmin, hinc, hwait, hdone, hmdd⟩ := h
  have hpt := hl.pcs t (mem_split.2 (Or.inr rfl))
  have hall := hl.all
  simp only [List.mem_append, mem_working] at hall hgen
  have hlt := hlbs t (mem_split.2 (Or.inr rfl))
  have before : c.interrupted = false → ∀ w, Through cfg.p (rootNode cfg) w → c.bestLb < w →
      Covers cfg.p (L.holds c.fringe ++ working (l1 ++ l2)) w ∨ ∃ n, Pc.node t.pc = some n ∧ w ≤ n.ub ∧ ∃ w', Through cfg.p n w' ∧ w ≤ w' := by
    intro hi w hw hlb
    obtain ⟨n, hn, hrest⟩ := hcov hi w hw hlb
    simp only [List.mem_append, mem_working] at hn
    rcases hn with hn | hn | hn
    · exact Or.inl ⟨n, by simp [hn], hrest⟩
    · exact Or.inl ⟨n, List.mem_append.2 (Or.inr hn), hrest⟩
    · exact Or.inr ⟨n, hn, hrest⟩
  have same : c'.interrupted = c.interrupted → c.bestLb ≤ c'.bestLb → (∀ n ∈ L.holds c.fringe, n ∈ L.holds c'.fringe) →
      (∀ n, Pc.node t.pc = some n → Pc.node t'.pc = some n ∨
        ∀ w w', c'.bestLb < w → w ≤ n.ub → Through cfg.p n w' → w ≤ w' → False) → Covered L ⟨c', l1 ++ t' :: l2⟩ := by
    intro e1 e2 e3 e4 hi w hw hlb
    simp only at hi hlb
    rcases before (by rw [← e1]; exact hi) w hw (by omega) with hb | ⟨n, h1, h2, w', h3, h4⟩
    · refine hb.mono ?_
      intro q hq
      rcases List.mem_append.1 hq with hq | hq
      · simp [e3 q hq]
      · exact List.mem_append.2 (Or.inr (mem_working.2 (Or.inl hq)))
    · rcases e4 n h1 with h | h
      · exact ⟨n, List.mem_append.2 (Or.inr (mem_working.2 (Or.inr h))), h2, w', h3, h4⟩
      · exact absurd (h w w' hlb h2 h3 h4) id
  cases ha with
  | complete h1 h2 => exact same rfl (Int.le_refl _) (fun _ h => h) (by simp [Pc.node])
  | stop h1 h2 => exact same rfl (Int.le_refl _) (fun _ h => h) (by simp [Pc.node])
  | interrupt h1 hf h2 h3 => intro h; cases h
  | wait h1 h2 h3 => exact same rfl (Int.le_refl _) (fun _ h => h) (by simp [Pc.node])
  | @prune m n f h1 hf h2 h3 h4 h5 =>
    intro hi w hw hlb
    simp only at hi hlb
    rcases before hi w hw hlb with ⟨q, hq, hub, hrest⟩ | ⟨n, h1, _⟩
    · rcases List.mem_append.1 hq with hq | hq
      · have := h4 q hq; omega
      · exact ⟨q, List.mem_append.2 (Or.inr (mem_working.2 (Or.inl hq))), hub, hrest⟩
    · simp [Pc.node] at h1
  | @take m n f h1 hf h2 h4 h5 =>
    intro hi w hw hlb
    simp only at hi hlb
    rcases before hi w hw hlb with ⟨q, hq, hrest⟩ | ⟨n, h1, _⟩
    · refine ⟨q, ?_, hrest⟩
      simp only [List.mem_append, mem_working]
      rcases List.mem_append.1 hq with hq | hq
      · rcases List.mem_cons.1 (h2.mem_iff.1 hq) with rfl | hq
        · exact Or.inr (Or.inr rfl)
        · exact Or.inl hq
      · exact Or.inr (Or.inl hq)
    · simp [Pc.node] at h1
  | @skip m n h1 =>
    refine same rfl (Int.le_refl _) (fun _ h => h) ?_
    intro q hq
    simp only [Pc.node, Option.some.injEq] at hq
    subst hq
    right; intro w w' a b _ _; omega
  | read1 h1 => exact same rfl (Int.le_refl _) (fun _ h => h) (fun n hn => Or.inl hn)
  | @restrict m n lb o D ho hD =>
    have hn := hall n (Or.inr (Or.inr rfl))
    subst hn
    obtain ⟨lb', sol, e, g1, g2, g3⟩ := maybe_spec (D := D) hmin hinc (fun b hb => dd_real hg.base root_genuine ho hD (Or.inl (by intro h; cases h)) hb)
    rw [e] at same ⊢
    refine same rfl g1 (fun _ h => h) ?_
    intro q hq
    simp only [Pc.node, Option.some.injEq] at hq
    subst hq
    right
    intro w w' a b hth hle
    have hl : lb ≤ c.bestLb := hlt lb rfl
    have hg1 : c.bestLb ≤ lb' := g1
    have hnr : (input cfg .restricted (rootNode cfg) lb).compType ≠ .relaxed := by intro h; cases h
    rcases (Props.exact_flag (Or.inl rfl) ho hg.wf hg.adm (fun h => absurd h hnr) (fun h => absurd h hnr) root_genuine m hD (root_exact hg ho hD)).1 w' hth with h | ⟨b', h1, h2⟩
    · have h : w' ≤ lb := h
      simp only at a; omega
    · have := g2 b' h1; simp only at a; omega
  | read2 => cases hpt
  | relaxExact ho hD hx => cases hpt
  | relaxCut ho hD hx hf => cases hpt

theorem trans_lone (hg : NarrowCfg cfg S B S' B') {b : Bool} {s s' : Sys σ cfg.fr.F} (ht : Trans cfg L b s s') (h : Inv L s) (hl : Lone L s) (hcov : Covered L s) :
    Lone L s' ∧ Covered L s' := by
  cases ht with
  | act ha => exact ⟨act_lone hg ha h hl, act_ncovered hg ha h hl hcov⟩
  | @finish c m dd l1 l2 hpos =>
    constructor
    · refine ⟨fun n hn => hl.all n ?_, hl.few, hl.one, ?_⟩
      · simp only [working_wake, List.mem_append, mem_working] at hn ⊢
        exact hn
      · intro x hx
        obtain ⟨y, hy, _, hpc, _⟩ := wake_mem hx
        rcases hpc with hpc | hpc
        · rw [hpc]
          rcases mem_split.1 hy with hy | rfl
          · exact hl.pcs y (mem_split.2 (Or.inl hy))
          · rfl
        · rw [hpc]; rfl
    · intro hi w hw hlb
      refine (hcov hi w hw hlb).mono ?_
      intro q hq
      simp only [working_wake, List.mem_append, mem_working] at hq ⊢
      exact hq
  | @spurious c m l1 l2 =>
    constructor
    · refine ⟨fun n hn => hl.all n ?_, hl.few, hl.one, ?_⟩
      · simp only [List.mem_append, mem_working] at hn ⊢
        exact hn
      · intro x hx
        rcases mem_split.1 hx with hx | rfl
        · exact hl.pcs x (mem_split.2 (Or.inl hx))
        · rfl
    · intro hi w hw hlb
      refine (hcov hi w hw hlb).mono ?_
      intro q hq
      simp only [List.mem_append, mem_working] at hq ⊢
      exact hq

theorem init_lone {s : Sys σ cfg.fr.F} (h : init cfg = some s) : Lone L s := by
  obtain ⟨f', h1, h2, h3⟩ := L.push cfg.fr.new (rootNode cfg) L.new_inv
  have h4 : L.holds f' = [rootNode cfg] := by
    rw [L.new_holds] at h3
    rcases h3 with h3 | ⟨old, rest, -, h3, -⟩
    · exact List.perm_singleton.1 h3
    · simp at h3
  unfold init at h
  rw [h1] at h
  cases h
  have hw : working (List.replicate cfg.nbThreads (⟨.idle, Dd.new cfg.cutset⟩ : Thread σ)) = [] := by
    unfold working; rw [List.filterMap_eq_nil_iff]
    intro x hx; rw [mem_replicate_eq hx]; rfl
  refine ⟨?_, by simp [h4], by simp [h4], ?_⟩
  · intro n hn
    simp only [h4, hw, List.append_nil, List.mem_singleton] at hn
    exact hn
  · intro t ht; rw [mem_replicate_eq ht]; rfl

theorem runs_lone (hg : NarrowCfg cfg S B S' B') (hn : cfg.nbThreads ≤ cfg.custom) {s' : Sys σ cfg.fr.F} : ∀ (ls : List (Lbl σ)) (s : Sys σ cfg.fr.F),
    (∀ l ∈ ls, ValidLbl l) → Inv L s → Lone L s → Covered L s → runs cfg s ls = .ok s' → Lone L s' ∧ Covered L s'
  | [], s, _, _, h1, h2, he => by cases he; exact ⟨h1, h2⟩
  | l :: ls, s, hv, hi, h1, h2, he => by
    simp only [runs] at he
    split at he
    · rename_i s1 hs
      have ht := (step_trans (L := L) hg.base (hi.safe hn) (hv l (by simp))).2 _ hs
      have h3 := trans_lone hg ht hi h1 h2
      exact runs_lone hg hn ls s1 (fun x hx => hv x (by simp [hx])) (trans_inv hg.base ht hi) h3.1 h3.2 he
    · cases he
    · cases he

theorem reachable_lone (L : FrontierLaws cfg.fr) (hg : NarrowCfg cfg S B S' B') (hn : cfg.nbThreads ≤ cfg.custom) {s : Sys σ cfg.fr.F} (hr : Reachable cfg s) :
    Inv L s ∧ Lone L s ∧ Covered L s := by
  obtain ⟨s0, ls, h0, hl, hs⟩ := hr
  refine ⟨(reachable_inv L hg.base hn ⟨s0, ls, h0, hl, hs⟩).1, ?_⟩
  obtain ⟨s1, e, hi, hc⟩ := init_spec L hg.base
  rw [h0] at e; cases e
  exact runs_lone hg hn ls s0 hl hi (init_lone h0) hc hs

end Verif.Par
