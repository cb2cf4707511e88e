import Verif.Proofs.Bar.Frame
/-! The nodes handed out and the thresholds. -/
set_option autoImplicit false

namespace Verif.Bar
open Verif Spec
variable {σ : Type} [DecidableEq σ] [Inhabited σ] {cfg : SolverCfg σ} {L : FrontierLaws cfg.fr} {S : Layering σ} {B : Int}

/-! ### Thresholds only grow -/

/-- What was cut off is still cut off. -/
def Grows (b b' : Bars σ) : Prop := ∀ d s y, mustExplore (b.get d s) y = false → mustExplore (b'.get d s) y = false

theorem tryUpdate_grows {b b' : Bars σ} {u : Update σ} (h : b.tryUpdate u = some b') : Grows b b' := by
  have hlt : u.depth < b.length := by
    apply Classical.byContradiction
    intro hc
    unfold Bars.tryUpdate at h; rw [if_neg hc] at h; cases h
  obtain ⟨b1, h1, _, h2⟩ := Bars.tryUpdate_spec (b := b) (u := u) hlt
  rw [h] at h1; cases h1
  rcases h2 with ⟨rfl, _⟩ | ⟨h2, h3⟩
  · exact fun _ _ _ h => h
  · intro d s y hy
    rw [h3 d s]
    split
    · rename_i hc
      obtain ⟨rfl, rfl⟩ := hc
      cases hg : b.get u.depth u.state with
      | none => rw [hg] at hy; cases hy
      | some i =>
        rw [hg] at hy h2
        simp [mustExplore, Bars.improves] at hy h2 ⊢
        obtain ⟨a1, a2⟩ := hy
        rcases h2 with h2 | ⟨⟨h2, h4⟩, h5⟩
        · exact ⟨by omega, by omega⟩
        · exact ⟨by omega, fun _ => h5⟩
    · exact hy

theorem tryUpdates_grows : ∀ (us : List (Update σ)) (b b' : Bars σ), b.tryUpdates us = some b' → Grows b b' := by
  intro us
  induction us with
  | nil => intro b b' h; cases h; exact fun _ _ _ h => h
  | cons u us ih =>
    intro b b' h
    unfold Bars.tryUpdates at h
    split at h
    · cases h
    · rename_i b1 h1
      exact fun d s y hy => ih _ _ h d s y (tryUpdate_grows h1 d s y hy)

/-! ### No node is handed out in vain -/

/-- The nodes `H` handed out so far would not be handed out again. -/
def Past (S : Layering σ) (H : List (SubProblem σ)) (c : BCrit σ cfg.fr.F) (b : Bars σ) : Prop :=
  ∀ n ∈ H, n.path.length = S.lvl n.state ∧ (n.path.length < c.lowest ∨ mustExplore (b.get n.path.length n.state) n.value = false)

theorem mics_past {v : Option (View σ)} {H : List (SubProblem σ)} {c c' : BCrit σ cfg.fr.F} {b b' : Bars σ} (hm : Mics cfg L v c b c' b') (h : Past S H c b) :
    Past S H c' b' := by
  induction hm with
  | nil => exact h
  | @cons c b c1 b1 c2 b2 h1 _ ih =>
    apply ih
    cases h1 with
    | clean h1 h2 h3 hb =>
      intro n hn
      obtain ⟨a1, a2⟩ := h n hn
      refine ⟨a1, ?_⟩
      simp only
      by_cases hlt : n.path.length < c.lowest + 1
      · exact Or.inl hlt
      · right
        rw [Bars.get_clear hb, if_neg (by omega)]
        rcases a2 with a2 | a2
        · omega
        · exact a2
    | skip => exact h

theorem insert_grows {b b' : Bars σ} {d : Nat} {s : σ} {y : Int} (hx : mustExplore (b.get d s) y = true) (hb : b.insert d s ⟨y, true⟩ = some b') : Grows b b' := by
  intro d' s' y' hy
  rw [Bars.get_insert hb]
  split
  · rename_i hc
    obtain ⟨rfl, rfl⟩ := hc
    cases hg : b.get d' s' with
    | none => rw [hg] at hy; cases hy
    | some i =>
      rw [hg] at hy hx
      simp [mustExplore] at hy hx ⊢
      rcases hx with hx | hx <;> omega
  · exact hy

theorem act_past {i : Nat} {H : List (SubProblem σ)} {c c' : BCrit σ cfg.fr.F} {b b' : Bars σ} {t t' : BThread σ}
    (ha : Act cfg L none i c b t c' b' t') (h : Past S H c b) : Past S H c' b' := by
  have maybe : ∀ D : Dd σ, (maybeUpdateBest cfg c D).lowest = c.lowest := by
    intro D; unfold maybeUpdateBest; simp only; split <;> rfl
  have grow : Grows b b' → c'.lowest = c.lowest → Past S H c' b' := by
    intro hgr hl n hn
    obtain ⟨a1, a2⟩ := h n hn
    exact ⟨a1, a2.imp (by rw [hl]; exact id) (hgr _ _ _)⟩
  cases ha with
  | take h1 hf h2 h4 h5 h6 ho hg hb => exact grow (insert_grows h6 hb) rfl
  | relax ho hD hb => exact grow (tryUpdates_grows _ _ _ hb) rfl
  | restrict ho hD hu => exact grow (fun _ _ _ h => h) (maybe _)
  | postExact hx => exact grow (fun _ _ _ h => h) (maybe _)
  | _ => exact grow (fun _ _ _ h => h) rfl

theorem trans_past {r : Bool} {H : List (SubProblem σ)} {s s' : BSys σ cfg.fr.F} (ht : Trans cfg L none r s s') (h : Past S H s.crit s.bars) :
    Past S H s'.crit s'.bars := by
  cases ht with
  | act hm _ ha => exact act_past ha (mics_past hm h)
  | finish => exact h
  | spurious => exact h

/-- The node that is handed out is new: nodes of the same state handed out before had a smaller value. -/
theorem item_past (hg : BaseCfg cfg S B) {H : List (SubProblem σ)} {s : BSys σ cfg.fr.F} (hi : Inv L s) (hn : cfg.nbThreads ≤ cfg.custom) {i : Nat} {intr : Bool}
    {t : BThread σ} (ht : s.threads[i]? = some t) (h : Past S H s.crit s.bars) {c' : BCrit σ cfg.fr.F} {b' : Bars σ} {n : SubProblem σ}
    (hw : getWorkload cfg s.crit s.bars i intr none = some (c', b', .item n)) :
    (∀ m ∈ H, m.state = n.state → m.value < n.value) ∧ Past S (H ++ [n]) c' b' := by
  have hilt : i < s.crit.upperBounds.length := by
    have := (List.getElem?_eq_some_iff.1 ht).1
    rw [hi.ubs]; rw [hi.thr] at this; omega
  obtain ⟨c1, b1, w, c2, b2, e1, e2, e3⟩ := getWorkload_spec (L := L) hg.wf none (c := s.crit) (b := s.bars)
    ⟨hi.inv, hi.genF, hi.len, hi.cntO, hi.low⟩ intr (fun _ => hilt) (Dd.new cfg.cutset)
  rw [hw] at e1; cases e1
  have hi2 := mics_inv (ts := s.threads) e2 hi
  have hp2 := mics_past e2 h
  have hp3 := act_past e3 hp2
  simp only [afterWorkload] at e3
  cases e3 with
  | take h1 hf h2 h4 h5 h6 ho hgb hb =>
    have hmem : n ∈ L.holds c2.fringe := h2.mem_iff.2 (by simp)
    have hlvl := ((hi2.genF n hmem).rootOK hg.wf).lvl
    have hlow := hi2.lowF rfl n hmem
    simp only at hlow
    refine ⟨?_, ?_⟩
    · intro m hm hs
      obtain ⟨a1, a2⟩ := hp2 m hm
      have e : m.path.length = n.path.length := by rw [a1, hs, hlvl]
      rcases a2 with a2 | a2
      · omega
      · rw [hs, e] at a2
        simp only [seen, Option.getD_none, Bars.view] at h6
        cases hgt : b2.get n.path.length n.state with
        | none => rw [hgt] at a2; cases a2
        | some i =>
          rw [hgt] at a2 h6
          simp [mustExplore] at a2 h6
          obtain ⟨a3, a4⟩ := a2
          rcases h6 with h6 | ⟨h6, h7⟩
          · omega
          · by_cases he : m.value = i.theta
            · have := a4 he; rw [h7] at this; cases this
            · omega
    · intro m hm
      rcases List.mem_append.1 hm with hm | hm
      · exact hp3 m hm
      · rw [List.mem_singleton] at hm; subst hm
        refine ⟨hlvl.symm, Or.inr ?_⟩
        rw [Bars.get_insert hb, if_pos ⟨rfl, rfl⟩]
        simp [mustExplore]

theorem runs_past (hg : BaseCfg cfg S B) (hn : cfg.nbThreads ≤ cfg.custom) : ∀ (ls : List (BLbl σ)) (s s' : BSys σ cfg.fr.F) (H : List (SubProblem σ)), Inv L s →
    Past S H s.crit s.bars → H.Pairwise (fun m n => m.state = n.state → m.value < n.value) → (∀ l ∈ ls, BValidLbl l ∧ Sharp l) → runs cfg s ls = .ok s' →
    (H ++ given cfg s ls).Pairwise (fun m n => m.state = n.state → m.value < n.value) := by
  intro ls
  induction ls with
  | nil => intro s s' H _ _ hp _ _; simpa [given] using hp
  | cons l ls ih =>
    intro s s' H hi hpast hp hl h
    unfold runs at h
    split at h
    · rename_i s1 h1
      have ht := (step_trans (L := L) hg (hi.safe hn) (hl l (by simp)).1).2 s1 h1
      rw [sharp_view (hl l (by simp)).2] at ht
      have hi1 := trans_inv hg ht hi
      have hp1 := trans_past ht hpast
      have hl' : ∀ l ∈ ls, BValidLbl l ∧ Sharp l := fun l hl' => hl l (by simp [hl'])
      cases l with
      | spurious i =>
        simp only [given, h1]
        exact ih s1 s' H hi1 hp1 hp hl' h
      | run i intr o v =>
        simp only [given, h1]
        have hv : v = none := (hl (.run i intr o v) (by simp)).2
        subst hv
        rw [← List.append_assoc]
        rcases step_cases h1 with ⟨t, w, k1, _, hg', hgn⟩ | ⟨_, _, h3⟩
        · rw [hgn]
          cases w with
          | item n =>
            obtain ⟨q1, q2⟩ := item_past (L := L) hg hi hn k1 hpast hg'
            refine ih s1 s' _ hi1 q2 ?_ hl' h
            rw [show (Option.toList (some n)) = [n] from rfl, List.pairwise_append]
            refine ⟨hp, by simp, ?_⟩
            intro a ha b hb
            simp only [List.mem_singleton] at hb; subst hb
            exact q1 a ha
          | _ => simpa using ih s1 s' H hi1 hp1 hp hl' h
        · rw [h3]; simpa using ih s1 s' H hi1 hp1 hp hl' h
    · cases h
    · cases h

end Verif.Bar
