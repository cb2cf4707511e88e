import Verif.Proofs.Par.Narrow
import Verif.Proofs.Bar.Multi
/-! If the width suffices for all reachable states then the root is the only node, also with a barrier. -/
set_option autoImplicit false

namespace Verif.Bar
open Verif Spec
open Verif.Par (toPush mem_toPush input rootNode mem_split root_through root_exact root_bound root_genuine solution_lt)
variable {σ : Type} [DecidableEq σ] [Inhabited σ] {cfg : SolverCfg σ} {L : FrontierLaws cfg.fr} {S S' : Layering σ} {B B' : Int} {A : List (Update σ)}

theorem inc_lt (hg : BaseCfg cfg S B) {c : BCrit σ cfg.fr.F} (h : Incumbent c) : c.bestLb < isizeMax := by
  rcases h with ⟨-, h⟩ | ⟨sol, -, ds, -, h⟩
  · rw [h]; decide
  · exact solution_lt hg.wf h

/-- Not about a relaxed diagram. -/
def Pc.plain : BPc σ → Bool
  | .relb _ _ => false
  | .relx _ _ _ => false
  | .post _ _ => false
  | _ => true

variable (L) in
/-- The root is the only node there is. -/
structure Lone (s : BSys σ cfg.fr.F) : Prop where
  fri : ∀ n ∈ L.holds s.crit.fringe, n = rootNode cfg
  wrk : ∀ n ∈ working s.threads, n = rootNode cfg
  few : (L.holds s.crit.fringe).length + s.crit.explored ≤ 1
  pcs : ∀ t ∈ s.threads, Pc.plain t.pc = true

theorem mic_lone {v : Option (View σ)} {c c' : BCrit σ cfg.fr.F} {b b' : Bars σ} {ts : List (BThread σ)} (hm : Mic cfg L v c b c' b')
    (h : Lone L ⟨c, b, ts⟩) : Lone L ⟨c', b', ts⟩ := by
  cases hm with
  | clean h1 h2 h3 hcl => exact ⟨h.fri, h.wrk, h.few, h.pcs⟩
  | skip h1 hf h2 h4 h5 h6 ho =>
    refine ⟨fun n hn => h.fri n (h2.mem_iff.2 (by simp [hn])), h.wrk, ?_, h.pcs⟩
    have := h2.length_eq
    have h3 := h.few
    rw [List.length_cons] at this
    simp only at h3 ⊢
    omega

theorem mics_lone {v : Option (View σ)} {c c' : BCrit σ cfg.fr.F} {b b' : Bars σ} {ts : List (BThread σ)} (hm : Mics cfg L v c b c' b')
    (h : Lone L ⟨c, b, ts⟩) : Lone L ⟨c', b', ts⟩ := by
  induction hm with
  | nil => exact h
  | cons h1 _ ih => exact ih (mic_lone h1 h)

theorem maybe_fringe (c : BCrit σ cfg.fr.F) (D : Dd σ) : (maybeUpdateBest cfg c D).fringe = c.fringe := by
  unfold maybeUpdateBest; simp only; split <;> rfl

theorem act_lone (hg : NarrowCfg cfg S B S' B') {v : Option (View σ)} {i : Nat} {c c' : BCrit σ cfg.fr.F} {b b' : Bars σ} {t t' : BThread σ} {l1 l2 : List (BThread σ)}
    (ha : Act cfg L v i c b t c' b' t') (h : Inv L ⟨c, b, l1 ++ t :: l2⟩) (hl : Lone L ⟨c, b, l1 ++ t :: l2⟩) : Lone L ⟨c', b', l1 ++ t' :: l2⟩ := by
  obtain ⟨hF, hW, hfew, hpcs⟩ := hl
  simp only [mem_working] at hW
  simp only at hfew hF
  have hpt := hpcs t (mem_split.2 (Or.inr rfl))
  have gen : (∀ n ∈ L.holds c'.fringe, n = rootNode cfg) → (∀ n, Pc.node t'.pc = some n → n = rootNode cfg) →
      (L.holds c'.fringe).length + c'.explored ≤ 1 → Pc.plain t'.pc = true → Lone L ⟨c', b', l1 ++ t' :: l2⟩ := by
    intro h1 h2 h3 h5
    refine ⟨h1, ?_, h3, ?_⟩
    · intro n hn
      simp only [mem_working] at hn
      rcases hn with hn | hn
      · exact hW n (Or.inl hn)
      · exact h2 n hn
    · intro x hx
      rcases mem_split.1 hx with hx | rfl
      · exact hpcs x (mem_split.2 (Or.inl hx))
      · exact h5
  have hT : ∀ n, Pc.node t.pc = some n → n = rootNode cfg := fun n hn => hW n (Or.inr hn)
  cases ha with
  | complete h1 h2 => exact gen hF (by simp [Pc.node]) hfew rfl
  | stop h1 => exact gen hF (by simp [Pc.node]) hfew rfl
  | interrupt h1 hf h2 h3 => exact gen (by simp [h2]) (by simp [Pc.node]) (by simp only [h2, List.length_nil]; omega) rfl
  | wait h1 h2 h3 => exact gen hF (by simp [Pc.node]) hfew rfl
  | prune h1 hf h2 h3 h4 h5 => exact gen (by simp [h2]) (by simp [Pc.node]) (by simp only [h2, List.length_nil]; omega) rfl
  | drop h1 hf h2 h4 h5 h6 ho h7 => exact gen (by simp [h7]) (by simp [Pc.node]) (by simp only [h7, List.length_nil]; omega) rfl
  | take h1 hf h2 h4 h5 h6 ho hgb hbi =>
    have hlen := h2.length_eq
    rw [List.length_cons] at hlen
    refine gen (fun q hq => hF q (h2.mem_iff.2 (by simp [hq]))) ?_ (by simp only; omega) rfl
    intro q hq
    simp only [Pc.node, Option.some.injEq] at hq
    subst hq
    exact hF _ (h2.mem_iff.2 (by simp))
  | early h1 => exact gen hF (by simp [Pc.node]) hfew rfl
  | read1 h1 => exact gen hF (fun n hn => hT n hn) hfew rfl
  | @restrict m n lb o D ho hD hu =>
    have hn := hT n rfl
    subst hn
    have hx := root_exact hg ho hD
    obtain ⟨e1, e2, -⟩ := maybe_frame (cfg := cfg) c D
    exact gen (by rw [maybe_fringe]; exact hF) (by simp [hx, Pc.node]) (by rw [e2, maybe_fringe]; exact hfew) (by simp [hx, Pc.plain])
  | read2 => cases hpt
  | relax ho hD hb => cases hpt
  | postExact hx => cases hpt
  | postCut hx hf => cases hpt

theorem plain_wake (t : BThread σ) : Pc.plain (wake t).pc = Pc.plain t.pc := by
  obtain ⟨pc, m⟩ := t
  cases pc <;> rfl

theorem trans_lone (hg : NarrowCfg cfg S B S' B') {v : Option (View σ)} {r : Bool} {s s' : BSys σ cfg.fr.F} (ht : Trans cfg L v r s s') (h : Inv L s) (hl : Lone L s) :
    Lone L s' := by
  cases ht with
  | act hm hi ha => exact act_lone hg ha (mics_inv hm h) (mics_lone hm hl)
  | @finish c b m d dd gb l1 l2 h0 hgb =>
    refine ⟨hl.fri, fun n hn => hl.wrk n ?_, hl.few, ?_⟩
    · simp only [working_wake, mem_working] at hn ⊢
      exact hn
    · intro x hx
      obtain ⟨y, hy, rfl⟩ := List.mem_map.1 hx
      rw [plain_wake]
      rcases mem_split.1 hy with hy | rfl
      · exact hl.pcs y (mem_split.2 (Or.inl hy))
      · rfl
  | @spurious c b m l1 l2 =>
    refine ⟨hl.fri, fun n hn => hl.wrk n ?_, hl.few, ?_⟩
    · simp only [mem_working] at hn ⊢
      exact hn
    · intro x hx
      rcases mem_split.1 hx with hx | rfl
      · exact hl.pcs x (mem_split.2 (Or.inl hx))
      · rfl

/-- The only threshold ever stored is that of the root, when the root is counted. -/
theorem offers_lone {v : Option (View σ)} {r : Bool} {s s' : BSys σ cfg.fr.F} (ht : Trans cfg L v r s s') (hl : Lone L s) :
    (∀ a ∈ offers s s', a.depth = 0) ∧ s'.crit.explored = s.crit.explored + (offers s s').length := by
  cases ht with
  | @act c b c1 b1 c' b' t t' l1 l2 hm hidle ha =>
    simp only [offers, offers_move]
    have hl1 := mics_lone hm hl
    have he : c1.explored = c.explored := by
      have : ∀ {c c' : BCrit σ cfg.fr.F} {b b' : Bars σ}, Mics cfg L v c b c' b' → c'.explored = c.explored := by
        intro c c' b b' hm
        induction hm with
        | nil => rfl
        | cons h1 _ ih => rw [ih]; cases h1 <;> rfl
      exact this hm
    have hpt := hl.pcs t (mem_split.2 (Or.inr rfl))
    cases ha with
    | @take _ n _ _ _ _ _ h1 hf h2 h4 h5 h6 ho hgb hbi =>
      have hn := hl1.fri n (h2.mem_iff.2 (by simp))
      refine ⟨?_, by simp [offer, he]⟩
      intro a ha
      simp only [offer, List.mem_singleton] at ha
      rw [ha, hn]; rfl
    | restrict ho hD hu =>
      obtain ⟨-, e2, -⟩ := maybe_frame (cfg := cfg) c1 ‹Dd σ›
      simp only [e2, he]
      split <;> simp [offer]
    | read2 => cases hpt
    | relax ho hD hb => cases hpt
    | postExact hx => cases hpt
    | postCut hx hf => cases hpt
    | _ => simp [offer, he]
  | @finish c b m d dd gb l1 l2 h0 hgb =>
    have : offers (⟨c, b, l1 ++ ⟨.fin d dd, m⟩ :: l2⟩ : BSys σ cfg.fr.F)
        ⟨{ c with ongoing := c.ongoing - 1, upperBounds := c.upperBounds.set l1.length isizeMax, ongoingBy := gb, exploredDd := c.exploredDd + dd }, b,
          (l1 ++ ⟨.idle, m⟩ :: l2).map wake⟩ = [] := by
      unfold offers
      simp only [List.map_append, List.map_cons]
      have hw : ∀ l : List (BThread σ), ((l.zip (l.map wake)).flatMap fun x => offer x.1 x.2) = [] := by
        intro l
        induction l with
        | nil => rfl
        | cons t l ih => simp [offer_wake, ih]
      rw [List.zip_append (by simp), List.flatMap_append, hw, List.zip_cons_cons, List.flatMap_cons, hw]
      rfl
    rw [this]; simp
  | @spurious c b m l1 l2 =>
    simp only [offers, offers_move]
    simp [offer]

variable (L A) in
/-- Nothing is lost, unless the root has been discarded because of its own threshold before being counted (which a view allows at first sight). -/
structure NCov (s : BSys σ cfg.fr.F) : Prop where
  one : s.crit.interrupted = false → (L.holds s.crit.fringe).length + s.crit.explored = 1 ∨ (s.crit.explored = 0 ∧ A ≠ [])
  cov : s.crit.interrupted = false → ∀ w, Through cfg.p (rootNode cfg) w →
    w ≤ s.crit.bestLb ∨ (rootNode cfg ∈ L.holds s.crit.fringe ∨ rootNode cfg ∈ working s.threads) ∨ (s.crit.explored = 0 ∧ A ≠ [])

theorem mic_ncov {v : Option (View σ)} {c c' : BCrit σ cfg.fr.F} {b b' : Bars σ} {ts : List (BThread σ)} (hm : Mic cfg L v c b c' b')
    (hl : Lone L ⟨c, b, ts⟩) (hb : BarsIn A b) (hv : ∀ v', v = some v' → SeenIn A v') (h : NCov L A ⟨c, b, ts⟩) : NCov L A ⟨c', b', ts⟩ ∧ BarsIn A b' := by
  cases hm with
  | clean h1 h2 h3 hcl =>
    refine ⟨⟨h.one, h.cov⟩, ?_⟩
    intro d s i hi'
    rw [Bars.get_clear hcl] at hi'
    split at hi'
    · cases hi'
    · exact hb d s i hi'
  | @skip n f ob k h1 hf h2 h4 h5 h6 ho =>
    refine ⟨?_, hb⟩
    have hlen := h2.length_eq
    have hfew := hl.few
    rw [List.length_cons] at hlen
    simp only at hfew
    have hA : A ≠ [] := by
      cases hp : (seen v b).pop k n.path.length n.state with
      | none => rw [hp] at h6; simp [mustExplore] at h6
      | some i => exact List.ne_nil_of_mem ((seenIn hb hv).2 k _ _ i hp)
    have h0 : c.explored = 0 := by omega
    exact ⟨fun _ => Or.inr ⟨h0, hA⟩, fun _ w _ => Or.inr (Or.inr ⟨h0, hA⟩)⟩

theorem mics_ncov {v : Option (View σ)} {c c' : BCrit σ cfg.fr.F} {b b' : Bars σ} {ts : List (BThread σ)} (hm : Mics cfg L v c b c' b')
    (hv : ∀ v', v = some v' → SeenIn A v') (hl : Lone L ⟨c, b, ts⟩) (hb : BarsIn A b) (h : NCov L A ⟨c, b, ts⟩) : NCov L A ⟨c', b', ts⟩ ∧ BarsIn A b' := by
  induction hm with
  | nil => exact ⟨h, hb⟩
  | cons h1 _ ih =>
    obtain ⟨k1, k2⟩ := mic_ncov h1 hl hb hv h
    exact ih (mic_lone h1 hl) k2 k1

theorem act_ncov (hg : NarrowCfg cfg S B S' B') {v : Option (View σ)} {i : Nat} {c c' : BCrit σ cfg.fr.F} {b b' : Bars σ} {t t' : BThread σ}
    {l1 l2 : List (BThread σ)} (ha : Act cfg L v i c b t c' b' t') (hi : Inv L ⟨c, b, l1 ++ t :: l2⟩) (hl : Lone L ⟨c, b, l1 ++ t :: l2⟩) (hb : BarsIn A b)
    (hv : ∀ v', v = some v' → SeenIn A v') (hA : ∀ a ∈ offer t t', a ∈ A) (hd : ∀ a ∈ A, a.depth = 0)
    (h : NCov L A ⟨c, b, l1 ++ t :: l2⟩) : NCov L A ⟨c', b', l1 ++ t' :: l2⟩ ∧ BarsIn A b' := by
  have hts : t ∈ l1 ++ t :: l2 := by simp
  have hpt := hl.pcs t hts
  have hlt := hi.lbs t hts
  have hfew := hl.few
  have hfri := hl.fri
  have hs := seenIn hb hv
  simp only at hlt hfew hfri
  -- steps that keep the nodes
  have same : c'.interrupted = c.interrupted → c'.explored = c.explored → c'.fringe = c.fringe → c.bestLb ≤ c'.bestLb →
      (∀ w, Through cfg.p (rootNode cfg) w → Pc.node t.pc = some (rootNode cfg) → Pc.node t'.pc = some (rootNode cfg) ∨ w ≤ c'.bestLb) →
      NCov L A ⟨c', b', l1 ++ t' :: l2⟩ := by
    intro e1 e2 e3 e4 e5
    refine ⟨fun hint => ?_, fun hint w hw => ?_⟩
    · have := h.one (e1 ▸ hint)
      simp only at this ⊢
      rw [e2, e3]; exact this
    · rcases h.cov (e1 ▸ hint) w hw with h1 | (h1 | h1) | h1
      · exact Or.inl (by simp only at h1 ⊢; omega)
      · exact Or.inr (Or.inl (Or.inl (by simp only [e3]; exact h1)))
      · simp only [mem_working] at h1
        rcases h1 with h1 | h1
        · exact Or.inr (Or.inl (Or.inr (mem_working.2 (Or.inl h1))))
        · rcases e5 w hw h1 with h2 | h2
          · exact Or.inr (Or.inl (Or.inr (mem_working.2 (Or.inr h2))))
          · exact Or.inl h2
      · exact Or.inr (Or.inr (by simp only [e2]; exact h1))
  cases ha with
  | complete h1 h2 => exact ⟨same rfl rfl rfl (Int.le_refl _) (by simp [Pc.node]), hb⟩
  | stop h1 => exact ⟨same rfl rfl rfl (Int.le_refl _) (by simp [Pc.node]), hb⟩
  | interrupt h1 hf h2 h3 => exact ⟨⟨(fun h => by cases h), (fun h => by cases h)⟩, hb⟩
  | wait h1 h2 h3 => exact ⟨same rfl rfl rfl (Int.le_refl _) (by simp [Pc.node]), hb⟩
  | prune h1 hf h2 h3 h4 h5 =>
    have h6 := hfri _ h3
    subst h6
    have := inc_lt hg.base hi.inc
    have h7 : isizeMax ≤ c.bestLb := h5
    simp only at this
    omega
  | @drop m n f ob k h1 hf h2 h4 h5 h6 ho h7 =>
    exact mic_ncov (Mic.skip h1 hf h2 h4 h5 h6 ho) hl hb hv h
  | @take m n f ob gb b' k h1 hf h2 h4 h5 h6 ho hgb hbi =>
    have hlen := h2.length_eq
    rw [List.length_cons] at hlen
    have hn := hfri n (h2.mem_iff.2 (by simp))
    subst hn
    refine ⟨⟨fun _ => Or.inl ?_, fun _ w hw => Or.inr (Or.inl (Or.inr (mem_working.2 (Or.inr rfl))))⟩, ?_⟩
    · simp only
      omega
    · intro d s j hj
      rw [Bars.get_insert hbi] at hj
      split at hj
      · rename_i hds
        obtain ⟨rfl, rfl⟩ := hds
        cases hj
        exact hA _ (by simp [offer])
      · exact hb d s j hj
  | early h1 =>
    refine ⟨same rfl rfl rfl (Int.le_refl _) ?_, hb⟩
    intro w hw hr
    simp only [Pc.node, Option.some.injEq] at hr
    subst hr
    have := inc_lt hg.base hi.inc
    have h7 : isizeMax ≤ c.bestLb := h1
    simp only at this
    omega
  | read1 h1 => exact ⟨same rfl rfl rfl (Int.le_refl _) (fun w hw h => Or.inl h), hb⟩
  | @restrict m n lb o D ho hD hu =>
    have hn := hl.wrk n (mem_working.2 (Or.inr rfl))
    subst hn
    obtain ⟨lb', sol, e, g1, g2, g3⟩ := maybe_spec (D := D) hi.min hi.inc (fun b hb => dd_real hg.base root_genuine ho hD (Or.inl (by intro h; cases h)) hb)
    rw [e] at same ⊢
    refine ⟨same rfl rfl rfl g1 ?_, hb⟩
    intro w hw _
    right
    have hlb := hlt lb rfl
    simp only at g1 ⊢
    rcases root_bound hg ho hD hw with h1 | ⟨b1, h1, h2⟩ | h1
    · omega
    · have := g2 b1 h1; omega
    · obtain ⟨a, k1, k2, -⟩ := pruned_cuts hs.1 h1
      have := hd a k1
      omega
  | read2 => cases hpt
  | relax ho hD hb => cases hpt
  | postExact hx => cases hpt
  | postCut hx hf => cases hpt

theorem trans_ncov (hg : NarrowCfg cfg S B S' B') {v : Option (View σ)} {r : Bool} {s s' : BSys σ cfg.fr.F} (ht : Trans cfg L v r s s') (hi : Inv L s) (hl : Lone L s)
    (hb : BarsIn A s.bars) (hv : ∀ v', v = some v' → SeenIn A v') (hA : ∀ a ∈ offers s s', a ∈ A) (hd : ∀ a ∈ A, a.depth = 0)
    (h : NCov L A s) : NCov L A s' ∧ BarsIn A s'.bars := by
  cases ht with
  | act hm hidle ha =>
    simp only [offers, offers_move] at hA
    obtain ⟨k1, k2⟩ := mics_ncov hm hv hl hb h
    exact act_ncov hg ha (mics_inv hm hi) (mics_lone hm hl) k2 hv hA hd k1
  | finish h0 hgb =>
    refine ⟨⟨h.one, fun hint w hw => ?_⟩, hb⟩
    have := h.cov hint w hw
    simp only [working_wake, mem_working] at this ⊢
    exact this
  | spurious =>
    refine ⟨⟨h.one, fun hint w hw => ?_⟩, hb⟩
    have := h.cov hint w hw
    simp only [mem_working] at this ⊢
    exact this

/-- The thresholds of a whole run. -/
theorem offered_lone (hg : NarrowCfg cfg S B S' B') (hn : cfg.nbThreads ≤ cfg.custom) {s' : BSys σ cfg.fr.F} : ∀ (ls : List (BLbl σ)) (s : BSys σ cfg.fr.F),
    (∀ l ∈ ls, BValidLbl l) → Inv L s → Lone L s → runs cfg s ls = .ok s' →
    Lone L s' ∧ (∀ a ∈ offered cfg s ls, a.depth = 0) ∧ s'.crit.explored = s.crit.explored + (offered cfg s ls).length
  | [], s, _, _, h1, he => by cases he; exact ⟨h1, by simp [offered], rfl⟩
  | l :: ls, s, hv, hi, h1, he => by
    simp only [runs] at he
    cases hs : step cfg s l with
    | panic => rw [hs] at he; cases he
    | blocked => rw [hs] at he; cases he
    | ok s1 =>
      simp only [hs] at he
      have ht := (step_trans (L := L) hg.base (hi.safe hn) (hv l (by simp))).2 _ hs
      obtain ⟨a1, a2⟩ := offers_lone ht h1
      obtain ⟨b1, b2, b3⟩ := offered_lone hg hn ls s1 (fun x hx => hv x (by simp [hx])) (trans_inv hg.base ht hi) (trans_lone hg ht hi h1) he
      refine ⟨b1, ?_, ?_⟩
      · simp only [offered, hs]
        intro a ha
        rcases List.mem_append.1 ha with ha | ha
        · exact a1 a ha
        · exact b2 a ha
      · simp only [offered, hs, List.length_append]
        omega

theorem runs_ncov (hg : NarrowCfg cfg S B S' B') (hn : cfg.nbThreads ≤ cfg.custom) (hd : ∀ a ∈ A, a.depth = 0) {s' : BSys σ cfg.fr.F} :
    ∀ (ls : List (BLbl σ)) (s : BSys σ cfg.fr.F), (∀ l ∈ ls, BValidLbl l ∧ Honest A l) → (∀ a ∈ offered cfg s ls, a ∈ A) → Inv L s → Lone L s → BarsIn A s.bars →
    NCov L A s → runs cfg s ls = .ok s' → NCov L A s'
  | [], s, _, _, _, _, _, h, he => by cases he; exact h
  | l :: ls, s, hv, hA, hi, h1, hb, h, he => by
    simp only [runs] at he
    cases hs : step cfg s l with
    | panic => rw [hs] at he; cases he
    | blocked => rw [hs] at he; cases he
    | ok s1 =>
      simp only [hs] at he
      have ht := (step_trans (L := L) hg.base (hi.safe hn) (hv l (by simp)).1).2 _ hs
      simp only [offered, hs] at hA
      have hvw : ∀ v', lblView l = some v' → SeenIn A v' := by
        intro v' hv'
        have := (hv l (by simp)).2
        cases l with
        | spurious i => cases hv'
        | run i intr o v => cases (show v = some v' from hv'); exact this
      obtain ⟨k1, k2⟩ := trans_ncov hg ht hi h1 hb hvw (fun a ha => hA a (List.mem_append.2 (Or.inl ha))) hd h
      exact runs_ncov hg hn hd ls s1 (fun x hx => hv x (by simp [hx])) (fun a ha => hA a (List.mem_append.2 (Or.inr ha))) (trans_inv hg.base ht hi)
        (trans_lone hg ht hi h1) k2 k1 he

theorem init_lone {s : BSys σ cfg.fr.F} (h : init cfg = some s) : Lone L s ∧ (L.holds s.crit.fringe).length + s.crit.explored = 1 := by
  obtain ⟨f', h1, h2, h3⟩ := L.push cfg.fr.new (rootNode cfg) L.new_inv
  have h4 : L.holds f' = [rootNode cfg] := by
    rw [L.new_holds] at h3
    rcases h3 with h3 | ⟨old, rest, -, h3, -⟩
    · exact List.perm_singleton.1 h3
    · simp at h3
  obtain ⟨s1, g1, -, g3, -, g5, -⟩ := init_spec (cfg := cfg) L
  rw [h] at g1; cases g1
  have hf : s.crit.fringe = f' ∧ s.crit.explored = 0 := by
    unfold init at h
    revert h
    split
    · rename_i f ob hf ho
      rw [h1] at hf
      intro h; cases h; cases hf
      exact ⟨rfl, rfl⟩
    · intro h; cases h
  refine ⟨⟨g3, ?_, ?_, ?_⟩, ?_⟩
  · intro n hn
    simp only [working, List.mem_filterMap] at hn
    obtain ⟨t, ht, hn⟩ := hn
    rw [g5 t ht] at hn; cases hn
  · simp [hf.1, hf.2, h4]
  · intro t ht; rw [g5 t ht]; rfl
  · simp [hf.1, hf.2, h4]

/-- The outcome of a finished run. -/
theorem finished_lone (L : FrontierLaws cfg.fr) (hg : NarrowCfg cfg S B S' B') (h0 : 0 < cfg.nbThreads) (hn : cfg.nbThreads ≤ cfg.custom) {s0 s : BSys σ cfg.fr.F} {ls : List (BLbl σ)}
    (hs0 : init cfg = some s0) (hl : ∀ l ∈ ls, BValidLbl l ∧ Honest (offered cfg s0 ls) l) (hs : runs cfg s0 ls = .ok s) (hf : BFinished s)
    (hint : s.crit.interrupted = false) : s.crit.explored = 1 ∧ s.crit.bestUb = s.crit.bestLb ∧ ∀ ds w, Solution cfg.p ds w → w ≤ s.crit.bestLb := by
  obtain ⟨s1, e, hi0, -, hroot, -, -, -, hbe, -⟩ := init_spec (cfg := cfg) L
  rw [hs0] at e; cases e
  obtain ⟨hl0, hone⟩ := init_lone (L := L) hs0
  have hi := (runs_inv hg.base hn ls s0 hi0 fun l h => (hl l h).1).2 s hs
  obtain ⟨-, hd, hex⟩ := offered_lone hg hn ls s0 (fun l h => (hl l h).1) hi0 hl0 hs
  have hc := runs_ncov hg hn hd ls s0 hl (fun a h => h) hi0 hl0 (fun d x i h => by rw [hbe] at h; cases h)
    ⟨fun _ => Or.inl hone, fun _ w _ => Or.inr (Or.inl (Or.inl hroot))⟩ hs
  have hne : ¬ (s.crit.explored = 0 ∧ offered cfg s0 ls ≠ []) := by
    rintro ⟨h1, h2⟩
    have := List.length_pos_iff.2 h2
    omega
  obtain ⟨t, ht⟩ : ∃ t, t ∈ s.threads := by
    have hlen := hi.thr
    cases hs : s.threads with
    | nil => rw [hs] at hlen; simp at hlen; omega
    | cons t l => exact ⟨t, by simp⟩
  obtain ⟨h1, h2, h3⟩ := hi.done t ht (hf t ht) hint
  refine ⟨?_, h3, ?_⟩
  · have := (hc.one hint).resolve_right hne
    rw [h1] at this
    simpa using this
  · intro ds w hw
    rcases hc.cov hint w (root_through hw) with h4 | (h4 | h4) | h4
    · exact h4
    · rw [h1] at h4; cases h4
    · simp only [working, List.mem_filterMap] at h4
      obtain ⟨x, hx, hpc⟩ := h4
      rw [hf x hx] at hpc; cases hpc
    · exact absurd h4 hne

end Verif.Bar
