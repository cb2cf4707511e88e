import Verif.Proofs.Fine.Stored
/-! A finished run at the level of single accesses is a run of the model with views in which every view shows thresholds stored in that run. -/
set_option autoImplicit false

namespace Verif.Fine
open Verif Spec Bar
variable {σ : Type} [DecidableEq σ] [Inhabited σ] {cfg : SolverCfg σ} {L : FrontierLaws cfg.fr} {S : Layering σ} {B : Int} {G : Nat → σ → BarrierInfo → Prop}

/-- All thresholds stored in a run (a relaxed compilation counts when it ends). -/
def foffered (cfg : SolverCfg σ) : FSys σ cfg.fr.F → List (FLbl σ) → List (Update σ)
  | _, [] => []
  | s, l :: ls =>
    match step cfg s l with
    | .ok s' => offers s.sys s'.sys ++ foffered cfg s' ls
    | _ => []

/-- The thresholds of `A`. -/
def inList (A : List (Update σ)) : Nat → σ → BarrierInfo → Prop := fun d x y => ⟨d, x, y.theta, y.explored⟩ ∈ A

omit [DecidableEq σ] [Inhabited σ] in
theorem no_pend {s : FSys σ cfg.fr.F} (hf : FFinished s) (j : Nat) (u : Update σ) : ¬ PendBy s j u := by
  rintro ⟨t, o, w, h1, -, ⟨n, lb, dd, h2⟩, -⟩
  rw [hf t (List.mem_of_getElem? h1)] at h2
  cases h2

/-- Whatever is in the barrier at any time of a finished run has been stored in that run. -/
theorem store_along (hg : BaseCfg cfg S B) (hn : cfg.nbThreads ≤ cfg.custom) {A : List (Update σ)} {s' : FSys σ cfg.fr.F} (hf : FFinished s') :
    ∀ (ls : List (FLbl σ)) (s : FSys σ cfg.fr.F) (c : BSys σ cfg.fr.F) (T : List (Update σ)), Rel anyG L S B s c → Inv L c → (∀ l ∈ ls, FValidLbl l) →
    (∀ j, CompOK s j) → (∀ d x y, s.sys.bars.get d x = some y → (⟨d, x, y.theta, y.explored⟩ : Update σ) ∈ T ∨ ∃ j, PendBy s j ⟨d, x, y.theta, y.explored⟩) →
    (∀ u ∈ T ++ foffered cfg s ls, u ∈ A) → runs cfg s ls = .ok s' →
    (∀ u, (u ∈ T ∨ ∃ j, PendBy s j u) → u ∈ A) ∧ FAlong cfg (fun s => StoreIn (inList A) s.sys.bars) s ls
  | [], s, c, T, _, _, _, _, hb, hA, he => by
    cases he
    have h1 : ∀ u, (u ∈ T ∨ ∃ j, PendBy s' j u) → u ∈ A := by
      rintro u (h | ⟨j, h⟩)
      · exact hA u (List.mem_append_left _ h)
      · exact absurd h (no_pend hf j u)
    exact ⟨h1, fun d x y h => h1 _ (hb d x y h)⟩
  | l :: ls, s, c, T, hr, hi, hl, hc, hb, hA, he => by
    have hst := step_good (L := L) hg hn hr hi (fun _ _ _ _ => trivial) (hl l (by simp))
    simp only [runs] at he
    simp only [foffered] at hA
    cases hs : step cfg s l with
    | panic => rw [hs] at he; cases he
    | blocked => rw [hs] at he; cases he
    | ok s1 =>
      simp only [hs] at hst he hA
      obtain ⟨k1, k2, k3⟩ := step_store hr hc hs
      have hb1 : ∀ d x y, s1.sys.bars.get d x = some y →
          (⟨d, x, y.theta, y.explored⟩ : Update σ) ∈ T ++ offers s.sys s1.sys ∨ ∃ j, PendBy s1 j ⟨d, x, y.theta, y.explored⟩ := by
        intro d x y hy
        have pend : ∀ u, (∃ j, PendBy s j u) → u ∈ T ++ offers s.sys s1.sys ∨ ∃ j, PendBy s1 j u := by
          rintro u ⟨j, h⟩
          rcases k2 j u h with h | h
          · exact Or.inl (List.mem_append_right _ h)
          · exact Or.inr ⟨j, h⟩
        rcases k3 d x y hy with h | h | h
        · rcases hb d x y h with h | h
          · exact Or.inl (List.mem_append_left _ h)
          · exact pend _ h
        · exact pend _ h
        · exact Or.inl (List.mem_append_right _ h)
      have hA1 : ∀ u ∈ (T ++ offers s.sys s1.sys) ++ foffered cfg s1 ls, u ∈ A := by rw [List.append_assoc]; exact hA
      have hl1 : ∀ l ∈ ls, FValidLbl l := fun x hx => hl x (by simp [hx])
      have next : (∀ u, (u ∈ T ++ offers s.sys s1.sys ∨ ∃ j, PendBy s1 j u) → u ∈ A) ∧ FAlong cfg (fun s => StoreIn (inList A) s.sys.bars) s1 ls := by
        rcases hst with ⟨h1, -⟩ | ⟨lb, c1, g1, g2, g3, g4, -⟩
        · exact store_along hg hn hf ls s1 c _ h1 hi hl1 k1 hb1 hA1 he
        · exact store_along hg hn hf ls s1 c1 _ g4 (trans_inv hg ((step_trans (L := L) hg (hi.safe hn) g1).2 _ g3) hi) hl1 k1 hb1 hA1 he
      have h1 : ∀ u, (u ∈ T ∨ ∃ j, PendBy s j u) → u ∈ A := by
        rintro u (h | ⟨j, h⟩)
        · exact next.1 u (Or.inl (List.mem_append_left _ h))
        · rcases k2 j u h with h | h
          · exact next.1 u (Or.inl (List.mem_append_right _ h))
          · exact next.1 u (Or.inr ⟨j, h⟩)
      refine ⟨h1, fun d x y h => h1 _ (hb d x y h), ?_⟩
      intro s2 hs2
      rw [hs] at hs2; cases hs2
      exact next.2

theorem falong_head {P : FSys σ cfg.fr.F → Prop} {s : FSys σ cfg.fr.F} {ls : List (FLbl σ)} (h : FAlong cfg P s ls) : P s := by
  cases ls with
  | nil => exact h
  | cons l ls => exact h.1

theorem uncapped_rel {s c : BSys σ cfg.fr.F} (ht : c.threads = s.threads) (hb : c.crit.bestLb = s.crit.bestLb) (h : Uncapped s) : Uncapped c := by
  unfold Uncapped at h ⊢
  rw [ht, hb]; exact h

/-- A run with the conditions on its states and views carried over. -/
theorem runs_honest (hg : BaseCfg cfg S B) (hn : cfg.nbThreads ≤ cfg.custom) {s' : FSys σ cfg.fr.F} :
    ∀ (ls : List (FLbl σ)) (s : FSys σ cfg.fr.F) (c : BSys σ cfg.fr.F), Rel G L S B s c → Inv L c → (∀ l ∈ ls, FValidLbl l) →
    FAlong cfg (fun s => StoreIn G s.sys.bars) s ls → FAlong cfg FUncapped s ls → runs cfg s ls = .ok s' →
    ∃ (bs : List (BLbl σ)) (c' : BSys σ cfg.fr.F), Bar.runs cfg c bs = .ok c' ∧ Rel G L S B s' c' ∧ Inv L c' ∧ (∀ l ∈ bs, BValidLbl l ∧ LblIn G l) ∧
      ((∀ l ∈ ls, FNoInterrupt l) → ∀ l ∈ bs, NoInterrupt l) ∧ offered cfg c bs = foffered cfg s ls ∧ Along cfg Uncapped c bs
  | [], s, c, hr, hi, _, _, hu, he => by
    cases he
    exact ⟨[], c, rfl, hr, hi, by simp, by simp, rfl, uncapped_rel hr.thr hr.inc.1 hu⟩
  | l :: ls, s, c, hr, hi, hl, hst, hu, he => by
    have hgood := step_good (L := L) hg hn hr hi (falong_head hst) (hl l (by simp))
    have hl1 : ∀ l ∈ ls, FValidLbl l := fun x hx => hl x (by simp [hx])
    simp only [runs] at he
    simp only [foffered]
    cases hs : step cfg s l with
    | panic => rw [hs] at he; cases he
    | blocked => rw [hs] at he; cases he
    | ok s1 =>
      simp only [hs] at hgood he
      simp only
      have hst1 := hst.2 s1 hs
      have hu1 := hu.2 s1 hs
      rcases hgood with ⟨h1, i, t, -, h2, -⟩ | ⟨lb, c1, g1, g2, g3, g4, g5⟩
      · obtain ⟨bs, c', b1, b2, b3, b4, b5, b6, b7⟩ := runs_honest hg hn ls s1 c h1 hi hl1 hst1 hu1 he
        refine ⟨bs, c', b1, b2, b3, b4, fun h => b5 fun x hx => h x (by simp [hx]), ?_, b7⟩
        have : offers s.sys s1.sys = [] := by unfold offers; rw [h2]; exact offers_self _
        rw [this, b6]; rfl
      · obtain ⟨bs, c', b1, b2, b3, b4, b5, b6, b7⟩ :=
          runs_honest hg hn ls s1 c1 g4 (trans_inv hg ((step_trans (L := L) hg (hi.safe hn) g1).2 _ g3) hi) hl1 hst1 hu1 he
        refine ⟨lb :: bs, c', by simp only [Bar.runs, g3]; exact b1, b2, b3, ?_, ?_, ?_, uncapped_rel hr.thr hr.inc.1 hu.1, ?_⟩
        · intro x hx
          rcases List.mem_cons.1 hx with rfl | hx
          · exact ⟨g1, g5⟩
          · exact b4 x hx
        · intro h x hx
          rcases List.mem_cons.1 hx with rfl | hx
          · have h0 := h l (by simp)
            cases l with
            | run i intr o =>
              cases x with
              | run j intr' o' v =>
                cases v with
                | none => exact absurd g2 (by simp [Matches])
                | some v =>
                  have h0 : intr = false := h0
                  have := g2.2
                  show intr' = false
                  cases intr' with
                  | false => rfl
                  | true => rw [h0] at this; exact absurd (this rfl) (by simp)
              | spurious j => trivial
            | spurious i =>
              cases x with
              | run j intr' o' v => exact absurd g2 (by simp [Matches])
              | spurious j => trivial
          · exact b5 (fun y hy => h y (by simp [hy])) x hx
        · simp only [offered, g3, b6]
          congr 1
          unfold offers
          rw [hr.thr, g4.thr]
        · intro c2 hc2
          rw [g3] at hc2; cases hc2
          exact b7

theorem finished_holder {s : FSys σ cfg.fr.F} {c : BSys σ cfg.fr.F} (hr : Rel G L S B s c) (hf : FFinished s) : s.holder = none := by
  cases hh : s.holder with
  | none => rfl
  | some i =>
    obtain ⟨x, hx⟩ : ∃ x, s.sub i = some x := by rcases hr.hold i hh with h | h | ⟨n, f, ob, h⟩ <;> exact ⟨_, h⟩
    obtain ⟨t, ht, g⟩ := hr.sub i x hx
    have hd := hf t (List.mem_iff_getElem?.2 ⟨i, ht⟩)
    rcases g.pc with h | ⟨n, lb, h⟩ | ⟨n, lb, dd, h⟩ <;> rw [hd] at h <;> cases h

/-- A finished run in which no bound is lowered belongs to such a run of the model with views, and its views show what is stored in that run. -/
theorem finished_honest (L : FrontierLaws cfg.fr) (hg : BaseCfg cfg S B) (hn : cfg.nbThreads ≤ cfg.custom) {s : FSys σ cfg.fr.F} (hr : FReachableAlong cfg FUncapped s)
    (hf : FFinished s) : ∃ b, HonestUncapped cfg { s.sys with bars := b } := by
  obtain ⟨s0, ls, h0, hl, hu, hs⟩ := hr
  obtain ⟨c0, hc0, rfl⟩ := init_rel h0
  obtain ⟨c1, e, hi, -, -, -, -, -, hbe, -⟩ := init_spec (cfg := cfg) L
  rw [hc0] at e; cases e
  obtain ⟨-, hst⟩ := store_along (L := L) (S := S) (B := B) hg hn (A := foffered cfg ⟨c0, none, fun _ => none⟩ ls) hf ls _ c0 [] (quiet_rel hi) hi hl
    (fun j o w h => by cases h) (fun d x y h => by simp only [hbe] at h; cases h) (fun u h => by simpa using h) hs
  obtain ⟨bs, c', b1, b2, b3, b4, b5, b6, b7⟩ := runs_honest (L := L) (S := S) (B := B) hg hn ls _ c0 (quiet_rel hi) hi hl hst hu hs
  refine ⟨c'.bars, ?_⟩
  have hh := finished_holder b2 hf
  have he : ({ s.sys with bars := c'.bars } : BSys σ cfg.fr.F) = c' := by simp only [← b2.thr, ← b2.free hh]
  rw [he]
  refine ⟨c0, bs, hc0, fun l h => ⟨(b4 l h).1, ?_⟩, b7, b1⟩
  have := (b4 l h).2
  rw [b6]
  cases l with
  | spurious i => trivial
  | run i intr o v =>
    cases v with
    | none => trivial
    | some v => exact this

theorem max_along {P : FSys σ cfg.fr.F → Prop} {s : FSys σ cfg.fr.F} (h : FReachableMaxAlong cfg P s) : FReachableAlong cfg P s := by
  obtain ⟨s0, ls, h1, h2, h3, h4⟩ := h
  exact ⟨s0, ls, h1, fun l hl => (h2 l hl).1, h3, h4⟩

/-- The flag is not set in a run of `maximize()`. -/
theorem finished_noint (L : FrontierLaws cfg.fr) (hg : BaseCfg cfg S B) (hn : cfg.nbThreads ≤ cfg.custom) {P : FSys σ cfg.fr.F → Prop} {s : FSys σ cfg.fr.F}
    (hr : FReachableMaxAlong cfg P s) (hf : FFinished s) : s.sys.crit.interrupted = false := by
  obtain ⟨s0, ls, h0, hl, -, hs⟩ := hr
  obtain ⟨c0, hc0, rfl⟩ := init_rel h0
  obtain ⟨c1, e, hi, -⟩ := init_spec (cfg := cfg) L
  rw [hc0] at e; cases e
  obtain ⟨bs, c', h1, h2, -, h4⟩ := (runs_good (L := L) hg hn ls _ c0 (quiet_rel hi) hi fun l h => (hl l h).1).2 s hs
  rw [← h2.free (finished_holder h2 hf), runs_noint bs c0 c' (h4 fun l h => (hl l h).2) h1]
  exact (init_noint hc0).1

end Verif.Fine
