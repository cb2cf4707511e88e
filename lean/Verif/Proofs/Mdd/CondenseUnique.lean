import Verif.Proofs.Mdd.Condense
/-! Without ties, and if the order in which states are merged does not matter, the layers of a relaxed diagram are determined. -/
set_option autoImplicit false

namespace Verif.Dd
open Verif Spec
variable {σ : Type} [DecidableEq σ] [Inhabited σ]
variable {p : Problem σ} {r : Relaxation σ} {rank : σ → σ → Ordering} {S : Layering σ} {B : Int}

theorem Redirected.perm {x : Nat} {lb : Int} {W W' : Layer σ} {ss ss' : List σ} (hW : W.Perm W') (hs : ss.Perm ss') {t : σ} {u : Int}
    (h : Spec.Redirected p r x lb W ss t u) : Spec.Redirected p r x lb W' ss' t u := by
  obtain ⟨a, ha, h1, d, hd, h2, h3⟩ := h
  exact ⟨a, hW.mem_iff.1 ha, h1, d, hd, hs.mem_iff.1 h2, h3⟩

theorem MergedValue.unique {x : Nat} {lb : Int} {W W' : Layer σ} {ss ss' : List σ} (hW : W.Perm W') (hs : ss.Perm ss') {t : σ} {u u' : Int}
    (h : MergedValue p r x lb W ss t u) (h' : MergedValue p r x lb W' ss' t u') : u = u' := by
  have h1 := h.best u' (Redirected.perm hW.symm hs.symm h'.real)
  have h2 := h'.best u (Redirected.perm hW hs h.real)
  omega

theorem truncated_of_split {X keep rest : Layer σ} (hn : X.Nodup) (hp : X.Perm (keep ++ rest)) (hb : ∀ a ∈ keep, ∀ b ∈ rest, Preferred rank a b) :
    Truncated rank (some keep.length) X keep := by
  refine ⟨fun a ha => hp.mem_iff.2 (List.mem_append_left _ ha), ?_, ?_, ?_⟩
  · have := hp.nodup_iff.1 hn
    rw [List.nodup_append] at this
    exact this.1
  · have := hp.length_eq
    rw [List.length_append] at this
    simp only []
    omega
  · intro a ha b hbX hbk
    rcases List.mem_append.1 (hp.mem_iff.1 hbX) with h | h
    · exact absurd h hbk
    · exact hb a ha b h

/-- The two parts of a layer are determined. -/
theorem split_unique (hrk : Ranking rank) (hties : NoTies rank S) {k : Nat} {X X' keep rest keep' rest' : Layer σ} (hX : X.Perm X') (hl : AtLevel S k X) (hn : X.Nodup)
    (hp : X.Perm (keep ++ rest)) (hb : ∀ a ∈ keep, ∀ b ∈ rest, Preferred rank a b) (hp' : X'.Perm (keep' ++ rest'))
    (hb' : ∀ a ∈ keep', ∀ b ∈ rest', Preferred rank a b) (hlen : keep.length = keep'.length) : keep.Perm keep' ∧ rest.Perm rest' := by
  have h1 := truncated_of_split hn hp hb
  have h2 := truncated_of_split (hX.nodup_iff.1 hn) hp' hb'
  rw [← hlen] at h2
  have hk := Truncated.unique hrk hties hX hl h1 h2
  refine ⟨hk, ?_⟩
  have := hp.symm.trans (hX.trans hp')
  have h3 : (keep ++ rest).Perm (keep ++ rest') := this.trans (hk.symm.append_right _)
  exact (List.perm_append_left_iff keep).1 h3

theorem Condensed.unique (hrk : Ranking rank) (hties : NoTies rank S) (hmerge : OrderFree r S)
    {x : Nat} {lb : Int} {w : Nat} {W W' X X' Y Y' : Layer σ} {k : Nat} (hW : W.Perm W') (hX : X.Perm X') (hl : AtLevel S k X) (hkeys : (X.map (·.1)).Nodup)
    (h : Condensed p r rank x lb w W X Y) (h' : Condensed p r rank x lb w W' X' Y') : Y.Perm Y' := by
  have hn := nodup_of_map hkeys
  cases h with
  | @merge keep rest t u hp hw hb ht hu hno hY =>
    have hlr : ∀ s ∈ rest.map (·.1), S.ok s ∧ S.lvl s = k := fun s hs => by
      obtain ⟨a, ha, rfl⟩ := List.mem_map.1 hs
      exact hl a (hp.mem_iff.2 (List.mem_append_right _ ha))
    cases h' with
    | @merge keep' rest' t' u' hp' hw' hb' ht' hu' hno' hY' =>
      obtain ⟨h1, h2⟩ := split_unique hrk hties hX hl hn hp hb hp' hb' (by omega)
      have htt : t = t' := by rw [ht, ht']; exact hmerge _ _ k hlr (h2.map _)
      subst htt
      have huu := MergedValue.unique hW (h2.map _) hu hu'
      subst huu
      exact hY.trans ((h1.cons _).trans hY'.symm)
    | @recycle keep' rest' t' u0' u' c' hp' hw' hb' ht' hu' hc' hY' =>
      obtain ⟨h1, h2⟩ := split_unique hrk hties hX hl hn hp hb (keep' := (t', u0') :: keep') (rest' := c' :: rest') hp' hb' (by simp only [List.length_cons]; omega)
      have htt : t = t' := by rw [ht, ht']; exact hmerge _ _ k hlr (h2.map _)
      exact absurd htt.symm (hno (t', u0') (h1.mem_iff.2 (by simp)))
  | @recycle keep rest t u0 u c hp hw hb ht hu hc hY =>
    have hlr : ∀ s ∈ (c :: rest).map (·.1), S.ok s ∧ S.lvl s = k := fun s hs => by
      obtain ⟨a, ha, rfl⟩ := List.mem_map.1 hs
      exact hl a (hp.mem_iff.2 (List.mem_append_right _ ha))
    cases h' with
    | @merge keep' rest' t' u' hp' hw' hb' ht' hu' hno' hY' =>
      obtain ⟨h1, h2⟩ := split_unique hrk hties hX hl hn (keep := (t, u0) :: keep) (rest := c :: rest) hp hb hp' hb' (by simp only [List.length_cons]; omega)
      have htt : t = t' := by rw [ht, ht']; exact hmerge _ _ k hlr (h2.map _)
      exact absurd htt (hno' (t, u0) (h1.mem_iff.1 (by simp)))
    | @recycle keep' rest' t' u0' u' c' hp' hw' hb' ht' hu' hc' hY' =>
      obtain ⟨h1, h2⟩ := split_unique hrk hties hX hl hn (keep := (t, u0) :: keep) (rest := c :: rest) hp hb (keep' := (t', u0') :: keep') (rest' := c' :: rest') hp' hb'
        (by simp only [List.length_cons]; omega)
      have htt : t = t' := by rw [ht, ht']; exact hmerge _ _ k hlr (h2.map _)
      subst htt
      have huu := MergedValue.unique hW (h2.map _) hu hu'
      subst huu
      have h0 : (t, u0) = (t, u0') := by
        refine eq_of_nodup_map hkeys (hp.mem_iff.2 (by simp)) (hX.mem_iff.2 (hp'.mem_iff.2 (by simp))) rfl
      have h0 : u0 = u0' := congrArg Prod.snd h0
      subst h0
      have hcc : c = c' := by
        have m1 : c ∈ c' :: rest' := h2.mem_iff.1 (by simp)
        have m2 : c' ∈ c :: rest := h2.mem_iff.2 (by simp)
        rcases List.mem_cons.1 m1 with e | m1
        · exact e
        · rcases List.mem_cons.1 m2 with e | m2
          · exact e.symm
          · exact NoTies.eq hrk hties (hl c (hp.mem_iff.2 (by simp))) (hl c' (hp.mem_iff.2 (by simp [m2]))) (hc c' m2) (hc' c m1)
      subst hcc
      exact hY.trans ((((List.Perm.cons_inv h1).cons _).cons _).trans hY'.symm)

theorem Sifted.perm {pass : σ × Int → Bool} (hpass : ∀ a, pass a = true) {X Y : Layer σ} (hn : X.Nodup) (h : Sifted pass X Y) : Y.Perm X :=
  (List.perm_ext_iff_of_nodup h.nodup hn).2 fun a => ⟨h.sub a, fun ha => h.all a ha (hpass a)⟩

theorem Widened.keys {w : Nat} {lb : Int} {pass : Nat → σ × Int → Bool} {n : SubProblem σ} {k : Nat} {W X : Layer σ} (h : Widened p r S rank w lb pass n k W X) :
    (X.map (·.1)).Nodup := by
  cases h with
  | root => simp
  | step _ _ _ _ hc => exact hc.keys
  | merge _ _ _ _ _ _ hc => exact hc.keys

theorem Condensed.level (hr : LayeredRelaxation p r S B) {x : Nat} {lb : Int} {w : Nat} {W X Y : Layer σ} {k : Nat} (hl : AtLevel S k X) (hbig : w < X.length)
    (h : Condensed p r rank x lb w W X Y) : AtLevel S k Y := by
  have hm : ∀ rest : Layer σ, rest ≠ [] → (∀ a ∈ rest, a ∈ X) → S.ok (r.merge (rest.map (·.1))) ∧ S.lvl (r.merge (rest.map (·.1))) = k := by
    intro rest hne hsub
    refine hr.merge_ok _ k (by simpa using hne) fun s hs => ?_
    obtain ⟨a, ha, rfl⟩ := List.mem_map.1 hs
    exact hl a (hsub a ha)
  cases h with
  | @merge keep rest t u hp hw hb ht hu hno hY =>
    intro a ha
    rcases List.mem_cons.1 (hY.mem_iff.1 ha) with rfl | ha
    · rw [ht]
      refine hm rest (fun hh => ?_) fun a ha => hp.mem_iff.2 (List.mem_append_right _ ha)
      have := hp.length_eq
      rw [hh] at this
      simp at this
      omega
    · exact hl a (hp.mem_iff.2 (List.mem_append_left _ ha))
  | @recycle keep rest t u0 u c hp hw hb ht hu hc hY =>
    intro a ha
    rcases List.mem_cons.1 (hY.mem_iff.1 ha) with rfl | ha
    · rw [ht]
      exact hm (c :: rest) (by simp) fun a ha => hp.mem_iff.2 (List.mem_append_right _ ha)
    · rcases List.mem_cons.1 ha with rfl | ha
      · exact hl _ (hp.mem_iff.2 (by simp))
      · exact hl a (hp.mem_iff.2 (by simp [ha]))

theorem Widened.level (hwf : WellFormed p S B) (hr : LayeredRelaxation p r S B) {w : Nat} {lb : Int} {pass : Nat → σ × Int → Bool} {n : SubProblem σ} (hroot : RootOK p S B n)
    {k : Nat} {W X : Layer σ} (h : Widened p r S rank w lb pass n k W X) : AtLevel S (n.path.length + k) X := by
  induction h with
  | root => intro a ha; rw [List.mem_singleton.1 ha]; exact ⟨hroot.ok, hroot.lvl⟩
  | step h hk hs hw hc ih => exact Children.level hwf hk (fun a ha => ih a (hs.sub a ha)) hc
  | merge h hk hs hw hk1 hm hc ih => exact Children.level hwf hk (Condensed.level hr (fun a ha => ih a (hs.sub a ha)) hw hm) hc

theorem Widened.unique (hwf : WellFormed p S B) (hr : LayeredRelaxation p r S B) (hrk : Ranking rank) (hties : NoTies rank S) (hmerge : OrderFree r S) {w : Nat} {lb : Int}
    {pass : Nat → σ × Int → Bool} (hpass : ∀ D a, pass D a = true) {n : SubProblem σ} (hroot : RootOK p S B n) {k : Nat} {W X : Layer σ} (h : Widened p r S rank w lb pass n k W X) :
    ∀ {W' X' : Layer σ}, Widened p r S rank w lb pass n k W' X' → W.Perm W' ∧ X.Perm X' := by
  induction h with
  | root => intro W' X' h'; cases h'; exact ⟨.refl _, .refl _⟩
  | @step k W X Y Z h hk hs hw hc ih =>
    intro W' X' h'
    have e1 := Sifted.perm (hpass _) (nodup_of_map (Widened.keys h)) hs
    cases h' with
    | @step _ W2 X2 Y2 _ h2 hk2 hs2 hw2 hc2 =>
      have e2 := Sifted.perm (hpass _) (nodup_of_map (Widened.keys h2)) hs2
      have e := e1.trans ((ih h2).2.trans e2.symm)
      exact ⟨e, Children.unique e hc hc2⟩
    | @merge _ W2 X2 Y2 Y3 _ h2 hk2 hs2 hw2 hk3 hm2 hc2 =>
      have e2 := Sifted.perm (hpass _) (nodup_of_map (Widened.keys h2)) hs2
      have e := (e1.trans ((ih h2).2.trans e2.symm)).length_eq
      omega
  | @merge k W X Y Y1 Z h hk hs hw hk1 hm hc ih =>
    intro W' X' h'
    have e1 := Sifted.perm (hpass _) (nodup_of_map (Widened.keys h)) hs
    cases h' with
    | @step _ W2 X2 Y2 _ h2 hk2 hs2 hw2 hc2 =>
      have e2 := Sifted.perm (hpass _) (nodup_of_map (Widened.keys h2)) hs2
      have e := (e1.trans ((ih h2).2.trans e2.symm)).length_eq
      omega
    | @merge _ W2 X2 Y2 Y3 _ h2 hk2 hs2 hw2 hk3 hm2 hc2 =>
      have e2 := Sifted.perm (hpass _) (nodup_of_map (Widened.keys h2)) hs2
      have e := e1.trans ((ih h2).2.trans e2.symm)
      have hkeys : (Y.map (·.1)).Nodup := (e1.map _).nodup_iff.2 (Widened.keys h)
      have e3 := Condensed.unique hrk hties hmerge (ih h2).1 e (fun a ha => Widened.level hwf hr hroot h a (hs.sub a ha)) hkeys hm hm2
      exact ⟨e3, Children.unique e3 hc hc2⟩

theorem Widened.cut {w : Nat} {lb : Int} {pass : Nat → σ × Int → Bool} {n : SubProblem σ} {k : Nat} {W X : Layer σ} (h : Widened p r S rank w lb pass n k W X) :
    ∀ j, j < k → ∃ W' X', Widened p r S rank w lb pass n j W' X' ∧ n.path.length + j < p.nbVars ∧ (X' = [] → X = []) := by
  have hnil : ∀ {x : Nat} {Z : Layer σ}, Children p x lb [] Z → Z = [] := by
    intro x Z hc
    refine List.eq_nil_iff_forall_not_mem.2 fun b hb => ?_
    obtain ⟨a, ha, _⟩ := hc.real b hb
    cases ha
  have hsn : ∀ {pass : σ × Int → Bool} {Y : Layer σ}, Sifted pass [] Y → Y = [] := by
    intro pass Y hs
    exact List.eq_nil_iff_forall_not_mem.2 fun a ha => by have := hs.sub a ha; cases this
  induction h with
  | root => intro j hj; omega
  | @step k W X Y Z h hk hs hw hc ih =>
    intro j hj
    have hstep : X = [] → Z = [] := by
      intro hX
      subst hX
      rw [hsn hs] at hc
      exact hnil hc
    by_cases hjk : j = k
    · subst hjk; exact ⟨W, X, h, hk, hstep⟩
    · obtain ⟨W', X', h1, h2, h3⟩ := ih j (by omega)
      exact ⟨W', X', h1, h2, fun hh => hstep (h3 hh)⟩
  | @merge k W X Y Y1 Z h hk hs hw hk1 hm hc ih =>
    intro j hj
    have hstep : X = [] → Z = [] := by
      intro hX
      subst hX
      rw [hsn hs] at hw
      simp at hw
    by_cases hjk : j = k
    · subst hjk; exact ⟨W, X, h, hk, hstep⟩
    · obtain ⟨W', X', h1, h2, h3⟩ := ih j (by omega)
      exact ⟨W', X', h1, h2, fun hh => hstep (h3 hh)⟩

/-- The value of a finished diagram. -/
theorem Widened.result_unique (hwf : WellFormed p S B) (hr : LayeredRelaxation p r S B) (hrk : Ranking rank) (hties : NoTies rank S) (hmerge : OrderFree r S) {w : Nat} {lb : Int}
    {pass : Nat → σ × Int → Bool} (hpass : ∀ D a, pass D a = true) {n : SubProblem σ} (hroot : RootOK p S B n) {k k' : Nat} {W W' X X' : Layer σ} (h : Widened p r S rank w lb pass n k W X)
    (he : BeamEnds p n k X) (h' : Widened p r S rank w lb pass n k' W' X') (he' : BeamEnds p n k' X') : X.best = X'.best := by
  have key : ∀ {k k' : Nat} {W W' X X' : Layer σ}, Widened p r S rank w lb pass n k W X → BeamEnds p n k X → Widened p r S rank w lb pass n k' W' X' → k < k' →
      X.best = X'.best := by
    intro k k' W W' X X' h he h' hlt
    obtain ⟨W'', X'', h1, h2, h3⟩ := Widened.cut h' k hlt
    rcases he with he | he
    · subst he
      rw [h3 (List.nil_perm.1 (Widened.unique hwf hr hrk hties hmerge hpass hroot h h1).2)]
    · omega
  rcases Nat.lt_trichotomy k k' with hlt | rfl | hlt
  · exact key h he h' hlt
  · exact best_perm (Widened.unique hwf hr hrk hties hmerge hpass hroot h h').2
  · exact (key h' he' h hlt).symm

end Verif.Dd
