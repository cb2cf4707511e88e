import Verif.Spec.Once
import Verif.Proofs.Par.Inv
import Verif.Proofs.Mdd.Cutset
/-! The nodes handed out are different partial assignments. -/
set_option autoImplicit false

namespace Verif.Par
open Verif Spec Dd
variable {σ : Type} [DecidableEq σ] [Inhabited σ] {cfg : SolverCfg σ} {L : FrontierLaws cfg.fr} {S : Layering σ} {B : Int}

theorem Disagree.symm {a b : List Decision} (h : Disagree a b) : Disagree b a := by
  obtain ⟨d, h1, d', h2, h3, h4⟩ := h
  exact ⟨d', h2, d, h1, h3.symm, fun e => h4 e.symm⟩

theorem Disagree.mono {a b a' b' : List Decision} (h : Disagree a b) (ha : a <+: a') (hb : b <+: b') : Disagree a' b' := by
  obtain ⟨d, h1, d', h2, h3⟩ := h
  exact ⟨d, ha.subset h1, d', hb.subset h2, h3⟩

/-- Different states after the same number of decisions: some variable was decided differently. -/
theorem run_disagree {p : Problem σ} (hdom : DomainVar p) {s t t' : σ} {ds ds' : List Decision} {u u' : Int} (h : Run p s ds u t) (h' : Run p s ds' u' t')
    (hl : ds.length = ds'.length) (hne : t ≠ t') : Disagree ds ds' := by
  induction h generalizing ds' u' with
  | nil s =>
    cases h' with
    | nil _ => exact absurd rfl hne
    | cons _ _ _ => simp at hl
  | @cons s t x d ds v hx hd h ih =>
    cases h' with
    | nil _ => simp at hl
    | @cons _ _ x' d' ds' v' hx' hd' h'' =>
      rw [hx] at hx'; cases hx'
      by_cases hdd : d = d'
      · subst hdd
        obtain ⟨e, h1, e', h2, h3⟩ := ih h'' (by simpa using hl) hne
        exact ⟨e, List.mem_cons_of_mem _ h1, e', List.mem_cons_of_mem _ h2, h3⟩
      · refine ⟨d, List.mem_cons_self .., d', List.mem_cons_self .., (hdom _ _ _ hd).trans (hdom _ _ _ hd').symm, fun hv => hdd ?_⟩
        have h1 := (hdom _ _ _ hd).trans (hdom _ _ _ hd').symm
        cases d; cases d'
        simp only [] at h1 hv
        rw [h1, hv]

theorem genuine_disagree {p : Problem σ} (hdom : DomainVar p) {a b : SubProblem σ} (ha : Genuine p a) (hb : Genuine p b) (hl : a.path.length = b.path.length)
    (hne : a.state ≠ b.state) : Disagree a.path b.path := by
  obtain ⟨ds, h1, u, h2, _⟩ := ha
  obtain ⟨ds', h1', u', h2', _⟩ := hb
  obtain ⟨d, g1, d', g2, g3⟩ := run_disagree hdom h2 h2' (by rw [← h1.length_eq, ← h1'.length_eq, hl]) hne
  exact ⟨d, h1.mem_iff.2 g1, d', h1'.mem_iff.2 g2, g3⟩

theorem combine_path (a b : SubProblem σ) : (combine a b).path = a.path ∨ (combine a b).path = b.path := by
  unfold combine; split
  · exact Or.inr rfl
  · exact Or.inl rfl

variable (L) in
/-- The open nodes exclude each other; each node handed out so far (`H`) excludes every node of the frontier or lies strictly above it, and excludes every node threads work on, or lies
above it or is that node. -/
structure Once (H : List (SubProblem σ)) (s : Sys σ cfg.fr.F) : Prop where
  pair : (L.holds s.crit.fringe ++ working s.threads).Pairwise fun a b => Disagree a.path b.path
  front : ∀ h ∈ H, ∀ q ∈ L.holds s.crit.fringe, Disagree h.path q.path ∨ Extends h.path q.path
  work : ∀ h ∈ H, ∀ q ∈ working s.threads, Disagree h.path q.path ∨ h.path <+: q.path

theorem Once.shrink {H : List (SubProblem σ)} {c c' : Crit σ cfg.fr.F} {ts ts' : List (Thread σ)} (h : Once L H ⟨c, ts⟩)
    (hf : (L.holds c'.fringe).Sublist (L.holds c.fringe)) (hw : (working ts').Sublist (working ts)) : Once L H ⟨c', ts'⟩ :=
  ⟨h.pair.sublist (hf.append hw), fun a ha q hq => h.front a ha q (hf.subset hq), fun a ha q hq => h.work a ha q (hw.subset hq)⟩

/-- The subproblems of a cutset. -/
theorem dd_below (hg : BaseCfg cfg S B) (hdom : DomainVar cfg.p) {n : SubProblem σ} {lb : Int} {m D : Dd σ} {o : Oracle σ} (hn : Genuine cfg.p n) (ho : o.Valid)
    (hm : m.cutsetType = .lastExactLayer) (hD : m.compile .all o cfg.p cfg.r cfg.rank Reads.none (input cfg .relaxed n lb) = some D) (hx : D.exact = false) :
    (D.drainCutset.Pairwise fun a b => Disagree a.path b.path) ∧ ∀ q ∈ D.drainCutset, Extends n.path q.path := by
  have hroot := hn.rootOK hg.wf
  have hgen := fun q (hq : q ∈ D.drainCutset) => Props.cutset_genuine (rank := cfg.rank) ho hg.wf (fun _ => hg.lay) (fun _ => hg.width _) hn m hD hq
  refine ⟨?_, ?_⟩
  · obtain ⟨m', k, jx, P, L, h, hd⟩ := compile_done (v := .all) (o := o) (rank := cfg.rank) (rd := Reads.none) (inp := input cfg .relaxed n lb) ho hg.wf (fun _ => hg.lay)
      (fun _ => hg.width _) hroot m
    rw [h] at hD; cases hD
    obtain ⟨h1, d, h2⟩ := hd.lel_states hg.wf ho hroot rfl (Or.inr hx) hm
    have h3 : ∀ q ∈ (m'.finish .all o (input cfg .relaxed n lb)).drainCutset, Genuine cfg.p q ∧ q.path.length = d := by
      intro q hq
      have hq1 := (hgen q hq).1
      exact ⟨hq1, by rw [← (hq1.rootOK hg.wf).lvl, h2 q hq]⟩
    rw [List.Nodup, List.pairwise_map] at h1
    refine h1.imp_of_mem ?_
    intro a b ha hb hne
    exact genuine_disagree hdom (h3 a ha).1 (h3 b hb).1 ((h3 a ha).2.trans (h3 b hb).2.symm) hne
  · intro q hq
    obtain ⟨_, h2, ⟨ds, h3⟩, _⟩ := hgen q hq
    refine ⟨ds, ?_, h3.symm⟩
    rintro rfl
    rw [← h3] at h2
    simp [input] at h2

theorem act_once (hg : BaseCfg cfg S B) (hdom : DomainVar cfg.p) (hc : cfg.cutset = .lastExactLayer) {H : List (SubProblem σ)} {c c' : Crit σ cfg.fr.F} {t t' : Thread σ}
    {l1 l2 : List (Thread σ)} (ha : Act cfg L l1.length c t c' t') (hi : Inv L ⟨c, l1 ++ t :: l2⟩) (h : Once L H ⟨c, l1 ++ t :: l2⟩) :
    Once L (H ++ (match t'.pc with | .start n => [n] | _ => [])) ⟨c', l1 ++ t' :: l2⟩ ∧
      ∀ n, t'.pc = .start n → ∀ a ∈ H, Disagree a.path n.path ∨ Extends a.path n.path := by
  have same : L.holds c'.fringe = L.holds c.fringe ∨ L.holds c'.fringe = [] → Pc.node t'.pc = Pc.node t.pc ∨ Pc.node t'.pc = none → Once L H ⟨c', l1 ++ t' :: l2⟩ := by
    intro h1 h2
    refine h.shrink ?_ ?_
    · rcases h1 with h1 | h1
      · rw [h1]; exact List.Sublist.refl _
      · rw [h1]; exact List.nil_sublist _
    · simp only [working_split]
      refine (List.Sublist.refl _).append (List.Sublist.append ?_ (List.Sublist.refl _))
      rcases h2 with h2 | h2
      · rw [h2]; exact List.Sublist.refl _
      · rw [h2]; exact List.nil_sublist _
  cases ha with
  | complete h1 h2 => simpa using same (Or.inl rfl) (Or.inl rfl)
  | stop h1 h2 => simpa using same (Or.inl rfl) (Or.inl rfl)
  | interrupt h1 hf h2 h3 => simpa using same (Or.inr h2) (Or.inl rfl)
  | wait h1 h2 h3 => simpa using same (Or.inl rfl) (Or.inl rfl)
  | prune h1 hf h2 h3 h4 h5 => simpa using same (Or.inr h2) (Or.inl rfl)
  | skip h1 => simpa using same (Or.inl rfl) (Or.inr rfl)
  | read1 h1 => simpa using same (Or.inl rfl) (Or.inl rfl)
  | read2 => simpa using same (Or.inl rfl) (Or.inl rfl)
  | @restrict m n lb o D ho hD =>
    have hfr : (maybeUpdateBest cfg c D).fringe = c.fringe := by unfold maybeUpdateBest; simp only; split <;> rfl
    cases hx : D.exact with
    | true => simp only [hx] at same ⊢; simpa using same (Or.inl (by rw [hfr])) (Or.inr rfl)
    | false => simp only [hx] at same ⊢; simpa using same (Or.inl (by rw [hfr])) (Or.inl rfl)
  | @relaxExact m n lb dd o D ho hD hx =>
    have hfr : (maybeUpdateBest cfg c D).fringe = c.fringe := by unfold maybeUpdateBest; simp only; split <;> rfl
    simpa using same (Or.inl (by rw [hfr])) (Or.inr rfl)
  | @take m n f h1 hf h2 h4 h5 =>
    have hmem : n ∈ L.holds c.fringe := h2.mem_iff.2 (by simp)
    have hsub : ∀ q ∈ L.holds f, q ∈ L.holds c.fringe := fun q hq => h2.mem_iff.2 (by simp [hq])
    obtain ⟨p1, p2, p3⟩ := h
    simp only [working_split, Pc.node, Option.toList_none, List.nil_append] at p1 p3
    have hperm : (L.holds f ++ (working l1 ++ ([n] ++ working l2))).Perm (L.holds c.fringe ++ (working l1 ++ working l2)) := by
      refine .trans ?_ (h2.append_right _).symm
      have e : (working l1 ++ ([n] ++ working l2)).Perm (n :: (working l1 ++ working l2)) := by
        simp
      exact (e.append_left _).trans (by simp)
    have hpair : (n :: (L.holds f ++ (working l1 ++ working l2))).Pairwise fun a b => Disagree a.path b.path :=
      ((h2.append_right _).pairwise_iff (fun h => Disagree.symm h)).1 p1
    have hne := (List.pairwise_cons.1 hpair).1
    refine ⟨⟨?_, ?_, ?_⟩, ?_⟩
    · simp only [working_split, Pc.node, Option.toList_some]
      exact (hperm.pairwise_iff (fun h => Disagree.symm h)).2 p1
    · intro a ha q hq
      rcases List.mem_append.1 ha with ha | ha
      · exact p2 a ha q (hsub q hq)
      · rw [List.mem_singleton.1 ha]
        exact Or.inl (hne q (List.mem_append.2 (Or.inl hq)))
    · intro a ha q hq
      simp only [working_split, Pc.node, Option.toList_some] at hq
      have hq' : q ∈ working l1 ++ working l2 ∨ q = n := by
        simp only [List.mem_append, List.mem_singleton] at hq ⊢
        rcases hq with hq | hq | hq
        · exact Or.inl (Or.inl hq)
        · exact Or.inr hq
        · exact Or.inl (Or.inr hq)
      rcases List.mem_append.1 ha with ha | ha
      · rcases hq' with hq' | hq'
        · exact p3 a ha q hq'
        · rw [hq']; exact (p2 a ha n hmem).imp id (fun ⟨e, _, he⟩ => ⟨e, he.symm⟩)
      · rw [List.mem_singleton.1 ha]
        rcases hq' with hq' | hq'
        · exact Or.inl (hne q (List.mem_append.2 (Or.inr hq')))
        · rw [hq']; exact Or.inr (List.prefix_refl _)
    · intro n' hn' a ha
      simp only [Pc.start.injEq] at hn'
      subst hn'
      exact p2 a ha _ hmem
  | @relaxCut m n lb dd o D f ho hD hx hf =>
    have hmt : m.cutsetType = .lastExactLayer := (hi.mdd _ (mem_split.2 (Or.inr rfl))).trans hc
    have hn : Genuine cfg.p n := hi.gen n (List.mem_append.2 (Or.inr (mem_working.2 (Or.inr rfl))))
    obtain ⟨d1, d2⟩ := dd_below hg hdom hn ho hmt hD hx
    obtain ⟨p1, p2, p3⟩ := h
    simp only [working_split, Pc.node, Option.toList_some] at p1 p3
    rw [List.pairwise_append] at p1
    obtain ⟨q1, q2, q3⟩ := p1
    -- the nodes that are pushed
    have hpush : ∀ a ∈ toPush c.bestLb n.ub D.drainCutset, Extends n.path a.path := by
      intro a ha
      obtain ⟨_, q, hq, rfl⟩ := mem_toPush.1 ha
      exact d2 q hq
    have hpp : (toPush c.bestLb n.ub D.drainCutset).Pairwise fun a b => Disagree a.path b.path := by
      unfold toPush
      refine List.Pairwise.filter _ ?_
      rw [List.pairwise_map]
      exact d1
    have hcomb : ∀ {Q : List Decision → Prop} (a b : SubProblem σ), Q a.path → Q b.path → Q (combine a b).path := by
      intro Q a b ha hb
      rcases combine_path a b with e | e <;> rw [e] <;> assumption
    have hwn : ∀ q ∈ working l1 ++ working l2, Disagree n.path q.path := by
      have : (n :: (working l1 ++ working l2)).Pairwise fun a b : SubProblem σ => Disagree a.path b.path :=
        ((List.perm_middle (l₁ := working l1)).pairwise_iff (fun h => Disagree.symm h)).1 q2
      exact (List.pairwise_cons.1 this).1
    have hall : ∀ (Q : List Decision → Prop), (∀ a, Extends n.path a → Q a) → (∀ q ∈ L.holds c.fringe, Q q.path) → ∀ q ∈ L.holds f, Q q.path := by
      intro Q h1 h2
      exact hf.all (fun a => Q a.path) (fun a b ha hb _ => hcomb a b ha hb) (fun a ha => h1 _ (hpush a ha)) h2
    have hpre : ∀ {a b : List Decision}, Extends a b → a <+: b := fun ⟨e, _, he⟩ => ⟨e, he.symm⟩
    refine ⟨?_, by simp⟩
    simp only [List.append_nil]
    refine ⟨?_, ?_, ?_⟩
    · simp only [working_split, Pc.node, Option.toList_none, List.nil_append]
      rw [List.pairwise_append]
      refine ⟨?_, ?_, ?_⟩
      · refine hf.pw _ (fun a b h => Disagree.symm h) (fun a b q h1 h2 => hcomb (Q := fun x => Disagree x q.path) a b h1 h2) ?_
        rw [List.pairwise_append]
        refine ⟨hpp, q1, ?_⟩
        intro a ha b hb
        have := q3 b hb n (by simp)
        exact Disagree.mono (Disagree.symm this) (hpre (hpush a ha)) (List.prefix_refl _)
      · exact q2.sublist ((List.Sublist.refl _).append (List.sublist_append_right _ _))
      · intro a ha b hb
        revert a
        apply hall (fun x => Disagree x b.path)
        · intro x hx
          exact Disagree.mono (hwn b hb) (hpre hx) (List.prefix_refl _)
        · intro q hq
          refine q3 q hq b ?_
          rcases List.mem_append.1 hb with hb | hb <;> simp [hb]
    · intro a ha
      apply hall (fun x => Disagree a.path x ∨ Extends a.path x)
      · intro x hx
        rcases p3 a ha n (by simp) with g | ⟨e, he⟩
        · exact Or.inl (Disagree.mono g (List.prefix_refl _) (hpre hx))
        · obtain ⟨e', h1, h2⟩ := hx
          exact Or.inr ⟨e ++ e', by simp [h1], by rw [h2, ← he, List.append_assoc]⟩
      · exact p2 a ha
    · intro a ha q hq
      simp only [working_split, Pc.node, Option.toList_none, List.nil_append] at hq
      refine p3 a ha q ?_
      rcases List.mem_append.1 hq with hq | hq <;> simp [hq]

theorem nodeOf_at {c : Crit σ cfg.fr.F} {t : Thread σ} {l1 l2 : List (Thread σ)} :
    (nodeOf (⟨c, l1 ++ t :: l2⟩ : Sys σ cfg.fr.F) l1.length).toList = match t.pc with | .start n => [n] | _ => [] := by
  unfold nodeOf
  simp only [List.getElem?_append_right (Nat.le_refl _), Nat.sub_self, List.getElem?_cons_zero]
  cases t.pc <;> rfl

theorem step_once (hg : BaseCfg cfg S B) (hdom : DomainVar cfg.p) (hc : cfg.cutset = .lastExactLayer) {H : List (SubProblem σ)} {i : Nat} {s s' : Sys σ cfg.fr.F}
    (ht : TransAt cfg L i s s') (hi : Inv L s) (h : Once L H s) :
    Once L (H ++ (nodeOf s' i).toList) s' ∧ ∀ n ∈ (nodeOf s' i).toList, ∀ a ∈ H, Disagree a.path n.path ∨ Extends a.path n.path := by
  cases ht with
  | @act c c' t t' l1 l2 ha e =>
    subst e
    rw [nodeOf_at]
    obtain ⟨h1, h2⟩ := act_once hg hdom hc ha hi h
    refine ⟨h1, ?_⟩
    intro n hn a ha
    refine h2 n ?_ a ha
    split at hn
    · rename_i q hq; rw [List.mem_singleton.1 hn]; exact hq
    · cases hn
  | @finish c m dd l1 l2 hpos e =>
    subst e
    have hno : nodeOf (⟨{ c with ongoing := c.ongoing - 1, upperBounds := c.upperBounds.set l1.length isizeMax, exploredDd := c.exploredDd + dd },
        (l1 ++ ⟨.idle, m⟩ :: l2).map wake⟩ : Sys σ cfg.fr.F) l1.length = none := by
      unfold nodeOf
      simp only [List.getElem?_map, List.getElem?_append_right (Nat.le_refl _), Nat.sub_self, List.getElem?_cons_zero, Option.map_some]
      rfl
    rw [hno]
    refine ⟨?_, by simp⟩
    simp only [Option.toList_none, List.append_nil]
    refine h.shrink (List.Sublist.refl _) ?_
    rw [working_wake]
    simp only [working_split, Pc.node]
    exact List.Sublist.refl _

theorem runs_once (hg : BaseCfg cfg S B) (hdom : DomainVar cfg.p) (hc : cfg.cutset = .lastExactLayer) (hn : cfg.nbThreads ≤ cfg.custom) :
    ∀ (ls : List (Lbl σ)) (s s' : Sys σ cfg.fr.F) (H : List (SubProblem σ)), Inv L s → Once L H s →
      (H.Pairwise fun a b => Disagree a.path b.path ∨ Extends a.path b.path) → (∀ l ∈ ls, ValidLbl l) → runs cfg s ls = .ok s' →
      (H ++ givenOut cfg s ls).Pairwise fun a b => Disagree a.path b.path ∨ Extends a.path b.path := by
  intro ls
  induction ls with
  | nil => intro s s' H _ _ hp _ _; simpa [givenOut] using hp
  | cons l ls ih =>
    intro s s' H hi ho hp hl h
    unfold runs at h
    split at h
    · rename_i s1 h1
      have ht := (step_trans (L := L) hg (hi.safe hn) (hl l (by simp))).2 s1 h1
      have hi1 := trans_inv hg ht hi
      cases l with
      | spurious i =>
        simp only [givenOut, h1]
        refine ih s1 s' H hi1 ?_ hp (fun l h => hl l (by simp [h])) h
        simp only [isRun] at ht
        cases ht with
        | @spurious c m l1 l2 =>
          refine ho.shrink (List.Sublist.refl _) ?_
          simp only [working_split, Pc.node]
          exact List.Sublist.refl _
      | run i b o =>
        obtain ⟨g1, g2⟩ := step_once hg hdom hc ((step_at (L := L) hg (hi.safe hn) (show o.Valid from hl (.run i b o) (by simp))).2 s1 h1) hi ho
        simp only [givenOut, h1]
        rw [← List.append_assoc]
        refine ih s1 s' _ hi1 g1 ?_ (fun l h => hl l (by simp [h])) h
        rw [List.pairwise_append]
        refine ⟨hp, ?_, fun a ha b hb => g2 b hb a ha⟩
        cases nodeOf s1 i <;> simp
    · cases h
    · cases h

theorem runs_given (hg : BaseCfg cfg S B) (hn : cfg.nbThreads ≤ cfg.custom) : ∀ (ls : List (Lbl σ)) (s s' : Sys σ cfg.fr.F), Inv L s → (∀ l ∈ ls, ValidLbl l) →
    runs cfg s ls = .ok s' → (givenOut cfg s ls).length = handedOut cfg s ls ∧ ∀ n ∈ givenOut cfg s ls, Genuine cfg.p n := by
  intro ls
  induction ls with
  | nil => intro s s' _ _ _; exact ⟨rfl, by simp [givenOut]⟩
  | cons l ls ih =>
    intro s s' hi hl h
    unfold runs at h
    split at h
    · rename_i s1 h1
      have hi1 := trans_inv hg ((step_trans (L := L) hg (hi.safe hn) (hl l (by simp))).2 s1 h1) hi
      obtain ⟨g1, g2⟩ := ih s1 s' hi1 (fun l h => hl l (by simp [h])) h
      cases l with
      | spurious i => simp only [givenOut, handedOut, h1]; exact ⟨g1, g2⟩
      | run i b o =>
        simp only [givenOut, handedOut, h1, List.length_append]
        refine ⟨?_, ?_⟩
        · rw [g1]
          congr 1
          unfold nodeOf GotNode
          cases s1.threads[i]? with
          | none => rfl
          | some t => obtain ⟨pc, m⟩ := t; cases pc <;> rfl
        · intro n hn
          rcases List.mem_append.1 hn with hn | hn
          · refine hi1.gen n (List.mem_append.2 (Or.inr ?_))
            unfold nodeOf at hn
            cases ht : s1.threads[i]? with
            | none => simp [ht] at hn
            | some t =>
              obtain ⟨pc, m⟩ := t
              rw [ht] at hn
              refine List.mem_filterMap.2 ⟨⟨pc, m⟩, List.mem_of_getElem? ht, ?_⟩
              cases pc <;> simp at hn
              subst hn; rfl
          · exact g2 n hn
    · cases h
    · cases h

/-- The variables decided by a run. -/
theorem run_vars {p : Problem σ} (hwf : WellFormed p S B) (hdom : DomainVar p) {s t : σ} {ds : List Decision} {u : Int} (h : Run p s ds u t) :
    S.ok s → ds.map (·.var) = (List.range' (S.lvl s) ds.length).map S.var := by
  induction h with
  | nil s => intro _; rfl
  | @cons s t x d ds v hx hd h ih =>
    intro hs
    have h1 := hwf.ok_trans _ _ _ hs hx hd
    have h2 := hwf.lvl_trans _ _ _ hs hx hd
    have h4 : x = S.var (S.lvl s) := by
      have := hwf.next_var [s] (S.lvl s) (by simp) (by simp [hs])
      rw [hx] at this
      split at this
      · exact Option.some.inj this
      · cases this
    simp only [List.map_cons, List.length_cons, List.range'_succ, List.cons.injEq]
    refine ⟨by rw [hdom _ _ _ hd, h4], ?_⟩
    rw [ih h1, h2]

/-- No variable is decided twice. -/
theorem genuine_vars {p : Problem σ} (hwf : WellFormed p S B) (hdom : DomainVar p) (hinj : ∀ i j, i < p.nbVars → j < p.nbVars → S.var i = S.var j → i = j) {n : SubProblem σ}
    (h : Genuine p n) : (n.path.map (·.var)).Nodup := by
  have hle := (h.rootOK hwf).le
  obtain ⟨ds, h1, u, h2, _⟩ := h
  rw [(h1.map _).nodup_iff, run_vars hwf hdom h2 hwf.ok_init, hwf.lvl_init]
  rw [h1.length_eq] at hle
  refine nodup_map_of_inj ?_ List.nodup_range'
  intro a ha b hb he
  simp only [List.mem_range'_1, Nat.zero_le, true_and, Nat.zero_add] at ha hb
  exact hinj a b (by omega) (by omega) he

theorem not_perm {p : Problem σ} (hwf : WellFormed p S B) (hdom : DomainVar p) (hinj : ∀ i j, i < p.nbVars → j < p.nbVars → S.var i = S.var j → i = j) {a b : SubProblem σ}
    (ha : Genuine p a) (h : Disagree a.path b.path ∨ Extends a.path b.path) : ¬ a.path.Perm b.path := by
  intro hp
  rcases h with ⟨d, h1, d', h2, h3, h4⟩ | ⟨c, h1, h2⟩
  · exact h4 (congrArg Decision.value (eq_of_nodup_map (genuine_vars hwf hdom hinj ha) h1 (hp.mem_iff.2 h2) h3))
  · have := hp.length_eq
    rw [h2, List.length_append] at this
    exact h1 (List.length_eq_zero_iff.1 (by omega))

end Verif.Par
