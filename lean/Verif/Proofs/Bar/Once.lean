import Verif.Proofs.Bar.Final
import Verif.Proofs.Par.Once
import Batteries.Data.List.Perm
/-! With a barrier too, the nodes handed out are different partial assignments. -/
set_option autoImplicit false

namespace Verif.Bar
open Verif Spec Dd
open Verif.Par (toPush mem_toPush input combine_path genuine_disagree Disagree.symm Disagree.mono)
variable {σ : Type} [DecidableEq σ] [Inhabited σ] {cfg : SolverCfg σ} {L : FrontierLaws cfg.fr} {S : Layering σ} {B : Int}

/-- The node a thread works on, until its cutset has been pushed. -/
def Pc.held : BPc σ → Option (SubProblem σ)
  | .start n => some n
  | .restr n _ => some n
  | .relb n _ => some n
  | .relx n _ _ => some n
  | .post n _ => some n
  | _ => none

/-- The nodes threads work on. -/
def held (ts : List (BThread σ)) : List (SubProblem σ) := ts.filterMap fun t => Pc.held t.pc

theorem held_split (l1 l2 : List (BThread σ)) (t : BThread σ) : held (l1 ++ t :: l2) = held l1 ++ ((Pc.held t.pc).toList ++ held l2) := by
  unfold held
  rw [List.filterMap_append, List.filterMap_cons]
  cases Pc.held t.pc <;> rfl

theorem pcHeld_wake (t : BThread σ) : Pc.held (wake t).pc = Pc.held t.pc := by
  unfold wake
  obtain ⟨pc, m⟩ := t
  cases pc <;> rfl

theorem heldList_wake (l : List (BThread σ)) : held (l.map wake) = held l := by
  unfold held
  rw [List.filterMap_map]
  congr 1
  funext t
  simp only [Function.comp, pcHeld_wake]

variable (L) in
/-- The open nodes exclude each other; each node handed out so far (`H`) excludes every node of the frontier or lies strictly above it, and excludes every node threads work on, or lies
above it or is that node. -/
structure Once (H : List (SubProblem σ)) (c : BCrit σ cfg.fr.F) (ts : List (BThread σ)) : Prop where
  pair : (L.holds c.fringe ++ held ts).Pairwise fun a b => Disagree a.path b.path
  front : ∀ h ∈ H, ∀ q ∈ L.holds c.fringe, Disagree h.path q.path ∨ Extends h.path q.path
  work : ∀ h ∈ H, ∀ q ∈ held ts, Disagree h.path q.path ∨ h.path <+: q.path

theorem Once.shrink {H : List (SubProblem σ)} {c c' : BCrit σ cfg.fr.F} {ts ts' : List (BThread σ)} (h : Once L H c ts) (X : List (SubProblem σ))
    (hf : (L.holds c.fringe).Perm (X ++ L.holds c'.fringe)) (hw : (held ts').Sublist (held ts)) : Once L H c' ts' := by
  refine ⟨?_, fun a ha q hq => h.front a ha q (hf.mem_iff.2 (by simp [hq])), fun a ha q hq => h.work a ha q (hw.subset hq)⟩
  have h1 := ((hf.append_right (held ts)).pairwise_iff (fun h => Disagree.symm h)).1 h.pair
  rw [List.append_assoc] at h1
  exact (h1.sublist (List.sublist_append_right _ _)).sublist ((List.Sublist.refl _).append hw)

/-- The subproblems of a cutset. -/
theorem dd_below (hg : BaseCfg cfg S B) (hdom : DomainVar cfg.p) {n : SubProblem σ} {D : Dd σ} (hn : Genuine cfg.p n) (hm : D.cutsetType = .lastExactLayer)
    (hD : Compiled cfg n D) : (D.drainCutset.Pairwise fun a b => Disagree a.path b.path) ∧ ∀ q ∈ D.drainCutset, Extends n.path q.path := by
  obtain ⟨o, lb, v, m, ho, hD⟩ := hD
  have hroot := hn.rootOK hg.wf
  have hgen := fun q (hq : q ∈ D.drainCutset) => Props.cutset_genuine (rank := cfg.rank) ho hg.wf (fun _ => hg.lay) (fun _ => hg.width _) hn m hD hq
  rw [dd_type hg hn ho hD] at hm
  refine ⟨?_, ?_⟩
  · obtain ⟨m', k, jx, P, L, h, hd⟩ := compile_done (v := .barrier) (o := o) (rank := cfg.rank) (rd := v.reads) (inp := input cfg .relaxed n lb) ho hg.wf (fun _ => hg.lay)
      (fun _ => hg.width _) hroot m
    rw [h] at hD; cases hD
    obtain ⟨h1, d, h2⟩ := hd.lel_states hg.wf ho hroot rfl (Or.inl rfl) hm
    have h3 : ∀ q ∈ (m'.finish .barrier o (input cfg .relaxed n lb)).drainCutset, Genuine cfg.p q ∧ q.path.length = d := by
      intro q hq
      have hq1 := (hgen q hq).1
      exact ⟨hq1, by rw [← (hq1.rootOK hg.wf).lvl, h2 q hq]⟩
    rw [List.Nodup, List.pairwise_map] at h1
    refine h1.imp_of_mem ?_
    intro a b ha hb hne
    exact genuine_disagree hdom (h3 a ha).1 (h3 b hb).1 ((h3 a ha).2.trans (h3 b hb).2.symm) hne
  · intro q hq
    obtain ⟨_, h2, ⟨ds, h3⟩, _⟩ := hgen q hq
    refine ⟨ds, ?_, h3.symm⟩
    rintro rfl
    rw [← h3] at h2
    simp [input] at h2

theorem mics_once {v : Option (View σ)} {H : List (SubProblem σ)} {c c' : BCrit σ cfg.fr.F} {b b' : Bars σ} {ts : List (BThread σ)} (hm : Mics cfg L v c b c' b')
    (h : Once L H c ts) : Once L H c' ts := by
  induction hm with
  | nil => exact h
  | cons h1 _ ih =>
    apply ih
    cases h1 with
    | clean => exact h.shrink [] (.refl _) (List.Sublist.refl _)
    | @skip n f ob k h1 hf h2 h4 h5 h6 ho => exact h.shrink [n] h2 (List.Sublist.refl _)

theorem act_once (hg : BaseCfg cfg S B) (hdom : DomainVar cfg.p) (hc : cfg.cutset = .lastExactLayer) {H : List (SubProblem σ)} {v : Option (View σ)} {c c' : BCrit σ cfg.fr.F}
    {b b' : Bars σ} {t t' : BThread σ} {l1 l2 : List (BThread σ)} (ha : Act cfg L v l1.length c b t c' b' t') (hi : Inv L ⟨c, b, l1 ++ t :: l2⟩) (h : Once L H c (l1 ++ t :: l2)) :
    Once L (H ++ (match t'.pc with | .start n => [n] | _ => [])) c' (l1 ++ t' :: l2) ∧
      ∀ n, t'.pc = .start n → ∀ a ∈ H, Disagree a.path n.path ∨ Extends a.path n.path := by
  have same : ∀ X, (L.holds c.fringe).Perm (X ++ L.holds c'.fringe) → Pc.held t'.pc = Pc.held t.pc ∨ Pc.held t'.pc = none → Once L H c' (l1 ++ t' :: l2) := by
    intro X h1 h2
    refine h.shrink X h1 ?_
    simp only [held_split]
    refine (List.Sublist.refl _).append (List.Sublist.append ?_ (List.Sublist.refl _))
    rcases h2 with h2 | h2
    · rw [h2]
    · rw [h2]; exact List.nil_sublist _
  have all : ∀ f, L.holds f = [] → (L.holds c.fringe).Perm (L.holds c.fringe ++ L.holds f) := by
    intro f hf; rw [hf, List.append_nil]
  have may : ∀ D : Dd σ, (maybeUpdateBest cfg c D).fringe = c.fringe := by
    intro D; unfold maybeUpdateBest; simp only; split <;> rfl
  cases ha with
  | complete h1 h2 => simpa using same [] (.refl _) (Or.inl rfl)
  | stop h1 => simpa using same [] (.refl _) (Or.inl rfl)
  | interrupt h1 hf h2 h3 => simpa using same _ (all _ h2) (Or.inl rfl)
  | wait h1 h2 h3 => simpa using same [] (.refl _) (Or.inl rfl)
  | prune h1 hf h2 h3 h4 h5 => simpa using same _ (all _ h2) (Or.inl rfl)
  | @drop m n f ob k h1 hf h2 h4 h5 h6 ho h7 => simpa using same [n] h2 (Or.inl rfl)
  | early h1 => simpa using same [] (.refl _) (Or.inr rfl)
  | read1 h1 => simpa using same [] (.refl _) (Or.inl rfl)
  | read2 => simpa using same [] (.refl _) (Or.inl rfl)
  | @restrict m n lb o D ho hD hu =>
    cases hx : D.exact with
    | true => simp only [hx] at same ⊢; simpa using same [] (by rw [may]; exact .refl _) (Or.inr rfl)
    | false => simp only [hx] at same ⊢; simpa using same [] (by rw [may]; exact .refl _) (Or.inl rfl)
  | relax ho hD hb => simpa using same [] (.refl _) (Or.inl rfl)
  | postExact hx => simpa using same [] (by rw [may]; exact .refl _) (Or.inr rfl)
  | @take m n f ob gb b'' k h1 hf h2 h4 h5 h6 ho hgb hb =>
    have hmem : n ∈ L.holds c.fringe := h2.mem_iff.2 (by simp)
    have hsub : ∀ q ∈ L.holds f, q ∈ L.holds c.fringe := fun q hq => h2.mem_iff.2 (by simp [hq])
    obtain ⟨p1, p2, p3⟩ := h
    simp only [held_split, Pc.held, Option.toList_none, List.nil_append] at p1 p3
    have hperm : (L.holds f ++ (held l1 ++ ([n] ++ held l2))).Perm (L.holds c.fringe ++ (held l1 ++ held l2)) := by
      refine .trans ?_ (h2.append_right _).symm
      have e : (held l1 ++ ([n] ++ held l2)).Perm (n :: (held l1 ++ held l2)) := by
        simp
      exact (e.append_left _).trans (by simp)
    have hpair : (n :: (L.holds f ++ (held l1 ++ held l2))).Pairwise fun a b => Disagree a.path b.path :=
      ((h2.append_right _).pairwise_iff (fun h => Disagree.symm h)).1 p1
    have hne := (List.pairwise_cons.1 hpair).1
    refine ⟨⟨?_, ?_, ?_⟩, ?_⟩
    · simp only [held_split, Pc.held, Option.toList_some]
      exact (hperm.pairwise_iff (fun h => Disagree.symm h)).2 p1
    · intro a ha q hq
      rcases List.mem_append.1 ha with ha | ha
      · exact p2 a ha q (hsub q hq)
      · rw [List.mem_singleton.1 ha]
        exact Or.inl (hne q (List.mem_append.2 (Or.inl hq)))
    · intro a ha q hq
      simp only [held_split, Pc.held, Option.toList_some] at hq
      have hq' : q ∈ held l1 ++ held l2 ∨ q = n := by
        simp only [List.mem_append, List.mem_singleton] at hq ⊢
        rcases hq with hq | hq | hq
        · exact Or.inl (Or.inl hq)
        · exact Or.inr hq
        · exact Or.inl (Or.inr hq)
      rcases List.mem_append.1 ha with ha | ha
      · rcases hq' with hq' | hq'
        · exact p3 a ha q hq'
        · rw [hq']; exact (p2 a ha n hmem).imp id (fun ⟨e, _, he⟩ => ⟨e, he.symm⟩)
      · rw [List.mem_singleton.1 ha]
        rcases hq' with hq' | hq'
        · exact Or.inl (hne q (List.mem_append.2 (Or.inr hq')))
        · rw [hq']; exact Or.inr (List.prefix_refl _)
    · intro n' hn' a ha
      simp only [BPc.start.injEq] at hn'
      subst hn'
      exact p2 a ha _ hmem
  | @postCut D n dd f ob hx hf =>
    obtain ⟨hn, hcomp⟩ := hi.post _ (Par.mem_split.2 (Or.inr rfl)) n dd rfl
    obtain ⟨d1, d2⟩ := dd_below hg hdom hn ((hi.mdd _ (Par.mem_split.2 (Or.inr rfl))).trans hc) hcomp
    obtain ⟨p1, p2, p3⟩ := h
    simp only [held_split, Pc.held, Option.toList_some] at p1 p3
    rw [List.pairwise_append] at p1
    obtain ⟨q1, q2, q3⟩ := p1
    -- the nodes that are pushed
    have hpush : ∀ a ∈ toPush c.bestLb n.ub D.drainCutset, Extends n.path a.path := by
      intro a ha
      obtain ⟨_, q, hq, rfl⟩ := mem_toPush.1 ha
      exact d2 q hq
    have hpp : (toPush c.bestLb n.ub D.drainCutset).Pairwise fun a b => Disagree a.path b.path := by
      unfold toPush
      refine List.Pairwise.filter _ ?_
      rw [List.pairwise_map]
      exact d1
    have hcomb : ∀ {Q : List Decision → Prop} (a b : SubProblem σ), Q a.path → Q b.path → Q (combine a b).path := by
      intro Q a b ha hb
      rcases combine_path a b with e | e <;> rw [e] <;> assumption
    have hwn : ∀ q ∈ held l1 ++ held l2, Disagree n.path q.path := by
      have : (n :: (held l1 ++ held l2)).Pairwise fun a b : SubProblem σ => Disagree a.path b.path :=
        ((List.perm_middle (l₁ := held l1)).pairwise_iff (fun h => Disagree.symm h)).1 q2
      exact (List.pairwise_cons.1 this).1
    have hall : ∀ (Q : List Decision → Prop), (∀ a, Extends n.path a → Q a) → (∀ q ∈ L.holds c.fringe, Q q.path) → ∀ q ∈ L.holds f, Q q.path := by
      intro Q h1 h2 q hq
      obtain ⟨x, hx, _, _, e, _⟩ := hf.ref.src q hq
      rw [← e]
      rcases List.mem_append.1 hx with hx | hx
      · exact h1 _ (hpush x hx)
      · exact h2 x hx
    have hpre : ∀ {a b : List Decision}, Extends a b → a <+: b := fun ⟨e, _, he⟩ => ⟨e, he.symm⟩
    refine ⟨?_, by simp⟩
    simp only [List.append_nil]
    refine ⟨?_, ?_, ?_⟩
    · simp only [held_split, Pc.held, Option.toList_none, List.nil_append]
      rw [List.pairwise_append]
      refine ⟨?_, ?_, ?_⟩
      · refine hf.pw _ (fun a b h => Disagree.symm h) (fun a b q h1 h2 => hcomb (Q := fun x => Disagree x q.path) a b h1 h2) ?_
        rw [List.pairwise_append]
        refine ⟨hpp, q1, ?_⟩
        intro a ha b hb
        have := q3 b hb n (by simp)
        exact Disagree.mono (Disagree.symm this) (hpre (hpush a ha)) (List.prefix_refl _)
      · exact q2.sublist ((List.Sublist.refl _).append (List.sublist_append_right _ _))
      · intro a ha b hb
        revert a
        apply hall (fun x => Disagree x b.path)
        · intro x hx
          exact Disagree.mono (hwn b hb) (hpre hx) (List.prefix_refl _)
        · intro q hq
          refine q3 q hq b ?_
          rcases List.mem_append.1 hb with hb | hb <;> simp [hb]
    · intro a ha
      apply hall (fun x => Disagree a.path x ∨ Extends a.path x)
      · intro x hx
        rcases p3 a ha n (by simp) with g | ⟨e, he⟩
        · exact Or.inl (Disagree.mono g (List.prefix_refl _) (hpre hx))
        · obtain ⟨e', h1, h2⟩ := hx
          exact Or.inr ⟨e ++ e', by simp [h1], by rw [h2, ← he, List.append_assoc]⟩
      · exact p2 a ha
    · intro a ha q hq
      simp only [held_split, Pc.held, Option.toList_none, List.nil_append] at hq
      refine p3 a ha q ?_
      rcases List.mem_append.1 hq with hq | hq <;> simp [hq]

theorem gotNode_at {c : BCrit σ cfg.fr.F} {b : Bars σ} {t : BThread σ} {l1 l2 : List (BThread σ)} :
    (gotNode (⟨c, b, l1 ++ t :: l2⟩ : BSys σ cfg.fr.F) l1.length).toList = match t.pc with | .start n => [n] | _ => [] := by
  unfold gotNode
  simp only [List.getElem?_append_right (Nat.le_refl _), Nat.sub_self, List.getElem?_cons_zero]
  cases t.pc <;> rfl

theorem step_once (hg : BaseCfg cfg S B) (hdom : DomainVar cfg.p) (hc : cfg.cutset = .lastExactLayer) {H : List (SubProblem σ)} {v : Option (View σ)} {i : Nat}
    {s s' : BSys σ cfg.fr.F} (ht : TransAt cfg L v i s s') (hi : Inv L s) (h : Once L H s.crit s.threads) :
    Once L (H ++ (gotNode s' i).toList) s'.crit s'.threads ∧ ∀ n ∈ (gotNode s' i).toList, ∀ a ∈ H, Disagree a.path n.path ∨ Extends a.path n.path := by
  cases ht with
  | @act c b c1 b1 c' b' t t' l1 l2 hm _ ha e =>
    subst e
    rw [gotNode_at]
    obtain ⟨h1, h2⟩ := act_once hg hdom hc ha (mics_inv hm hi) (mics_once hm h)
    refine ⟨h1, ?_⟩
    intro n hn a ha
    refine h2 n ?_ a ha
    split at hn
    · rename_i q hq; rw [List.mem_singleton.1 hn]; exact hq
    · cases hn
  | @finish c b m d dd gb l1 l2 hpos hgb e =>
    subst e
    have hno : gotNode (⟨{ c with
          ongoing := c.ongoing - 1
          upperBounds := c.upperBounds.set l1.length isizeMax
          ongoingBy := gb
          exploredDd := c.exploredDd + dd }, b, (l1 ++ ⟨.idle, m⟩ :: l2).map wake⟩ : BSys σ cfg.fr.F) l1.length = none := by
      unfold gotNode
      simp only [List.getElem?_map, List.getElem?_append_right (Nat.le_refl _), Nat.sub_self, List.getElem?_cons_zero, Option.map_some]
      rfl
    rw [hno]
    refine ⟨?_, by simp⟩
    simp only [Option.toList_none, List.append_nil]
    refine h.shrink [] (.refl _) ?_
    simp only
    rw [heldList_wake]
    simp only [held_split, Pc.held]
    exact List.Sublist.refl _

theorem runs_once (hg : BaseCfg cfg S B) (hdom : DomainVar cfg.p) (hc : cfg.cutset = .lastExactLayer) (hn : cfg.nbThreads ≤ cfg.custom) :
    ∀ (ls : List (BLbl σ)) (s s' : BSys σ cfg.fr.F) (H : List (SubProblem σ)), Inv L s → Once L H s.crit s.threads →
      (H.Pairwise fun a b => Disagree a.path b.path ∨ Extends a.path b.path) → (∀ l ∈ ls, BValidLbl l) → runs cfg s ls = .ok s' →
      (H ++ given cfg s ls).Pairwise fun a b => Disagree a.path b.path ∨ Extends a.path b.path := by
  intro ls
  induction ls with
  | nil => intro s s' H _ _ hp _ _; simpa [given] using hp
  | cons l ls ih =>
    intro s s' H hi ho hp hl h
    unfold runs at h
    split at h
    · rename_i s1 h1
      have ht := (step_trans (L := L) hg (hi.safe hn) (hl l (by simp))).2 s1 h1
      have hi1 := trans_inv hg ht hi
      cases l with
      | spurious i =>
        simp only [given, h1]
        refine ih s1 s' H hi1 ?_ hp (fun l h => hl l (by simp [h])) h
        simp only [isRun] at ht
        cases ht with
        | @spurious c b m l1 l2 =>
          refine ho.shrink [] (.refl _) ?_
          simp only [held_split, Pc.held]
          exact List.Sublist.refl _
      | run i intr o v =>
        obtain ⟨g1, g2⟩ := step_once hg hdom hc ((step_at (L := L) hg (hi.safe hn) (show o.Valid from hl (.run i intr o v) (by simp))).2 s1 h1) hi ho
        simp only [given, h1]
        rw [← List.append_assoc]
        refine ih s1 s' _ hi1 g1 ?_ (fun l h => hl l (by simp [h])) h
        rw [List.pairwise_append]
        refine ⟨hp, ?_, fun a ha b hb => g2 b hb a ha⟩
        cases gotNode s1 i <;> simp
    · cases h
    · cases h

theorem run_det {p : Problem σ} {s t t' : σ} {ds : List Decision} {u u' : Int} (h : Run p s ds u t) (h' : Run p s ds u' t') : t = t' ∧ u = u' := by
  induction h generalizing u' with
  | nil s => cases h'; exact ⟨rfl, rfl⟩
  | @cons s t x d ds v hx hd h ih =>
    cases h' with
    | @cons _ _ x' _ _ v' hx' hd' h'' =>
      obtain ⟨h1, h2⟩ := ih h''
      exact ⟨h1, by rw [h2]⟩

/-- The same decisions lead to the same state with the same value. -/
theorem genuine_same {p : Problem σ} (hwf : WellFormed p S B) (hdom : DomainVar p) (hinj : ∀ i j, i < p.nbVars → j < p.nbVars → S.var i = S.var j → i = j)
    {a b : SubProblem σ} (ha : Genuine p a) (hb : Genuine p b) (h : a.path.Perm b.path) : a.state = b.state ∧ a.value = b.value := by
  have hnd := Par.genuine_vars hwf hdom hinj ha
  obtain ⟨ds, h1, u, h2, e1⟩ := ha
  obtain ⟨ds', h1', u', h2', e2⟩ := hb
  have hp : ds.Perm ds' := h1.symm.trans (h.trans h1')
  have hv : ds.map (·.var) = ds'.map (·.var) := by
    rw [Par.run_vars hwf hdom h2 hwf.ok_init, Par.run_vars hwf hdom h2' hwf.ok_init, hp.length_eq]
  have hnd' : (ds.map (·.var)).Nodup := (h1.map _).nodup_iff.1 hnd
  have e : ds = ds' := by
    refine List.ext_getElem hp.length_eq ?_
    intro i i1 i2
    refine eq_of_nodup_map hnd' (List.getElem_mem i1) (hp.mem_iff.2 (List.getElem_mem i2)) ?_
    have := List.getElem_of_eq hv (i := i) (by simpa using i1)
    simpa using this
  subst e
  obtain ⟨g1, g2⟩ := run_det h2 h2'
  exact ⟨g1, by rw [e1, e2, g2]⟩

/-- Nodes with different decisions are at most as many as there are partial assignments. -/
theorem length_le_assignments {p : Problem σ} {l : List (SubProblem σ)} (hpw : l.Pairwise fun a b => ¬ a.path.Perm b.path) (hgen : ∀ n ∈ l, Genuine p n)
    {A : List (List Decision)} (hA : ∀ ds t v, Reach p t ds v → ds ∈ A) : l.length ≤ A.length := by
  have hch : ∀ n : SubProblem σ, ∃ ds, Genuine p n → n.path.Perm ds ∧ ds ∈ A := by
    intro n
    by_cases hn : Genuine p n
    · obtain ⟨ds, h1, h2⟩ := hn
      exact ⟨ds, fun _ => ⟨h1, hA ds _ _ h2⟩⟩
    · exact ⟨[], fun h => absurd h hn⟩
  choose f hf using hch
  have hnd : (l.map f).Nodup := by
    rw [List.Nodup, List.pairwise_map]
    refine hpw.imp_of_mem ?_
    intro a b ha hb hab he
    have h1 := (hf a (hgen a ha)).1
    rw [he] at h1
    exact hab (h1.trans (hf b (hgen b hb)).1.symm)
  have hsub : l.map f ⊆ A := by
    intro x hx
    obtain ⟨n, hn, rfl⟩ := List.mem_map.1 hx
    exact (hf n (hgen n hn)).2
  simpa using (List.subperm_of_subset hnd hsub).length_le

theorem given_genuine (hg : BaseCfg cfg S B) (hn : cfg.nbThreads ≤ cfg.custom) : ∀ (ls : List (BLbl σ)) (s s' : BSys σ cfg.fr.F), Inv L s → (∀ l ∈ ls, BValidLbl l) →
    runs cfg s ls = .ok s' → ∀ n ∈ given cfg s ls, Genuine cfg.p n := by
  intro ls
  induction ls with
  | nil => intro s s' _ _ _; simp [given]
  | cons l ls ih =>
    intro s s' hi hl h
    unfold runs at h
    split at h
    · rename_i s1 h1
      have hi1 := trans_inv hg ((step_trans (L := L) hg (hi.safe hn) (hl l (by simp))).2 s1 h1) hi
      have k2 := ih s1 s' hi1 (fun l h => hl l (by simp [h])) h
      cases l with
      | spurious i => simp only [given, h1]; exact k2
      | run i intr o v =>
        simp only [given, h1]
        intro n hn
        rcases List.mem_append.1 hn with hn | hn
        · refine hi1.genW n ?_
          unfold gotNode at hn
          cases ht : s1.threads[i]? with
          | none => simp [ht] at hn
          | some t =>
            obtain ⟨pc, m⟩ := t
            rw [ht] at hn
            refine List.mem_filterMap.2 ⟨⟨pc, m⟩, List.mem_of_getElem? ht, ?_⟩
            cases pc <;> simp at hn
            subst hn; rfl
        · exact k2 n hn
    · cases h
    · cases h

end Verif.Bar
