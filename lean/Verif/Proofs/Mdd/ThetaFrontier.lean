import Verif.Proofs.Mdd.Theta
/-! The thresholds a compilation with the frontier cutset stores, for a problem with a single terminal state. -/
set_option autoImplicit false

namespace Verif.Dd
open Verif Spec
variable {σ : Type} [DecidableEq σ] [Inhabited σ]
variable {v : Variant} {p : Problem σ} {r : Relaxation σ} {S : Layering σ} {B : Int}
  {inp : Input σ} {rd : Reads σ} {m D : Dd σ} {k jx : Nat} {P L : Nat → List Nat} {c : CutsetType} {o : Oracle σ}

theorem key_unique {α β : Type} {l : List (α × β)} (h : (l.map (·.1)).Nodup) {x y : α × β} (hx : x ∈ l) (hy : y ∈ l) (he : x.1 = y.1) : x = y := by
  induction l with
  | nil => cases hx
  | cons a l ih =>
    rw [List.map_cons, List.nodup_cons] at h
    rcases List.mem_cons.1 hx with rfl | hx' <;> rcases List.mem_cons.1 hy with rfl | hy'
    · rfl
    · exact absurd (List.mem_map.2 ⟨y, hy', he.symm⟩) h.1
    · exact absurd (List.mem_map.2 ⟨x, hx', he⟩) h.1
    · exact ih h.2 hx' hy'

/-- With a single terminal state, an exact terminal node makes the diagram exact. -/
theorem Done.unique_exact (hwf : WellFormed p S B) (ho : o.Valid) (hroot : RootOK p S B inp.residual) (hd : Done v p r S B inp rd m k jx P L c)
    (hut : UniqueTerminal p S) (hrel : inp.compType = .relaxed) {t : Nat} (ht : t ∈ P k) (hex : (m.node t).flags.isExact = true) :
    (m.finish v o inp).exact = true := by
  have hsk := hd.skelAny hwf ho hroot (o := o)
  have one : ∀ a ∈ P k, a = t := by
    intro a ha
    have ea := hd.head.core.st k a (Or.inl ⟨Nat.le_refl _, ha⟩)
    have et := hd.head.core.st k t (Or.inl ⟨Nat.le_refl _, ht⟩)
    have hst := hut _ _ ea.1 et.1 (hd.terminal hwf ha) (hd.terminal hwf ht)
    rw [← hd.head.ids, List.mem_map] at ha ht
    obtain ⟨x, hx1, rfl⟩ := ha
    obtain ⟨y, hy1, rfl⟩ := ht
    rw [hd.head.sts x hx1, hd.head.sts y hy1] at hst
    rw [key_unique hd.head.keys hx1 hy1 hst]
  rcases hd.bestValue hwf ho hroot (o := o) with ⟨_, _, h3⟩ | ⟨b, h3, h4, _⟩
  · rw [h3] at ht; cases ht
  · rw [one b h3] at h4
    rw [hsk.bestN] at h4
    rw [hsk.exact]
    have he : (m.fin0 o inp).exact = (!m.approximate || (decide (inp.compType = .relaxed) &&
      ({ m with bestN := m.maxByValue ((o.hashOrd m.nextL).map (·.2)) } : Dd σ).hasExactBestPath (m.nodes.length + 1)
        (m.fin0 o inp).bestN)) := rfl
    rw [he, h4, hrel]
    have : ({ m with bestN := m.maxByValue ((o.hashOrd m.nextL).map (·.2)) } : Dd σ).hasExactBestPath (m.nodes.length + 1) (some t) = true := by
      unfold hasExactBestPath
      have : (({ m with bestN := m.maxByValue ((o.hashOrd m.nextL).map (·.2)) } : Dd σ).node t) = m.node t := rfl
      simp only [this, hex, if_true]
    rw [this]
    simp

/-- With a single terminal state, the frontier cutset of an inexact diagram covers every improving completion that no threshold cut off. -/
theorem Done.cover_unique (hwf : WellFormed p S B) (ho : o.Valid) (hroot : RootOK p S B inp.residual) (hd : Done v p r S B inp rd m k jx P L c)
    (hadm : Admissible p S) (hr : inp.compType = .relaxed → SoundRelaxation p r S B) (hut : UniqueTerminal p S) (hrel : inp.compType = .relaxed)
    (hfr : m.cutsetType = .frontier) (hx : (m.finish v o inp).exact = false)
    {w : Int} (ht : Through p inp.residual w) (hlb : inp.bestLb < w) :
    (∃ n ∈ (m.finish v o inp).drainCutset, ∃ w', Through p n w' ∧ w ≤ w' ∧ w' ≤ n.ub) ∨ PrunedAt p S B rd inp w := by
  rcases hd.cover_frontier hwf ho hroot hadm hr hrel hfr (Or.inr hx) ht hlb with g | ⟨t, g1, g2, _⟩ | g
  · exact Or.inl g
  · rw [hd.unique_exact (o := o) hwf ho hroot hut hrel g1 g2] at hx; cases hx
  · exact Or.inr g

/-- Depth of a drained subproblem. -/
theorem Done.drain_depth (hwf : WellFormed p S B) (ho : o.Valid) (hroot : RootOK p S B inp.residual) (hd : Done v p r S B inp rd m k jx P L c)
    {j i : Nat} (hj : j < k) (hi : i ∈ L j) {n : SubProblem σ} (hn : n ∈ (m.finish v o inp).drainCutset) (hs : n.state = (m.node i).state) :
    n.path.length = inp.residual.path.length + j := by
  obtain ⟨pds, hpath, _, hrun, _⟩ := hd.drained hwf ho hroot hn
  have hst := hd.head.core.st j i (Or.inr ⟨hj, hi⟩)
  have := (hrun.facts hwf hroot.ok).2.1
  rw [hs, hst.2.1, hroot.lvl] at this
  rw [hpath]; simp; omega

/-- Thresholds stored by a relaxed compilation with the frontier cutset keep their promise when the problem has a single terminal state. -/
theorem Done.promise_frontier (hwf : WellFormed p S B) (ho : o.Valid) (hroot : RootOK p S B inp.residual) (hd : Done .barrier p r S B inp rd m k jx P L c)
    (hadm : Admissible p S) (hr : inp.compType = .relaxed → SoundRelaxation p r S B) (hut : UniqueTerminal p S) (hrel : inp.compType = .relaxed)
    (hfr : m.cutsetType = .frontier) {x : Update σ} (hu : x ∈ (m.finish .barrier o inp).updates) :
    S.ok x.state ∧ S.lvl x.state = x.depth ∧ inp.residual.path.length ≤ x.depth ∧ x.depth ≤ p.nbVars ∧
    ∀ (ds : List Decision) (y u : Int), -(((x.depth + 1 : Nat) : Int) * B) ≤ y → y ≤ ((x.depth + 1 : Nat) : Int) * B → y ≤ x.theta →
      Completion p x.state ds u → Promise p S B rd inp.bestLb (m.finish .barrier o inp) x (y + u) := by
  have hc := hd.head.core
  have hres : inp.compType = .restricted → m.approximate = false := by rw [hrel]; intro h; cases h
  have hF := hd.finalBarrier hwf ho hroot hrel
  obtain ⟨b, hT, hsrc, hS⟩ := hd.sweep ho hrel
  have hbest := hd.bestValue hwf ho hroot (o := o)
  have hexact := fun (t : Nat) => hd.unique_exact (o := o) hwf ho hroot hut hrel (t := t)
  have hdep := fun (j i : Nat) => hd.drain_depth (o := o) hwf ho hroot (j := j) (i := i)
  have hub := fun (j f t : Nat) (w u : Int) (ds : List Decision) (hj : j < k) (hf : f ∈ L j) => Final.ub (D := m.finish .barrier o inp) (t := t) (w := w) (u := u) (ds := ds)
    hwf ho hroot hd hadm rfl hF hj hf (fun h => by rw [hfr] at h; cases h)
  obtain ⟨D, hD⟩ : ∃ D, D = m.finish .barrier o inp := ⟨_, rfl⟩
  rw [← hD] at hu hS hF hbest hexact hdep hub ⊢
  have hnlel : m.cutsetType = .lastExactLayer → ∀ (j : Nat), m.approximate = true → jx - 1 ≤ j := by
    intro h; rw [hfr] at h; cases h
  have hsk := hT.skel
  have hbe : ∀ e, b.edge e = m.edge e := fun e => (hsk.edge e).trans (fin0_edge o inp m e)
  have hbi : ∀ i, b.inIds i = m.inIds i := fun i => (hsk.inIds i).trans (fin0_inIds o inp m i)
  have hbl : b.nodes.length = m.nodes.length := hsk.len
  have hbd : ∀ i, (b.node i).flags.isDeleted = (m.node i).flags.isDeleted := fun i => by rw [(hsk.node i).deleted, fin0_node]
  have hθb : ∀ i, i < m.nodes.length → (b.node i).theta = (m.node i).theta := by
    intro i hi
    by_cases hk : i ∈ P k
    · exact (hT.term i hk hi).2.2.1
    · rw [hT.other i hk, fin0_node]
  have hθ : ∀ j, j ≤ k → ∀ i, InLay P L k k j i → (D.node i).theta ≤ (m.node i).theta := by
    intro j _ i hi
    rw [← hθb i (hc.lt j i hi)]; exact hS.mono.theta i
  have hE : ∀ j, j ≤ k → ∀ i, InLay P L k k j i → (m.node i).flags.isDeleted = false → ∀ e ∈ m.inIds i,
      (D.node (m.edge e).src).theta ≤ satSub (D.node i).theta (m.edge e).cost := by
    intro j _ i hi hdel e he
    have := (hS.edge i (Nat.zero_le _) (by rw [hbl]; exact hc.lt j i hi) (by rw [hbd]; exact hdel) e (by rw [hbi]; exact he)).2
    rw [hbe] at this; exact this
  have hval : ∀ i, (D.node i).value = (m.node i).value := fun i => (hF.skel.node i).value
  have hexD : ∀ i, (D.node i).flags.isExact = (m.node i).flags.isExact := fun i => (hF.skel.node i).exact
  have hsim := hd.simTheta (D := D) hwf hroot hadm hr hres hθ hE (Nat.le_refl k)
  -- a parent, exact, of an inexact node from which a terminal node is reached: it is in the cutset and drained
  have hcutset : ∀ j, j < k → ∀ f ∈ L j, (m.node f).flags.isExact = true → ∀ q ∈ Lay P L k (j+1), (m.node q).flags.isDeleted = false →
      (m.node q).flags.isExact = false → ∀ e ∈ m.inIds q, (m.edge e).src = f → ∀ t ∈ P k, ∀ w, Walk m q t w →
      (D.node f).flags.isCutset = true ∧ (m.edge e).cost + w ≤ (D.node f).valueBot ∧
      ∀ (ds : List Decision) (u : Int), Completion p (m.node f).state ds u → u ≤ (m.edge e).cost + w →
        (∃ bv, D.bestValue = some bv ∧ (m.node f).value + u ≤ bv) ∧ ∃ n ∈ D.drainCutset, Through p n ((m.node f).value + u) ∧ (m.node f).value + u ≤ n.ub ∧
          n.path.length = inp.residual.path.length + j ∧ n.state = (m.node f).state ∧ n.value = (m.node f).value := by
    intro j hj f hf hfe q hq hqd hqe e he hef t ht w hw
    have hinq := Lay_in (P := P) (L := L) (k := k) (j := j+1) (by omega) hq
    have hmq := (hF.A (j+1) (by omega) (fun h => hnlel h _) q hq t ht w hw).1
    have hcut := hF.front hfr j (by omega) q hq hmq hqe e he (by rw [hef]; exact hfe)
    rw [hef] at hcut
    have hwf' : Walk m f t ((m.edge e).cost + w) := by rw [← hef]; exact .cons he hw
    refine ⟨?_, (hF.A j (by omega) (fun h => hnlel h _) f (by rw [Lay_lt hj]; exact hf) t ht _ hwf').2, ?_⟩
    · have := hS.front q (Nat.zero_le _) (by rw [hbl]; exact hc.lt _ q hinq) (by rw [hbd]; exact hqd) e (by rw [hbi]; exact he)
        ⟨by rw [hF.skel.cutsetType]; exact hfr, hmq, by rw [hexD]; exact hqe, by rw [hbe, hef, hexD]; exact hfe⟩
      rw [hbe, hef] at this; exact this
    · intro ds u hcomp hle
      have hwv := hd.walk_value hwf hroot hwf' (Or.inl ⟨Nat.le_refl _, ht⟩)
      rcases hbest with ⟨_, _, hh⟩ | ⟨t', g1, _, g2, g3⟩
      · rw [hh] at ht; cases ht
      · obtain ⟨a1, a2, a3, a4⟩ := hub j f t _ u ds hj hf ht hwf' hcomp hle g2
        have hmem := drain_mem g2 hcut a1
        exact ⟨⟨_, g2, by have := g3 t ht; omega⟩, _, hmem, ⟨ds, u, by rw [a2]; exact hcomp, by rw [a3]⟩, a4, hdep j f hj hf hmem a2, a2, a3⟩
  -- thresholds, from an exact node
  have hdown : ∀ (n j i : Nat), j + n = k → i ∈ Lay P L k j → (m.node i).flags.isExact = true → ∀ (ds : List Decision) (y u : Int),
      -(((inp.residual.path.length + j + 1 : Nat) : Int) * B) ≤ y → y ≤ ((inp.residual.path.length + j + 1 : Nat) : Int) * B →
      y ≤ (D.node i).theta → Completion p (m.node i).state ds u →
      y + u ≤ inp.bestLb ∨ PrunedBelow p S B rd (inp.residual.path.length + j) (y + u) ∨
      ((∃ bv, D.bestValue = some bv ∧ y + u ≤ bv) ∧ (D.exact = false → ∃ n ∈ D.drainCutset, ∃ w', Through p n w' ∧ y + u ≤ w' ∧ w' ≤ n.ub ∧
        (inp.residual.path.length + j < n.path.length ∨ (inp.residual.path.length + j = n.path.length ∧ (D.node i).flags.isCutset = true ∧
          n.state = (m.node i).state ∧ (D.node i).theta ≤ n.value)))) := by
    intro n
    induction n with
    | zero =>
      intro j i hj hi hie ds y u hy1 hy2 hy hcomp
      have : j = k := by omega
      subst this
      rw [Lay_k] at hi
      obtain ⟨_, rfl⟩ := (Completion.nil_iff (hd.terminal hwf hi)).1 hcomp
      have hin' : InLay P L j j j i := Or.inl ⟨Nat.le_refl _, hi⟩
      have hlt := hc.lt j i hin'
      have hlv' := hc.lvl_le hroot (by omega) hin'
      have htt := hT.term i hi hlt
      have hfit := fits hwf (x := y) (n := inp.residual.path.length + j + 1) (by omega) hy1 hy2
      have hcut : (D.node i).flags.isCutset = true := by
        apply hS.mono.cutF
        rw [htt.2.2.2]
        simp [hfr, hie]
      have hcb := hS.cutTheta i (Nat.zero_le _) (by rw [hbl]; exact hlt) (by rw [hbd]; exact (hd.head.clean i hi).1.deleted) hcut
      have hbot := hS.mono.bot i
      rw [htt.1] at hbot
      unfold cutBound at hcb
      by_cases hcase : satAdd (D.node i).value (D.node i).valueBot < inp.bestLb
      · rw [if_pos hcase] at hcb
        have h1 := le_satSub (Int.le_trans hy hcb) hfit.2
        exact Or.inl (by omega)
      · rw [if_neg hcase, hval] at hcb
        refine Or.inr (Or.inr ⟨?_, fun h => by rw [hexact i hi hie] at h; cases h⟩)
        rcases hbest with ⟨_, _, h2⟩ | ⟨t', g1, _, g2, g3⟩
        · rw [h2] at hi; cases hi
        · exact ⟨_, g2, by have := g3 i hi; omega⟩
    | succ n ih =>
      intro j i hj hi hie ds y u hy1 hy2 hy hcomp
      have hjk : j < k := by omega
      have hiL : i ∈ L j := by rw [Lay_lt hjk] at hi; exact hi
      have hin : InLay P L k k j i := Or.inr ⟨hjk, hiL⟩
      have hst := hc.st j i hin
      have hlv := hc.lvl_le hroot (by omega) hin
      have hfit := fits hwf (x := y) (n := inp.residual.path.length + j + 1) (by omega) hy1 hy2
      by_cases hprom : Promising p inp.bestLb (m.node i)
      · obtain ⟨q, e, u', ds', he, hei, hcomp', hle, hqL, hcase⟩ := hd.stepP hwf hr hres hjk hiL hcomp hprom
        have hndel : (m.node q).flags.isDeleted = false := by
          rcases hcase with ⟨⟨hqP, hq⟩, _⟩ | ⟨hqP, hjk', hpru, _⟩ | ⟨hjk', hq, _⟩
          · rcases hq with hq | hq
            · rw [hq] at hqP; exact (hd.head.clean q hqP).1.deleted
            · by_cases hjk' : j + 1 < k
              · exact (hc.lclean (j+1) hjk' q hq).1
              · have : j + 1 = k := by omega
                rw [this] at hqP; exact (hd.head.clean q hqP).1.deleted
          · exact hpru.del
          · exact (hc.lclean (j+1) hjk' q hq).1
        have hth := hE (j+1) (by omega) q hqL hndel e he
        rw [hei] at hth
        have hcb := hc.edge_bound hwf (Nat.le_refl _) (by omega) hqL he
        have hy' : y + (m.edge e).cost ≤ (D.node q).theta := le_satSub (Int.le_trans hy hth) hfit.2
        have e1 : ((inp.residual.path.length + (j + 1) + 1 : Nat) : Int) * B = ((inp.residual.path.length + j + 1 : Nat) : Int) * B + B := by
          have : ((inp.residual.path.length + (j + 1) + 1 : Nat) : Int) = ((inp.residual.path.length + j + 1 : Nat) : Int) + 1 := by omega
          rw [this, Int.add_mul]; omega
        have hgoal : q ∈ Lay P L k (j+1) ∨ PrunedBelow p S B rd (inp.residual.path.length + j) (y + u) := by
          rcases hcase with ⟨⟨hqP, hq⟩, _⟩ | ⟨hqP, hjk', hpru, _⟩ | ⟨hjk', hq, _⟩
          · left
            by_cases hjk' : j + 1 = k
            · rw [hjk', Lay_k]; rw [hjk'] at hqP; exact hqP
            · rcases hq with hq | hq
              · exact absurd hq hjk'
              · rw [Lay_lt (by omega)]; exact hq
          · right
            have := hθ (j+1) (by omega) q hqL
            exact hd.prunedBelow hwf hroot (by omega) hqP hpru (by omega) (Int.le_trans hy' this) ⟨by rw [e1]; omega, by rw [e1]; omega⟩ hcomp' (by omega)
          · left
            rw [Lay_lt hjk']; exact hq
        rcases hgoal with hq | h
        rotate_left
        · exact Or.inr (Or.inl h)
        by_cases hqe : (m.node q).flags.isExact = true
        · rcases ih (j+1) q (by omega) hq hqe ds' (y + (m.edge e).cost) u' (by rw [e1]; omega) (by rw [e1]; omega) hy' hcomp' with
            h | h | ⟨⟨bv, g0, g1⟩, g2⟩
          · exact Or.inl (by omega)
          · exact Or.inr (Or.inl (h.mono (by omega) (by omega)))
          · refine Or.inr (Or.inr ⟨⟨bv, g0, by omega⟩, fun h => ?_⟩)
            obtain ⟨n, a1, w', a2, a3, a4, a5⟩ := g2 h
            exact ⟨n, a1, w', a2, by omega, a4, Or.inl (by omega)⟩
        · have hqe : (m.node q).flags.isExact = false := by simpa using hqe
          rcases hsim (k - (j+1)) (j+1) q (by omega) hq ds' (y + (m.edge e).cost) u' (by rw [e1]; omega) (by rw [e1]; omega) hy' hcomp' with
            ⟨t, ht, w, ds2, u2, hw, hc2, hu2, _⟩ | h | h
          · rw [Lay_k] at ht
            obtain ⟨_, rfl⟩ := (Completion.nil_iff (hd.terminal hwf ht)).1 hc2
            obtain ⟨hcut, hbot, hdr⟩ := hcutset j hjk i hiL hie q hq hndel hqe e he hei t ht w hw
            have hcb := hS.cutTheta i (Nat.zero_le _) (by rw [hbl]; exact hc.lt _ i hin) (by rw [hbd]; exact (hc.lclean j hjk i hiL).1) hcut
            unfold cutBound at hcb
            by_cases hcase : satAdd (D.node i).value (D.node i).valueBot < inp.bestLb
            · rw [if_pos hcase] at hcb
              have h1 := le_satSub (Int.le_trans hy hcb) hfit.2
              exact Or.inl (by omega)
            · rw [if_neg hcase, hval] at hcb
              obtain ⟨⟨bv, g0, g1⟩, n, a1, a2, a3, a4, a5, a6⟩ := hdr ds u hcomp (by omega)
              exact Or.inr (Or.inr ⟨⟨bv, g0, by omega⟩, fun _ => ⟨n, a1, _, a2, by omega, a3, Or.inr ⟨a4.symm, hcut, a5, by omega⟩⟩⟩)
          · exact Or.inl (by omega)
          · exact Or.inr (Or.inl (h.mono (by omega) (by omega)))
      · left
        have h1 := (hc.exp j hjk i hiL).2.1 rfl
        rw [if_neg hprom] at h1
        have h2 := hθ j (by omega) i hin
        have h3 := le_satSub (y := y) (a := inp.bestLb) (c := p.estimate (m.node i).state) (by omega) hfit.2
        have := hadm _ hst.1 _ _ hcomp
        omega
  rcases hS.upd x hu with hx | ⟨i, _, hil, hidel, hiex, hipr, hist, rfl⟩
  · -- stored while the layers were developed
    rw [hT.upd] at hx
    obtain ⟨_, _, j, hj, i, hi, hie, _, rfl⟩ := hc.upd x hx
    have hin : InLay P L k k j i := Or.inr ⟨hj, hi⟩
    have hst := hc.st j i hin
    have hlv := hc.lvl_le hroot (by omega) hin
    refine ⟨hst.1, hst.2.1, by simp, hlv, ?_⟩
    simp only []
    intro ds y u hy1 hy2 hy hcomp
    have hfit := fits hwf (x := y) (n := inp.residual.path.length + j + 1) (by omega) hy1 hy2
    by_cases hprom : Promising p inp.bestLb (m.node i)
    · rw [if_pos hprom] at hy
      by_cases hlb : (m.node i).value + u ≤ inp.bestLb
      · exact Or.inl (by omega)
      · rcases hd.reach_frontier hwf hroot hadm hr hres (k - j) j i (by omega) (Or.inl ⟨hj, hi⟩) hie ds u hcomp (by omega) with
          ⟨t, h1, h2, h3⟩ | ⟨j', f, q, e, ds1, u1, ds2, u2, h1, h2, h3, h4, h5, h6, h7, h8, h9, h10, h11, h12⟩ | ⟨j', q, h1, h2, h3, h4, ds'', u'', h5, h6⟩
        · refine Or.inr (Or.inr ⟨?_, fun h => by rw [hexact t h1 h2] at h; cases h⟩)
          rcases hbest with ⟨_, _, hh⟩ | ⟨t', g1, _, g2, g3⟩
          · rw [hh] at h1; cases h1
          · exact ⟨_, g2, by have := g3 t h1; omega⟩
        · have hq : q ∈ Lay P L k (j'+1) := (Lay_iff (by omega)).2 h8
          have hinq : InLay P L k k (j'+1) q := Lay_in (by omega) hq
          have hev := hd.edge_value hwf hroot hinq h5
          rw [h6] at hev
          have hqd : (m.node q).flags.isDeleted = false := by
            rcases h8 with h8 | h8
            · exact (hc.lclean (j'+1) h8.1 q h8.2).1
            · exact (hd.head.clean q h8.2).1.deleted
          rcases hd.sim hwf hroot hadm hr hres (k - (j'+1)) (j'+1) q (by omega) h8 ds2 u2 h11 (by omega) with
            ⟨t, ht, w, hw, hle'⟩ | ⟨j'', q', g1, g2, g3, g4, w, u'', ds'', hw, hcc, hle'⟩
          · obtain ⟨_, _, hdr⟩ := hcutset j' h2 f h3 h4 q hq hqd h7 e h5 h6 t ht w hw
            obtain ⟨⟨bv, b0, b1⟩, n, a1, a2, a3, a4, a5, a6⟩ := hdr ds1 u1 h9 (by omega)
            refine Or.inr (Or.inr ⟨⟨bv, b0, by omega⟩, fun _ => ⟨n, a1, _, a2, by omega, a3, ?_⟩⟩)
            rcases h1 with h1 | ⟨h1, rfl⟩
            · exact Or.inl (by simp only []; omega)
            · refine Or.inr ⟨by simp only []; omega, rfl, a5, ?_⟩
              simp only [if_pos hprom]; omega
          · have hwv := hd.walk_value hwf hroot hw (Or.inl ⟨by omega, g3⟩)
            exact Or.inr (Or.inl (hd.prunedBelow' hwf hroot (by omega) g3 g4 (by simp only []; omega) hcc (by omega)))
        · exact Or.inr (Or.inl (hd.prunedBelow' hwf hroot (by omega) h3 h4 (by simp only []; omega) h5 (by omega)))
    · rw [if_neg hprom] at hy
      have h3 := le_satSub hy hfit.2
      have := hadm _ hst.1 _ _ hcomp
      exact Or.inl (by omega)
  · -- stored during the sweep
    rw [hbl] at hil
    obtain ⟨j, hin⟩ := hc.all i hil
    have hst := hc.st j i hin
    have hlv := hc.lvl_le hroot (by omega) hin
    have hjk : j ≤ k := by rcases hin with h | h <;> omega
    have ed : (b.node i).depth = inp.residual.path.length + j := by rw [(hsk.node i).depth, fin0_node, hst.2.2]
    have es : (b.node i).state = (m.node i).state := by rw [(hsk.node i).state, fin0_node]
    rw [hbd] at hidel
    rw [(hsk.node i).pruned, fin0_node] at hipr
    rw [(hsk.node i).exact, fin0_node] at hiex
    have hLay : i ∈ Lay P L k j := by
      rcases hin with ⟨h1, h2⟩ | ⟨h1, h2⟩
      · by_cases hk : j = k
        · subst hk; rw [Lay_k]; exact h2
        · rw [Lay_lt (by omega)]
          rcases hc.fate j (by omega) i h2 with g | g | g | g
          · exact g
          · rw [g.flag] at hipr; cases hipr
          · by_cases hh : i ∈ L j
            · exact hh
            · have := g.2.2.del rfl hh
              rw [this] at hidel; cases hidel
          · rw [hrel] at g; cases g.1
      · rw [Lay_lt h1]; exact h2
    rw [ed] at hist ⊢
    rw [es]
    refine ⟨hst.1, hst.2.1, by simp, hlv, ?_⟩
    simp only []
    intro ds y u hy1 hy2 hy hcomp
    rcases hdown (k - j) j i (by omega) hLay hiex ds y u hy1 hy2 hy hcomp with h | h | ⟨h1, h2⟩
    · exact Or.inl h
    · exact Or.inr (Or.inl h)
    · refine Or.inr (Or.inr ⟨h1, fun hx => ?_⟩)
      obtain ⟨n, a1, w', a2, a3, a4, a5⟩ := h2 hx
      refine ⟨n, a1, w', a2, a3, a4, ?_⟩
      rcases a5 with a5 | ⟨a5, a6, a7, a8⟩
      · exact Or.inl a5
      · exact Or.inr ⟨a5, by simp [a6], a7, a8⟩

end Verif.Dd
