import Verif.Model.Stray
import Verif.Proofs.Bar.Crash
import Verif.Proofs.Bar.Final
import Verif.Proofs.Rest
/-! Lemmas on workers without a cell, with a barrier. -/
set_option autoImplicit false

namespace Verif.Bar
open Spec
variable {σ : Type} [DecidableEq σ] [Inhabited σ] {cfg : SolverCfg σ} {S : Layering σ} {B : Int} {L : FrontierLaws cfg.fr}

/-- Where the loop of a worker without a cell ends: after some nodes have been skipped, one is entered into the barrier and lost. -/
theorem strayLoop_spec (i : Nat) (v : Option (View σ)) (fuel : Nat) : ∀ {c c' : BCrit σ cfg.fr.F} {b b' : Bars σ}, SafeC (L := L) c b → c.interrupted = false → strayLoop cfg i v fuel c b = some (c', b') →
    ∃ c1 b1 f n, Mics cfg L v c b c1 b1 ∧ L.inv f ∧ (L.holds c1.fringe).Perm (n :: L.holds f) ∧ b1.insert n.path.length n.state ⟨n.value, true⟩ = some b' ∧
      c' = { c1 with fringe := f, ongoing := c1.ongoing + 1, explored := c1.explored + 1 } := by
  induction fuel with
  | zero => intro c c' b b' _ _ h; cases h
  | succ fuel ih =>
    intro c c' b b' hs hint h
    unfold strayLoop at h
    rcases L.pop c.fringe hs.inv with ⟨f', g1, g2, g3, g4⟩ | ⟨f', n, g1, g2, g3, g4⟩
    · rw [g2] at h; cases h
    · rw [g1] at h
      simp only at h
      split at h
      · cases h
      rename_i hub
      split at h
      · split at h
        · split at h
          · rename_i b1 hb1
            split at h
            · cases h
            · cases h
              exact ⟨c, b, f', n, .nil, g2, g3, hb1, rfl⟩
          · cases h
        · rename_i hm
          split at h
          · cases h
          rename_i ob hob
          split at h
          · cases h
          have hmic : Mic cfg L v c b { c with fringe := f', openBy := ob } b := .skip hint g2 g3 g4 (by omega) (by simpa using hm) hob
          obtain ⟨c1, b1, f, q, h1, h2⟩ := ih (mic_safe hs hmic).1 hint h
          exact ⟨c1, b1, f, q, .cons hmic h1, h2⟩
      · cases h

/-- A node taken by a worker without a cell. -/
theorem lose_inv {c : BCrit σ cfg.fr.F} {b b' : Bars σ} {ts : List (BThread σ)} {e : Bool} {k : Nat} (h : Inv L ⟨c, b, ts⟩ e k) {f : cfg.fr.F} {n : SubProblem σ} (hf : L.inv f)
    (hp : (L.holds c.fringe).Perm (n :: L.holds f)) (hb : b'.length = b.length) :
    Inv L ⟨{ c with fringe := f, ongoing := c.ongoing + 1, explored := c.explored + 1 }, b', ts⟩ e (k + 1) := by
  have hsub : ∀ q ∈ L.holds f, q ∈ L.holds c.fringe := fun q hq => hp.mem_iff.2 (by simp [hq])
  refine ⟨hf, ?_, h.thr, h.ubs, fun q hq => h.genF q (hsub q hq), h.genW, ⟨h.len.1, h.len.2.1, hb.trans h.len.2.2⟩, ?_, h.low, h.cntG, h.post, h.lbs, h.min, h.inc, ?_, ?_, h.mdd,
    fun he q hq => h.lowF he q (hsub q hq), h.lowH⟩
  · have := h.ong
    simp only at this ⊢
    omega
  · intro d
    have h1 := h.cntO d
    simp only at h1 ⊢
    rw [atDepth_perm hp, atDepth_cons] at h1
    omega
  · intro t ht hw
    exact Nat.succ_pos _
  · intro t ht hd hi
    have := (h.done t ht hd hi).1
    simp only at this
    rw [this] at hp; simp at hp

theorem stray_inv {s s' : Torn (BSys σ cfg.fr.F)} {e : Bool} {k : Nat} (h : Inv L s.sys e k) {i : Nat} {v : Option (View σ)} (hs : strayStep cfg s i v = some s') :
    Inv L s'.sys e (k + 1) ∧ s'.sys.threads = s.sys.threads := by
  obtain ⟨⟨c, b, ts⟩, dead⟩ := s
  unfold strayStep at hs
  split at hs
  · cases hs
  split at hs
  · cases hs
  split at hs
  · split at hs
    · cases hs
    rename_i c1 b1 hcl
    split at hs
    · cases hs
    rename_i hno
    simp only [not_or] at hno
    obtain ⟨r, hr, rfl⟩ := Option.map_eq_some_iff.1 hs
    have hsc : SafeC (L := L) c b := ⟨h.inv, h.genF, h.len, h.cntO, h.low⟩
    obtain ⟨c2, b2, e1, hm, _⟩ := cleanup_spec (L := L) v (cfg.p.nbVars + 1) c b hsc (by omega)
    simp only at hcl
    rw [e1] at hcl; cases hcl
    have hi1 := mics_inv hm h
    have hs1 := (mics_safe hm hsc).1
    obtain ⟨c3, b3, f, n, k1, k2, k3, k4, k5⟩ := strayLoop_spec (L := L) i v _ hs1 (by simpa using hno.2.1) hr
    have hi3 := mics_inv k1 hi1
    obtain ⟨rc, rb⟩ := r
    simp only at k4 k5
    subst k5
    exact ⟨lose_inv hi3 k2 k3 (Bars.length_insert k4), rfl⟩
  · cases hs

/-- A worker that is given a node has a cell. -/
theorem popLoop_cell (i : Nat) (v : Option (View σ)) (fuel : Nat) : ∀ {c c' : BCrit σ cfg.fr.F} {b b' : Bars σ} {n : SubProblem σ}, popLoop cfg i v fuel c b = some (c', b', .item n) → i < c.upperBounds.length := by
  induction fuel with
  | zero => intro c c' b b' n h; cases h
  | succ fuel ih =>
    intro c c' b b' n h
    unfold popLoop at h
    split at h
    · split at h
      · cases h
      split at h
      · split at h
        · cases h
        split at h
        · split at h
          · split at h
            · assumption
            · cases h
          · cases h
        · split at h
          · cases h
          · have := ih h; exact this
      · cases h
    · cases h

theorem cleanup_cells (fuel : Nat) : ∀ {c c' : BCrit σ cfg.fr.F} {b b' : Bars σ}, cleanup cfg fuel c b = some (c', b') → c'.upperBounds = c.upperBounds := by
  induction fuel with
  | zero => intro c c' b b' h; cases h
  | succ fuel ih =>
    intro c c' b b' h
    unfold cleanup at h
    split at h
    · split at h
      · split at h
        · split at h
          · cases h
          · have := ih h; exact this
        · cases h; rfl
      · cases h
    · cases h; rfl

theorem item_cell {c c' : BCrit σ cfg.fr.F} {b b' : Bars σ} {i : Nat} {intr : Bool} {v : Option (View σ)} {n : SubProblem σ} (h : getWorkload cfg c b i intr v = some (c', b', .item n)) :
    i < c.upperBounds.length := by
  unfold getWorkload at h
  split at h
  · cases h
  rename_i c1 b1 hcl
  rw [← cleanup_cells _ hcl]
  split at h
  · cases h
  split at h
  · cases h
  split at h
  · split at h
    · cases h
    · split at h <;> cases h
  split at h
  · cases h
  exact popLoop_cell _ _ _ h

theorem step_threads {s s' : BSys σ cfg.fr.F} {l : BLbl σ} (h : step cfg s l = .ok s') :
    ∃ t', s'.threads = s.threads.set l.who t' ∨ s'.threads = (s.threads.set l.who t').map wake := by
  cases l with
  | spurious i =>
    simp only [step] at h
    split at h
    · split at h
      · cases h; exact ⟨_, Or.inl rfl⟩
      · cases h
    · cases h
  | run i intr o v =>
    simp only [step] at h
    split at h
    · cases h
    unfold stepThread at h
    simp only at h
    split at h
    · cases h
    · cases h
    · split at h <;> cases h <;> exact ⟨_, Or.inl rfl⟩
    · split at h <;> cases h <;> exact ⟨_, Or.inl rfl⟩
    · split at h
      · cases h
      · split at h
        · cases h
        · cases h; exact ⟨_, Or.inl rfl⟩
    · cases h; exact ⟨_, Or.inl rfl⟩
    · split at h
      · cases h
      · split at h
        · cases h
        · cases h; exact ⟨_, Or.inl rfl⟩
    · split at h
      · cases h; exact ⟨_, Or.inl rfl⟩
      · split at h
        · cases h
        · cases h; exact ⟨_, Or.inl rfl⟩
    · split at h
      · cases h
      · split at h
        · cases h
        · cases h; exact ⟨_, Or.inr rfl⟩

/-- A worker without a cell holds no node. -/
def NoCell (s : BSys σ cfg.fr.F) : Prop := ∀ (i : Nat) (t : BThread σ), s.threads[i]? = some t → s.crit.upperBounds.length ≤ i → heldDepth t = none

theorem noCell_step {s s' : BSys σ cfg.fr.F} {l : BLbl σ} (h : NoCell s) (hc : s'.crit.upperBounds.length = s.crit.upperBounds.length) (hs : step cfg s l = .ok s') : NoCell s' := by
  intro j u hu hj
  rw [hc] at hj
  obtain ⟨t', ht'⟩ := step_threads hs
  by_cases hjl : l.who = j
  · cases l with
    | spurious i =>
      change i = j at hjl
      subst hjl
      simp only [step] at hs
      split at hs
      · rename_i t ht
        split at hs
        · cases hs
          rw [List.getElem?_set_self (List.getElem?_eq_some_iff.1 ht).1] at hu
          cases hu; rfl
        · cases hs
      · cases hs
    | run i intr o v =>
      change i = j at hjl
      subst hjl
      simp only [step] at hs
      split at hs
      · cases hs
      rename_i t ht
      have hh := h i t ht hj
      have hlt := (List.getElem?_eq_some_iff.1 ht).1
      obtain ⟨pc, m⟩ := t
      unfold stepThread at hs
      cases pc with
      | waiting => cases hs
      | done => cases hs
      | idle =>
        simp only at hs
        split at hs
        · cases hs
        · cases hs; rw [List.getElem?_set_self hlt] at hu; cases hu; rfl
        · cases hs; rw [List.getElem?_set_self hlt] at hu; cases hu; rfl
        · cases hs; rw [List.getElem?_set_self hlt] at hu; cases hu; rfl
        · cases hs; rw [List.getElem?_set_self hlt] at hu; cases hu; rfl
        · rename_i hw
          have := item_cell hw
          omega
      | _ => cases hh
  · rcases ht' with e | e
    · rw [e, List.getElem?_set_ne hjl] at hu
      exact h j u hu hj
    · rw [e, List.getElem?_map, List.getElem?_set_ne hjl] at hu
      obtain ⟨w, hw, rfl⟩ := Option.map_eq_some_iff.1 hu
      rw [held_wake]
      exact h j w hw hj

/-- If the loop panics for want of a cell, then the worker has taken a node. -/
theorem strayLoop_total (hwf : WellFormed cfg.p S B) (v : Option (View σ)) {i : Nat} : ∀ (fuel : Nat) {c : BCrit σ cfg.fr.F} {b : Bars σ}, SafeC (L := L) c b → c.interrupted = false →
    0 < (L.holds c.fringe).length → (L.holds c.fringe).length ≤ fuel → popLoop cfg i v fuel c b = none → ∃ r, strayLoop cfg i v fuel c b = some r := by
  intro fuel
  induction fuel with
  | zero => intro c b _ _ h1 h2; omega
  | succ fuel ih =>
    intro c b h hint hpos hlen hp
    unfold popLoop at hp
    unfold strayLoop
    rcases L.pop c.fringe h.inv with ⟨f', g1, g2, g3, g4⟩ | ⟨f', n, g1, g2, g3, g4⟩
    · rw [g1] at hpos; simp at hpos
    · rw [g1] at hp ⊢
      simp only at hp ⊢
      by_cases h3 : n.ub ≤ c.bestLb
      · rw [if_pos h3] at hp; cases hp
      · rw [if_neg h3] at hp ⊢
        have hn : n ∈ L.holds c.fringe := g3.mem_iff.2 (by simp)
        have hle := ((h.gen n hn).rootOK hwf).le
        have hlt : n.path.length < b.length := by rw [h.len.2.2]; omega
        rw [if_pos hlt] at hp ⊢
        have hc := h.cntO n.path.length
        rw [atDepth_perm g3, atDepth_cons, if_pos rfl] at hc
        obtain ⟨ob, k1, k2, k3⟩ := decAt_spec (l := c.openBy) (d := n.path.length) (by omega)
        rw [k1] at hp
        simp only at hp
        cases h6 : mustExplore ((seen v b).pop fuel n.path.length n.state) n.value with
        | true =>
          rw [h6, if_pos rfl] at hp
          rw [if_pos rfl]
          obtain ⟨b', j1⟩ := Bars.insert_total (b := b) (d := n.path.length) (by rw [h.len.2.2]; omega) n.state ⟨n.value, true⟩
          obtain ⟨gb, j2, _, _⟩ := incAt_spec (l := c.ongoingBy) (d := n.path.length) (by rw [h.len.2.1]; omega)
          rw [j1, j2] at hp
          rw [j1]
          simp only at hp ⊢
          by_cases hi : i < c.upperBounds.length
          · rw [if_pos hi] at hp; cases hp
          · rw [if_neg hi]; exact ⟨_, rfl⟩
        | false =>
          simp only [h6, Bool.false_eq_true, if_false] at hp ⊢
          rw [k1]
          simp only
          have hl := L.len f' g2
          by_cases hz : cfg.fr.len f' = 0
          · rw [if_pos hz] at hp; cases hp
          · rw [if_neg hz] at hp ⊢
            have hm : Mic cfg L v c b { c with fringe := f', openBy := ob } b := .skip hint g2 g3 g4 (by omega) h6 k1
            have hlen' := g3.length_eq
            simp only [List.length_cons] at hlen'
            exact ih (mic_safe h hm).1 hint (by simp only; omega) (by simp only; omega) hp

/-- A worker that goes on panics only if it takes a node and has no cell. -/
theorem panic_stray (hg : BaseCfg cfg S B) {s : Torn (BSys σ cfg.fr.F)} {e : Bool} {k : Nat} (h : Inv L s.sys e k) (hn : NoCell s.sys) {i : Nat} (hl : i ∉ s.dead) {o : Oracle σ} (ho : o.Valid)
    {v : Option (View σ)} (hp : step cfg s.sys (.run i false o v) = .panic) : ∃ s', strayStep cfg s i v = some s' := by
  have hsafe : Safe (L := L) s.sys False k := ⟨h.inv, h.ong, fun h => h.elim, h.genF, h.genW, h.len, h.cntO, h.low, h.cntG, h.post⟩
  have hno : ¬ i < s.sys.crit.upperBounds.length := fun hlt => (step_at_room hg hsafe ho fun _ => hlt).1 hp
  obtain ⟨⟨c, b, ts⟩, dead⟩ := s
  simp only [step] at hp
  split at hp
  · cases hp
  rename_i t ht
  have hh := hn i t ht (by omega)
  obtain ⟨pc, m⟩ := t
  unfold stepThread at hp
  cases pc with
  | waiting => cases hp
  | done => cases hp
  | idle =>
    simp only at hp
    split at hp <;> cases hp
    rename_i hw
    have hsc : SafeC (L := L) c b := ⟨h.inv, h.genF, h.len, h.cntO, h.low⟩
    obtain ⟨c1, b1, e1, hm, _⟩ := cleanup_spec (L := L) v (cfg.p.nbVars + 1) c b hsc (by omega)
    have hs1 := (mics_safe hm hsc).1
    unfold getWorkload at hw
    rw [e1] at hw
    simp only at hw
    split at hw
    · cases hw
    rename_i n1
    split at hw
    · cases hw
    rename_i n2
    simp only [Bool.false_eq_true, if_false] at hw
    split at hw
    · cases hw
    rename_i n3
    have hlen := L.len c1.fringe hs1.inv
    obtain ⟨r, hr⟩ := strayLoop_total (L := L) hg.wf v (cfg.fr.len c1.fringe) hs1 (by simpa using n2) (by omega) (by omega) hw
    refine ⟨⟨⟨r.1, r.2, ts⟩, i :: dead⟩, ?_⟩
    unfold strayStep
    simp only at hl
    rw [if_neg hl]
    simp only [ht, e1]
    rw [if_neg (by simp only [not_or]; exact ⟨n1, n2, n3⟩), hr]
    rfl
  | _ => cases hh

/-- A step that does not panic, whatever the number of cells. -/
theorem ok_inv (hg : BaseCfg cfg S B) {s s' : BSys σ cfg.fr.F} {e : Bool} {k : Nat} (h : Inv L s e k) {l : BLbl σ} (hl : BValidLbl l) (hs : step cfg s l = .ok s') : Inv L s' e k := by
  cases l with
  | spurious i =>
    obtain ⟨c, b, ts⟩ := s
    simp only [step] at hs
    cases hi : ts[i]? with
    | none => rw [hi] at hs; cases hs
    | some t =>
      rw [hi] at hs
      obtain ⟨l1, l2, rfl, hlen, hset⟩ := Par.split_at hi
      obtain ⟨pc, m⟩ := t
      cases pc with
      | waiting =>
        simp only [hset] at hs
        cases hs
        exact trans_inv hg (Trans.spurious (v := none)) h
      | _ => cases hs
  | run i intr o v =>
    have hsafe : Safe (L := L) s False k := ⟨h.inv, h.ong, fun h => h.elim, h.genF, h.genW, h.len, h.cntO, h.low, h.cntG, h.post⟩
    exact trans_inv hg ((step_at_room hg hsafe (show o.Valid from hl) (fun hp => by rw [hs] at hp; cases hp)).2 s' hs).trans h

theorem fallStep_inv (hg : BaseCfg cfg S B) {s s' : Torn (BSys σ cfg.fr.F)} {e : Bool} (h : ∃ k, Inv L s.sys e k ∧ NoCell s.sys) {f : Fall σ} (hf : ∀ l, f = .torn (.step l) → BValidLbl l)
    (hs : fallStep cfg s f = some s') : ∃ k, Inv L s'.sys e k ∧ NoCell s'.sys := by
  obtain ⟨k, hi, hn⟩ := h
  cases f with
  | stray i v =>
    obtain ⟨h1, h2⟩ := stray_inv hi hs
    refine ⟨k + 1, h1, fun j t hj hc => hn j t (h2 ▸ hj) ?_⟩
    rw [hi.ubs]; rwa [h1.ubs] at hc
  | torn f =>
    cases f with
    | step l =>
      simp only [fallStep, tornStep] at hs
      split at hs
      · cases hs
      split at hs
      · rename_i x hx
        cases hs
        have hi' := ok_inv hg hi (hf l rfl) hx
        exact ⟨k, hi', noCell_step hn (by rw [hi.ubs, hi'.ubs]) hx⟩
      · cases hs
    | crash i =>
      simp only [fallStep, tornStep] at hs
      split at hs
      · cases hs
      split at hs
      · split at hs
        · cases hs; exact ⟨k, hi, hn⟩
        · cases hs
      · cases hs

theorem fallRuns_inv (hg : BaseCfg cfg S B) {e : Bool} (ls : List (Fall σ)) : ∀ {s s' : Torn (BSys σ cfg.fr.F)}, (∃ k, Inv L s.sys e k ∧ NoCell s.sys) → (∀ l, Fall.torn (.step l) ∈ ls → BValidLbl l) →
    fallRuns cfg s ls = some s' → ∃ k, Inv L s'.sys e k ∧ NoCell s'.sys := by
  induction ls with
  | nil => intro s s' h _ hs; cases hs; exact h
  | cons f ls ih =>
    intro s s' h hQ hs
    unfold fallRuns at hs
    obtain ⟨s1, h1, h2⟩ := Option.bind_eq_some_iff.1 hs
    exact ih (fallStep_inv hg h (fun l e => hQ l (by simp [e])) h1) (fun l hl => hQ l (by simp [hl])) h2

theorem init_noCell {s : BSys σ cfg.fr.F} (h : init cfg = some s) : NoCell s := by
  intro i t ht _
  unfold init at h
  split at h
  · cases h
    have := List.mem_of_getElem? ht
    simp only [List.mem_replicate] at this
    rw [this.2]; rfl
  · cases h

/-- A step leaves the list of those that have panicked as it is, anything else adds one to it. -/
theorem fallStep_dead {s s' : Torn (BSys σ cfg.fr.F)} {f : Fall σ} (hs : fallStep cfg s f = some s') :
    (∃ l, f = .torn (.step l) ∧ step cfg s.sys l = .ok s'.sys ∧ s'.dead = s.dead) ∨
      ((∀ l, f ≠ .torn (.step l)) ∧ ∃ i, s'.dead = i :: s.dead ∧ i ∉ s.dead ∧ i < s.sys.threads.length) := by
  cases f with
  | stray i v =>
    right
    refine ⟨by simp, i, ?_⟩
    simp only [fallStep] at hs
    unfold strayStep at hs
    split at hs
    · cases hs
    rename_i hl
    split at hs
    · cases hs
    rename_i t ht
    split at hs
    · split at hs
      · cases hs
      split at hs
      · cases hs
      obtain ⟨r, hr, rfl⟩ := Option.map_eq_some_iff.1 hs
      exact ⟨rfl, hl, (List.getElem?_eq_some_iff.1 ht).1⟩
    · cases hs
  | torn f =>
    cases f with
    | step l =>
      left
      simp only [fallStep, tornStep] at hs
      split at hs
      · cases hs
      split at hs
      · rename_i x hx
        cases hs
        exact ⟨l, rfl, hx, rfl⟩
      · cases hs
    | crash i =>
      right
      refine ⟨by simp, i, ?_⟩
      simp only [fallStep, tornStep] at hs
      split at hs
      · cases hs
      rename_i hl
      split at hs
      · rename_i t ht
        split at hs
        · cases hs; exact ⟨rfl, hl, (List.getElem?_eq_some_iff.1 ht).1⟩
        · cases hs
      · cases hs

/-- The workers that have panicked are different ones. -/
theorem fallRuns_dead (ls : List (Fall σ)) : ∀ {s s' : Torn (BSys σ cfg.fr.F)}, s.dead.Nodup → fallRuns cfg s ls = some s' → s'.dead.Nodup := by
  induction ls with
  | nil => intro s s' h hs; cases hs; exact h
  | cons f ls ih =>
    intro s s' h hs
    unfold fallRuns at hs
    obtain ⟨s1, h1, h2⟩ := Option.bind_eq_some_iff.1 hs
    refine ih ?_ h2
    rcases fallStep_dead h1 with ⟨_, _, _, e⟩ | ⟨_, i, e, hi, _⟩
    · rw [e]; exact h
    · rw [e]; exact List.nodup_cons.2 ⟨hi, h⟩

end Verif.Bar
