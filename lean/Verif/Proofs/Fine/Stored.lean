import Verif.Proofs.Fine.Runs
import Verif.Spec.UncappedFine
import Verif.Proofs.Bar.Multi
/-! What is in the barrier has been stored for a node that was given to a thread, or by a relaxed compilation. -/
set_option autoImplicit false

namespace Verif.Fine
open Verif Spec Bar Dd
variable {σ : Type} [DecidableEq σ] [Inhabited σ] {cfg : SolverCfg σ} {L : FrontierLaws cfg.fr} {S : Layering σ} {B : Int} {G : Nat → σ → BarrierInfo → Prop}

/-! ### The stores of a compilation -/

def madeK : Cont σ → List (Update σ)
  | .more _ _ m _ => m.updates
  | .last D => D.updates

/-- The thresholds a compilation has computed so far. -/
def made : Work σ → List (Update σ)
  | .top _ _ m _ => m.updates
  | .look _ _ _ m _ => m.updates
  | .prune _ _ _ m _ _ => m.updates
  | .test _ k => madeK k
  | .write _ _ k => madeK k

/-- Those it has still to store. -/
def todo : Work σ → List (Update σ)
  | .test us _ => us
  | .write u us _ => u :: us
  | _ => []

theorem expandOne_none (p : Problem σ) (inp : Input σ) (hr : inp.compType ≠ .relaxed) (var depth : Nat) (m : Dd σ) (i : Nat) :
    (expandOne .barrier p inp var depth m i).updates = m.updates := by
  have hf : ∀ (x : Dd σ) (l : List Decision), (l.foldl (fun m d => m.branchOn .barrier p i d) x).updates = x.updates :=
    fun x l => foldl_keep (fun m : Dd σ => m.updates) _ (fun x y => branchOn_updates .barrier p x i y) l x
  unfold expandOne
  simp only [hr, false_and, if_false]
  split
  · simp [hf, modNode_updates]
  · simp [modNode_updates]

theorem layerEnd_made {o : Oracle σ} {inp : Input σ} {fuel depth var : Nat} {m : Dd σ} {l : List Nat} {w : Work σ} (h : layerEnd cfg o inp fuel depth var m l = some w) :
    (∀ u ∈ todo w, u ∈ made w) ∧ (∀ u ∈ m.updates, u ∈ made w) ∧ (inp.compType ≠ .relaxed → m.updates = [] → made w = []) := by
  unfold layerEnd at h
  cases hs : m.squashLayer .barrier o cfg.rank cfg.r inp inp.residual.path.length depth l with
  | none => simp only [hs] at h; cases h
  | some x =>
    obtain ⟨m1, l1⟩ := x
    simp only [hs, Option.some.injEq] at h
    subst h
    have h1 := squashLayer_updates hs
    obtain ⟨us, h2, -⟩ := expand_updates .barrier cfg.p inp var depth l1 m1
    simp only [todo, made, madeK]
    refine ⟨fun u hu => List.mem_of_mem_drop hu, fun u hu => by rw [h2, h1]; exact List.mem_append_left _ hu, ?_⟩
    intro hr hm
    rw [foldl_keep (fun m : Dd σ => m.updates) _ (fun x y => expandOne_none cfg.p inp hr var depth x y), h1, hm]

theorem layerTop_made {o : Oracle σ} {inp : Input σ} {fuel depth : Nat} {m : Dd σ} {l : List Nat} {w : Work σ} (h : layerTop cfg o inp fuel depth m l = some w) :
    (∀ u ∈ todo w, u ∈ made w) ∧ (∀ u ∈ m.updates, u ∈ made w) ∧ (inp.compType ≠ .relaxed → m.updates = [] → made w = []) := by
  cases fuel with
  | zero => cases h
  | succ fuel =>
    unfold layerTop at h
    simp only at h
    cases hv : cfg.p.nextVar ((o.hashOrd m.nextL).map (·.1)) with
    | none =>
      simp only [hv, Option.some.injEq] at h
      subst h
      obtain ⟨us, h2⟩ := finish_grows o inp m
      simp only [todo, made, madeK]
      refine ⟨fun u hu => List.mem_of_mem_drop hu, fun u hu => by rw [h2]; exact List.mem_append_left _ hu, ?_⟩
      intro hr hm
      unfold finish
      cases hc : inp.compType with
      | relaxed => exact absurd hc hr
      | exact => exact hm
      | restricted => exact hm
    | some var =>
      simp only [hv] at h
      split at h
      · cases h
        exact ⟨by simp [todo], fun u hu => hu, fun _ hm => hm⟩
      · split at h
        · cases h
          exact ⟨by simp [todo], fun u hu => hu, fun _ hm => hm⟩
        · have := layerEnd_made h
          exact this

/-- One step of a compilation. -/
theorem stepWork_made {o : Oracle σ} {inp : Input σ} {b b' : Bars σ} {w w' : Work σ} (h : stepWork cfg o inp b w = .next w' b') (ht : ∀ u ∈ todo w, u ∈ made w) :
    (∀ u ∈ todo w', u ∈ made w') ∧ (∀ u ∈ made w, u ∈ made w') ∧ (inp.compType ≠ .relaxed → made w = [] → made w' = []) ∧
      ∀ d x i, b'.get d x = some i → b.get d x = some i ∨ ⟨d, x, i.theta, i.explored⟩ ∈ made w := by
  have same : ∀ d x i, b.get d x = some i → b.get d x = some i ∨ (⟨d, x, i.theta, i.explored⟩ : Update σ) ∈ made w := fun _ _ _ h => Or.inl h
  cases w with
  | top fuel depth m l =>
    simp only [stepWork] at h
    split at h
    · cases h
    · rename_i w h1
      cases h
      obtain ⟨a1, a2, a3⟩ := layerTop_made h1
      exact ⟨a1, a2, a3, same⟩
  | look fuel depth var m l =>
    simp only [stepWork] at h
    split at h
    · cases h
    · split at h
      · split at h
        · cases h
        · rename_i w h1
          cases h
          obtain ⟨a1, a2, a3⟩ := layerEnd_made h1
          exact ⟨a1, a2, a3, same⟩
      · cases h
        exact ⟨by simp [todo], fun _ hu => hu, fun _ h => h, same⟩
  | prune fuel depth var m todo' kept =>
    cases todo' with
    | nil =>
      simp only [stepWork] at h
      split at h
      · cases h
      · rename_i w h1
        cases h
        obtain ⟨a1, a2, a3⟩ := layerEnd_made h1
        exact ⟨a1, a2, a3, same⟩
    | cons i todo' =>
      simp only [stepWork] at h
      split at h
      · cases h
        have := pruneOne_updates b.view.reads depth (m, kept) i
        exact ⟨by simp [todo], fun u hu => by simp only [made, this]; exact hu, fun _ h => by simp only [made, this]; exact h, same⟩
      · cases h
  | test us k =>
    cases us with
    | nil =>
      cases k with
      | more fuel depth m l =>
        simp only [stepWork] at h
        cases h
        exact ⟨by simp [todo], fun u hu => hu, fun _ h => h, same⟩
      | last D => simp only [stepWork] at h; cases h
    | cons u us =>
      simp only [stepWork] at h
      split at h
      · split at h
        · cases h
          exact ⟨ht, fun u hu => hu, fun _ h => h, same⟩
        · cases h
          exact ⟨fun x hx => ht x (by simp only [todo] at hx ⊢; exact List.mem_cons_of_mem _ hx), fun u hu => hu, fun _ h => h, same⟩
      · cases h
  | write u us k =>
    simp only [stepWork] at h
    split at h
    · cases h
    · rename_i b1 hb
      cases h
      refine ⟨fun x hx => ht x (by simp only [todo] at hx ⊢; exact List.mem_cons_of_mem _ hx), fun u hu => hu, fun _ h => h, ?_⟩
      intro d x i hi
      rw [Bars.get_insert hb] at hi
      split at hi
      · rename_i e
        cases hi
        right
        rw [e.1, e.2]
        exact ht u (by simp [todo])
      · exact Or.inl hi

theorem stepWork_finished {o : Oracle σ} {inp : Input σ} {b : Bars σ} {w : Work σ} {D : Dd σ} (h : stepWork cfg o inp b w = .finished D) : made w = D.updates := by
  cases w with
  | top fuel depth m l => simp only [stepWork] at h; split at h <;> cases h
  | look fuel depth var m l =>
    simp only [stepWork] at h
    split at h
    · cases h
    · split at h
      · split at h <;> cases h
      · cases h
  | prune fuel depth var m todo' kept => cases todo' <;> simp only [stepWork] at h <;> split at h <;> cases h
  | test us k =>
    cases us with
    | nil =>
      cases k with
      | more fuel depth m l => simp only [stepWork] at h; cases h
      | last D' => simp only [stepWork] at h; cases h; rfl
    | cons u us =>
      simp only [stepWork] at h
      split at h
      · split at h <;> cases h
      · cases h
  | write u us k => simp only [stepWork] at h; split at h <;> cases h

/-! ### The stores of all threads -/

/-- The thread `j` compiles a relaxed diagram and has computed the threshold. -/
def PendBy (s : FSys σ cfg.fr.F) (j : Nat) (u : Update σ) : Prop :=
  ∃ t o w, s.sys.threads[j]? = some t ∧ s.sub j = some (.comp o w) ∧ (∃ n lb dd, t.pc = .relx n lb dd) ∧ u ∈ made w

/-- What is known of a thread that compiles a diagram. -/
def CompOK (s : FSys σ cfg.fr.F) (j : Nat) : Prop :=
  ∀ o w, s.sub j = some (.comp o w) → (∀ u ∈ todo w, u ∈ made w) ∧
    ∃ t, s.sys.threads[j]? = some t ∧ ((∃ n lb, t.pc = .restr n lb ∧ made w = []) ∨ ∃ n lb dd, t.pc = .relx n lb dd)

omit [DecidableEq σ] [Inhabited σ] in
theorem mem_offers {F : Type} {s s' : BSys σ F} {j : Nat} {t t' : BThread σ} (h : s.threads[j]? = some t) (h' : s'.threads[j]? = some t') {u : Update σ}
    (hu : u ∈ offer t t') : u ∈ offers s s' := by
  refine List.mem_flatMap.2 ⟨(t, t'), ?_, hu⟩
  refine List.mem_of_getElem? (i := j) ?_
  rw [List.getElem?_zip_eq_some]
  exact ⟨h, h'⟩

/-- A step of a thread does not concern the others, apart from waking them up. -/
theorem step_other {s s' : FSys σ cfg.fr.F} {i : Nat} {intr : Bool} {o : Oracle σ} (h : step cfg s (.run i intr o) = .ok s') {j : Nat} (hj : j ≠ i) :
    s'.sub j = s.sub j ∧ ∀ t, s.sys.threads[j]? = some t → wake t = t → s'.sys.threads[j]? = some t := by
  have hset : ∀ (t' t : BThread σ), s.sys.threads[j]? = some t → (s.sys.threads.set i t')[j]? = some t := by
    intro t' t ht
    rw [List.getElem?_set_ne (Ne.symm hj)]; exact ht
  have hsub : ∀ x, setSub s.sub i x j = s.sub j := fun x => setSub_ne _ _ hj
  have hdw : ∀ t, decideWork cfg s i t intr = .ok s' → s'.sub j = s.sub j ∧ ∀ t, s.sys.threads[j]? = some t → wake t = t → s'.sys.threads[j]? = some t := by
    intro t h
    unfold decideWork at h
    simp only at h
    repeat' split at h
    all_goals first
      | (cases h; done)
      | (cases h; exact ⟨hsub _, fun t ht _ => hset _ t ht⟩)
      | (cases h; exact ⟨hsub _, fun t ht _ => ht⟩)
  simp only [step] at h
  split at h
  · cases h
  rename_i t ht
  unfold stepThread at h
  split at h
  · rename_i x hx
    cases x with
    | clean =>
      simp only [stepSub] at h
      repeat' split at h
      all_goals first
        | exact hdw _ h
        | (cases h; done)
        | (cases h; exact ⟨rfl, fun t ht _ => ht⟩)
    | pop =>
      simp only [stepSub] at h
      repeat' split at h
      all_goals first
        | (cases h; done)
        | (cases h; exact ⟨rfl, fun t ht _ => ht⟩)
        | (cases h; exact ⟨hsub _, fun t ht _ => ht⟩)
    | take n f ob =>
      simp only [stepSub] at h
      repeat' split at h
      all_goals first
        | (cases h; done)
        | (cases h; exact ⟨hsub _, fun t ht _ => hset _ t ht⟩)
    | comp o' w =>
      simp only [stepSub] at h
      repeat' split at h
      all_goals first
        | (cases h; done)
        | (cases h; exact ⟨hsub _, fun t ht _ => ht⟩)
        | (cases h; exact ⟨hsub _, fun t ht _ => hset _ t ht⟩)
  · split at h
    · cases h
    · cases h
    · split at h
      · cases h; exact ⟨hsub _, fun t ht _ => ht⟩
      · cases h
    · cases h; exact ⟨hsub _, fun t ht _ => ht⟩
    · cases h; exact ⟨hsub _, fun t ht _ => ht⟩
    · split at h
      · split at h
        · rename_i s1 h1
          cases h
          refine ⟨rfl, ?_⟩
          intro tj htj hwk
          unfold Bar.stepThread at h1
          simp only at h1
          repeat' split at h1
          all_goals first
            | (cases h1; done)
            | (cases h1; exact hset _ tj htj)
            | (cases h1; simp only [List.getElem?_map, hset _ tj htj, Option.map_some, hwk])
        · cases h
        · cases h
      · cases h

/-- What a step of a thread does to its own stores and to the barrier. -/
def Own (s s' : FSys σ cfg.fr.F) (i : Nat) : Prop :=
  CompOK s' i ∧ (∀ u, PendBy s i u → u ∈ offers s.sys s'.sys ∨ PendBy s' i u) ∧
    ∀ d x y, s'.sys.bars.get d x = some y → s.sys.bars.get d x = some y ∨ PendBy s i ⟨d, x, y.theta, y.explored⟩ ∨ ⟨d, x, y.theta, y.explored⟩ ∈ offers s.sys s'.sys

/-- A step of a thread that compiles nothing before nor after. -/
theorem own_plain {s s' : FSys σ cfg.fr.F} {i : Nat} (h1 : ∀ o w, s.sub i ≠ some (.comp o w)) (h2 : ∀ o w, s'.sub i ≠ some (.comp o w))
    (h3 : ∀ d x y, s'.sys.bars.get d x = some y → s.sys.bars.get d x = some y ∨ (⟨d, x, y.theta, y.explored⟩ : Update σ) ∈ offers s.sys s'.sys) : Own s s' i := by
  refine ⟨fun o w h => absurd h (h2 o w), ?_, ?_⟩
  · rintro u ⟨t, o, w, -, h, -⟩
    exact absurd h (h1 o w)
  · intro d x y h
    rcases h3 d x y h with h | h
    · exact Or.inl h
    · exact Or.inr (Or.inr h)

theorem step_self {s s' : FSys σ cfg.fr.F} {c : BSys σ cfg.fr.F} (hr : Rel G L S B s c) {i : Nat} (hc : CompOK s i) {intr : Bool} {o : Oracle σ}
    (h : step cfg s (.run i intr o) = .ok s') : Own s s' i := by
  simp only [step] at h
  split at h
  · cases h
  rename_i t ht
  have hlt : i < s.sys.threads.length := (List.getElem?_eq_some_iff.1 ht).1
  have hset : ∀ t', (s.sys.threads.set i t')[i]? = some t' := fun t' => by rw [List.getElem?_set_self hlt]
  have hs0 : ∀ (x : Option (Sub σ cfg.fr.F)), setSub s.sub i x i = x := fun x => setSub_self _ _ _
  unfold stepThread at h
  split at h
  · rename_i x hx
    have hdw : (∀ o w, s.sub i ≠ some (.comp o w)) → decideWork cfg s i t intr = .ok s' → Own s s' i := by
      intro hno h
      unfold decideWork at h
      simp only at h
      repeat' split at h
      all_goals first
        | (cases h; done)
        | (cases h; exact own_plain hno (fun o w => by first | exact hno o w | (simp only [hs0]; simp)) (fun d x y h => Or.inl h))
    cases x with
    | clean =>
      have hno : ∀ o w, s.sub i ≠ some (.comp o w) := fun o w => by rw [hx]; simp
      simp only [stepSub] at h
      repeat' split at h
      all_goals first
        | exact hdw hno h
        | (cases h; done)
        | skip
      rename_i b hb
      cases h
      refine own_plain hno hno (fun d x y h => Or.inl ?_)
      simp only at h
      rw [Bars.get_clear hb] at h
      split at h
      · cases h
      · exact h
    | pop =>
      have hno : ∀ o w, s.sub i ≠ some (.comp o w) := fun o w => by rw [hx]; simp
      simp only [stepSub] at h
      repeat' split at h
      all_goals first
        | (cases h; done)
        | (cases h; exact own_plain hno (fun o w => by first | exact hno o w | (simp only [hs0]; simp)) (fun d x y h => Or.inl h))
    | take n f ob =>
      have hno : ∀ o w, s.sub i ≠ some (.comp o w) := fun o w => by rw [hx]; simp
      obtain ⟨t1, g1, g2⟩ := hr.sub i _ hx
      rw [ht] at g1; cases g1
      have hp := g2.2.1
      simp only [stepSub] at h
      split at h
      · rename_i b gb hb _
        split at h
        · cases h
          refine own_plain hno (fun o w => by simp only [hs0]; simp) ?_
          intro d x y h
          simp only at h
          rw [Bars.get_insert hb] at h
          split at h
          · rename_i e
            cases h
            right
            refine mem_offers ht (hset _) ?_
            rw [e.1, e.2]
            simp only [offer, hp]
            simp
          · exact Or.inl h
        · cases h
      · cases h
    | comp o' w =>
      obtain ⟨c1, t1, c2, c3⟩ := hc o' w hx
      rw [ht] at c2; cases c2
      simp only [stepSub] at h
      rcases c3 with ⟨n, lb, hp, hm⟩ | ⟨n, lb, dd, hp⟩
      · have hnp : ∀ u, ¬ PendBy s i u := by
          rintro u ⟨t2, _, _, a1, -, ⟨_, _, _, a2⟩, -⟩
          rw [ht] at a1; cases a1
          rw [hp] at a2; cases a2
        simp only [hp] at h
        split at h
        · cases h
        · rename_i w' b hw
          cases h
          obtain ⟨k1, k2, k3, k4⟩ := stepWork_made hw c1
          have hm' := k3 (by simp [Par.input]) hm
          refine ⟨?_, fun u hu => absurd hu (hnp u), ?_⟩
          · intro o2 w2 h2
            simp only [hs0] at h2
            cases h2
            exact ⟨k1, t, ht, Or.inl ⟨n, lb, hp, hm'⟩⟩
          · intro d x y h
            rcases k4 d x y h with h | h
            · exact Or.inl h
            · rw [hm] at h; cases h
        · split at h
          · cases h
            exact ⟨(fun o2 w2 h2 => by simp only [hs0] at h2; cases h2), fun u hu => absurd hu (hnp u), fun d x y h => Or.inl h⟩
          · cases h
      · simp only [hp] at h
        split at h
        · cases h
        · rename_i w' b hw
          cases h
          obtain ⟨k1, k2, k3, k4⟩ := stepWork_made hw c1
          refine ⟨?_, ?_, ?_⟩
          · intro o2 w2 h2
            simp only [hs0] at h2
            cases h2
            exact ⟨k1, t, ht, Or.inr ⟨n, lb, dd, hp⟩⟩
          · rintro u ⟨t2, o2, w2, a1, a2, a3, a4⟩
            rw [hx] at a2; cases a2
            exact Or.inr ⟨t, o', w', ht, hs0 _, ⟨n, lb, dd, hp⟩, k2 u a4⟩
          · intro d x y h
            rcases k4 d x y h with h | h
            · exact Or.inl h
            · exact Or.inr (Or.inl ⟨t, o', w, ht, hx, ⟨n, lb, dd, hp⟩, h⟩)
        · rename_i D hw
          cases h
          refine ⟨(fun o2 w2 h2 => by simp only [hs0] at h2; cases h2), ?_, fun d x y h => Or.inl h⟩
          rintro u ⟨t2, o2, w2, a1, a2, a3, a4⟩
          rw [hx] at a2; cases a2
          left
          refine mem_offers ht (hset _) ?_
          simp only [offer, hp]
          rw [← stepWork_finished hw]; exact a4
  · rename_i hx
    have hno : ∀ o w, s.sub i ≠ some (.comp o w) := fun o w => by rw [hx]; simp
    have hnp : ∀ u, ¬ PendBy s i u := by
      rintro u ⟨t2, _, _, -, a1, -⟩
      rw [hx] at a1; cases a1
    split at h
    · cases h
    · cases h
    · split at h
      · cases h
        exact own_plain hno (fun o w => by first | exact hno o w | (simp only [hs0]; simp)) (fun d x y h => Or.inl h)
      · cases h
    · rename_i n lb hp
      cases h
      refine ⟨?_, fun u hu => absurd hu (hnp u), fun d x y h => Or.inl h⟩
      intro o2 w2 h2
      simp only [beginComp, hs0] at h2
      cases h2
      exact ⟨by simp [todo], t, ht, Or.inl ⟨n, lb, hp, rfl⟩⟩
    · rename_i n lb dd hp
      cases h
      refine ⟨?_, fun u hu => absurd hu (hnp u), fun d x y h => Or.inl h⟩
      intro o2 w2 h2
      simp only [beginComp, hs0] at h2
      cases h2
      exact ⟨by simp [todo], t, ht, Or.inr ⟨n, lb, dd, hp⟩⟩
    · rename_i a1 a2 a3 a4 a5
      split at h
      · split at h
        · rename_i s1 h1
          cases h
          refine own_plain hno hno (fun d x y h => Or.inl ?_)
          have : s1.bars = s.sys.bars := by
            unfold Bar.stepThread at h1
            simp only at h1
            cases hpc : t.pc with
            | waiting => exact absurd hpc a1
            | done => exact absurd hpc a2
            | idle => exact absurd hpc a3
            | restr n lb => exact absurd hpc (a4 n lb)
            | relx n lb dd => exact absurd hpc (a5 n lb dd)
            | start n => simp only [hpc] at h1; split at h1 <;> cases h1 <;> rfl
            | relb n dd => simp only [hpc] at h1; cases h1; rfl
            | post n dd =>
              simp only [hpc] at h1
              split at h1
              · cases h1; rfl
              · split at h1
                · cases h1
                · cases h1; rfl
            | fin d dd =>
              simp only [hpc] at h1
              split at h1
              · cases h1
              · split at h1
                · cases h1
                · cases h1; rfl
          simp only [this] at h
          exact h
        · cases h
        · cases h
      · cases h

/-- Whatever a step does: what was in the barrier or about to be stored still is, or belongs to what is stored in the model with views. -/
theorem step_store {s s' : FSys σ cfg.fr.F} {c : BSys σ cfg.fr.F} (hr : Rel G L S B s c) (hc : ∀ j, CompOK s j) {l : FLbl σ} (h : step cfg s l = .ok s') :
    (∀ j, CompOK s' j) ∧ (∀ j u, PendBy s j u → u ∈ offers s.sys s'.sys ∨ PendBy s' j u) ∧
      ∀ d x y, s'.sys.bars.get d x = some y → s.sys.bars.get d x = some y ∨ (∃ j, PendBy s j ⟨d, x, y.theta, y.explored⟩) ∨ ⟨d, x, y.theta, y.explored⟩ ∈ offers s.sys s'.sys := by
  have other : ∀ j, s'.sub j = s.sub j → (∀ t, s.sys.threads[j]? = some t → ((∃ n lb, t.pc = .restr n lb) ∨ ∃ n lb dd, t.pc = .relx n lb dd) → s'.sys.threads[j]? = some t) →
      CompOK s' j ∧ ∀ u, PendBy s j u → PendBy s' j u := by
    intro j h1 h2
    refine ⟨?_, ?_⟩
    · intro o w hw
      rw [h1] at hw
      obtain ⟨g1, t, g2, g3⟩ := hc j o w hw
      refine ⟨g1, t, h2 t g2 ?_, g3⟩
      rcases g3 with ⟨n, lb, g3, -⟩ | g3
      · exact Or.inl ⟨n, lb, g3⟩
      · exact Or.inr g3
    · rintro u ⟨t, o, w, g1, g2, g3, g4⟩
      exact ⟨t, o, w, h2 t g1 (Or.inr g3), h1 ▸ g2, g3, g4⟩
  cases l with
  | run i intr o =>
    obtain ⟨k1, k2, k3⟩ := step_self hr (hc i) h
    have hoth : ∀ j, j ≠ i → CompOK s' j ∧ ∀ u, PendBy s j u → PendBy s' j u := by
      intro j hj
      obtain ⟨g1, g2⟩ := step_other h hj
      refine other j g1 (fun t ht hp => g2 t ht ?_)
      rcases hp with ⟨n, lb, hp⟩ | ⟨n, lb, dd, hp⟩ <;> simp [wake, hp]
    refine ⟨?_, ?_, ?_⟩
    · intro j
      by_cases hj : j = i
      · subst hj; exact k1
      · exact (hoth j hj).1
    · intro j u hu
      by_cases hj : j = i
      · subst hj; exact k2 u hu
      · exact Or.inr ((hoth j hj).2 u hu)
    · intro d x y hy
      rcases k3 d x y hy with g | g | g
      · exact Or.inl g
      · exact Or.inr (Or.inl ⟨i, g⟩)
      · exact Or.inr (Or.inr g)
  | spurious i =>
    simp only [step] at h
    split at h
    · rename_i t ht
      split at h
      · rename_i hp
        cases h
        have hoth : ∀ j, CompOK _ j ∧ ∀ u, PendBy s j u → PendBy _ j u := fun j => other j rfl (by
          intro tj htj hpj
          simp only
          by_cases hj : j = i
          · subst hj
            rw [ht] at htj; cases htj
            rcases hpj with ⟨n, lb, hpj⟩ | ⟨n, lb, dd, hpj⟩ <;> rw [hp] at hpj <;> cases hpj
          · rw [List.getElem?_set_ne (Ne.symm hj)]; exact htj)
        exact ⟨fun j => (hoth j).1, fun j u hu => Or.inr ((hoth j).2 u hu), fun d x y hy => Or.inl hy⟩
      · cases h
    · cases h

end Verif.Fine
