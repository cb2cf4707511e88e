import Verif.Model.Srflp
import Verif.Proofs.Srflp.Lists
/-! Sums over an initial segment, and lists in the order of their quotients (Smith's rule). -/
set_option autoImplicit false

namespace Verif.Srflp
open Verif

/-! ### Sums over an initial segment -/

/-- `f 0 + … + f (n - 1)` -/
def rsum (f : Nat → Int) : Nat → Int
  | 0 => 0
  | n + 1 => rsum f n + f n

theorem rsum_congr {f g : Nat → Int} {n : Nat} (h : ∀ t, t < n → f t = g t) : rsum f n = rsum g n := by
  induction n with
  | zero => rfl
  | succ n ih => rw [rsum, rsum, ih fun t ht => h t (by omega), h n (by omega)]

theorem rsum_succ' (f : Nat → Int) (n : Nat) : rsum f (n + 1) = f 0 + rsum (fun t => f (t + 1)) n := by
  induction n with
  | zero => simp [rsum]
  | succ n ih => rw [rsum, ih, rsum]; omega

theorem rsum_reverse (f : Nat → Int) (n : Nat) : rsum f n = rsum (fun t => f (n - 1 - t)) n := by
  induction n generalizing f with
  | zero => rfl
  | succ n ih =>
    rw [rsum_succ', ih, rsum]
    have e : n + 1 - 1 - n = 0 := by omega
    rw [e, Int.add_comm]
    congr 1
    refine rsum_congr fun t ht => ?_
    congr 1
    omega

theorem rsum_sub (f g : Nat → Int) (n : Nat) : rsum (fun t => f t - g t) n = rsum f n - rsum g n := by
  induction n with
  | zero => rfl
  | succ n ih => simp only [rsum, ih]; omega

theorem rsum_take (l : List Int) (n : Nat) : rsum (fun t => l.getD t 0) n = (l.take n).sum := by
  induction n with
  | zero => rfl
  | succ n ih => rw [rsum, ih, take_succ_sum]

theorem rsum_list {α : Type} (f : α → Int) (l : List α) : (l.map f).sum = rsum (fun t => (l.map f).getD t 0) l.length := by
  rw [rsum_take, List.take_of_length_le (by simp)]

theorem getD_map {α : Type} (f : α → Int) (l : List α) {t : Nat} (ht : t < l.length) : (l.map f).getD t 0 = f l[t] := by
  rw [List.getD_eq_getElem?_getD, List.getElem?_eq_getElem (by simpa using ht)]
  simp

/-- Summation by parts: if the weights decrease, it is enough to compare the sums of initial segments. -/
theorem abel {w u v : Nat → Int} {n : Nat} (hw : ∀ t, t + 1 < n → w (t + 1) ≤ w t) (h0 : ∀ t, t < n → 0 ≤ w t) (h : ∀ j, j ≤ n → rsum v j ≤ rsum u j) :
    rsum (fun t => w t * v t) n ≤ rsum (fun t => w t * u t) n := by
  have key : ∀ m, m < n → w m * (rsum u (m + 1) - rsum v (m + 1)) ≤ rsum (fun t => w t * u t) (m + 1) - rsum (fun t => w t * v t) (m + 1) := by
    intro m
    induction m with
    | zero => intro _; simp only [rsum]; linarith
    | succ m ih =>
      intro hm
      have h1 := ih (by omega)
      have h2 := hw m hm
      have h3 := h (m + 1) (by omega)
      have h4 : w (m + 1) * (rsum u (m + 1) - rsum v (m + 1)) ≤ w m * (rsum u (m + 1) - rsum v (m + 1)) := Int.mul_le_mul_of_nonneg_right h2 (by omega)
      have e1 : rsum u (m + 1 + 1) = rsum u (m + 1) + u (m + 1) := rfl
      have e2 : rsum v (m + 1 + 1) = rsum v (m + 1) + v (m + 1) := rfl
      have e3 : rsum (fun t => w t * u t) (m + 1 + 1) = rsum (fun t => w t * u t) (m + 1) + w (m + 1) * u (m + 1) := rfl
      have e4 : rsum (fun t => w t * v t) (m + 1 + 1) = rsum (fun t => w t * v t) (m + 1) + w (m + 1) * v (m + 1) := rfl
      rw [e1, e2, e3, e4]
      have e5 : w (m + 1) * (rsum u (m + 1) + u (m + 1) - (rsum v (m + 1) + v (m + 1))) =
          w (m + 1) * (rsum u (m + 1) - rsum v (m + 1)) + w (m + 1) * u (m + 1) - w (m + 1) * v (m + 1) := by ring
      rw [e5]
      omega
  cases n with
  | zero => exact Int.le_refl _
  | succ m =>
    have h1 := key m (by omega)
    have h2 := h (m + 1) (Nat.le_refl _)
    have h3 := Int.mul_nonneg (h0 m (by omega)) (show 0 ≤ rsum u (m + 1) - rsum v (m + 1) by omega)
    omega

/-! ### Smith's rule -/

/-- Each length times the weights that follow it -/
def smith : List (Int × Int) → Int
  | [] => 0
  | p :: l => p.1 * (l.map Prod.snd).sum + smith l

theorem cutLoop_eq (l : List (Int × Int)) : (cutLoop l).1 = smith l := by
  have h : ∀ (l : List (Int × Int)) (b c : Int), (l.foldl (fun (a : Int × Int) p => (a.1 + a.2 * p.2, a.2 + p.1)) (b, c)).1 = b + c * (l.map Prod.snd).sum + smith l := by
    intro l
    induction l with
    | nil => intro b c; simp [smith]
    | cons p l ih =>
      intro b c
      rw [List.foldl_cons, ih]
      simp only [List.map_cons, List.sum_cons, smith]
      ring
  have := h l 0 0
  unfold cutLoop
  rw [this]
  simp

theorem smith_move {a : Int × Int} {q : List (Int × Int)} : ∀ {p : List (Int × Int)}, (∀ b ∈ p, b.2 * a.1 ≤ a.2 * b.1) → smith (a :: (p ++ q)) ≤ smith (p ++ a :: q) := by
  intro p
  induction p with
  | nil => intro _; exact Int.le_refl _
  | cons b p ih =>
    intro h
    have h1 := ih fun c hc => h c (by simp [hc])
    have h2 := h b (by simp)
    simp only [List.cons_append, smith, List.map_cons, List.sum_cons, List.map_append, List.sum_append] at h1 ⊢
    linarith

/-- No order is better than that of the quotients. -/
theorem smith_le {z : List (Int × Int)} (hs : z.Pairwise fun a b => b.2 * a.1 ≤ a.2 * b.1) : ∀ {z' : List (Int × Int)}, z'.Perm z → smith z ≤ smith z' := by
  induction z with
  | nil =>
    intro z' h
    rw [h.eq_nil]
  | cons a z ih =>
    rw [List.pairwise_cons] at hs
    intro z' h
    obtain ⟨p, q, rfl⟩ := List.append_of_mem (h.mem_iff.2 (List.mem_cons_self))
    have hp : (p ++ q).Perm z := List.Perm.cons_inv (List.perm_middle.symm.trans h)
    refine Int.le_trans ?_ (smith_move fun b hb => hs.1 b (hp.mem_iff.1 (by simp [hb])))
    have h1 := ih hs.2 hp
    simp only [smith]
    rw [perm_sum (hp.map Prod.snd)]
    exact Int.add_le_add_left h1 _

/-- Shorter lengths for some members: `true` marks those whose length is replaced. -/
def replaceLen : List Int → List (Bool × Int × Int) → List (Int × Int)
  | _, [] => []
  | ml, (false, l, c) :: z => (l, c) :: replaceLen ml z
  | ml, (true, _, c) :: z => (ml.getD 0 0, c) :: replaceLen (ml.drop 1) z

theorem replaceLen_snd (z : List (Bool × Int × Int)) : ∀ ml, (replaceLen ml z).map Prod.snd = z.map fun a => a.2.2 := by
  induction z with
  | nil => intro _; rfl
  | cons a z ih =>
    intro ml
    obtain ⟨b, l, c⟩ := a
    cases b <;> simp [replaceLen, ih]

theorem replace_le (z : List (Bool × Int × Int)) : ∀ (ml : List Int) (E C : Int), (∀ a ∈ z, 0 ≤ a.2.2) → (z.map fun a => a.2.2).sum ≤ C →
    (∀ j, j ≤ (z.filter fun a => a.1).length → (ml.take j).sum ≤ E + (((z.filter fun a => a.1).map fun a => a.2.1).take j).sum) →
    smith (replaceLen ml z) ≤ E * C + smith (z.map fun a => a.2) := by
  induction z with
  | nil =>
    intro ml E C _ h1 h2
    have := h2 0 (by simp)
    simp at this h1
    simp only [replaceLen, smith, List.map_nil]
    have := Int.mul_nonneg this h1
    omega
  | cons a z ih =>
    intro ml E C h0 h1 h2
    obtain ⟨b, l, c⟩ := a
    have hE := h2 0 (Nat.zero_le _)
    simp only [List.take_zero, List.sum_nil, Int.add_zero] at hE
    have hc := h0 (b, l, c) (by simp)
    simp only [List.map_cons, List.sum_cons] at h1 hc
    have hz : ∀ a ∈ z, 0 ≤ a.2.2 := fun a ha => h0 a (by simp [ha])
    have hsum : (z.map (Prod.snd ∘ fun a : Bool × Int × Int => a.2)).sum = (z.map fun a => a.2.2).sum := rfl
    have hEC : E * ((z.map fun a => a.2.2).sum) ≤ E * C := Int.mul_le_mul_of_nonneg_left (by omega) hE
    cases b with
    | false =>
      have := ih ml E _ hz (Int.le_refl _) (by simpa using h2)
      simp only [replaceLen, smith, List.map_cons, replaceLen_snd, List.map_map, hsum]
      omega
    | true =>
      have h3 := ih (ml.drop 1) (E + l - ml.getD 0 0) _ hz (Int.le_refl _) (by
        intro j hj
        have := h2 (j + 1) (by simpa using hj)
        simp only [List.filter_cons_of_pos, List.map_cons, List.take_succ_cons, List.sum_cons] at this
        have e : (ml.take (j + 1)).sum = ml.getD 0 0 + ((ml.drop 1).take j).sum := by
          cases ml <;> simp
        rw [e] at this
        omega)
      simp only [replaceLen, smith, List.map_cons, replaceLen_snd, List.map_map, hsum]
      generalize (z.map fun a => a.2.2).sum = S at *
      have : (E + l - ml.getD 0 0) * S = E * S + l * S - ml.getD 0 0 * S := by ring
      omega

end Verif.Srflp
