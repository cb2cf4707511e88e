import Verif.Spec.Text
import Verif.Proofs.Text
import Verif.Proofs.Readers
import Verif.Model.Readers
import Mathlib.Data.List.Forall2
import Mathlib.Data.List.TakeWhile
/-! Lines of a text, and white space around lines. -/
set_option autoImplicit false

namespace Verif.Text

theorem linesFrom_token {l : List Char} (h : '\n' ∉ l) (acc t : List Char) : linesFrom acc (l ++ t) = linesFrom (l.reverse ++ acc) t := by
  induction l generalizing acc with
  | nil => rfl
  | cons c l ih =>
    rw [List.cons_append, linesFrom, if_neg (fun e => h (by simp [e])), ih (fun hm => h (by simp [hm]))]
    simp

theorem chomp_of {l : List Char} (h : l.getLast? ≠ some '\r') : chomp l.reverse = l.reverse := by
  cases hr : l.reverse with
  | nil => rfl
  | cons c r =>
    have e : l.getLast? = some c := by rw [← List.head?_reverse, hr]; rfl
    unfold chomp
    split
    · rename_i heq; cases heq; exact absurd e h
    · rfl

theorem lines_of {t : List Char} {ls : List (List Char)} (h : LinesOf t ls) : lines t = ls := by
  unfold lines
  induction h with
  | nil => rfl
  | @rest l h0 hl =>
    have := linesFrom_token hl [] []
    rw [List.append_nil, List.append_nil] at this
    rw [this, linesFrom]
    simp [h0]
  | @unix l t ls hl hr h ih =>
    rw [linesFrom_token hl, linesFrom, if_pos rfl, List.append_nil, chomp_of hr, ih, List.reverse_reverse]
  | @dos l t ls hl h ih =>
    rw [linesFrom_token hl, linesFrom, if_neg (by decide), linesFrom, if_pos rfl, ih]
    simp [chomp]

theorem span_line (t : List Char) : '\n' ∉ t ∨ ∃ l r, t = l ++ '\n' :: r ∧ '\n' ∉ l := by
  induction t with
  | nil => exact Or.inl (by simp)
  | cons c t ih =>
    by_cases hc : c = '\n'
    · exact Or.inr ⟨[], t, by rw [hc]; rfl, by simp⟩
    · rcases ih with h | ⟨l, r, e, hl⟩
      · exact Or.inl (by simp [h, Ne.symm hc])
      · exact Or.inr ⟨c :: l, r, by rw [e]; rfl, by simp [hl, Ne.symm hc]⟩

theorem lines_exist : ∀ (k : Nat) (t : List Char), t.length ≤ k → ∃ ls, LinesOf t ls
  | 0, t, h => by
    have : t = [] := List.length_eq_zero_iff.1 (by omega)
    subst this
    exact ⟨_, .nil⟩
  | k + 1, t, h => by
    rcases span_line t with hn | ⟨l, r, e, hl⟩
    · by_cases h0 : t = []
      · subst h0; exact ⟨_, .nil⟩
      · exact ⟨_, .rest h0 hn⟩
    · subst e
      obtain ⟨ls, hls⟩ := lines_exist k r (by rw [List.length_append, List.length_cons] at h; omega)
      by_cases hr : l.getLast? = some '\r'
      · rcases List.eq_nil_or_concat l with rfl | ⟨v, x, rfl⟩
        · cases hr
        · rw [List.concat_eq_append] at hr hl ⊢
          rw [List.getLast?_append_of_ne_nil _ (by simp)] at hr
          cases hr
          refine ⟨v :: ls, ?_⟩
          have := LinesOf.dos (l := v) (t := r) (fun hm => hl (by simp [hm])) hls
          rw [List.append_assoc]
          exact this
      · exact ⟨_, .unix hl hr hls⟩

theorem lines_iff {t : List Char} {ls : List (List Char)} : LinesOf t ls ↔ lines t = ls := by
  refine ⟨lines_of, fun h => ?_⟩
  obtain ⟨ls', h'⟩ := lines_exist t.length t (Nat.le_refl _)
  rw [← h, lines_of h']; exact h'

theorem trim_around {a m b : List Char} (ha : Blank a) (hb : Blank b) : trim (a ++ m ++ b) = trim m := by
  unfold trim
  rw [List.append_assoc, dropWhile_all ha]
  rcases dropWhile_back m hb with h | h
  · have hm : m.dropWhile isWs = [] := List.dropWhile_eq_nil_iff.2 fun c hc => List.dropWhile_eq_nil_iff.1 h c (by simp [hc])
    rw [h, hm]
  · rw [h, List.reverse_append, dropWhile_all fun c hc => hb c (List.mem_reverse.1 hc)]

theorem trim_same {l l' : List Char} (h : SameLine l l') : trim l = trim l' := by
  obtain ⟨a, m, b, a', b', rfl, rfl, ha, hb, ha', hb'⟩ := h
  rw [trim_around ha hb, trim_around ha' hb']

theorem words_same {l l' : List Char} (h : SameLine l l') : words isWs l = words isWs l' := by
  rw [← words_trim (fun _ h => h) l, trim_same h, words_trim (fun _ h => h)]

end Verif.Text

namespace Verif.Read
open Text

theorem srflp_same {ls ls' : List (List Char)} (h : List.Forall₂ SameLine ls ls') : srflp ls = srflp ls' := by
  have key : ∀ s : Srflp, s.loop ls = s.loop ls' := by
    induction h with
    | nil => intro s; rfl
    | @cons l l' ls ls' hl _ ih =>
      intro s
      rw [Srflp.loop, Srflp.loop, show s.step l = s.step l' by unfold Srflp.step; rw [trim_same hl]]
      congr 1
      funext s; exact ih s
  unfold srflp
  rw [key]

theorem tsptw_same {ls ls' : List (List Char)} (h : List.Forall₂ SameLine ls ls') : tsptw ls = tsptw ls' := by
  have key : ∀ s : Tsptw, s.loop ls = s.loop ls' := by
    induction h with
    | nil => intro s; rfl
    | @cons l l' ls ls' hl _ ih =>
      intro s
      rw [Tsptw.loop, Tsptw.loop, show s.step l = s.step l' by unfold Tsptw.step; rw [trim_same hl]]
      congr 1
      funext s; exact ih s
  unfold tsptw
  rw [key]

theorem section_same {ls ls' : List (List Char)} (h : List.Forall₂ SameLine ls ls') : (section_ ls).1 = (section_ ls').1 ∧ List.Forall₂ SameLine (section_ ls).2 (section_ ls').2 := by
  induction h with
  | nil => exact ⟨rfl, .nil⟩
  | @cons l l' ls ls' hl h ih =>
    rw [section_, section_, trim_same hl]
    split
    · exact ⟨rfl, h⟩
    · exact ⟨by simp [ih.1], ih.2⟩

theorem drop_same {ls ls' : List (List Char)} (h : List.Forall₂ SameLine ls ls') : List.Forall₂ SameLine (ls.drop 1) (ls'.drop 1) := by
  cases h with
  | nil => exact .nil
  | cons _ h => exact h

theorem optimum_same {ls ls' : List (List Char)} (h : List.Forall₂ SameLine ls ls') : knownOptimum ls = knownOptimum ls' := by
  have h1 := drop_same h
  unfold knownOptimum
  generalize ls.drop 1 = a at *
  generalize ls'.drop 1 = b at *
  cases h1 with
  | nil => rfl
  | cons hl _ => simp only [trim_same hl]

theorem psp_same {l1 l2 l3 : List Char} {ls ls' : List (List Char)} (h : List.Forall₂ SameLine ls ls') : psp (l1 :: l2 :: l3 :: ls) = psp (l1 :: l2 :: l3 :: ls') := by
  unfold psp
  simp only
  obtain ⟨e1, h1⟩ := section_same (drop_same h)
  rw [e1]
  generalize (section_ (ls.drop 1)).2 = a at *
  generalize (section_ (ls'.drop 1)).2 = b at *
  cases h1 with
  | nil => rfl
  | @cons l l' ls ls' hl h2 =>
    obtain ⟨e2, h3⟩ := section_same (drop_same h2)
    simp only [e2, optimum_same h3, show ∀ n, stockingCosts n l = stockingCosts n l' from fun n => by unfold stockingCosts; rw [words_same hl]]

end Verif.Read
