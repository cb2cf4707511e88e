import Verif.Proofs.Text
import Verif.Spec.Program
/-! Names of files and values of options. -/
set_option autoImplicit false

namespace Verif.Program
open Text Spec

/-! ### Components of a path -/

theorem split_append_sep {p : Char → Bool} {c : Char} (h : p c = true) (a l : List Char) : split p (a ++ c :: l) = split p a ++ split p l := by
  induction a with
  | nil =>
    show split p (c :: l) = [] :: split p l
    rw [split, if_pos h]
  | cons x a ih =>
    rw [List.cons_append, split, split]
    by_cases hx : p x = true
    · rw [if_pos hx, if_pos hx, ih]; rfl
    · rw [if_neg hx, if_neg hx, ih]
      obtain ⟨w, ws, hw⟩ := List.exists_cons_of_ne_nil (split_ne_nil p a)
      rw [hw]; rfl

theorem split_plain {p : Char → Bool} {w : List Char} (h : ∀ c ∈ w, p c = false) : split p w = [w] := by
  obtain ⟨u, us, h1, h2⟩ := split_token h []
  rw [List.append_nil] at h2
  rw [split] at h1
  cases h1
  rw [h2, List.append_nil]

/-- Components that do not count -/
def counts (c : List Char) : Bool := !(c.isEmpty || c == ['.'])

abbrev slash (c : Char) : Bool := c == '/'

theorem noSlash {w : List Char} (h : '/' ∉ w) : ∀ c ∈ w, slash c = false := by
  intro c hc
  simp only [slash, beq_eq_false_iff_ne, ne_eq]
  rintro rfl
  exact h hc

theorem split_trail {t : List Char} (ht : Trail t) : ∀ {w : List Char}, '/' ∉ w → ∃ ws, split slash (w ++ t) = w :: ws ∧ ws.filter counts = [] := by
  induction ht with
  | nil => intro w hw; exact ⟨[], by rw [List.append_nil, split_plain (noSlash hw)], rfl⟩
  | @slash t _ ih =>
    intro w hw
    obtain ⟨ws, h1, h2⟩ := ih (w := []) (by simp)
    rw [split_append_sep (by rfl), split_plain (noSlash hw)]
    rw [List.nil_append] at h1
    refine ⟨split slash t, rfl, ?_⟩
    rw [h1, List.filter_cons, if_neg (by decide)]; exact h2
  | @dot t _ ih =>
    intro w hw
    obtain ⟨ws, h1, h2⟩ := ih (w := ['.']) (by decide)
    rw [split_append_sep (by rfl), split_plain (noSlash hw)]
    rw [List.singleton_append] at h1
    refine ⟨split slash ('.' :: t), rfl, ?_⟩
    rw [h1, List.filter_cons, if_neg (by decide)]; exact h2

theorem fileName_of {path f : List Char} (h : Names path f) : fileName path = some f := by
  obtain ⟨⟨dir, tail, rfl, hd, ht⟩, h1, h2, h3, h4⟩ := h
  obtain ⟨ws, h5, h6⟩ := split_trail ht h1
  have hc : counts f = true := by
    simp only [counts, Bool.not_eq_true', Bool.or_eq_false_iff, List.isEmpty_eq_false_iff, beq_eq_false_iff_ne]
    exact ⟨h2, h3⟩
  have hs : ∃ as, split slash (dir ++ f ++ tail) = as ++ f :: ws := by
    rcases hd with rfl | ⟨d, rfl⟩
    · exact ⟨[], by rw [List.nil_append, List.nil_append, h5]⟩
    · refine ⟨split slash d, ?_⟩
      rw [show d ++ ['/'] ++ f ++ tail = d ++ '/' :: (f ++ tail) by simp, split_append_sep (by rfl), h5]
  obtain ⟨as, hs⟩ := hs
  unfold fileName
  have : ((split slash (dir ++ f ++ tail)).filter counts).getLast? = some f := by
    rw [hs, List.filter_append, List.filter_cons, if_pos hc, h6, List.getLast?_append]
    rfl
  rw [show ((split (fun c => c == '/') (dir ++ f ++ tail)).filter fun c => !(c.isEmpty || c == ['.'])).getLast? = some f from this]
  simp [h4]

/-- The pieces put together again -/
def join : List (List Char) → List Char
  | [] => []
  | [w] => w
  | w :: ws => w ++ '/' :: join ws

theorem join_cons {w : List Char} {ws : List (List Char)} (h : ws ≠ []) : join (w :: ws) = w ++ '/' :: join ws := by
  cases ws with
  | nil => exact absurd rfl h
  | cons _ _ => rfl

theorem join_split (l : List Char) : join (split slash l) = l ∧ ∀ w ∈ split slash l, '/' ∉ w := by
  induction l with
  | nil => exact ⟨rfl, by simp [split]⟩
  | cons c l ih =>
    rw [split]
    by_cases hc : slash c = true
    · rw [if_pos hc]
      have : c = '/' := by simpa [slash] using hc
      subst this
      refine ⟨by rw [join_cons (split_ne_nil _ _), ih.1]; rfl, ?_⟩
      intro w hw
      rcases List.mem_cons.1 hw with rfl | hw
      · simp
      · exact ih.2 w hw
    · rw [if_neg hc]
      have hc' : '/' ≠ c := by rintro rfl; exact hc rfl
      obtain ⟨w, ws, hw⟩ := List.exists_cons_of_ne_nil (split_ne_nil slash l)
      rw [hw] at ih ⊢
      refine ⟨?_, ?_⟩
      · dsimp only
        rw [← ih.1]
        cases ws <;> simp [join]
      · intro u hu
        rcases List.mem_cons.1 hu with rfl | hu
        · rw [List.mem_cons, not_or]; exact ⟨hc', ih.2 w (by simp)⟩
        · exact ih.2 u (by simp [hu])

theorem join_before (as : List (List Char)) {f : List Char} {bs : List (List Char)} :
    ∃ dir, join (as ++ f :: bs) = dir ++ join (f :: bs) ∧ (dir = [] ∨ ∃ d, dir = d ++ ['/']) := by
  induction as with
  | nil => exact ⟨[], rfl, Or.inl rfl⟩
  | cons a as ih =>
    obtain ⟨dir, h1, h2⟩ := ih
    refine ⟨a ++ '/' :: dir, ?_, Or.inr ?_⟩
    · rw [List.cons_append, join_cons (by simp), h1]; simp
    · rcases h2 with rfl | ⟨d, rfl⟩
      · exact ⟨a, rfl⟩
      · exact ⟨a ++ '/' :: d, by simp⟩

theorem join_after {bs : List (List Char)} (h : bs.filter counts = []) : ∀ f, ∃ tail, join (f :: bs) = f ++ tail ∧ Trail tail := by
  induction bs with
  | nil => intro f; exact ⟨[], by simp [join], .nil⟩
  | cons b bs ih =>
    intro f
    rw [List.filter_cons] at h
    split at h
    · cases h
    · rename_i hb
      obtain ⟨tail, h1, h2⟩ := ih h b
      rw [join_cons (by simp), h1]
      have : b = [] ∨ b = ['.'] := by
        cases b with
        | nil => exact Or.inl rfl
        | cons x b => right; simpa [counts] using hb
      rcases this with rfl | rfl
      · exact ⟨_, rfl, .slash h2⟩
      · exact ⟨_, rfl, .dot h2⟩

theorem last_of_filter {α : Type} {p : α → Bool} {l : List α} {f : α} (h : (l.filter p).getLast? = some f) : ∃ as bs, l = as ++ f :: bs ∧ bs.filter p = [] ∧ p f = true := by
  induction l with
  | nil => cases h
  | cons a l ih =>
    rw [List.filter_cons] at h
    split at h
    · rename_i ha
      cases hl : l.filter p with
      | nil =>
        rw [hl] at h
        cases h
        exact ⟨[], l, rfl, hl, ha⟩
      | cons b bs =>
        rw [hl, List.getLast?_cons_cons, ← hl] at h
        obtain ⟨as, bs, e, h'⟩ := ih h
        exact ⟨a :: as, bs, by rw [e]; rfl, h'⟩
    · obtain ⟨as, bs, e, h'⟩ := ih h
      exact ⟨a :: as, bs, by rw [e]; rfl, h'⟩

theorem fileName_names {path f : List Char} (h : fileName path = some f) : Names path f := by
  unfold fileName at h
  split at h
  · cases h
  · rename_i g hg
    split at h
    · cases h
    · rename_i hd
      cases h
      obtain ⟨as, bs, h1, h2, h3⟩ := last_of_filter (p := counts) hg
      obtain ⟨h4, h5⟩ := join_split path
      rw [show split slash path = as ++ f :: bs from h1] at h4 h5
      obtain ⟨dir, h6, h7⟩ := join_before as (f := f) (bs := bs)
      obtain ⟨tail, h8, h9⟩ := join_after h2 f
      simp only [counts, Bool.not_eq_true', Bool.or_eq_false_iff, List.isEmpty_eq_false_iff, beq_eq_false_iff_ne] at h3
      exact ⟨⟨dir, tail, by rw [← h4, h6, h8, List.append_assoc], h7, h9⟩, h5 f (by simp), h3.1, h3.2, hd⟩

theorem fileName_iff {path f : List Char} : fileName path = some f ↔ Names path f := ⟨fileName_names, fileName_of⟩

/-! ### Stems -/

theorem stem_is (f : List Char) : IsStem f (stem f) := by
  have hf : f.reverse = (f.reverse.takeWhile fun c => c != '.') ++ f.reverse.dropWhile fun c => c != '.' := List.takeWhile_append_dropWhile.symm
  have ht : '.' ∉ f.reverse.takeWhile fun c => c != '.' := by
    intro h
    have := List.all_eq_true.1 List.all_takeWhile _ h
    simp at this
  generalize f.reverse.takeWhile (fun c => c != '.') = t at hf ht
  unfold stem
  split
  · rename_i hr
    rw [hr, List.append_nil] at hf
    refine Or.inl ⟨rfl, fun h => ht ?_⟩
    rw [← hf]
    exact List.mem_reverse.2 (List.mem_of_mem_tail h)
  · rename_i c b hr
    have hc : c = '.' := by
      have := List.head?_dropWhile_not (fun c => c != '.') f.reverse
      rw [hr] at this
      simpa using this
    subst hc
    rw [hr] at hf
    have hf' : f = b.reverse ++ '.' :: t.reverse := by
      rw [← List.reverse_reverse f, hf]; simp
    split
    · rename_i hb
      rw [List.isEmpty_iff] at hb
      subst hb
      refine Or.inl ⟨rfl, ?_⟩
      rw [hf']
      simpa using ht
    · rename_i hb
      exact Or.inr ⟨t.reverse, hf', by simpa using hb, by simpa using ht⟩

theorem stem_unique {f w w' : List Char} (h : IsStem f w) (h' : IsStem f w') : w = w' := by
  have hmix : ∀ {w ext : List Char}, w ≠ [] → '.' ∈ (w ++ '.' :: ext).tail := by
    intro w ext hw
    cases w with
    | nil => exact absurd rfl hw
    | cons a w => simp
  rcases h with ⟨rfl, h1⟩ | ⟨e, h1, h2, h3⟩ <;> rcases h' with ⟨rfl, h1'⟩ | ⟨e', h1', h2', h3'⟩
  · rfl
  · rw [h1'] at h1; exact absurd (hmix h2') h1
  · rw [h1] at h1'; exact absurd (hmix h2) h1'
  · rw [h1] at h1'
    rcases List.append_eq_append_iff.1 h1' with ⟨a, ha, hb⟩ | ⟨a, ha, hb⟩
    · cases a with
      | nil => simpa using ha.symm
      | cons x a =>
        simp only [List.cons_append, List.cons.injEq] at hb
        exact absurd (by rw [hb.2]; simp) h3
    · cases a with
      | nil => simpa using ha
      | cons x a =>
        simp only [List.cons_append, List.cons.injEq] at hb
        exact absurd (by rw [hb.2]; simp) h3'

theorem stem_iff {f w : List Char} : stem f = w ↔ IsStem f w := ⟨fun h => h ▸ stem_is f, fun h => stem_unique (stem_is f) h⟩

/-! ### Numbers -/

theorem digits_unique {w : List Char} {n n' : Nat} (h : Digits w n) (h' : Digits w n') : n = n' :=
  Option.some.inj ((digits_iff.1 h).2.symm.trans (digits_iff.1 h').2)

theorem unsigned_unique {w : List Char} {n n' : Nat} (h : Unsigned w n) (h' : Unsigned w n') : n = n' := by
  rcases h with h | ⟨v, rfl, h⟩ <;> rcases h' with h' | ⟨v', e, h'⟩
  · exact digits_unique h h'
  · subst e; exact absurd List.mem_cons_self (h.not (x := '+') (by decide))
  · exact absurd List.mem_cons_self (h'.not (x := '+') (by decide))
  · cases e; exact digits_unique h h'

theorem unsigned_minus {v : List Char} {n : Nat} : ¬ Unsigned ('-' :: v) n := by
  rintro (h | ⟨v, e, _⟩)
  · exact absurd List.mem_cons_self (h.not (x := '-') (by decide))
  · cases e

theorem signed_unique {w : List Char} {z z' : Int} (h : Signed w z) (h' : Signed w z') : z = z' := by
  rcases h with ⟨n, rfl, h⟩ | ⟨v, n, rfl, h, rfl⟩ <;> rcases h' with ⟨n', rfl, h'⟩ | ⟨v', n', e, h', rfl⟩
  · rw [unsigned_unique h h']
  · subst e; exact absurd h unsigned_minus
  · exact absurd h' unsigned_minus
  · cases e; rw [digits_unique h h']

/-! ### Options -/

theorem optional_iff {v : Option (List Char)} {n : Option Nat} : optional v = some n ↔ Given v n := by
  unfold optional Given
  split
  · constructor
    · intro h; cases h; exact Or.inl ⟨rfl, rfl⟩
    · rintro (⟨_, rfl⟩ | ⟨_, _, h, _⟩)
      · rfl
      · cases h
  · rename_i w
    rw [Option.map_eq_some_iff]
    constructor
    · rintro ⟨k, h, rfl⟩
      exact Or.inr ⟨w, k, rfl, rfl, parseNat_iff.1 h⟩
    · rintro (⟨h, _⟩ | ⟨u, k, h, rfl, h'⟩)
      · cases h
      · cases h; exact ⟨k, parseNat_iff.2 h', rfl⟩

end Verif.Program
