import Verif.Model.ReadersRelease
import Verif.Proofs.Readers
/-! The two builds of the reader of the example `psp`. -/
set_option autoImplicit false

namespace Verif.Read
open Text

theorem cell_eq {c a b i j : Nat} (hb : b < c) (hj : j < c) : c * a + b = c * i + j ↔ a = i ∧ b = j := by
  constructor
  · intro h
    have hc : 0 < c := by omega
    have h1 : (c * a + b) / c = a := by rw [Nat.mul_add_div hc, Nat.div_eq_of_lt hb, Nat.add_zero]
    have h2 : (c * i + j) / c = i := by rw [Nat.mul_add_div hc, Nat.div_eq_of_lt hj, Nat.add_zero]
    have : a = i := by rw [← h1, ← h2, h]
    subst this
    exact ⟨rfl, by omega⟩
  · rintro ⟨rfl, rfl⟩; rfl

theorem cell_lt {c a b r : Nat} (ha : a < r) (hb : b < c) : c * a + b < r * c := by
  have : c * (a + 1) ≤ c * r := Nat.mul_le_mul_left c ha
  rw [Nat.mul_succ] at this
  rw [Nat.mul_comm r c]
  omega

/-- The matrix `m` with `r` rows and `c` columns is held by the vector `f`. -/
def Held (r c : Nat) (m : Nat → Nat → Int) (f : Nat → Int) : Prop := ∀ a b, a < r → b < c → m a b = f (c * a + b)

theorem held_put {r c i j : Nat} {m : Nat → Nat → Int} {f : Nat → Int} (h : Held r c m f) (hi : i < r) (hj : j < c) (v : Int) :
    ∃ g, put (r * c) f (c * i + j) v = some g ∧ Held r c (store m i j v) g := by
  unfold put
  rw [if_pos (cell_lt hi hj)]
  refine ⟨_, rfl, fun a b ha hb => ?_⟩
  simp only [store, cell_eq hb hj]
  split
  · rfl
  · exact h a b ha hb

/-- The tables of the two builds agree. -/
structure Same (items periods : Nat) (t : Tables) (f : Flat) : Prop where
  last : f.last = t.last
  prev : Held items (periods + 1) t.prev f.prev
  rem : Held items periods t.rem f.rem

theorem setPrev_some {items periods i p : Nat} {t t' : Tables} (h : t.setPrev items periods i p = some t') : i < items ∧ p < periods + 1 ∧ t' = { t with prev := store t.prev i p t.last } := by
  unfold Tables.setPrev at h
  split at h
  · rename_i c; exact ⟨c.1, c.2, (Option.some.inj h).symm⟩
  · cases h

theorem setRem_some {items periods i p : Nat} {v : Int} {t t' : Tables} (h : t.setRem items periods i p v = some t') : i < items ∧ p < periods ∧ t' = { t with rem := store t.rem i p v } := by
  unfold Tables.setRem at h
  split at h
  · rename_i c; exact ⟨c.1, c.2, (Option.some.inj h).symm⟩
  · cases h

theorem same_word {items periods i p : Nat} {t t' : Tables} {f : Flat} {w : List Char} (hs : Same items periods t f) (h : t.word items periods i p w = some t') :
    ∃ f', f.word items periods i p w = some f' ∧ Same items periods t' f' := by
  unfold Tables.word at h
  simp only [Option.bind_eq_some_iff] at h
  obtain ⟨t1, h1, t2, h2, demand, hd, t3, h3, h4⟩ := h
  obtain ⟨hi, hp, rfl⟩ := setPrev_some h1
  obtain ⟨prev, e1, k1⟩ := held_put hs.prev hi hp f.last
  rw [hs.last] at e1 k1
  have s2 : ∃ rem, (if 0 < p then put (items * periods) f.rem (periods * i + p) (f.rem (periods * i + (p - 1))) else some f.rem) = some rem ∧ Held items periods t2.rem rem ∧
      t2.last = t.last ∧ t2.prev = store t.prev i p t.last := by
    split at h2
    · rename_i hp0
      obtain ⟨_, hp', rfl⟩ := setRem_some h2
      obtain ⟨g, e, k⟩ := held_put hs.rem hi hp' (f.rem (periods * i + (p - 1)))
      rw [if_pos hp0]
      refine ⟨g, e, ?_, rfl, rfl⟩
      rw [← hs.rem i (p - 1) hi (by omega)] at k
      exact k
    · rename_i hp0
      rw [if_neg hp0]
      cases h2
      exact ⟨_, rfl, hs.rem, rfl, rfl⟩
  obtain ⟨rem, e2, k2, l2, p2⟩ := s2
  have s3 : ∃ rem', (if 0 < demand then put (items * periods) rem (periods * i + p) (rem (periods * i + p) + 1) else some rem) = some rem' ∧ Held items periods t3.rem rem' ∧
      t3.last = (if 0 < demand then (p : Int) else t.last) ∧ t3.prev = store t.prev i p t.last := by
    split at h3
    · rename_i hp0
      obtain ⟨_, hp', rfl⟩ := setRem_some h3
      obtain ⟨g, e, k⟩ := held_put k2 hi hp' (rem (periods * i + p) + 1)
      rw [if_pos hp0, if_pos hp0]
      refine ⟨g, e, ?_, rfl, p2⟩
      rw [← k2 i p hi hp'] at k
      exact k
    · rename_i hp0
      rw [if_neg hp0, if_neg hp0]
      cases h3
      exact ⟨_, rfl, k2, l2, p2⟩
  obtain ⟨rem', e3, k3, l3, p3⟩ := s3
  unfold Flat.word
  simp only [e1, Option.bind_some, e2, hd, e3, hs.last]
  split at h4
  · cases h4
  · rename_i hp0
    split at h4
    · rename_i hl
      obtain ⟨_, hp', rfl⟩ := setPrev_some h4
      rw [if_pos (by omega)]
      obtain ⟨g, e, k⟩ := held_put k1 hi hp' (if 0 < demand then (p : Int) else t.last)
      rw [e]
      refine ⟨_, rfl, l3.symm, ?_, k3⟩
      show Held items (periods + 1) (store t3.prev i (1 + p) t3.last) g
      rw [l3, p3]
      exact k
    · rename_i hl
      rw [if_neg (by omega)]
      cases h4
      refine ⟨_, rfl, l3.symm, ?_, k3⟩
      show Held items (periods + 1) t'.prev prev
      rw [p3]
      exact k1

theorem same_words {items periods i : Nat} (ws : List (List Char)) : ∀ {p : Nat} {t t' : Tables} {f : Flat}, Same items periods t f → t.words items periods i p ws = some t' →
    ∃ f', f.words items periods i p ws = some f' ∧ Same items periods t' f' := by
  induction ws with
  | nil => intro p t t' f hs h; cases h; exact ⟨f, rfl, hs⟩
  | cons w ws ih =>
    intro p t t' f hs h
    rw [Tables.words] at h
    obtain ⟨t1, h1, h2⟩ := Option.bind_eq_some_iff.1 h
    obtain ⟨f1, e1, k1⟩ := same_word hs h1
    rw [Flat.words, e1]
    exact ih k1 h2

theorem same_rows {items periods : Nat} (ls : List (List Char)) : ∀ {i : Nat} {t t' : Tables} {f : Flat}, Same items periods t f → demandRows items periods i t ls = some t' →
    ∃ f', flatRows items periods i f ls = some f' ∧ Same items periods t' f' := by
  induction ls with
  | nil => intro i t t' f hs h; cases h; exact ⟨f, rfl, hs⟩
  | cons l ls ih =>
    intro i t t' f hs h
    rw [demandRows] at h
    obtain ⟨t1, h1, h2⟩ := Option.bind_eq_some_iff.1 h
    obtain ⟨f1, e1, k1⟩ := same_words (t := { t with last := -1 }) (f := { f with last := -1 }) _ ⟨rfl, hs.prev, hs.rem⟩ h1
    rw [flatRows, e1]
    exact ih k1 h2

theorem same_changeover {items : Nat} (ls : List (List Char)) : ∀ {i : Nat} {m m' : Nat → Nat → Nat}, changeoverRows items i m ls = some m' → changeoverCells items i m ls = some m' := by
  induction ls with
  | nil => intro i m m' h; exact h
  | cons l ls ih =>
    intro i m m' h
    rw [changeoverRows] at h
    obtain ⟨vs, h1, h2⟩ := Option.bind_eq_some_iff.1 h
    rw [changeoverCells, h1]
    simp only [Option.bind_some]
    split at h2
    · rename_i hc
      rw [setCells_short hc.1 hc.2]
      exact ih h2
    · cases h2

end Verif.Read
