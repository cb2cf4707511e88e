import Verif.Proofs.Text
import Verif.Spec.Files
import Verif.Model.Readers
/-! The readers and the files. -/
set_option autoImplicit false

namespace Verif.Read
open Text Files

theorem parseAll_of {α β : Type} {f : List Char → Option β} {R : List Char → α → Prop} {g : α → β} {ok : α → Prop} (hf : ∀ w a, R w a → ok a → f w = some (g a)) {ws : List (List Char)} {as : List α}
    (h : List.Forall₂ R ws as) (hok : ∀ a ∈ as, ok a) : parseAll f ws = some (as.map g) := by
  induction h with
  | nil => rfl
  | cons h _ ih =>
    rw [parseAll, hf _ _ h (hok _ (by simp)), ih fun a ha => hok a (by simp [ha])]
    rfl

theorem parseAll_id {α : Type} {f : List Char → Option α} {R : List Char → α → Prop} {ok : α → Prop} (hf : ∀ w a, R w a → ok a → f w = some a) {ws : List (List Char)} {as : List α}
    (h : List.Forall₂ R ws as) (hok : ∀ a ∈ as, ok a) : parseAll f ws = some as := by
  have := parseAll_of (g := id) hf h hok
  simpa using this

theorem setRow_entry {α : Type} [Inhabited α] (done : List (List α)) (vs : List α) : setRow (entry done) done.length vs = entry (done ++ [vs]) := by
  funext a b
  unfold setRow entry
  rcases Nat.lt_trichotomy a done.length with h | h | h
  · rw [if_neg (by omega)]
    simp [List.getD, List.getElem?_append_left h]
  · subst h
    by_cases hb : b < vs.length
    · simp [List.getD, hb]
    · simp [List.getD, hb]
  · rw [if_neg (by omega)]
    have h1 : done[a]? = none := by simp; omega
    have h2 : (done ++ [vs])[a]? = none := by simp; omega
    simp [List.getD, h1, h2]

/-- A row that is not too long only changes its own cells. -/
theorem setCells_short {α : Type} [Inhabited α] {n i : Nat} {m : Nat → Nat → α} {vs : List α} (hi : i < n) (hv : vs.length ≤ n) : setCells n m i vs = some (setRow m i vs) := by
  have h1 : n * (i + 1) ≤ n * n := Nat.mul_le_mul_left n hi
  have h2 : n * (i + 1) = n * i + n := Nat.mul_succ n i
  unfold setCells
  rw [if_pos (by omega)]
  congr 1
  funext a b
  unfold setRow
  rcases Nat.lt_trichotomy a i with h | h | h
  · have h3 : n * (a + 1) ≤ n * i := Nat.mul_le_mul_left n h
    have h4 : n * (a + 1) = n * a + n := Nat.mul_succ n a
    rw [if_neg (by omega), if_neg (by omega)]
  · subst h
    by_cases hb : b < vs.length
    · rw [if_pos ⟨by omega, by omega, by omega⟩, if_pos ⟨rfl, hb⟩, Nat.add_sub_cancel_left]
    · rw [if_neg (by omega), if_neg (by omega)]
  · have h3 : n * (i + 1) ≤ n * a := Nat.mul_le_mul_left n h
    rw [if_neg (by omega), if_neg (by omega)]

/-! ### `srflp` -/

/-- The effect of a line that consists of the words `ts` -/
def Srflp.row (s : Srflp) (ts : List (List Char)) : Option Srflp :=
  if s.lc = 0 then
    match ts with
    | [] => none
    | w :: _ => (parseNat usizeMax w).map fun n => { s with lc := s.lc + 1, n := n, flows := fun _ _ => 0 }
  else if s.lc = 1 then
    (parseAll parseInt ts).map fun vs => { s with lc := s.lc + 1, lengths := s.lengths ++ vs }
  else if 2 ≤ s.lc ∧ s.lc ≤ s.n + 1 then
    (parseAll parseInt ts).bind fun vs =>
      (setCells s.n s.flows (s.lc - 2) vs).map fun flows => { s with lc := s.lc + 1, flows := flows }
  else some { s with lc := s.lc + 1 }

def Srflp.rows : Srflp → List (List (List Char)) → Option Srflp
  | s, [] => some s
  | s, r :: rs => (s.row r).bind fun s => s.rows rs

theorem Srflp.step_line {s : Srflp} {l t : List Char} {ts : List (List Char)} (h : Line comma l (t :: ts)) : s.step l = s.row (t :: ts) := by
  unfold Srflp.step Srflp.row
  rw [if_neg (by simp [trim_line h]), line_words h]

theorem Srflp.loop_rows {lines : List (List Char)} {rs : List (List (List Char))} (h : Rows comma none lines rs) : ∀ s : Srflp, s.loop lines = s.rows rs := by
  induction h with
  | nil => intro s; rfl
  | blank hl _ ih =>
    intro s
    rw [Srflp.loop, Srflp.step, if_pos (by simp [trim_blank hl])]
    exact ih s
  | comment hc => cases hc
  | row hl _ _ ih =>
    intro s
    rw [Srflp.loop, Srflp.step_line hl, Srflp.rows]
    cases s.row _ with
    | none => rfl
    | some s => exact ih s

theorem Srflp.rows_append (a b : List (List (List Char))) : ∀ s : Srflp, s.rows (a ++ b) = (s.rows a).bind fun s => s.rows b := by
  induction a with
  | nil => intro s; rfl
  | cons r a ih =>
    intro s
    rw [List.cons_append, Srflp.rows, Srflp.rows]
    cases s.row r with
    | none => rfl
    | some s => exact ih s

theorem Srflp.rows_matrix {n : Nat} {lens : List Int} {tf : List (List (List Char))} {flows : List (List Int)} (h : List.Forall₂ (List.Forall₂ Signed) tf flows) :
    ∀ done : List (List Int), done.length + flows.length = n → (∀ r ∈ flows, r.length ≤ n ∧ ∀ z ∈ r, Fits z) →
      Srflp.rows ⟨2 + done.length, n, lens, entry done⟩ tf = some ⟨2 + n, n, lens, entry (done ++ flows)⟩ := by
  induction h with
  | nil =>
    intro done h1 _
    simp only [List.length_nil, Nat.add_zero] at h1
    subst h1
    simp [Srflp.rows]
  | @cons t vs tf flows h _ ih =>
    intro done h1 h2
    simp only [List.length_cons] at h1
    obtain ⟨h3, h4⟩ := h2 vs (by simp)
    rw [Srflp.rows, Srflp.row.eq_def, if_neg (by simp), if_neg (by simp; omega), if_pos (by simp; omega), parseAll_id (ok := Fits) (fun w z hw hz => parseInt_of hw hz.1 hz.2) h h4]
    have e : (2 + done.length) - 2 = done.length := by omega
    simp only [Option.bind_some, e, setCells_short (show done.length < n by omega) h3, Option.map_some, setRow_entry]
    have := ih (done ++ [vs]) (by simp; omega) fun r hr => h2 r (by simp [hr])
    simp only [List.length_append, List.length_singleton, List.append_assoc, List.singleton_append] at this
    exact this

theorem Srflp.rows_extra {n : Nat} {lens : List Int} {f : Nat → Nat → Int} (ts : List (List (List Char))) : ∀ lc, n + 2 ≤ lc →
    Srflp.rows ⟨lc, n, lens, f⟩ ts = some ⟨lc + ts.length, n, lens, f⟩ := by
  induction ts with
  | nil => intro lc _; rfl
  | cons t ts ih =>
    intro lc h
    rw [Srflp.rows, Srflp.row.eq_def, if_neg (by simp; omega), if_neg (by simp; omega), if_neg (by simp; omega)]
    simp only [Option.bind_some]
    rw [ih (lc + 1) (by omega)]
    simp; omega

/-- A well-formed file is read as it is written. -/
theorem srflp_of {lines : List (List Char)} {lens : List Int} {flows : List (List Int)} (h : SrflpFile lines lens flows) :
    srflp lines = some { n := lens.length, len := fun i => lens.getD i 0, flow := Verif.Srflp.symmetrise lens.length (entry flows) } := by
  obtain ⟨⟨w, ws, tl, tf, extra, hr, hw, hl, hf⟩, ⟨h1, h2⟩, h3, h4, h5⟩ := h
  unfold srflp
  rw [Srflp.loop_rows (rs := (w :: ws) :: tl :: (tf ++ extra)) hr, Srflp.rows, Srflp.row.eq_def, if_pos rfl]
  simp only [parseNat_of hw (max := usizeMax) (by unfold usizeMax; omega), Option.map_some, Option.bind_some]
  rw [Srflp.rows, Srflp.row.eq_def, if_neg (by simp), if_pos (by simp), parseAll_id (ok := Fits) (fun w z hw hz => parseInt_of hw hz.1 hz.2) hl h3]
  simp only [Option.map_some, Option.bind_some, Srflp.rows_append]
  have h6 := Srflp.rows_matrix (n := lens.length) (lens := lens) hf [] (by simpa using h1) fun r hr => ⟨Nat.le_of_eq (h2 r hr), h4 r hr⟩
  have e : (entry ([] : List (List Int))) = fun _ _ => 0 := by funext a b; simp [entry, List.getD]
  rw [e] at h6
  simp only [List.length_nil, Nat.add_zero, List.nil_append] at h6
  simp only [Nat.zero_add, List.nil_append, h6, Option.bind_some, show 1 + 1 = 2 from rfl]
  rw [Srflp.rows_extra extra (2 + lens.length) (by omega)]
  rfl

/-! ### `tsptw` -/

theorem head_words {p : Char → Bool} {c : Char} (hc : p c = false) (l : List Char) : ∃ w ws, words p (c :: l) = (c :: w) :: ws := by
  obtain ⟨w, ws, h⟩ := List.exists_cons_of_ne_nil (split_ne_nil p l)
  refine ⟨w, ws.filter fun w => !w.isEmpty, ?_⟩
  unfold words
  rw [split, if_neg (by simp [hc]), h]
  rfl

theorem dropWhile_head {p : Char → Bool} {l : List Char} {c : Char} {r : List Char} (h : l.dropWhile p = c :: r) : p c = false := by
  induction l with
  | nil => cases h
  | cons d l ih =>
    rw [List.dropWhile_cons] at h
    split at h
    · exact ih h
    · rename_i hd
      simp only [List.cons.injEq] at h
      rw [← h.1]
      simpa using hd

theorem trim_prefix (l : List Char) : trim l <+: l.dropWhile isWs := by
  unfold trim
  have := List.dropWhile_suffix isWs (l := (l.dropWhile isWs).reverse)
  have h := List.reverse_prefix.2 this
  rwa [List.reverse_reverse] at h

theorem trim_head {l : List Char} {c : Char} {r : List Char} (h : trim l = c :: r) : isWs c = false := by
  obtain ⟨t, ht⟩ := trim_prefix l
  rw [h, List.cons_append] at ht
  exact dropWhile_head ht.symm

/-- The first character of a trimmed line is that of its first word. -/
theorem line_head {l t : List Char} {ts : List (List Char)} (h : Line isWs l (t :: ts)) : (trim l).head? = t.head? := by
  have h1 := line_words h
  cases e : trim l with
  | nil => exact absurd e (trim_line h)
  | cons c r =>
    obtain ⟨w, ws, hw⟩ := head_words (trim_head e) r
    rw [e, hw] at h1
    simp only [List.cons.injEq] at h1
    rw [← h1.1]
    rfl

theorem trim_comment {a m : List Char} {c : Char} (ha : Blank a) (hc : isWs c = false) : (trim (a ++ c :: m)).head? = some c := by
  unfold trim
  rw [dropWhile_all ha, List.dropWhile_cons, if_neg (by simp [hc]), List.reverse_cons]
  have h2 : ∃ k, (m.reverse ++ [c]).dropWhile isWs = k ++ [c] := by
    generalize m.reverse = k
    induction k with
    | nil => exact ⟨[], by simp [List.dropWhile_cons, hc]⟩
    | cons d k ih =>
      rw [List.cons_append, List.dropWhile_cons]
      split
      · exact ih
      · exact ⟨d :: k, rfl⟩
  obtain ⟨k, hk⟩ := h2
  rw [hk]
  simp

/-- The effect of a line that consists of the words `ts` -/
def Tsptw.content' (s : Tsptw) (ts : List (List Char)) : Option Tsptw :=
  if s.lc = 0 then
    match ts with
    | [] => none
    | w :: _ => (parseNat u16Max w).map fun n => { s with n := n, dist := fun _ _ => 0 }
  else if 1 ≤ s.lc ∧ s.lc ≤ s.n then
    (parseAll number ts).bind fun vs =>
      (setCells s.n s.dist (s.lc - 1) vs).map fun dist => { s with dist := dist }
  else match ts with
    | a :: b :: _ => match number a, number b with
      | some e, some l => some { s with windows := s.windows ++ [(e, l)] }
      | _, _ => none
    | _ => none

def Tsptw.row (s : Tsptw) (ts : List (List Char)) : Option Tsptw :=
  (s.content' ts).bind fun s => if s.lc + 1 ≤ u16Max then some { s with lc := s.lc + 1 } else none

def Tsptw.rows : Tsptw → List (List (List Char)) → Option Tsptw
  | s, [] => some s
  | s, r :: rs => (s.row r).bind fun s => s.rows rs

theorem Tsptw.step_line {s : Tsptw} {l t : List Char} {ts : List (List Char)} (h : Line isWs l (t :: ts)) (ht : t.head? ≠ some '#') : s.step l = s.row (t :: ts) := by
  unfold Tsptw.step Tsptw.row Tsptw.content Tsptw.content'
  rw [if_neg (by simp [trim_line h, line_head h, ht]), line_words h]
  rfl

theorem Tsptw.loop_rows {lines : List (List Char)} {rs : List (List (List Char))} (h : Rows isWs (some '#') lines rs) : ∀ s : Tsptw, s.loop lines = s.rows rs := by
  induction h with
  | nil => intro s; rfl
  | blank hl _ ih =>
    intro s
    rw [Tsptw.loop, Tsptw.step, if_pos (by simp [trim_blank hl])]
    exact ih s
  | comment hc ha _ ih =>
    intro s
    cases hc
    rw [Tsptw.loop, Tsptw.step, if_pos (by simp [trim_comment ha (show isWs '#' = false by decide)])]
    exact ih s
  | row hl hc _ ih =>
    intro s
    rw [Tsptw.loop, Tsptw.step_line hl (hc _ rfl), Tsptw.rows]
    cases s.row _ with
    | none => rfl
    | some s => exact ih s

theorem Tsptw.rows_append (a b : List (List (List Char))) : ∀ s : Tsptw, s.rows (a ++ b) = (s.rows a).bind fun s => s.rows b := by
  induction a with
  | nil => intro s; rfl
  | cons r a ih =>
    intro s
    rw [List.cons_append, Tsptw.rows, Tsptw.rows]
    cases s.row r with
    | none => rfl
    | some s => exact ih s

/-- What a decimal number is read as -/
def read (x : Nat × Nat) : Nat := tenThousandths x.1 x.2

theorem number_scientific {w : List Char} {n k : Nat} {e : Int} (h : Scientific w n k e) (he : e.natAbs < 655360) : number w = some (tenThousandths (n * 10 ^ (e - k).toNat) (k - e).toNat) := by
  obtain ⟨c, v, hw, h1, h2, _⟩ := h.head
  unfold number
  rw [parseFloat_plain ⟨c, v, hw, h1, h2⟩, parseMagnitude_of h he, show (k : Int) - e = -(e - k) by omega]
  rfl

theorem number_of {w : List Char} {x : Nat × Nat} (h : IsDecimal w x) : number w = some (read x) := by
  rw [number_scientific (.inl ⟨h, rfl⟩) (by decide)]
  simp [read]

theorem Tsptw.rows_matrix {n : Nat} {ws : List (Nat × Nat)} {td : List (List (List Char))} {dist : List (List (Nat × Nat))} (h : List.Forall₂ (List.Forall₂ IsDecimal) td dist) (hn : n < u16Max) :
    ∀ done : List (List Nat), done.length + dist.length = n → (∀ r ∈ dist, r.length ≤ n) →
      Tsptw.rows ⟨1 + done.length, n, entry done, ws⟩ td = some ⟨1 + n, n, entry (done ++ dist.map (·.map read)), ws⟩ := by
  induction h with
  | nil =>
    intro done h1 _
    simp only [List.length_nil, Nat.add_zero] at h1
    subst h1
    simp [Tsptw.rows]
  | @cons t vs td dist h _ ih =>
    intro done h1 h2
    simp only [List.length_cons] at h1
    have h3 := h2 vs (by simp)
    rw [Tsptw.rows, Tsptw.row, Tsptw.content'.eq_def, if_neg (by simp), if_pos (by simp; omega), parseAll_of (ok := fun _ => True) (fun w z hw _ => number_of hw) h (fun _ _ => trivial)]
    have e : (1 + done.length) - 1 = done.length := by omega
    simp only [Option.bind_some, e, setCells_short (show done.length < n by omega) (show (vs.map read).length ≤ n by simpa using h3), Option.map_some, setRow_entry, if_pos (show 1 + done.length + 1 ≤ u16Max by omega)]
    have := ih (done ++ [vs.map read]) (by simp; omega) fun r hr => h2 r (by simp [hr])
    simp only [List.length_append, List.length_singleton, List.append_assoc, List.singleton_append] at this
    exact this

theorem Tsptw.rows_windows {n : Nat} {d : Nat → Nat → Nat} {tw : List (List (List Char))} {windows : List ((Nat × Nat) × (Nat × Nat))}
    (h : List.Forall₂ (fun ts x => ∃ a b rest, ts = a :: b :: rest ∧ IsDecimal a x.1 ∧ IsDecimal b x.2) tw windows) :
    ∀ (lc : Nat) (ws : List (Nat × Nat)), n < lc → lc + windows.length ≤ u16Max →
      Tsptw.rows ⟨lc, n, d, ws⟩ tw = some ⟨lc + windows.length, n, d, ws ++ windows.map fun x => (read x.1, read x.2)⟩ := by
  induction h with
  | nil => intro lc ws _ _; simp [Tsptw.rows]
  | @cons t x tw windows h _ ih =>
    obtain ⟨a, b, rest, rfl, ha, hb⟩ := h
    intro lc ws h1 h2
    simp only [List.length_cons] at h2
    rw [Tsptw.rows, Tsptw.row, Tsptw.content'.eq_def, if_neg (by simp; omega), if_neg (by simp; omega)]
    simp only [number_of ha, number_of hb, Option.bind_some, if_pos (show lc + 1 ≤ u16Max by omega)]
    rw [ih (lc + 1) _ (by omega) (by omega)]
    simp [List.append_assoc]; omega

/-- A well-formed file is read as it is written, except for the rounding of numbers. -/
theorem tsptw_of {lines : List (List Char)} {dist : List (List (Nat × Nat))} {windows : List ((Nat × Nat) × (Nat × Nat))} (h : TsptwFile lines dist windows) :
    tsptw lines = some { n := dist.length, dist := entry (dist.map (·.map read)), earliest := fun i => read (windows.getD i ((0, 0), (0, 0))).1, latest := fun i => read (windows.getD i ((0, 0), (0, 0))).2 } := by
  obtain ⟨⟨w, ws, td, tw, hr, hw, hd, ht⟩, h1, h2, h3⟩ := h
  have hn : dist.length < u16Max := by unfold u16Max; omega
  unfold tsptw
  rw [Tsptw.loop_rows hr, Tsptw.rows, Tsptw.row, Tsptw.content'.eq_def, if_pos rfl]
  simp only [parseNat_of hw (max := u16Max) (Nat.le_of_lt hn), Option.map_some, Option.bind_some]
  rw [if_pos (by decide)]
  simp only [Option.bind_some, Tsptw.rows_append]
  have h6 := Tsptw.rows_matrix (n := dist.length) (ws := []) hd hn [] (by simp) fun r hr => Nat.le_of_eq (h1 r hr)
  have e : (entry ([] : List (List Nat))) = fun _ _ => 0 := by funext a b; simp [entry, List.getD]
  rw [e] at h6
  simp only [List.length_nil, Nat.add_zero, List.nil_append] at h6
  simp only [Nat.zero_add, h6, Option.bind_some]
  rw [Tsptw.rows_windows ht (1 + dist.length) [] (by omega) (by unfold u16Max; omega)]
  have r0 : read (0, 0) = 0 := by simp [read, tenThousandths]
  simp only [Option.map_some, List.nil_append, Option.some.injEq, Verif.Tsptw.Inst.mk.injEq, true_and]
  constructor
  · funext i
    by_cases hi : i < windows.length
    · simp [List.getD, hi]
    · simp [List.getD, hi, r0]
  · funext i
    by_cases hi : i < windows.length
    · simp [List.getD, hi]
    · simp [List.getD, hi, r0]

theorem Tsptw.row_count {s s' : Tsptw} {r : List (List Char)} (h : s.row r = some s') : s'.lc = s.lc + 1 ∧ s.lc + 1 ≤ u16Max ∧ (s.n ≤ u16Max → s'.n ≤ u16Max) := by
  unfold Tsptw.row at h
  obtain ⟨s1, h1, h2⟩ := Option.bind_eq_some_iff.1 h
  have e : s1.lc = s.lc ∧ (s.n ≤ u16Max → s1.n ≤ u16Max) := by
    unfold Tsptw.content' at h1
    split at h1
    · split at h1
      · cases h1
      · obtain ⟨n, h3, rfl⟩ := Option.map_eq_some_iff.1 h1
        exact ⟨rfl, fun _ => (parseNat_iff.1 h3).2⟩
    · split at h1
      · obtain ⟨vs, _, h3⟩ := Option.bind_eq_some_iff.1 h1
        obtain ⟨m, _, rfl⟩ := Option.map_eq_some_iff.1 h3
        exact ⟨rfl, id⟩
      · split at h1
        · split at h1
          · cases h1; exact ⟨rfl, id⟩
          · cases h1
        · cases h1
  split at h2
  · rename_i h3
    cases h2
    rw [e.1] at h3
    exact ⟨by simp [e.1], h3, e.2⟩
  · cases h2

theorem Tsptw.rows_count : ∀ (rs : List (List (List Char))) (s s' : Tsptw), s.rows rs = some s' → s.lc ≤ u16Max → s.n ≤ u16Max → s.lc + rs.length ≤ u16Max ∧ s'.n ≤ u16Max := by
  intro rs
  induction rs with
  | nil => intro s s' h h1 h2; cases h; exact ⟨h1, h2⟩
  | cons r rs ih =>
    intro s s' h h1 h2
    rw [Tsptw.rows] at h
    obtain ⟨s1, h3, h4⟩ := Option.bind_eq_some_iff.1 h
    obtain ⟨g1, g2, g3⟩ := Tsptw.row_count h3
    obtain ⟨k1, k2⟩ := ih s1 s' h4 (by omega) (g3 h2)
    rw [g1] at k1
    exact ⟨by simp only [List.length_cons]; omega, k2⟩

/-- Files of more than 65535 rows are not read. -/
theorem tsptw_limit {lines : List (List Char)} {rs : List (List (List Char))} {I : Verif.Tsptw.Inst} (h : Rows isWs (some '#') lines rs) (hI : tsptw lines = some I) :
    rs.length < 2 ^ 16 ∧ I.n < 2 ^ 16 := by
  unfold tsptw at hI
  rw [Tsptw.loop_rows h] at hI
  obtain ⟨s, h1, rfl⟩ := Option.map_eq_some_iff.1 hI
  obtain ⟨k1, k2⟩ := Tsptw.rows_count rs _ _ h1 (by simp) (by simp)
  unfold u16Max at k1 k2
  simp only at k1 k2 ⊢
  omega

end Verif.Read
