import Verif.Proofs.Readers
/-! The reader of the example `psp`. -/
set_option autoImplicit false

namespace Verif.Read
open Text Files
open Verif.Psp (Row row)

theorem parse_unsigned {w : List Char} {n : Nat} (h : Unsigned w n) (hn : n < 2 ^ 64) : parseNat usizeMax w = some n := parseNat_of h (by unfold usizeMax; omega)

/-! ### Blocks of lines -/

theorem section_of {ls : List (List Char)} {rs : List (List Nat)} (h : Block ls rs) (rest : List (List Char)) : section_ (ls ++ rest) = (ls.map trim ++ (section_ rest).1, (section_ rest).2) := by
  induction h with
  | nil => rfl
  | cons hl _ _ _ ih =>
    rw [List.cons_append, section_, if_neg (by simp [trim_line hl]), ih]
    rfl

theorem section_blank {b : List Char} (h : Blank b) (rest : List (List Char)) : section_ (b :: rest) = ([], rest) := by
  rw [section_, if_pos (by simp [trim_blank h])]

theorem changeoverRows_of {items : Nat} {ls : List (List Char)} {rs : List (List Nat)} (h : Block ls rs) : ∀ done : List (List Nat), done.length + rs.length ≤ items → (∀ r ∈ rs, r.length ≤ items) →
    changeoverRows items done.length (entry done) (ls.map trim) = some (entry (done ++ rs)) := by
  induction h with
  | nil => intro done _ _; simp [changeoverRows]
  | @cons l t ts ns ls rs hl hn hr _ ih =>
    intro done h1 h2
    simp only [List.length_cons] at h1
    rw [List.map_cons, changeoverRows, line_words hl, parseAll_id (ok := fun n => n < 2 ^ 64) (fun w n hw hn => parse_unsigned hw hn) hn hr]
    simp only [Option.bind_some]
    rw [if_pos ⟨by omega, h2 ns (by simp)⟩, setRow_entry]
    have := ih (done ++ [ns]) (by simp; omega) fun r hr => h2 r (by simp [hr])
    simp only [List.length_append, List.length_singleton, List.append_assoc, List.singleton_append] at this
    exact this

/-! ### The tables of demands -/

/-- The row of an item, after the first `p` periods -/
def part (n : Nat) (d : Nat → Nat) (p : Nat) : Row := (List.range p).foldl (fun r q => r.read n q (d q)) ⟨-1, [], []⟩

theorem part_succ (n : Nat) (d : Nat → Nat) (p : Nat) : part n d (p + 1) = (part n d p).read n p (d p) := by
  unfold part
  rw [List.range_succ, List.foldl_append]
  rfl

theorem part_rem (n : Nat) (d : Nat → Nat) (p : Nat) : (part n d p).rem.length = p := by
  induction p with
  | zero => rfl
  | succ p ih => rw [part_succ]; simp [Row.read, ih]

theorem part_prev {n : Nat} (d : Nat → Nat) {p : Nat} (h : p < n) : (part n d p).prev.length = p := by
  induction p with
  | zero => rfl
  | succ p ih => rw [part_succ]; simp [Row.read, ih (by omega), show p ≠ n - 1 by omega]

/-- A matrix with row `i` replaced -/
def mix (i : Nat) (l : List Int) (m : Nat → Nat → Int) : Nat → Nat → Int := fun a b => if a = i then l.getD b 0 else m a b

theorem store_mix (i : Nat) (l : List Int) (m : Nat → Nat → Int) {p : Nat} (hp : p = l.length) (v : Int) : store (mix i l m) i p v = mix i (l ++ [v]) m := by
  subst hp
  funext a b
  unfold store mix
  by_cases ha : a = i
  · subst ha
    rcases Nat.lt_trichotomy b l.length with h | h | h
    · simp [List.getD, h, Nat.ne_of_lt h, List.getElem?_append_left h]
    · subst h; simp [List.getD]
    · have h2 : (l ++ [v])[b]? = none := by simp; omega
      simp [List.getD, h2, Nat.ne_of_gt h, Nat.le_of_lt h]
  · simp [ha]

theorem store_mix_last (i : Nat) (l : List Int) (x : Int) (m : Nat → Nat → Int) {p : Nat} (hp : p = l.length) (v : Int) : store (mix i (l ++ [x]) m) i p v = mix i (l ++ [v]) m := by
  rw [← store_mix i l m hp, ← store_mix i l m hp]
  funext a b
  unfold store
  split <;> rfl

theorem mix_zero (i : Nat) (m : Nat → Nat → Int) : mix i [] m = mix i [0] m := by
  funext a b
  unfold mix
  cases b <;> simp [List.getD]

theorem mix_at (i : Nat) (l : List Int) (m : Nat → Nat → Int) (b : Nat) : mix i l m i b = l.getD b 0 := by simp [mix]

/-- The tables when `p` words of the line of item `i` have been read -/
def midway (n i : Nat) (d : Nat → Nat) (P R : Nat → Nat → Int) (p : Nat) : Tables := ⟨(part n d p).last, mix i (part n d p).prev P, mix i (part n d p).rem R⟩

theorem word_of {items n i p : Nat} {d : Nat → Nat} {P R : Nat → Nat → Int} {w : List Char} (hi : i < items) (hp : p < n) (hw : Unsigned w (d p)) (hd : d p < 2 ^ 64) :
    (midway n i d P R p).word items n i p w = some (midway n i d P R (p + 1)) := by
  have hl := part_rem n d p
  have hl' := part_prev d hp
  unfold Tables.word midway Tables.setPrev Tables.setRem
  rw [part_succ]
  generalize part n d p = r at *
  simp only [if_pos (show i < items ∧ p < n + 1 by omega), Option.bind_some, store_mix i r.prev P hl'.symm, if_pos (show i < items ∧ p < n by omega), parse_unsigned hw hd]
  have h2 : (if 0 < p then some ({ last := r.last, prev := mix i (r.prev ++ [r.last]) P, rem := store (mix i r.rem R) i p (mix i r.rem R i (p - 1)) } : Tables)
      else some { last := r.last, prev := mix i (r.prev ++ [r.last]) P, rem := mix i r.rem R }) =
      some { last := r.last, prev := mix i (r.prev ++ [r.last]) P, rem := mix i (r.rem ++ [if 0 < p then r.rem.getD (p - 1) 0 else 0]) R } := by
    split
    · rw [store_mix i r.rem R hl.symm, mix_at]
    · have : r.rem = [] := List.length_eq_zero_iff.1 (by omega)
      rw [this, mix_zero]; rfl
  rw [h2]
  simp only [Option.bind_some]
  have h3 : mix i (r.rem ++ [if 0 < p then r.rem.getD (p - 1) 0 else 0]) R i p = if 0 < p then r.rem.getD (p - 1) 0 else 0 := by
    rw [mix_at]; simp [List.getD, ← hl]
  rw [h3, store_mix_last i r.rem _ R hl.symm]
  unfold Row.read
  by_cases hdp : 0 < d p
  · simp only [if_pos hdp, Option.bind_some, if_neg (show ¬ n = 0 by omega)]
    by_cases hpn : p = n - 1
    · simp only [if_pos hpn, if_pos (show i < items ∧ 1 + p < n + 1 by omega), store_mix i (r.prev ++ [r.last]) P (show 1 + p = (r.prev ++ [r.last]).length by simp; omega)]
    · simp only [if_neg hpn]
  · simp only [if_neg hdp, Option.bind_some, if_neg (show ¬ n = 0 by omega)]
    by_cases hpn : p = n - 1
    · simp only [if_pos hpn, if_pos (show i < items ∧ 1 + p < n + 1 by omega), store_mix i (r.prev ++ [r.last]) P (show 1 + p = (r.prev ++ [r.last]).length by simp; omega)]
    · simp only [if_neg hpn]

theorem words_line {items n i : Nat} {d : Nat → Nat} {P R : Nat → Nat → Int} (hi : i < items) {ts : List (List Char)} {ns : List Nat} (h : List.Forall₂ Unsigned ts ns) :
    ∀ p, p + ns.length = n → (∀ q, q < ns.length → ns.getD q 0 = d (p + q)) → (∀ m ∈ ns, m < 2 ^ 64) →
      (midway n i d P R p).words items n i p ts = some (midway n i d P R n) := by
  induction h with
  | nil => intro p h _ _; simp only [List.length_nil, Nat.add_zero] at h; subst h; rfl
  | @cons t m ts ns h _ ih =>
    intro p h1 h2 h3
    simp only [List.length_cons] at h1
    have hm : m = d p := by simpa [List.getD] using h2 0 (by simp)
    subst hm
    rw [Tables.words, word_of hi (by omega) h (h3 _ (by simp))]
    simp only [Option.bind_some]
    refine ih (p + 1) (by omega) (fun q hq => ?_) fun m hm => h3 m (by simp [hm])
    have := h2 (q + 1) (by simp; omega)
    simp only [List.getD, List.getElem?_cons_succ] at this
    simp only [List.getD, this]
    congr 1; omega

/-- The tables of the items whose lines have been read -/
def prevTable (n : Nat) (rows : List (List Nat)) : Nat → Nat → Int := fun a b => if a < rows.length then (row n (entry rows a)).prev.getD b 0 else 0
def remTable (n : Nat) (rows : List (List Nat)) : Nat → Nat → Int := fun a b => if a < rows.length then (row n (entry rows a)).rem.getD b 0 else 0

theorem entry_append_left {rows : List (List Nat)} (ns : List Nat) {a : Nat} (h : a < rows.length) : entry (rows ++ [ns]) a = entry rows a := by
  funext b
  simp [entry, List.getD, List.getElem?_append_left h]

theorem entry_append_last (rows : List (List Nat)) (ns : List Nat) : entry (rows ++ [ns]) rows.length = fun b => ns.getD b 0 := by
  funext b
  simp [entry, List.getD]

theorem prevTable_snoc (n : Nat) (rows : List (List Nat)) (ns : List Nat) : mix rows.length (row n fun b => ns.getD b 0).prev (prevTable n rows) = prevTable n (rows ++ [ns]) := by
  funext a b
  unfold mix prevTable
  rcases Nat.lt_trichotomy a rows.length with h | h | h
  · rw [if_neg (by omega), if_pos h, if_pos (by simp; omega), entry_append_left ns h]
  · subst h; rw [if_pos rfl, if_pos (by simp), entry_append_last]
  · rw [if_neg (by omega), if_neg (by omega), if_neg (by simp; omega)]

theorem remTable_snoc (n : Nat) (rows : List (List Nat)) (ns : List Nat) : mix rows.length (row n fun b => ns.getD b 0).rem (remTable n rows) = remTable n (rows ++ [ns]) := by
  funext a b
  unfold mix remTable
  rcases Nat.lt_trichotomy a rows.length with h | h | h
  · rw [if_neg (by omega), if_pos h, if_pos (by simp; omega), entry_append_left ns h]
  · subst h; rw [if_pos rfl, if_pos (by simp), entry_append_last]
  · rw [if_neg (by omega), if_neg (by omega), if_neg (by simp; omega)]

theorem mix_prev (n : Nat) (rows : List (List Nat)) : mix rows.length [] (prevTable n rows) = prevTable n rows := by
  funext a b
  unfold mix prevTable
  split
  · rename_i h; subst h; simp [List.getD]
  · rfl

theorem mix_rem (n : Nat) (rows : List (List Nat)) : mix rows.length [] (remTable n rows) = remTable n rows := by
  funext a b
  unfold mix remTable
  split
  · rename_i h; subst h; simp [List.getD]
  · rfl

theorem demandRows_of {items n : Nat} {ls : List (List Char)} {rs : List (List Nat)} (h : Block ls rs) : ∀ (done : List (List Nat)) (k : Int), done.length + rs.length ≤ items → (∀ r ∈ rs, r.length = n) →
    ∃ k', demandRows items n done.length ⟨k, prevTable n done, remTable n done⟩ (ls.map trim) = some ⟨k', prevTable n (done ++ rs), remTable n (done ++ rs)⟩ := by
  induction h with
  | nil => intro done k _ _; exact ⟨k, by simp [demandRows]⟩
  | @cons l t ts ns ls rs hl hn hr _ ih =>
    intro done k h1 h2
    simp only [List.length_cons] at h1
    have e : (⟨-1, prevTable n done, remTable n done⟩ : Tables) = midway n done.length (fun b => ns.getD b 0) (prevTable n done) (remTable n done) 0 := by
      show _ = (⟨-1, mix done.length [] (prevTable n done), mix done.length [] (remTable n done)⟩ : Tables)
      rw [mix_prev, mix_rem]
    have hwl := words_line (n := n) (P := prevTable n done) (R := remTable n done) (d := fun b => ns.getD b 0) (show done.length < items by omega) hn 0 (by rw [Nat.zero_add]; exact h2 ns (by simp))
      (fun q _ => by rw [Nat.zero_add]) hr
    obtain ⟨k', hk'⟩ := ih (done ++ [ns]) (row n fun b => ns.getD b 0).last (by simp; omega) fun r hr => h2 r (by simp [hr])
    refine ⟨k', ?_⟩
    rw [List.map_cons, demandRows, line_words hl]
    simp only
    rw [e, hwl]
    simp only [Option.bind_some]
    simp only [List.length_append, List.length_singleton, List.append_assoc, List.singleton_append] at hk'
    rw [← hk', ← prevTable_snoc, ← remTable_snoc]
    rfl

theorem stockingCosts_of {l : List Char} {ts : List (List Char)} {ns : List Nat} (h : Words isWs l ts) (hn : List.Forall₂ Unsigned ts ns) (hr : ∀ n ∈ ns, n < 2 ^ 64) : stockingCosts ns.length l = some ns := by
  unfold stockingCosts
  rw [words_of h, List.take_of_length_le (Nat.le_of_eq hn.length_eq), parseAll_id (ok := fun n => n < 2 ^ 64) (fun w n hw hn => parse_unsigned hw hn) hn hr]
  simp

theorem Unsigned.no_ws {w : List Char} {n : Nat} (h : Unsigned w n) : ∀ c ∈ w, isWs c = false := by
  have hd : ∀ d : Fin 10, isWs (Char.ofNat (48 + d.1)) = false := by decide
  have key : ∀ {w : List Char} {n : Nat}, Digits w n → ∀ c ∈ w, isWs c = false := by
    intro w n h c hc
    obtain ⟨d, h1, rfl⟩ := h.digit c hc
    exact hd ⟨d, h1⟩
  rcases h with h | ⟨v, rfl, h⟩
  · exact key h
  · intro c hc
    simp only [List.mem_cons] at hc
    rcases hc with rfl | hc
    · decide
    · exact key h c hc

theorem dropWhile_none {p : Char → Bool} {l : List Char} (h : ∀ c ∈ l, p c = false) (hne : l ≠ []) (r : List Char) : (l ++ r).dropWhile p = l ++ r := by
  cases l with
  | nil => exact absurd rfl hne
  | cons c l => rw [List.cons_append, List.dropWhile_cons, if_neg (by simp [h c (by simp)])]

theorem trim_word {w p q : List Char} (hw : ∀ c ∈ w, isWs c = false) (hne : w ≠ []) (hp : Blank p) (hq : Blank q) : trim (p ++ w ++ q) = w := by
  unfold trim
  rw [List.append_assoc, dropWhile_all hp, dropWhile_none hw hne, List.reverse_append, dropWhile_all (fun c hc => hq c (by simpa using hc))]
  have := dropWhile_none (p := isWs) (l := w.reverse) (fun c hc => hw c (by simpa using hc)) (by simpa using hne) []
  rw [List.append_nil] at this
  rw [this, List.reverse_reverse]

theorem Unsigned.ne_nil {w : List Char} {n : Nat} (h : Unsigned w n) : w ≠ [] := by
  rcases h with h | ⟨v, rfl, _⟩
  · exact h.ne_nil
  · simp

theorem ending_of {tail : List (List Char)} {opt : Option Nat} (h : Ending tail opt) : (section_ tail).1 = [] ∧ knownOptimum (section_ tail).2 = some opt := by
  cases h with
  | none => exact ⟨rfl, rfl⟩
  | blank hb => rw [section_blank hb]; exact ⟨rfl, rfl⟩
  | two hb => rw [section_blank hb]; exact ⟨rfl, rfl⟩
  | known hb hl hw hn =>
    rw [section_blank hb]
    refine ⟨rfl, ?_⟩
    obtain ⟨p, q, rfl, hp, hq⟩ := hl
    show (parseNat usizeMax (trim _)).map some = _
    rw [trim_word (Unsigned.no_ws hw) (Unsigned.ne_nil hw) hp hq, parse_unsigned hw hn]
    rfl

/-- A well-formed file is read as it is written. -/
theorem psp_of {lines : List (List Char)} {n orders : Nat} {changeover : List (List Nat)} {stocking : List Nat} {demand : List (List Nat)} {optimum : Option Nat}
    (h : PspFile lines n orders changeover stocking demand optimum) :
    psp lines = some { optimum := optimum, periods := n, items := stocking.length, orders := orders, changeover := entry changeover, stocking := stocking, prev := prevTable n demand, rem := remTable n demand } := by
  obtain ⟨⟨l1, l2, l3, x1, b, ls, x2, cs, ds, tail, ts, rfl, h1, h2, h3, hc, hb, hl, hs, hd, he⟩, ⟨s1, s2⟩, ⟨t1, t2⟩, ⟨f1, f2, f3, f4⟩, hpos⟩ := h
  have e0 : (entry ([] : List (List Nat))) = fun _ _ => 0 := by funext a b; simp [entry, List.getD]
  have c1 := changeoverRows_of (items := stocking.length) hc [] (by simp [s1]) fun r hr => Nat.le_of_eq (s2 r hr)
  rw [e0] at c1
  obtain ⟨k', c2⟩ := demandRows_of (items := stocking.length) (n := n) hd [] (-1) (by simp [t1]) t2
  have e1 : prevTable n [] = fun _ _ => 0 := by funext a b; simp [prevTable]
  have e2 : remTable n [] = fun _ _ => 0 := by funext a b; simp [remTable]
  rw [e1, e2] at c2
  simp only [List.length_nil, List.nil_append] at c1 c2
  obtain ⟨g1, g2⟩ := ending_of he
  unfold psp
  simp only [parse_unsigned h1 f1, parse_unsigned h2 f2, parse_unsigned h3 f3, Option.bind_some, List.drop_one, List.tail_cons]
  rw [section_of hc, section_blank hb]
  simp only [List.append_nil, c1, Option.bind_some, stockingCosts_of hl hs f4]
  simp only [List.drop_one, List.tail_cons]
  rw [section_of hd]
  simp only [g1, List.append_nil, c2, Option.bind_some, g2, Option.map_some]

end Verif.Read
