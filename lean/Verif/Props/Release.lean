import Verif.Proofs.Release
import Verif.Props.Files
/-! C107: the reader of the example `psp` in a release build. -/
set_option autoImplicit false

namespace Verif.Props
open Verif Spec Text Files

/-- **C107.** Whatever a debug build reads, a release build reads in the same way. -/
theorem psp_release_agrees {lines : List (List Char)} {P : Read.Psp} (h : Read.psp lines = some P) :
    ∃ Q, Read.pspRelease lines = some Q ∧ Q.optimum = P.optimum ∧ Q.periods = P.periods ∧ Q.items = P.items ∧ Q.orders = P.orders ∧ Q.changeover = P.changeover ∧ Q.stocking = P.stocking ∧
      ∀ i, i < P.items → (∀ p, p ≤ P.periods → Q.prev i p = P.prev i p) ∧ ∀ p, p < P.periods → Q.rem i p = P.rem i p := by
  unfold Read.psp at h
  split at h
  · rename_i l1 l2 l3 lines
    simp only [Option.bind_eq_some_iff] at h
    obtain ⟨periods, h1, items, h2, orders, h3, changeover, h4, h5⟩ := h
    unfold Read.pspRelease
    simp only [h1, h2, h3, Option.bind_some, Read.same_changeover _ h4]
    split at h5
    · cases h5
    · rename_i line rest hr
      simp only [hr]
      simp only [Option.bind_eq_some_iff] at h5
      obtain ⟨stocking, h6, t, h7, h8⟩ := h5
      obtain ⟨o, h9, rfl⟩ := Option.map_eq_some_iff.1 h8
      obtain ⟨f, e, k⟩ := Read.same_rows _ (f := ⟨-1, fun _ => 0, fun _ => 0⟩) ⟨rfl, fun _ _ _ _ => rfl, fun _ _ _ _ => rfl⟩ h7
      simp only [h6, Option.bind_some, e, h9, Option.map_some]
      exact ⟨_, rfl, rfl, rfl, rfl, rfl, rfl, rfl, fun i hi => ⟨fun p hp => (k.prev i p hi (Nat.lt_succ_of_le hp)).symm, fun p hp => (k.rem i p hi hp).symm⟩⟩
  · cases h

/-- **C107.** So well-formed files are read as written (C78). -/
theorem psp_release_file {lines : List (List Char)} {periods orders : Nat} {changeover : List (List Nat)} {stocking : List Nat} {demand : List (List Nat)} {optimum : Option Nat}
    (h : PspFile lines periods orders changeover stocking demand optimum) :
    ∃ Q, Read.pspRelease lines = some Q ∧ Q.periods = periods ∧ Q.items = stocking.length ∧ Q.orders = orders ∧ Q.optimum = optimum ∧ Q.changeover = entry changeover ∧ Q.stocking = stocking ∧
      ∀ i, i < Q.items → (∀ p, p ≤ periods → Q.prev i p = Psp.prevDemand (pspInst periods changeover stocking demand) i p) ∧
        ∀ p, p < periods → Q.rem i p = Psp.remDemand (pspInst periods changeover stocking demand) i p := by
  obtain ⟨P, h1, h2, h3, h4, h5, h6, h7, h8⟩ := psp_file h
  obtain ⟨Q, k1, k2, k3, k4, k5, k6, k7, k8⟩ := psp_release_agrees h1
  refine ⟨Q, k1, k3.trans h2, k4.trans h3, k5.trans h4, k2.trans h5, k6.trans h6, k7.trans h7, fun i hi => ?_⟩
  rw [k4] at hi
  obtain ⟨g1, g2⟩ := k8 i hi
  rw [h2] at g1 g2
  exact ⟨fun p hp => (g1 p hp).trans (h8 i hi p).1, fun p hp => (g2 p hp).trans (h8 i hi p).2⟩

example : ∃ Q, Read.pspRelease pspText = some Q ∧ Q.periods = 3 ∧ Q.items = 2 := by
  obtain ⟨Q, h1, h2, h3, _⟩ := psp_release_file pspText_file
  exact ⟨Q, h1, h2, h3⟩

/-- Two items and two periods, each item due in the last one; the first line of demands has a surplus zero. -/
def surplusText : List (List Char) := ["2".toList, "2".toList, "2".toList, "".toList, "0 5".toList, "4 0".toList, "".toList, "1 2".toList, "".toList, "0 1 0".toList, "0 1".toList]

/-- **C107.** A debug build refuses this file.  A release build accepts it, and counts two units of the second item instead of one: the surplus word writes the count of the first item into the first cell of the
second one, which is added to. -/
theorem psp_release_surplus : Read.psp surplusText = none ∧ ∃ Q, Read.pspRelease surplusText = some Q ∧ Q.rem 0 1 = 1 ∧ Q.rem 1 0 = 1 ∧ Q.rem 1 1 = 2 ∧ Q.prev 0 2 = 1 ∧ Q.prev 1 2 = 1 := by
  refine ⟨by decide +kernel, _, rfl, by decide +kernel, by decide +kernel, by decide +kernel, by decide +kernel, by decide +kernel⟩

/-- **C107.** A row of changeover costs that is too long is accepted too, and so is a file without periods. -/
theorem psp_release_accepts_more :
    (∃ Q, Read.pspRelease ["2".toList, "2".toList, "2".toList, "".toList, "0 5 4".toList, "".toList, "1 2".toList, "".toList, "0 1".toList, "0 1".toList] = some Q ∧ Q.changeover 1 0 = 4) ∧
    Read.psp ["2".toList, "2".toList, "2".toList, "".toList, "0 5 4".toList, "".toList, "1 2".toList, "".toList, "0 1".toList, "0 1".toList] = none ∧
    (∃ Q, Read.pspRelease ["0".toList, "1".toList, "0".toList, "".toList, "0".toList, "".toList, "1".toList, "".toList, "0".toList] = some Q ∧ Q.periods = 0) ∧
    Read.psp ["0".toList, "1".toList, "0".toList, "".toList, "0".toList, "".toList, "1".toList, "".toList, "0".toList] = none :=
  ⟨⟨_, rfl, by decide +kernel⟩, by decide +kernel, ⟨_, rfl, by decide +kernel⟩, by decide +kernel⟩

end Verif.Props
