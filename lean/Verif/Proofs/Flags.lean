import Verif.Model.NodeFlags
/-! How every setter of `NodeFlags` changes every observer. -/
set_option autoImplicit false
namespace Verif.NodeFlags

@[simp] theorem isExact_setExact (x : NodeFlags) (b : Bool) : (x.setExact b).isExact = (b && !x.isRelaxed) := by
  rcases x with ⟨x⟩; revert x b; decide

@[simp] theorem isExact_setMarked (x : NodeFlags) (b : Bool) : (x.setMarked b).isExact = x.isExact := by
  rcases x with ⟨x⟩; revert x b; decide

@[simp] theorem isExact_setCutset (x : NodeFlags) (b : Bool) : (x.setCutset b).isExact = x.isExact := by
  rcases x with ⟨x⟩; revert x b; decide

@[simp] theorem isExact_setDeleted (x : NodeFlags) (b : Bool) : (x.setDeleted b).isExact = x.isExact := by
  rcases x with ⟨x⟩; revert x b; decide

@[simp] theorem isExact_setPrunedByBarrier (x : NodeFlags) (b : Bool) : (x.setPrunedByBarrier b).isExact = x.isExact := by
  rcases x with ⟨x⟩; revert x b; decide

@[simp] theorem isRelaxed_setExact (x : NodeFlags) (b : Bool) : (x.setExact b).isRelaxed = x.isRelaxed := by
  rcases x with ⟨x⟩; revert x b; decide

@[simp] theorem isRelaxed_setRelaxed (x : NodeFlags) (b : Bool) : (x.setRelaxed b).isRelaxed = b := by
  rcases x with ⟨x⟩; revert x b; decide

@[simp] theorem isRelaxed_setMarked (x : NodeFlags) (b : Bool) : (x.setMarked b).isRelaxed = x.isRelaxed := by
  rcases x with ⟨x⟩; revert x b; decide

@[simp] theorem isRelaxed_setCutset (x : NodeFlags) (b : Bool) : (x.setCutset b).isRelaxed = x.isRelaxed := by
  rcases x with ⟨x⟩; revert x b; decide

@[simp] theorem isRelaxed_setDeleted (x : NodeFlags) (b : Bool) : (x.setDeleted b).isRelaxed = x.isRelaxed := by
  rcases x with ⟨x⟩; revert x b; decide

@[simp] theorem isRelaxed_setPrunedByBarrier (x : NodeFlags) (b : Bool) : (x.setPrunedByBarrier b).isRelaxed = x.isRelaxed := by
  rcases x with ⟨x⟩; revert x b; decide

@[simp] theorem isMarked_setExact (x : NodeFlags) (b : Bool) : (x.setExact b).isMarked = x.isMarked := by
  rcases x with ⟨x⟩; revert x b; decide

@[simp] theorem isMarked_setRelaxed (x : NodeFlags) (b : Bool) : (x.setRelaxed b).isMarked = x.isMarked := by
  rcases x with ⟨x⟩; revert x b; decide

@[simp] theorem isMarked_setMarked (x : NodeFlags) (b : Bool) : (x.setMarked b).isMarked = b := by
  rcases x with ⟨x⟩; revert x b; decide

@[simp] theorem isMarked_setCutset (x : NodeFlags) (b : Bool) : (x.setCutset b).isMarked = x.isMarked := by
  rcases x with ⟨x⟩; revert x b; decide

@[simp] theorem isMarked_setDeleted (x : NodeFlags) (b : Bool) : (x.setDeleted b).isMarked = x.isMarked := by
  rcases x with ⟨x⟩; revert x b; decide

@[simp] theorem isMarked_setPrunedByBarrier (x : NodeFlags) (b : Bool) : (x.setPrunedByBarrier b).isMarked = x.isMarked := by
  rcases x with ⟨x⟩; revert x b; decide

@[simp] theorem isCutset_setExact (x : NodeFlags) (b : Bool) : (x.setExact b).isCutset = x.isCutset := by
  rcases x with ⟨x⟩; revert x b; decide

@[simp] theorem isCutset_setRelaxed (x : NodeFlags) (b : Bool) : (x.setRelaxed b).isCutset = x.isCutset := by
  rcases x with ⟨x⟩; revert x b; decide

@[simp] theorem isCutset_setMarked (x : NodeFlags) (b : Bool) : (x.setMarked b).isCutset = x.isCutset := by
  rcases x with ⟨x⟩; revert x b; decide

@[simp] theorem isCutset_setCutset (x : NodeFlags) (b : Bool) : (x.setCutset b).isCutset = b := by
  rcases x with ⟨x⟩; revert x b; decide

@[simp] theorem isCutset_setDeleted (x : NodeFlags) (b : Bool) : (x.setDeleted b).isCutset = x.isCutset := by
  rcases x with ⟨x⟩; revert x b; decide

@[simp] theorem isCutset_setPrunedByBarrier (x : NodeFlags) (b : Bool) : (x.setPrunedByBarrier b).isCutset = x.isCutset := by
  rcases x with ⟨x⟩; revert x b; decide

@[simp] theorem isDeleted_setExact (x : NodeFlags) (b : Bool) : (x.setExact b).isDeleted = x.isDeleted := by
  rcases x with ⟨x⟩; revert x b; decide

@[simp] theorem isDeleted_setRelaxed (x : NodeFlags) (b : Bool) : (x.setRelaxed b).isDeleted = x.isDeleted := by
  rcases x with ⟨x⟩; revert x b; decide

@[simp] theorem isDeleted_setMarked (x : NodeFlags) (b : Bool) : (x.setMarked b).isDeleted = x.isDeleted := by
  rcases x with ⟨x⟩; revert x b; decide

@[simp] theorem isDeleted_setCutset (x : NodeFlags) (b : Bool) : (x.setCutset b).isDeleted = x.isDeleted := by
  rcases x with ⟨x⟩; revert x b; decide

@[simp] theorem isDeleted_setDeleted (x : NodeFlags) (b : Bool) : (x.setDeleted b).isDeleted = b := by
  rcases x with ⟨x⟩; revert x b; decide

@[simp] theorem isDeleted_setPrunedByBarrier (x : NodeFlags) (b : Bool) : (x.setPrunedByBarrier b).isDeleted = x.isDeleted := by
  rcases x with ⟨x⟩; revert x b; decide

@[simp] theorem isPrunedByBarrier_setExact (x : NodeFlags) (b : Bool) : (x.setExact b).isPrunedByBarrier = x.isPrunedByBarrier := by
  rcases x with ⟨x⟩; revert x b; decide

@[simp] theorem isPrunedByBarrier_setRelaxed (x : NodeFlags) (b : Bool) : (x.setRelaxed b).isPrunedByBarrier = x.isPrunedByBarrier := by
  rcases x with ⟨x⟩; revert x b; decide

@[simp] theorem isPrunedByBarrier_setMarked (x : NodeFlags) (b : Bool) : (x.setMarked b).isPrunedByBarrier = x.isPrunedByBarrier := by
  rcases x with ⟨x⟩; revert x b; decide

@[simp] theorem isPrunedByBarrier_setCutset (x : NodeFlags) (b : Bool) : (x.setCutset b).isPrunedByBarrier = x.isPrunedByBarrier := by
  rcases x with ⟨x⟩; revert x b; decide

@[simp] theorem isPrunedByBarrier_setDeleted (x : NodeFlags) (b : Bool) : (x.setDeleted b).isPrunedByBarrier = x.isPrunedByBarrier := by
  rcases x with ⟨x⟩; revert x b; decide

@[simp] theorem isPrunedByBarrier_setPrunedByBarrier (x : NodeFlags) (b : Bool) : (x.setPrunedByBarrier b).isPrunedByBarrier = b := by
  rcases x with ⟨x⟩; revert x b; decide

@[simp] theorem isExact_setRelaxed_true (x : NodeFlags) : (x.setRelaxed true).isExact = false := by
  rcases x with ⟨x⟩; revert x; decide

theorem isExact_not_relaxed {x : NodeFlags} (h : x.isExact = true) : x.isRelaxed = false := by
  revert h; rcases x with ⟨x⟩; revert x; decide

@[simp] theorem newExact_isExact : newExact.isExact = true := by decide

@[simp] theorem newExact_isRelaxed : newExact.isRelaxed = false := by decide

@[simp] theorem newExact_isMarked : newExact.isMarked = false := by decide

@[simp] theorem newExact_isCutset : newExact.isCutset = false := by decide

@[simp] theorem newExact_isDeleted : newExact.isDeleted = false := by decide

@[simp] theorem newExact_isPrunedByBarrier : newExact.isPrunedByBarrier = false := by decide

@[simp] theorem newRelaxed_isExact : newRelaxed.isExact = false := by decide

@[simp] theorem newRelaxed_isRelaxed : newRelaxed.isRelaxed = true := by decide

@[simp] theorem newRelaxed_isMarked : newRelaxed.isMarked = false := by decide

@[simp] theorem newRelaxed_isCutset : newRelaxed.isCutset = false := by decide

@[simp] theorem newRelaxed_isDeleted : newRelaxed.isDeleted = false := by decide

@[simp] theorem newRelaxed_isPrunedByBarrier : newRelaxed.isPrunedByBarrier = false := by decide

end Verif.NodeFlags