import Verif.Spec.WeakTasks
import Verif.Spec.WeakSeveral

/-!
# Specification: programs that append more than fits (C84)
-/

namespace Vecmem

variable {w : Nat}

/-- All calls of the program that append have the property. -/
def WTask.Calls (Q : WAppend w → Prop) : WTask w → Prop
  | .done => True
  | .access _ _ next => ∀ r, (next r).Calls Q
  | .append c next => Q c ∧ ∀ i, (next i).Calls Q

/-- The program appends elements one by one: with `push_back`, `emplace_back` and `push_back_default` only. -/
def WTask.OneByOne (t : WTask w) : Prop := t.Calls fun c => (∃ x, c = .push x) ∨ ∃ vectors assigns, c = .record vectors assigns

/-- As `WTask.Calls`, for programs that append to several vectors. -/
def MTask.Calls (Q : WAppend w → Prop) : MTask w → Prop
  | .done => True
  | .access _ _ next => ∀ r, (next r).Calls Q
  | .append _ c next => Q c ∧ ∀ i, (next i).Calls Q

/-- As `WTask.OneByOne`, for programs that append to several vectors. -/
def MTask.OneByOne (t : MTask w) : Prop := t.Calls fun c => (∃ x, c = .push x) ∨ ∃ vectors assigns, c = .record vectors assigns

end Vecmem
