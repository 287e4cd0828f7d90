import Verif.Model.GpuDevice

/-!
# Assumptions about the runtime
-/

namespace Vecmem

/-- Asking which device is selected never fails. -/
def GRuntime.CanAsk (R : GRuntime) : Prop := ∀ tr dev, R.answer tr .getDevice dev = true

/-- A device can be selected exactly if it exists. -/
def GRuntime.CanSelect (R : GRuntime) (Exists : Int → Prop) : Prop :=
  ∀ tr d dev, R.answer tr (.setDevice d) dev = true ↔ Exists d

/-- A program that catches no exceptions. -/
def GProg.Plain : GProg → Prop
  | .seq p q => p.Plain ∧ q.Plain
  | .tryCatch _ _ => False
  | .onDevice _ p => p.Plain
  | _ => True

end Vecmem
