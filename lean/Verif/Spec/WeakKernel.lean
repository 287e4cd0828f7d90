import Verif.Spec.WeakTasks
import Verif.Spec.DeviceVectorConcurrent

/-!
# Specification: a device vector in the variables of the weak memory (C77)
-/

namespace Vecmem

variable {α : Type}

/-- The variables of `V` have values, as told by `val`, which are those of the device vector `s`: its size, and the words of its elements (of all that there is room for). -/
structure WVec.Shows (V : WVec) (words : α → List (BitVec 32)) (val : Nat → BitVec 32 → Prop) (s : DV α) : Prop where
  cap : V.cap = s.cap
  dbg : V.dbg = s.dbg
  resizable : s.hasSize = true
  size : ∃ y, val V.size y ∧ y.toNat = s.sizeWord
  elems : ∀ p, p < s.cap → ∃ x, s.mem p = some x ∧ ∀ (v : Nat) (b : BitVec 32), (words x)[v]? = some b → val (V.cell v p) b

/-- The accesses to the size of the vector. -/
def WTrace.claims (size : Nat) (tr : WTrace 32) : List (WEvent 32) := tr.filter fun e => decide (e.addr = size)

/-- The calls have returned the indices with which they are given, which are those of the claims. -/
def Returned (size : Nat) (calls : List (ACall α × Nat)) (claims : List (WEvent 32)) : Prop :=
  List.Forall₂ (fun r e => e.Claims size r.2 r.1.count) calls claims

end Vecmem
