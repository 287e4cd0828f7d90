import Verif.Spec.WeakTasks
import Verif.Spec.WeakKernel
import Verif.Spec.EdmDevice
import Mathlib.Data.Nat.Pairing

/-!
# Specification: a device container in the variables of the weak memory (C81)
-/

namespace Vecmem

variable {α : Type}

/-- The variables of `V` have values, as told by `val`, which are those of the device container `s`: its size, and the words of the elements of its vectors (of all that
there is room for).  Word `u` of variable `k` has the number `Nat.pair k u`. -/
structure WVec.ShowsContainer (V : WVec) (words : α → List (BitVec 32)) (val : Nat → BitVec 32 → Prop) (s : DevCont α) : Prop where
  cap : V.cap = s.cap
  size : ∃ y, val V.size y ∧ y.toNat = s.sizeWord
  elems : ∀ (k : Nat) (d : α) (c : Nat) (f : Nat → Option α), s.vars[k]? = some (.vector d c f) →
    ∀ p, p < s.cap → ∃ x, f p = some x ∧ ∀ (u : Nat) (b : BitVec 32), (words x)[u]? = some b → val (V.cell (Nat.pair k u) p) b

/-- The calls have returned the indices with which they are given, which are those of the claims. -/
def ReturnedRecords (size : Nat) (calls : List (DCall α × Nat)) (claims : List (WEvent 32)) : Prop :=
  List.Forall₂ (fun r e => e.Claims size r.2 1) calls claims

/-- All values of a variable have as many words as its default value. -/
def DevCont.Worded (s : DevCont α) (words : α → List (BitVec 32)) (progs : List (List (DCall α))) : Prop :=
  ∀ (k : Nat) (d : α) (c : Nat) (f : Nat → Option α), s.vars[k]? = some (.vector d c f) →
    ∀ p ∈ progs, ∀ cl ∈ p, ∀ a ∈ cl.assigns, a.1 = k → (words a.2).length = (words d).length

end Vecmem
