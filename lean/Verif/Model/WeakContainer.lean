import Verif.Model.WeakVector
import Verif.Model.EdmDevice
import Mathlib.Data.Nat.Pairing

/-!
# Model of kernels that append to an `edm::device` container on weak memory

The calls are those of `Model/EdmDevice`; on the machine of `Model/WeakMemory` every element of every variable is several variables of the machine, which are written
one after the other.  Word `u` of variable `k` of the container has the number `Nat.pair k u`.
-/

namespace Vecmem

variable {α : Type} {w : Nat}

/-- The stores that give values to variables of the new element of the container, in the order of the list, word by word: `construct`, impl/device_vector.ipp:511-520, or an
assignment by the user.  That elements are written word by word is a simplification: a compiler may write them in other pieces. -/
def recordStores (words : α → List (BitVec w)) (l : List (Nat × α)) : List (Nat × Nat × BitVec w) :=
  l.flatMap fun x => (words x.2).zipIdx.map fun y => (Nat.pair x.1 y.2, 0, y.1)

/-- What `construct_default` gives to the variables of the container, in its order: `TYPE{}` to each vector, nothing to others.
Code: `core/include/vecmem/edm/impl/device.ipp`, lines 161-192. -/
def DevCont.newElement (s : DevCont α) : List (Nat × α) :=
  s.vars.zipIdx.filterMap fun x => match x.1 with
    | .scalar _ => none
    | .vector d _ _ => some (x.2, d)

/-- A call as `fetch_add`, assertion and stores: `push_back_default`, edm/impl/device.ipp:55-84, and then the assignments of the user to variables of `at(index)`
(106-115).  The assertions of `construct_vector` (the same as that of `push_back_default`, as all vectors have the capacity of the container) and of `at` (that the index
is less than the size) are left out (simplification). -/
def DCall.weak (words : α → List (BitVec w)) (new : List (Nat × α)) (c : DCall α) : WAppend w := ⟨1, true, recordStores words (new ++ c.assigns)⟩

/-- A thread that makes the calls one after the other.
No counterpart in /repo: kernels of users. -/
def WTask.records (words : α → List (BitVec w)) (new : List (Nat × α)) : List (DCall α) → WTask w
  | [] => .done
  | c :: cs => .append (c.weak words new) fun _ => records words new cs

end Vecmem
