import Verif.Model.StaticVector

/-!
# Specification: misuse of vectors (C75)

`size` is the number of elements and `cap` the capacity.
-/

namespace Vecmem

variable {α : Type}

/-- The operation has returned, or its behaviour is undefined; it has not thrown. -/
def NoThrow {β : Type} (r : Res β) : Prop := r = .ub ∨ ∃ x, r = .ok x

/-- An operation of a device vector that does not fit: it adds elements to a full vector, makes it longer than its capacity, or refers to an
element that does not exist.  `operator[]` is not checked, and sizes are those of 32-bit words. -/
def DVOp.OutOfRange (size cap : Nat) : DVOp α → Prop
  | .push _ | .emplace _ => cap ≤ size
  | .bulk n | .bulkValue n _ | .bulkImplicit n => cap < size + n ∧ size + n < 2 ^ 32
  | .resize n | .resizeValue n _ | .resizeImplicit n | .assign n _ => cap < n
  | .pop | .front | .back => size = 0
  | .at_ i | .write true i _ => size ≤ i
  | _ => False

/-- An operation that a vector without size word does not have. -/
def DVOp.ChangesSize : DVOp α → Prop
  | .push _ | .emplace _ | .bulk _ | .bulkValue _ _ | .bulkImplicit _ | .pop | .clear | .resize _ | .resizeValue _ _ | .resizeImplicit _
  | .assign _ _ => True
  | _ => False

/-- An operation of a static vector that does not fit. -/
def SVOp.OutOfRange (size cap : Nat) : SVOp α → Prop
  | .push _ | .emplaceBack _ => cap ≤ size
  | .insert i _ | .emplace i _ => cap ≤ size ∨ size < i
  | .insertCount i n _ => (cap < size + n ∧ size + n < 2 ^ 64) ∨ size < i
  | .insertRange i vs => cap < size + vs.length ∨ size < i
  | .erase i => size ≤ i
  | .eraseRange i j => size < i ∨ size < j ∨ j < i
  | .assign n _ | .resize n | .resizeValue n _ | .reserve n => cap < n
  | .assignRange vs => cap < vs.length
  | .pop | .front | .back => size = 0
  | .at_ i | .write true i _ => size ≤ i
  | _ => False

end Vecmem
