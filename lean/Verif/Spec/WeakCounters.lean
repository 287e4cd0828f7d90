import Verif.Spec.WeakVector

/-!
# Specification: variables that many threads change by atomic operations (C86)
-/

namespace Vecmem

variable {w : Nat}

/-- What an access that changes its variable makes of the value. -/
def WEvent.effect (e : WEvent w) (v : BitVec w) : BitVec w :=
  match e.call with
  | .read => v
  | .write x => x
  | .atomic op _ => (op.spec v).1
  | .compareExchange2 x d _ _ => if v = x then d else v

namespace WTrace

/-- The accesses that have changed the variable, in the order in which they were made. -/
def changesOf (a : Nat) (tr : WTrace w) : WTrace w := tr.filter fun e => decide (e.addr = a) && e.wrote.isSome

/-- What they make of a value, one after the other. -/
def result (a : Nat) (tr : WTrace w) (v : BitVec w) : BitVec w := (tr.changesOf a).foldl (fun v e => e.effect v) v

/-- Nothing is stored in the variable: it is changed by operations only that read and write it. -/
def NoStores (a : Nat) (tr : WTrace w) : Prop := ∀ e ∈ tr, e.addr = a → (∀ x, e.call ≠ .write x) ∧ ∀ x o, e.call ≠ .atomic (.store x) o

end WTrace

/-- Operations that can be made in any order: additions and subtractions; conjunctions; disjunctions; exclusive disjunctions. -/
inductive AKind where
  | sum
  | all
  | any
  | parity
deriving DecidableEq

/-- The operation is of the kind. -/
def AOp.IsOf : AKind → AOp w → Prop
  | .sum, .fetchAdd _ => True
  | .sum, .fetchSub _ => True
  | .all, .fetchAnd _ => True
  | .any, .fetchOr _ => True
  | .parity, .fetchXor _ => True
  | _, _ => False

/-- What operations on variables make of the value `v` of variable `a`, one after the other. -/
def combined (a : Nat) (us : List (Nat × AOp w)) (v : BitVec w) : BitVec w := (us.filter fun u => decide (u.1 = a)).foldl (fun v u => (u.2.spec v).1) v

end Vecmem
