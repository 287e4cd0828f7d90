import Verif.Spec.WeakMemory

/-!
# Specification: places in a vector that several threads append to (C76)

In terms of the accesses that were made.  A vector has a variable that holds its size; adding `n` to it, when it is `v`, is to claim the places
`v`, ..., `v + n - 1`.
-/

namespace Vecmem

variable {w : Nat}

namespace WEvent

/-- The access claims the `n` places from `v` on, of the vector with its size in variable `size`. -/
def Claims (size : Nat) (e : WEvent w) (v n : Nat) : Prop :=
  e.addr = size ∧ ∃ (x : BitVec w) (order : Option MemOrder) (t : Nat) (y : BitVec w),
    e.call = .atomic (.fetchAdd x) order ∧ x.toNat = n ∧ e.read = some (t, y) ∧ y.toNat = v

/-- How many places the access claims. -/
def claimed (size : Nat) (e : WEvent w) : Nat :=
  if e.addr = size then
    match e.call with
    | .atomic (.fetchAdd x) _ => x.toNat
    | _ => 0
  else 0

end WEvent

namespace WTrace

/-- How many places have been claimed. -/
def claimed (size : Nat) (tr : WTrace w) : Nat := (tr.map (·.claimed size)).sum

/-- Access `i` writes the value `x` to variable `a`. -/
def Writes (tr : WTrace w) (i a : Nat) (x : BitVec w) : Prop := ∃ e t, tr[i]? = some e ∧ e.addr = a ∧ e.wrote = some (t, x)

/-- Access `j` reads the value `x` from variable `a`. -/
def Reads (tr : WTrace w) (j a : Nat) (x : BitVec w) : Prop := ∃ e t, tr[j]? = some e ∧ e.addr = a ∧ e.read = some (t, x)

/-- Thread `i` makes access `k`. -/
def By (tr : WTrace w) (i k : Nat) : Prop := ∃ e, tr[k]? = some e ∧ e.thread = i

/-- In the end, the variable has the value `x`: it is the newest in its modification order, or the initial value if there were no writes.  It is what everything
reads that happens after all accesses, such as a copy after the end of the kernel. -/
def Final (tr : WTrace w) (m : AMem w) (a : Nat) (x : BitVec w) : Prop :=
  (x = m a ∧ ∀ e ∈ tr, e.addr = a → e.wrote = none) ∨
  ∃ e t, e ∈ tr ∧ e.addr = a ∧ e.wrote = some (t, x) ∧ ∀ f ∈ tr, f.addr = a → ∀ t' y, f.wrote = some (t', y) → t' ≤ t

end WTrace

end Vecmem
