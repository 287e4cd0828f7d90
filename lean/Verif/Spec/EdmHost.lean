import Verif.Model.EdmHost

/-!
# Specification: host containers (C43, C54)
-/

namespace Vecmem

variable {α β : Type}

/-- The sizes of the variables that are vectors or jagged vectors. -/
def HostCont.vectorSizes (h : HostCont α) : List Nat := h.filterMap fun v => match v with
  | .scalar _ => none
  | .vector _ v => some v.elems.length
  | .jagged v => some v.elems.length

/-- What is in a variable. -/
inductive HostContents (α : Type) where
  | scalar (x : α)
  | vector (xs : List α)
  | jagged (xss : List (List α))
deriving DecidableEq, Repr

/-- What is in a variable, without the capacity. -/
def HostVar.contents : HostVar α → HostContents α
  | .scalar x => .scalar x
  | .vector _ v => .vector v.elems
  | .jagged v => .jagged v.elems

/-- `ys` is `xs` with the size `n`: elements that were there are kept, new ones are `d`. -/
structure ResizedList (d : β) (n : Nat) (xs ys : List β) : Prop where
  length : ys.length = n
  kept : ∀ i, i < n → i < xs.length → ys[i]? = xs[i]?
  fresh : ∀ i, i < n → xs.length ≤ i → ys[i]? = some d

/-- What `resize(n)` makes of a variable. -/
def HostVar.Resized (n : Nat) : HostVar α → HostVar α → Prop
  | .scalar x, w => w = .scalar x
  | .vector d v, w => ∃ v', w = .vector d v' ∧ ResizedList d n v.elems v'.elems
  | .jagged v, w => ∃ v', w = .jagged v' ∧ ResizedList [] n v.elems v'.elems

/-- The vectors of a variable have memory for `n` elements. -/
def HostVar.HasCapacity (n : Nat) : HostVar α → Prop
  | .scalar _ => True
  | .vector _ v => n ≤ v.capacity
  | .jagged v => n ≤ v.capacity

/-- The `i`-th value of a variable. -/
def HostVar.nth (i : Nat) : HostVar α → Option (HostVal α)
  | .scalar x => some (.one x)
  | .vector _ v => v.elems[i]?.map .one
  | .jagged v => v.elems[i]?.map .row

/-- An assignment of a value of the right kind. -/
def HostVar.Takes : HostVar α → HostVal α → Prop
  | .scalar _, .one _ => True
  | .vector _ _, .one _ => True
  | .jagged _, .row _ => True
  | _, _ => False

/-- What the program can do with a container through its own functions: `resize`, `reserve`, and assigning to variable
`k` of `at(i)`. -/
inductive HostOp (α : Type) where
  | resize (n : Nat)
  | reserve (n : Nat)
  | assign (i k : Nat) (x : HostVal α)

/-- The outcome of an operation, and the container afterwards. -/
def HostOp.run (alloc : Nat → Nat → Res Unit) (h : HostCont α) : HostOp α → Res Unit × HostCont α
  | .resize n => h.resize alloc n
  | .reserve n => h.reserve alloc n
  | .assign i k x => match h.at i with
    | .ok refs => match refs[k]? with
      | some r => (.ok (), r.write h x)
      | none => (.ok (), h)
    | e => (e.map fun _ => (), h)

/-- A history of operations, whose allocations each have their own outcome, and in which no call to `resize` throws. -/
inductive HostRun : HostCont α → List (HostOp α) → HostCont α → Prop
  | nil (h : HostCont α) : HostRun h [] h
  | step {h h' : HostCont α} {ops : List (HostOp α)} (before : HostRun h ops h') (alloc : Nat → Nat → Res Unit)
      (op : HostOp α) (ok : ∀ n, op = .resize n → (op.run alloc h').1 = .ok ()) :
      HostRun h (ops ++ [op]) (op.run alloc h').2

/-- The size a program expects: the last one given to `resize`. -/
def lastSize (n : Nat) : List (HostOp α) → Nat
  | [] => n
  | .resize m :: ops => lastSize m ops
  | _ :: ops => lastSize n ops

end Vecmem
