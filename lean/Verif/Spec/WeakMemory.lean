import Verif.Spec.Atomics

/-!
# Specification: the order of memory accesses of several threads (C73, C74)

What C++ promises about the accesses of threads to variables, if some of the accesses are operations of atomic references with
a memory order.  The writes of a variable are in an order, its modification order: each has a position, and the initial value is
at position 0.  An execution is seen as the list of the accesses in the order in which they were made.
-/

namespace Vecmem

/-- What a thread can do to a variable: read or write it in the ordinary way, or with an operation of an atomic reference, to which a
memory order can be given (`compare_exchange_strong` takes one or two). -/
inductive WCall (w : Nat) where
  | read
  | write (x : BitVec w)
  | atomic (op : AOp w) (order : Option MemOrder)
  | compareExchange2 (expected desired : BitVec w) (success failure : MemOrder)
deriving DecidableEq, Repr

/-- An access: by which thread, to which variable, what was called, and the position and the value of the write that was read and
of the one that was made. -/
structure WEvent (w : Nat) where
  thread : Nat
  addr : Nat
  call : WCall w
  read : Option (Nat × BitVec w)
  wrote : Option (Nat × BitVec w)
deriving DecidableEq, Repr

namespace WEvent

variable {w : Nat}

/-- A position at which the access read or wrote. -/
def At (e : WEvent w) (t : Nat) : Prop := (∃ v, e.read = some (t, v)) ∨ ∃ v, e.wrote = some (t, v)

/-- The memory order asked for.  The default is the strongest; an operation that compares only, as the values differ, has the order
for failures, which without being given is the order of the call less the releasing part. -/
def order (e : WEvent w) : Option MemOrder :=
  match e.call with
  | .read => none
  | .write _ => none
  | .atomic (.compareExchange _ _) order =>
    if e.wrote.isSome then some (order.getD .seqCst)
    else match order.getD .seqCst with
      | .acqRel => some .acquire
      | .release => some .relaxed
      | other => some other
  | .atomic _ order => some (order.getD .seqCst)
  | .compareExchange2 _ _ success failure => if e.wrote.isSome then some success else some failure

/-- A write that was asked to publish what its thread has done. -/
def Releases (e : WEvent w) : Prop :=
  e.wrote.isSome ∧ (e.order = some .release ∨ e.order = some .acqRel ∨ e.order = some .seqCst)

/-- A read that was asked to take over what the writer has published. -/
def Acquires (e : WEvent w) : Prop :=
  e.read.isSome ∧ (e.order = some .acquire ∨ e.order = some .acqRel ∨ e.order = some .seqCst)

/-- The access is a store of an atomic reference. -/
def IsStore (e : WEvent w) : Prop := ∃ x order, e.call = .atomic (.store x) order

/-- The access is a load of an atomic reference. -/
def IsLoad (e : WEvent w) : Prop := ∃ order, e.call = .atomic .load order

/-- The access has done what the call is meant to do: to read, to write the given value, or to do what the atomic operation is
specified to do to the value that it has read, writing directly after it. -/
def Correct (e : WEvent w) : Prop :=
  match e.call with
  | .read => e.read.isSome ∧ e.wrote = none
  | .write x => e.read = none ∧ e.wrote.map (·.2) = some x
  | .atomic .load _ => e.read.isSome ∧ e.wrote = none
  | .atomic (.store x) _ => e.read = none ∧ e.wrote.map (·.2) = some x
  | .atomic (.compareExchange x d) _ | .compareExchange2 x d _ _ =>
    ∃ t v, e.read = some (t, v) ∧ e.wrote = if v = x then some (t + 1, d) else none
  | .atomic op _ => ∃ t v, e.read = some (t, v) ∧ e.wrote = some (t + 1, (op.spec v).1)

end WEvent

/-- The accesses that were made, in the order in which they were made. -/
abbrev WTrace (w : Nat) := List (WEvent w)

namespace WTrace

variable {w : Nat}

/-- Access `i` comes before access `j` in the program of a thread. -/
def Before (tr : WTrace w) (i j : Nat) : Prop :=
  ∃ e f, tr[i]? = some e ∧ tr[j]? = some f ∧ e.thread = f.thread ∧ i < j

/-- Access `j` reads what access `i` has written. -/
def ReadsFrom (tr : WTrace w) (i j : Nat) : Prop :=
  ∃ e f t v, tr[i]? = some e ∧ tr[j]? = some f ∧ e.addr = f.addr ∧ e.wrote = some (t, v) ∧ f.read = some (t, v)

/-- The write `j` is `i`, or comes from it by atomic operations which have read one what the other has written. -/
inductive ReleaseSequence (tr : WTrace w) (i : Nat) : Nat → Prop
  | head : ReleaseSequence tr i i
  | next {j k : Nat} {f : WEvent w} (_ : ReleaseSequence tr i j) (_ : tr.ReadsFrom j k) (_ : tr[k]? = some f)
      (_ : f.wrote.isSome) : ReleaseSequence tr i k

/-- Access `i`, which releases, publishes to access `j`, which acquires. -/
def Synchronizes (R A : WEvent w → Prop) (tr : WTrace w) (i j : Nat) : Prop :=
  ∃ e f k, tr[i]? = some e ∧ R e ∧ tr[j]? = some f ∧ A f ∧ tr.ReleaseSequence i k ∧ tr.ReadsFrom k j

/-- Access `i` happens before access `j`: by the order of the programs, and by publications from accesses in `R` to accesses in
`A`. -/
inductive HappensBefore (R A : WEvent w → Prop) (tr : WTrace w) : Nat → Nat → Prop
  | program {i j : Nat} (_ : tr.Before i j) : HappensBefore R A tr i j
  | publish {i j : Nat} (_ : tr.Synchronizes R A i j) : HappensBefore R A tr i j
  | trans {i j k : Nat} (_ : HappensBefore R A tr i j) (_ : HappensBefore R A tr j k) : HappensBefore R A tr i k

/-- An access that happens after another access to the same variable does not read an older value than the other has read or
written, and writes a newer one. -/
def Ordered (R A : WEvent w → Prop) (tr : WTrace w) : Prop :=
  ∀ (i j : Nat) (e f : WEvent w), tr.HappensBefore R A i j → tr[i]? = some e → tr[j]? = some f → e.addr = f.addr → ∀ t, e.At t →
    (∀ t' v, f.read = some (t', v) → t ≤ t') ∧ ∀ t' v, f.wrote = some (t', v) → t < t'

/-- Every value read is the one that was written at that position of the modification order, by one earlier write, or is the initial
value of the variable. -/
def FromWrites (m : AMem w) (tr : WTrace w) : Prop :=
  (∀ (j : Nat) (f : WEvent w) (t : Nat) (v : BitVec w), tr[j]? = some f → f.read = some (t, v) →
    (t = 0 ∧ v = m f.addr) ∨ ∃ i e, i < j ∧ tr[i]? = some e ∧ e.addr = f.addr ∧ e.wrote = some (t, v)) ∧
  (∀ (i : Nat) (e : WEvent w) (t : Nat) (v : BitVec w), tr[i]? = some e → e.wrote = some (t, v) → t ≠ 0) ∧
  ∀ (i j : Nat) (e f : WEvent w) (t : Nat) (v v' : BitVec w), tr[i]? = some e → tr[j]? = some f → e.addr = f.addr →
    e.wrote = some (t, v) → f.wrote = some (t, v') → i = j

/-- Two threads each access one of two variables, and then read the other one with an access in `B`: at least one of them sees what the
other thread had written to or read from its variable, or something newer. -/
def OneSees (A B : WEvent w → Prop) (tr : WTrace w) : Prop :=
  ∀ (i i' j j' : Nat) (e e' f f' : WEvent w), tr[i]? = some e → tr[i']? = some e' → tr[j]? = some f → tr[j']? = some f' →
    tr.Before i i' → tr.Before j j' → e.addr = f'.addr → f.addr = e'.addr → A e → A f → B e' → B f' →
    ∀ x y p q v u, e.At x → f.At y → e'.read = some (p, v) → f'.read = some (q, u) → y ≤ p ∨ x ≤ q

end WTrace

end Vecmem
