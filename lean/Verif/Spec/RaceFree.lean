import Verif.Spec.WeakVector
import Verif.Model.WeakVector

/-!
# Specification: programs that do not race (C80)

What a program does when no other thread runs, on a memory that has one value for each variable.
-/

namespace Vecmem

variable {w : Nat}

/-- An access of a program that runs alone: to which variable, what it reads, and what it writes. -/
structure SoloAccess (w : Nat) where
  addr : Nat
  read : Option (BitVec w)
  wrote : Option (BitVec w)
deriving DecidableEq, Repr

/-- What a call reads and writes if the variable has the value `v`. -/
def WCall.solo (c : WCall w) (v : BitVec w) : Option (BitVec w) × Option (BitVec w) :=
  match c with
  | .read => (some v, none)
  | .write x => (none, some x)
  | .atomic .load _ => (some v, none)
  | .atomic (.store x) _ => (none, some x)
  | .atomic (.compareExchange x d) _ | .compareExchange2 x d _ _ => (some v, if v = x then some d else none)
  | .atomic op _ => (some v, some (op.spec v).1)

/-- What a program does when it runs alone: its accesses, the memory that it leaves, and whether it comes to its end (and not to an assertion that fails). -/
def WProg.solo : WProg w → AMem w → List (SoloAccess w) × AMem w × Bool
  | .done, m => ([], m, true)
  | .failed, m => ([], m, false)
  | .act a c next, m =>
    let r := c.solo (m a)
    let q := (next r.1).solo fun b => if b = a then r.2.getD (m a) else m b
    (⟨a, r.1, r.2⟩ :: q.1, q.2)

/-- No thread accesses a variable that another thread writes, where it is enough to know what each of them does when it runs alone. -/
def RaceFree (m : AMem w) (progs : Nat → WProg w) : Prop :=
  ∀ i j, i ≠ j → ∀ x ∈ ((progs i).solo m).1, x.wrote.isSome → ∀ y ∈ ((progs j).solo m).1, y.addr ≠ x.addr

/-- An access without the positions in the modification order. -/
def WEvent.solo (e : WEvent w) : SoloAccess w := ⟨e.addr, e.read.map (·.2), e.wrote.map (·.2)⟩

/-- The memory after the threads have run one after the other. -/
def oneByOne (progs : Nat → WProg w) (order : List Nat) (m : AMem w) : AMem w := order.foldl (fun m i => ((progs i).solo m).2.1) m

end Vecmem
