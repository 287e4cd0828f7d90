import Verif.Spec.DeviceVector
import Verif.Model.DeviceVectorConcurrent

/-! # Vocabulary for concurrent appends (C30, C31) -/

namespace Vecmem

variable {α : Type}

/-- The call as an operation of one thread. -/
def ACall.toOp : ACall α → DVOp α
  | .push a => .push a
  | .emplace a => .emplace a
  | .bulk n => .bulk n
  | .bulkValue n a => .bulkValue n a
  | .bulkImplicit n => .bulkImplicit n

/-- The arguments are as the call requires, when the vector holds (at least) the elements `l`. -/
def ACall.Valid (triv : Bool) (l : List α) : ACall α → Prop
  | .push a | .emplace a | .bulkValue _ a => (a.value l).isSome
  | .bulk _ => True
  | .bulkImplicit _ => triv = true

/-- The value that every element appended by the call has; none for elements that are not initialized. -/
def ACall.value (dflt : α) (l : List α) : ACall α → Option α
  | .push a | .emplace a | .bulkValue _ a => a.value l
  | .bulk _ => some dflt
  | .bulkImplicit _ => none

/-- The number of elements all programs append. -/
def totalCount (progs : List (List (ACall α))) : Nat := (progs.map fun p => (p.map ACall.count).sum).sum

/-- All threads have finished their programs. -/
def Conc.Finished (g : Conc α) : Prop := ∀ t ∈ g.threads, t.todo = [] ∧ t.phase = .idle

/-- The calls of thread `i` that have returned, with the index each returned. -/
def Conc.results (g : Conc α) (i : Nat) : List (ACall α × Nat) := ((g.threads[i]?).map Thread.done).getD []

/-- The cell that a thread constructs an element in with its next step. -/
def Thread.target (t : Thread α) : Option Nat :=
  match t.phase with
  | .writing c index k => if k < c.writes then some ((index + k) % 2 ^ 32) else none
  | _ => none

end Vecmem
