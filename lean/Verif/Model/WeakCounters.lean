import Verif.Spec.WeakCounters
import Verif.Model.WeakVector

/-!
# Model of kernels that read inputs, and count, on weak memory

As a user would fill a histogram: threads read variables, and change others with the operations of `vecmem::device_atomic_ref`, whose results they do not use.
-/

namespace Vecmem

variable {w : Nat}

/-- What a thread still does: nothing; read a variable, and go on depending on its value; or change a variable with an atomic operation.
No counterpart in /repo: kernels of users. -/
inductive CountProg (w : Nat) where
  | done
  | read (a : Nat) (next : BitVec w → CountProg w)
  | update (a : Nat) (op : AOp w) (order : Option MemOrder) (next : CountProg w)

namespace CountProg

/-- The accesses of a thread.
Code: `core/include/vecmem/memory/impl/posix_device_atomic_ref.ipp`, lines 110-149; `core/include/vecmem/memory/impl/cuda_device_atomic_ref.ipp`, lines 113-146;
`core/include/vecmem/memory/impl/sycl_custom_device_atomic_ref.ipp`, lines 130-168 (as modelled in `Model/WeakMemory`). -/
def code : CountProg w → WProg w
  | .done => .done
  | .read a next => .act a .read fun r => (next (r.getD 0)).code
  | .update a op order next => .act a (.atomic op order) fun _ => next.code

/-- The operations that a thread makes, if the variables that it reads have the values `m`.
No counterpart in /repo: kernels of users. -/
def updates (m : AMem w) : CountProg w → List (Nat × AOp w)
  | .done => []
  | .read a next => (next (m a)).updates m
  | .update a op _ next => (a, op) :: next.updates m

/-- The thread only reads inputs, and changes other variables with operations of their kinds.
No counterpart in /repo: kernels of users. -/
def Counts (input : Nat → Bool) (kind : Nat → AKind) : CountProg w → Prop
  | .done => True
  | .read a next => input a = true ∧ ∀ x, (next x).Counts input kind
  | .update a op _ next => input a = false ∧ op.IsOf (kind a) ∧ next.Counts input kind

end CountProg

end Vecmem
