import Verif.Model.WeakVector

/-!
# Model of kernels that read inputs, and change variables in loops with `compare_exchange_strong`, on weak memory

As a user would write operations that `vecmem::device_atomic_ref` does not have, such as a maximum:

    T old = ref.load();
    while (!ref.compare_exchange_strong(old, f(old))) { old = ref.load(); }
-/

namespace Vecmem

variable {w : Nat}

/-- Try to replace the value `x` of variable `a` by `f x`, at most `n` times; then `next` is left to be done.  A thread that has not succeeded is in the state `.failed`: it would try again (simplification: any number
of times is allowed, but it is fixed in advance).  `compare_exchange_strong` has found the value that was expected if it returns true.
Code: `core/include/vecmem/memory/impl/posix_device_atomic_ref.ipp`, lines 67-109; `core/include/vecmem/memory/impl/cuda_device_atomic_ref.ipp`, lines 56-111;
`core/include/vecmem/memory/impl/sycl_custom_device_atomic_ref.ipp`, lines 87-128 (as modelled in `Model/WeakMemory`). -/
def tryUpdate (a : Nat) (f : BitVec w → BitVec w) (next : WProg w) : Nat → WProg w
  | 0 => .failed
  | n + 1 => .act a (.atomic .load none) fun r => .act a (.atomic (.compareExchange (r.getD 0) (f (r.getD 0))) none) fun r' => if r' = r then next else tryUpdate a f next n

/-- The same loop with `vecmem::atomic` in device code, whose `compare_exchange_strong` returns the old value, as a truth value.
Code: `core/include/vecmem/memory/impl/atomic.ipp`, lines 52-68 and 86-105 (the first branches). -/
def tryUpdateClass (a : Nat) (f : BitVec w → BitVec w) (next : WProg w) : Nat → WProg w
  | 0 => .failed
  | n + 1 => .act a (.atomic .load none) fun r => .act a (.atomic (.compareExchange (r.getD 0) (f (r.getD 0))) none) fun r' => if r' = some 0 then tryUpdateClass a f next n else next

/-- What a thread still does: nothing; read a variable, and go on depending on its value; or change a variable in a loop.
No counterpart in /repo: kernels of users. -/
inductive LoopProg (w : Nat) where
  | done
  | read (a : Nat) (next : BitVec w → LoopProg w)
  | update (a : Nat) (f : BitVec w → BitVec w) (next : LoopProg w)

namespace LoopProg

/-- The accesses of a thread, which tries at most `n` times in each loop.
No counterpart in /repo: kernels of users. -/
def code (n : Nat) : LoopProg w → WProg w
  | .done => .done
  | .read a next => .act a .read fun r => (next (r.getD 0)).code n
  | .update a f next => tryUpdate a f (next.code n) n

/-- The changes that a thread makes, if the variables that it reads have the values `m`.
No counterpart in /repo: kernels of users. -/
def updates (m : AMem w) : LoopProg w → List (Nat × (BitVec w → BitVec w))
  | .done => []
  | .read a next => (next (m a)).updates m
  | .update a f next => (a, f) :: next.updates m

/-- The thread only reads inputs, and changes other variables.
No counterpart in /repo: kernels of users. -/
def Loops (input : Nat → Bool) : LoopProg w → Prop
  | .done => True
  | .read a next => input a = true ∧ ∀ x, (next x).Loops input
  | .update a _ next => input a = false ∧ next.Loops input

end LoopProg

end Vecmem
