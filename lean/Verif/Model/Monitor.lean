import Verif.Model.Wrappers
import Verif.Model.IntMath
import Verif.Model.Double

/-!
# Model of `memory_monitor`

`core/src/utils/memory_monitor.cpp`
-/

namespace Vecmem

open IntMath

variable {σ η : Type}

/-- An upstream acting on the first component of a larger world (the rest belongs to the hooks).  Not
code: it places upstream next to the state of the hooks.
No counterpart in /repo: see above. -/
def liftFst (up : MR σ) : MR (σ × η) where
  allocate w n a := let r := up.allocate w.1 n a; (r.1, (r.2, w.2))
  deallocate w p n a := let r := up.deallocate w.1 p n a; (r.1, (r.2, w.2))

/-- Data members of `memory_monitor` (memory_monitor.hpp:57-64); `assertOk` records that no `assert` has
failed so far. -/
structure Monitor where
  nAlloc : Nat := 0
  total : Nat := 0
  outstanding : Nat := 0
  maximum : Nat := 0
  assertOk : Bool := true
deriving DecidableEq, Repr

namespace Monitor

/-- `post_allocate`, memory_monitor.cpp:52-63. -/
def postAllocate (m : Monitor) (size _align ptr : Nat) : Monitor :=
  if ptr = 0 then m
  else
    let out := wrap64 (m.outstanding + size)
    { m with
      nAlloc := wrap64 (m.nAlloc + 1)
      total := wrap64 (m.total + size)
      outstanding := out
      maximum := max out m.maximum }

/-- `pre_deallocate`, memory_monitor.cpp:65-69. -/
def preDeallocate (m : Monitor) (_ptr size _align : Nat) : Monitor :=
  { m with
    assertOk := m.assertOk && decide (size ≤ m.outstanding)
    outstanding := wrap64 (m.outstanding + 2 ^ 64 - size) }

/-- `total_allocation`, memory_monitor.cpp:31-34. -/
def totalAllocation (m : Monitor) : Nat := m.total

/-- `outstanding_allocation`, memory_monitor.cpp:36-39. -/
def outstandingAllocation (m : Monitor) : Nat := m.outstanding

/-- `maximal_allocation`, memory_monitor.cpp:47-50. -/
def maximalAllocation (m : Monitor) : Nat := m.maximum

/-- `average_allocation`, memory_monitor.cpp:41-45, in the arithmetic of `double`.  With no allocation the code converts a NaN to
`std::size_t`, which is undefined, and so is the conversion of a number that is too large. -/
def averageAllocation (m : Monitor) : Res Nat :=
  if m.nAlloc = 0 then .ub
  else
    let a := Double.stdRound (Double.div (Double.ofSize m.total) (Double.ofSize m.nAlloc))
    if a < 2 ^ 64 then .ok a.toNat else .ub

/-- Constructor, memory_monitor.cpp:19-29: registers the two hooks with the resource.  The monitor lives
in the second component of the world. -/
def attach (s : Instr (σ × Monitor)) : Instr (σ × Monitor) :=
  (s.addPostAlloc (fun w n a p => (w.1, w.2.postAllocate n a p))).addPreDealloc
    (fun w p n a => (w.1, w.2.preDeallocate p n a))

end Monitor

end Vecmem
