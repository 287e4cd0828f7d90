import Verif.Spec.WeakCounters

/-!
# Specification: variables that threads change in loops with `compare_exchange_strong` (C88)
-/

namespace Vecmem

variable {w : Nat}

/-- What changes of variables make of the value `v` of variable `a`, one after the other. -/
def applied (a : Nat) (us : List (Nat × (BitVec w → BitVec w))) (v : BitVec w) : BitVec w := (us.filter fun u => decide (u.1 = a)).foldl (fun v u => u.2 v) v

end Vecmem
