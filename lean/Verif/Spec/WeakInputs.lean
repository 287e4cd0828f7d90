import Verif.Spec.WeakVector
import Verif.Model.WeakVector

/-!
# Specification: programs that read what no thread writes (C82)
-/

namespace Vecmem

variable {w : Nat}

/-- The program accesses the variables in `ro` with ordinary reads only, whatever it has read before. -/
def WProg.OnlyReads (ro : Nat → Bool) : WProg w → Prop
  | .done => True
  | .failed => True
  | .act a c next => (ro a = true → c = .read) ∧ ∀ r, (next r).OnlyReads ro

/-- The program that is given the values of the variables in `ro`, and does not read them: what it does next depends on these values as if it had read them. -/
def WProg.given (ro : Nat → Bool) (m : AMem w) : WProg w → WProg w
  | .done => .done
  | .failed => .failed
  | .act a c next => if ro a then (next (some (m a))).given ro m else .act a c fun r => (next r).given ro m

/-- The accesses to other variables. -/
def WTrace.elsewhere (ro : Nat → Bool) (tr : WTrace w) : WTrace w := tr.filter fun e => !ro e.addr

end Vecmem
