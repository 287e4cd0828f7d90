import Verif.Model.WeakAccess
import Verif.Spec.WeakVector

/-!
# Specification: kernels that load and store elements, on weak memory (C81)
-/

namespace Vecmem

/-- The programs of the threads of a kernel; all other threads do nothing. -/
def accessCode (loc : Cell → Option (Nat × Nat)) (ps : List KProg) : Nat → WProg 32 := fun i => (ps[i]?.getD .done).code loc

/-- A kernel whose threads load and store elements, which are at the places given by `loc`, turns memory `mem` into `mem'`: all bytes are variables of the weak memory; the threads run to their ends; the bytes
then have the values that the variables have in the end. -/
def AccessKernel (I : WImpl 32) (loc : Cell → Option (Nat × Nat)) (ps : List KProg) (mem mem' : Mem) : Prop :=
  ∃ s : WRun 32, WRun.Reach I (byteVars mem) (accessCode loc ps) s ∧ (∀ i, s.prog i = .done) ∧ ∀ a, s.sys.trace.Final (byteVars mem) a (byteVars mem' a)

end Vecmem
