import Verif.Spec.Family

/-! # Specification: zero-byte requests and null deallocations -/

namespace Vecmem

/-- From any state, and for any list of calls whatsoever, zero-byte requests are answered by null and null
deallocations succeed, and apart from these answers everything is as if these calls had not been made. -/
def Conventional {σ : Type} (m : MR σ) : Prop :=
  ∀ (s : σ) (calls : List Call),
    let others := m.run s (calls.filter (fun c => !c.isTrivial))
    m.run s calls = (weave calls others.1, others.2)

end Vecmem
