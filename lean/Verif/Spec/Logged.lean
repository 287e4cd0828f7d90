import Verif.Spec.Resource

/-! # Specification: a resource whose calls are recorded -/

namespace Vecmem

/-- The resource `m`, recording every call made to it (oldest first). -/
def logged {σ : Type} (m : MR σ) : MR (σ × List Call) where
  allocate s n a := let r := m.allocate s.1 n a; (r.1, (r.2, s.2 ++ [.alloc n a]))
  deallocate s p n a := let r := m.deallocate s.1 p n a; (r.1, (r.2, s.2 ++ [.free p n a]))

end Vecmem
