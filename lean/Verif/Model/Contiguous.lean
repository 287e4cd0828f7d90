import Verif.Spec.Resource
import Verif.Model.Align

/-!
# Model of `contiguous_memory_resource`

`core/src/memory/details/contiguous_memory_resource_impl.cpp`,
`core/src/memory/contiguous_memory_resource.cpp`
-/

namespace Vecmem

open IntMath

/-- `VECMEM_MEMORY_RESOURCE_PIMPL_IMPL`, details/memory_resource_impl.hpp:19-38: zero-byte requests
give null and null deallocations are ignored before the implementation class is called.  Move
constructors/assignments (lines 20-22) are not modelled: they transfer the implementation object. -/
def pimpl {σ : Type} (impl : MR σ) : MR σ where
  allocate s size alignment := if size = 0 then (.ok 0, s) else impl.allocate s size alignment
  deallocate s ptr size alignment :=
    if ptr = 0 then (.ok (), s) else impl.deallocate s ptr size alignment

/-- Data members of `contiguous_memory_resource_impl` (contiguous_memory_resource_impl.hpp:34-42). -/
structure Contig where
  size : Nat
  beg : Nat
  next : Nat
deriving DecidableEq, Repr

namespace Contig

variable {σ : Type}

/-- Constructor, contiguous_memory_resource_impl.cpp:21-31: one upstream allocation with the default
alignment. -/
def create (up : MR σ) (u : σ) (size : Nat) : Res Contig × σ :=
  let r := up.allocate u size maxAlign
  (r.1.map fun p => { size := size, beg := p, next := p }, r.2)

/-- Destructor, contiguous_memory_resource_impl.cpp:33-41. -/
def destroy (up : MR σ) (s : Contig × σ) : Res Unit × σ :=
  up.deallocate s.2 s.1.beg s.1.size maxAlign

/-- `allocate`, contiguous_memory_resource_impl.cpp:43-80. -/
def allocate (c : Contig) (size alignment : Nat) : Res Nat × Contig :=
  if size = 0 then (.ok 0, c)
  else if c.next < c.beg then (.ub, c)  -- line 54, assert(m_next >= m_begin)
  else
    let rem := wrap64 (c.size + 2 ^ 64 - (c.next - c.beg))
    match stdAlign alignment size c.next rem with
    | some (q, _) => (.ok q, { c with next := q + size })
    | none => (.badAlloc, c)

/-- The implementation class as a resource; `deallocate` (lines 82-88) does nothing.
Code: `core/src/memory/details/contiguous_memory_resource_impl.cpp`. -/
def impl : MR (Contig × σ) where
  allocate s size alignment := let r := s.1.allocate size alignment; (r.1, (r.2, s.2))
  deallocate s _ _ _ := (.ok (), s)

/-- `contiguous_memory_resource`, contiguous_memory_resource.cpp:17-22. -/
def mr : MR (Contig × σ) := pimpl impl

end Contig

end Vecmem
