import Verif.Model.Align
import Verif.Spec.CLibrary

/-!
# Model of `host_memory_resource`

`core/src/memory/host_memory_resource.cpp`.  The C library is a parameter; its own bookkeeping is part of its
state `σ` and not of the modelled memory.
-/

namespace Vecmem

open IntMath

variable {σ : Type}

/-- `host_memory_resource` without `std::aligned_alloc`: lines 26-33, 46-77 and 80-97 (lines 94-96).  The
failing assertion of line 69 is `ub`.
Code: `core/src/memory/host_memory_resource.cpp`. -/
def hostMallocMR (c : CLib σ) : MR (σ × Mem) where
  allocate s bytes alignment :=
    if bytes = 0 then (.ok 0, s)
    else
      let allocBytes := wrap64 (bytes + alignment + 8 - 1)
      let r := c.malloc s.1 allocBytes
      if r.1 = 0 then (.badAlloc, (r.2, s.2))
      else
        let ptr := r.1 + 8
        let alignBytes := wrap64 (allocBytes + 2 ^ 64 - 8)
        match stdAlign alignment bytes ptr alignBytes with
        | none => (.ub, (r.2, s.2))
        | some (q, _) => (.ok q, (r.2, writeLE s.2 (q - 8) 8 r.1))
  deallocate s ptr _ _ :=
    if ptr = 0 then (.ok (), s)
    else
      let r := c.free s.1 (readLE s.2 (ptr - 8) 8)
      (r.1, (r.2, s.2))

/-- `host_memory_resource` with `std::aligned_alloc`: lines 26-45, 74-77 and 80-92.
Code: `core/src/memory/host_memory_resource.cpp`. -/
def hostAlignedMR (c : CLib σ) : MR σ where
  allocate s bytes alignment :=
    if bytes = 0 then (.ok 0, s)
    else
      let align := max alignment maxAlign
      let size := wrap64 (bytes + (align - bytes % align))
      let r := c.alignedAlloc s align size
      if r.1 = 0 then (.badAlloc, r.2) else (.ok r.1, r.2)
  deallocate s ptr _ _ :=
    if ptr = 0 then (.ok (), s) else c.free s ptr

end Vecmem
