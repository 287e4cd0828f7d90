import Verif.Model.IntMath

/-!
# Model of `std::align` and of `core/src/memory/details/is_aligned.cpp`
-/

namespace Vecmem

open IntMath

/-- `std::align(alignment, size, ptr, space)` ([ptr.align] in the C++ standard): the first multiple of
`alignment` at or after `ptr`, provided `size` bytes fit there into the remaining `space`.  Gives the
new values of `ptr` (also the return value) and `space`; `none` is a null return, with both unchanged.
Code: called in `core/src/memory/details/contiguous_memory_resource_impl.cpp`, line 62, `core/src/memory/details/is_aligned.cpp`, line 27, and `core/src/memory/host_memory_resource.cpp`, line 63. -/
def stdAlign (alignment size ptr space : Nat) : Option (Nat × Nat) :=
  let pad := (alignment - ptr % alignment) % alignment
  if size + pad ≤ space then some (ptr + pad, space - pad) else none

/-- `is_aligned`, is_aligned.cpp:18-28: `size` and `space` are wrapping `std::size_t` products. -/
def isAligned (ptr alignment : Nat) : Bool :=
  let size := wrap64 (2 * alignment)
  let space := wrap64 (4 * alignment)
  (match stdAlign alignment size ptr space with
    | some (q, _) => q
    | none => 0) == ptr

end Vecmem
