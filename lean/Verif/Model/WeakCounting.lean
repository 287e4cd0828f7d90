import Verif.Model.WeakReading
import Verif.Spec.WeakCounters

/-!
# Model of kernels that read inputs, and change elements of a vector with atomic operations, on weak memory

As a user would fill a histogram: threads load elements of input vectors, and change elements of another vector, of four bytes, with
`vecmem::device_atomic_ref<unsigned>(v[i]).fetch_add(x)` and the like, whose results they do not use.
-/

namespace Vecmem

/-- A call of `fetch_add`, `fetch_sub`, `fetch_and`, `fetch_or` or `fetch_xor` on an element of a vector, with or without a memory order.
Code: `core/include/vecmem/memory/impl/posix_device_atomic_ref.ipp`, lines 110-149 (the arguments of such calls). -/
structure CountCall where
  index : Nat
  op : AOp 32
  order : Option MemOrder
  fetches : ∃ k, op.IsOf k

/-- The accesses of the call on the vector with `n` elements, of which element `i` is variable `C i` of the machine; `k` is left to be done.  Behaviour is undefined if there is no such element.
Code: `core/include/vecmem/containers/impl/device_vector.ipp`, lines 62-100; `core/include/vecmem/memory/impl/posix_device_atomic_ref.ipp`, lines 110-149;
`core/include/vecmem/memory/impl/cuda_device_atomic_ref.ipp`, lines 113-146; `core/include/vecmem/memory/impl/sycl_custom_device_atomic_ref.ipp`, lines 130-168.
Simplification: the view and its size, which the kernel does not change, are not read on weak memory. -/
def CountCall.code (C : Nat → Nat) (n : Nat) (x : CountCall) (k : WProg 32) : WProg 32 :=
  if x.index < n then .act (C x.index) (.atomic x.op x.order) fun _ => k else .failed

end Vecmem
