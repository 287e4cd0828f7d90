import Verif.Model.Wrappers

/-!
# `is_equal` of the memory resources
-/

namespace Vecmem

/-- The kinds of memory that the SYCL resources allocate.
Code: `sycl/src/memory/device_memory_resource.sycl`, `host_memory_resource.sycl` and `shared_memory_resource.sycl`. -/
inductive SyclKind
  | device | host | shared
  deriving DecidableEq, Repr

/-- The classes that use `memory_resource_base::do_is_equal`: all others of the core library.
Code: `core/src/memory/details/memory_resource_base.cpp`. -/
inductive ObjKind
  | arena | binaryPage | choice | coalescing | conditional | contiguous | debug | instrumenting | pool
  deriving DecidableEq, Repr

/-- A memory resource object, as far as `is_equal` looks at it. Objects of the classes that compare addresses have a number,
which stands for the address.
Code: `core/src/memory/`, `cuda/src/memory/`, `hip/src/memory/` and `sycl/src/memory/memory_resource_base.sycl`. -/
inductive Rsc
  | host                             -- `host_memory_resource`
  | terminal                         -- `terminal_memory_resource`
  | cudaHost | cudaManaged           -- `cuda::host_memory_resource`, `cuda::managed_memory_resource`
  | cudaDevice (device : Int)        -- `cuda::device_memory_resource`
  | hipHost | hipManaged
  | hipDevice (device : Int)
  | sycl (kind : SyclKind) (queue : Nat)
  | object (kind : ObjKind) (address : Nat)
  | identity (up : Rsc)              -- `identity_memory_resource`
  | synchronized (up : Rsc)          -- `synchronized_memory_resource`
  deriving DecidableEq, Repr

/-- `is_equal`:
core/src/memory/host_memory_resource.cpp L100-109, terminal_memory_resource.cpp L39-46 (same type),
cuda/src/memory/host_memory_resource.cpp L48-53, managed_memory_resource.cpp L48-53 and the same for HIP (same type),
cuda/src/memory/device_memory_resource.cpp L63-75, hip/src/memory/device_memory_resource.cpp L56-65 (same type and device),
sycl/src/memory/memory_resource_base.sycl L34-43 (any SYCL resource with the same queue),
core/src/memory/details/memory_resource_base.cpp L13-19 (same object),
core/src/memory/identity_memory_resource.cpp L45-55, core/src/memory/synchronized_memory_resource.cpp L59-73. -/
def Rsc.isEqual : Rsc → Rsc → Bool
  | .host, .host => true
  | .terminal, .terminal => true
  | .cudaHost, .cudaHost => true
  | .cudaManaged, .cudaManaged => true
  | .cudaDevice d, .cudaDevice d' => d' == d
  | .hipHost, .hipHost => true
  | .hipManaged, .hipManaged => true
  | .hipDevice d, .hipDevice d' => d' == d
  | .sycl _ q, .sycl _ q' => q' == q
  | .object _ a, .object _ a' => a == a'
  | .identity up, .identity up' => up.isEqual up'
  | .synchronized up, .synchronized up' => up.isEqual up'
  | .synchronized up, other => up.isEqual other
  | _, _ => false

variable {σ : Type}

/-- The resources at the bottom, on the state of the whole machine: what they do depends on the class and on what the object
holds. A SYCL resource gives memory back in the same way for all kinds of memory
(sycl/src/memory/memory_resource_base.sycl L23-32). -/
structure Machine (σ : Type) where
  host : MR σ
  cudaHost : MR σ
  cudaManaged : MR σ
  cudaDevice : Int → MR σ
  hipHost : MR σ
  hipManaged : MR σ
  hipDevice : Int → MR σ
  syclAllocate : SyclKind → Nat → σ → Nat → Nat → Res Nat × σ
  syclDeallocate : Nat → σ → Nat → Nat → Nat → Res Unit × σ
  object : Nat → MR σ

/-- What a resource does. A `synchronized_memory_resource` forwards (core/src/memory/synchronized_memory_resource.cpp L45-57);
what its mutex is for is the subject of C25. -/
def Rsc.mr (M : Machine σ) : Rsc → MR σ
  | .host => M.host
  | .terminal => terminalMR
  | .cudaHost => M.cudaHost
  | .cudaManaged => M.cudaManaged
  | .cudaDevice d => M.cudaDevice d
  | .hipHost => M.hipHost
  | .hipManaged => M.hipManaged
  | .hipDevice d => M.hipDevice d
  | .sycl kind q => ⟨M.syclAllocate kind q, M.syclDeallocate q⟩
  | .object _ a => M.object a
  | .identity up => identityMR (up.mr M)
  | .synchronized up => up.mr M

end Vecmem
