import Verif.Model.GpuDevice
import Verif.Spec.GpuMemory

/-!
# Model of the memory resources for GPUs

The runtimes are parameters.  `std::terminate` is `ub`.  (Which device is selected during the calls is the subject of
`Model/GpuDevice`.)
-/

namespace Vecmem

variable {σ : Type}

/-- A scope with a `select_device` object (cuda/src/utils/select_device.cpp:14-30, hip/src/utils/select_device.cpp:20-28,
hip/src/utils/run_on_device.hpp:26-34): a failing call is a `runtime_error` (cuda/src/utils/cuda_error_handling.cpp:20-30,
hip/src/utils/hip_error_handling.cpp:20-30), also when the code of the scope throws; in the destructor it terminates the
program. -/
def withDevice {α : Type} (fl : GFlavour) (g : GpuLib σ) (d : Int) (body : σ → Res α × σ) (s : σ) : Res α × σ :=
  let go (old : Int) (s : σ) : Res α × σ :=
    match g.setDevice s d with
    | (false, s) => (.runtimeError, s)
    | (true, s) =>
      let r := body s
      match g.setDevice r.2 old with
      | (true, s) => (r.1, s)
      | (false, s) => (.ub, s)
  match fl, g.getDevice s with
  | _, (some old, s) => go old s
  | .cuda, (none, s) => (.runtimeError, s)
  | .hip, (none, s) => go 0 s

/-- `VECMEM_CUDA_ERROR_CHECK` around a function that allocates.
Code: `cuda/src/utils/cuda_error_handling.hpp`, `hip/src/utils/hip_error_handling.hpp`. -/
def checkAlloc (r : Option Nat × σ) : Res Nat × σ :=
  match r with
  | (some p, s) => (.ok p, s)
  | (none, s) => (.runtimeError, s)

/-- `VECMEM_CUDA_ERROR_CHECK` around a function that frees.
Code: `cuda/src/utils/cuda_error_handling.hpp`, `hip/src/utils/hip_error_handling.hpp`. -/
def checkFree (r : Bool × σ) : Res Unit × σ :=
  match r with
  | (true, s) => (.ok (), s)
  | (false, s) => (.runtimeError, s)

/-- The allocation function of the runtime, for the kinds of memory: cuda/src/memory/{device_memory_resource.cpp:38-43, host_memory_resource.cpp:30-32,
managed_memory_resource.cpp:30-32}, hip/src/memory/{device_memory_resource.cpp:32-36, host_memory_resource.cpp:29-31,
managed_memory_resource.cpp:30-32}. -/
def gpuAllocate (fl : GFlavour) (g : GpuLib σ) (s : σ) (n : Nat) : GpuRes → Res Nat × σ
  | .device d => withDevice fl g d (fun s => checkAlloc (g.malloc s n)) s
  | .host => checkAlloc (g.mallocHost s n)
  | .managed => checkAlloc (g.mallocManaged s n)

/-- The function that frees: cuda/src/memory/{device_memory_resource.cpp:55-60, host_memory_resource.cpp:43-45,
managed_memory_resource.cpp:43-45}, hip/src/memory/{device_memory_resource.cpp:49-53, host_memory_resource.cpp:42-44,
managed_memory_resource.cpp:43-45}. -/
def gpuFree (fl : GFlavour) (g : GpuLib σ) (s : σ) (p : Nat) : GpuRes → Res Unit × σ
  | .device d => withDevice fl g d (fun s => checkFree (g.free s p)) s
  | .host => checkFree (g.freeHost s p)
  | .managed => checkFree (g.free s p)

/-- `do_allocate` and `do_deallocate` of the classes (same files, cuda: 32-61, 24-46, 24-46; hip: 26-54, 23-45, 24-46).  The
alignment is ignored.
Code: `device_memory_resource.cpp`, `host_memory_resource.cpp` and `managed_memory_resource.cpp`. -/
def gpuMR (fl : GFlavour) (g : GpuLib σ) (k : GpuRes) : MR σ where
  allocate s n _ := if n = 0 then (.ok 0, s) else gpuAllocate fl g s n k
  deallocate s p _ _ := if p = 0 then (.ok (), s) else gpuFree fl g s p k

/-- The memory resources of SYCL, each with its queue: sycl/src/memory/{device_memory_resource.sycl:23-51,
host_memory_resource.sycl:23-46, shared_memory_resource.sycl:23-51, memory_resource_base.sycl:23-32}. -/
def syclMR (g : SyclLib σ) (k : SyclMem × Nat) : MR σ where
  allocate s n a :=
    if n = 0 then (.ok 0, s)
    else
      let r := g.alloc k.1 s a n k.2
      if r.1 = 0 then (.badAlloc, r.2) else (.ok r.1, r.2)
  deallocate s p _ _ := if p = 0 then (.ok (), s) else g.free s p k.2

end Vecmem
