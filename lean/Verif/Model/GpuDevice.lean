/-!
# Device selection in the CUDA and HIP libraries

The runtime is modelled by the device that the calling thread has selected, by what each call answers (any sequence of
successes and failures), and by a record of the calls. A call that fails changes nothing.
-/

namespace Vecmem

/-- A call to the runtime: `cudaGetDevice`, `cudaSetDevice`, `cudaMalloc`, `cudaFree`, `cudaStreamCreate`, `cudaMemcpy` or
`cudaMemset`, and the same for HIP.
No counterpart in /repo: the runtime. -/
inductive GCall
  | getDevice
  | setDevice (d : Int)
  | malloc (bytes : Nat)
  | free (p : Nat)
  | streamCreate
  | copy (bytes : Nat)
  deriving DecidableEq, Repr

/-- A call that has been made, the device selected at that time, and whether it has succeeded.
No counterpart in /repo: the runtime. -/
structure GEvent where
  call : GCall
  dev : Int
  ok : Bool
  deriving DecidableEq, Repr

/-- The runtime as the caller cannot know it: whether a call will succeed, which may depend on all that has happened, and
where memory is allocated.
No counterpart in /repo: the runtime. -/
structure GRuntime where
  answer : List GEvent → GCall → Int → Bool
  address : List GEvent → Nat

/-- The state: the device that is selected, the calls made, the devices of the memory resources (`m_device`) and of the
streams that have been made, the pointers that have been allocated, and the devices named in debug messages about
streams.
Code: `cuda/src/memory/device_memory_resource.cpp` and `hip/src/memory/device_memory_resource.cpp` (`m_device`); otherwise the runtime. -/
structure Gpu where
  dev : Int
  trace : List GEvent
  resources : List Int
  streams : List Int
  ptrs : List Nat
  messages : List Int
  deriving DecidableEq, Repr

/-- How code ends: normally, with an exception, or by `std::terminate` because a destructor has thrown.
No counterpart in /repo: C++ exceptions. -/
inductive GEnd
  | done | exc | terminate
  deriving DecidableEq, Repr

/-- The libraries.
Code: `cuda/` and `hip/`. -/
inductive GFlavour
  | cuda | hip
  deriving DecidableEq, Repr

/-- One call to the runtime.
No counterpart in /repo: the runtime. -/
def Gpu.call (R : GRuntime) (c : GCall) (g : Gpu) : Bool × Gpu :=
  let ok := R.answer g.trace c g.dev
  (ok, { g with
    dev := match c with
      | .setDevice d => if ok then d else g.dev
      | _ => g.dev
    trace := g.trace ++ [⟨c, g.dev, ok⟩] })

/-- `VECMEM_CUDA_ERROR_CHECK` (cuda/src/utils/cuda_error_handling.hpp L16-24) and the same for HIP: an exception if the call
fails. -/
def Gpu.check (R : GRuntime) (c : GCall) (g : Gpu) : GEnd × Gpu :=
  match g.call R c with
  | (true, g) => (.done, g)
  | (false, g) => (.exc, g)

/-- `get_device` (cuda/src/utils/cuda_wrappers.cpp L22-27, hip/src/utils/get_device.cpp L19-24): 0 if the call fails. -/
def Gpu.getDevice (R : GRuntime) (g : Gpu) : Int × Gpu :=
  match g.call R .getDevice with
  | (true, g') => (g.dev, g')
  | (false, g') => (0, g')

/-- The destructor of `select_device` (cuda/src/utils/select_device.cpp L24-30, hip/src/utils/select_device.cpp L25-28), run
when the scope has ended with `r`. An exception from it terminates the program, since destructors do not throw by default. -/
def Gpu.leave (R : GRuntime) (old : Int) (r : GEnd × Gpu) : GEnd × Gpu :=
  match r with
  | (.terminate, g) => (.terminate, g)
  | (e, g) =>
    match g.check R (.setDevice old) with
    | (.done, g) => (e, g)
    | (_, g) => (.terminate, g)

/-- The rest of the constructor, the body of the scope, and the destructor; the latter only if the constructor has
finished.
Code: `cuda/src/utils/select_device.cpp` and `hip/src/utils/select_device.cpp`. -/
def Gpu.within (R : GRuntime) (d old : Int) (body : Int → Gpu → GEnd × Gpu) (g : Gpu) : GEnd × Gpu :=
  match g.check R (.setDevice d) with
  | (.done, g) => Gpu.leave R old (body old g)
  | r => r

/-- A scope with a `select_device`: constructor, body, destructor (cuda/src/utils/select_device.cpp L14-30,
hip/src/utils/select_device.cpp L20-28, hip/src/utils/run_on_device.hpp L26-34). The body is given the device that the object
remembers. -/
def Gpu.select (fl : GFlavour) (R : GRuntime) (d : Int) (body : Int → Gpu → GEnd × Gpu) (g : Gpu) : GEnd × Gpu :=
  match fl with
  | .cuda =>
    match g.check R .getDevice with
    | (.done, g') => g'.within R d g.dev body
    | r => r
  | .hip =>
    match g.getDevice R with
    | (old, g') => g'.within R d old body

/-- `INVALID_DEVICE` (cuda/include/vecmem/memory/cuda/device_memory_resource.hpp L29, and in the other classes). -/
def invalidDevice : Int := -1

/-- The constructor of `device_memory_resource` (cuda/src/memory/device_memory_resource.cpp L23-28,
hip/src/memory/device_memory_resource.cpp L21-22). -/
def Gpu.makeResource (R : GRuntime) (device : Int) (g : Gpu) : GEnd × Gpu :=
  if device = invalidDevice then
    match g.getDevice R with
    | (d, g) => (.done, { g with resources := g.resources ++ [d] })
  else (.done, { g with resources := g.resources ++ [device] })

/-- `device_memory_resource::do_allocate` (cuda/src/memory/device_memory_resource.cpp L32-47,
hip/src/memory/device_memory_resource.cpp L26-40), for the resource with the number `k`. The pointer goes to `ptrs`. -/
def Gpu.allocate (fl : GFlavour) (R : GRuntime) (k bytes : Nat) (g : Gpu) : GEnd × Gpu :=
  match g.resources[k]? with
  | none => (.done, g)
  | some d =>
    if bytes = 0 then (.done, { g with ptrs := g.ptrs ++ [0] })
    else g.select fl R d fun _ g =>
      match g.check R (.malloc bytes) with
      | (.done, g') => (.done, { g' with ptrs := g'.ptrs ++ [R.address g.trace] })
      | (e, g') => (e, g')

/-- `device_memory_resource::do_deallocate` (cuda/src/memory/device_memory_resource.cpp L49-61,
hip/src/memory/device_memory_resource.cpp L42-54). -/
def Gpu.deallocate (fl : GFlavour) (R : GRuntime) (k p : Nat) (g : Gpu) : GEnd × Gpu :=
  match g.resources[k]? with
  | none => (.done, g)
  | some d =>
    if p = 0 then (.done, g)
    else g.select fl R d fun _ g => g.check R (.free p)

/-- The constructor of `stream_wrapper` (cuda/src/utils/stream_wrapper.cpp L25-39) with that of `opaque_stream`
(cuda/src/utils/opaque_stream.cpp L15-18). A stream belongs to the device selected when it is made. The message names
`dev_selector.device()` (select_device.cpp L32-35). HIP has no such class. -/
def Gpu.makeStream (R : GRuntime) (device : Int) (g : Gpu) : GEnd × Gpu :=
  let dg := if device = invalidDevice then g.getDevice R else (device, g)
  dg.2.select .cuda R dg.1 fun old g =>
    match g.check R .streamCreate with
    | (.done, g') => (.done, { g' with streams := g'.streams ++ [g.dev], messages := g'.messages ++ [old] })
    | (e, g') => (e, g')

/-- `copy::do_copy` and `do_memset` (cuda/src/utils/cuda/copy.cpp L30-74, hip/src/utils/hip/copy.cpp L30-74), for a number of
bytes that is not 0: no device is selected. -/
def Gpu.copy (R : GRuntime) (bytes : Nat) (g : Gpu) : GEnd × Gpu :=
  if bytes = 0 then (.done, g) else g.check R (.copy bytes)

/-- Programs that use the library, with nested scopes.
No counterpart in /repo: programs of users. -/
inductive GProg
  | skip
  | throw
  | makeResource (device : Int)
  | allocate (k bytes : Nat)
  | deallocate (k p : Nat)
  | makeStream (device : Int)
  | copy (bytes : Nat)
  | seq (p q : GProg)
  | tryCatch (p q : GProg)
  | onDevice (d : Int) (p : GProg)

/-- The meaning of a program.
No counterpart in /repo: programs of users. -/
def GProg.run (fl : GFlavour) (R : GRuntime) : GProg → Gpu → GEnd × Gpu
  | .skip, g => (.done, g)
  | .throw, g => (.exc, g)
  | .makeResource d, g => g.makeResource R d
  | .allocate k b, g => g.allocate fl R k b
  | .deallocate k p, g => g.deallocate fl R k p
  | .makeStream d, g => g.makeStream R d
  | .copy b, g => g.copy R b
  | .seq p q, g =>
    match p.run fl R g with
    | (.done, g) => q.run fl R g
    | r => r
  | .tryCatch p q, g =>
    match p.run fl R g with
    | (.exc, g) => q.run fl R g
    | r => r
  | .onDevice d p, g => g.select fl R d fun _ g => p.run fl R g

end Vecmem
