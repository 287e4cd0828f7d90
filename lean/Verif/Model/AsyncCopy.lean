import Verif.Model.Copy

/-!
# Model of asynchronous copies on one stream

`vecmem::cuda::async_copy` gives its operations to a CUDA stream, which executes them one after the other, at any later
time.  Host programs (`Prog`) are executed in small steps here, interleaved with steps of the device.
-/

namespace Vecmem

/-- The host program that remains to be executed, the memory and the host's variables, and the operations on the stream
that were not executed yet, oldest first.
No counterpart in /repo: a CUDA stream (see `cuda/src/utils/cuda/async_copy.cpp`, lines 90-136, for what is given to it) and the host. -/
structure AConf (β : Type) where
  prog : Prog β
  st : DState
  queue : List COp

/-- One step.  `device`: the stream executes its oldest operation.  `issue`: `do_copy` and `do_memset`,
cuda/src/utils/cuda/async_copy.cpp:90-136; operations of size zero, which are skipped there, are put on the stream here, and
do nothing.  `event`: `create_event`, cuda/src/utils/cuda/async_copy.cpp:138-154; the event waits for all operations given
to the stream before, and is represented by their number.  `wait`: `cuda_event::wait`,
cuda/src/utils/cuda/async_copy.cpp:48-54, with `cudaEventSynchronize`; the host waits until the stream has executed these
operations.  (The event object is modelled by `CudaEvent`.)  The other steps are the host's own. -/
inductive AStep {β : Type} : AConf β → AConf β → Prop
  | device {p s t op q} : op.exec s = some t → AStep ⟨p, s, op :: q⟩ ⟨p, t, q⟩
  | issue {op k s q} : AStep ⟨.issue op k, s, q⟩ ⟨k, s, q ++ [op]⟩
  | event {k s q} : AStep ⟨.event k, s, q⟩ ⟨k (s.done + q.length), s, q⟩
  | wait {e k s q} : e ≤ s.done → AStep ⟨.wait e k, s, q⟩ ⟨k, s, q⟩
  | new {l k s q} : AStep ⟨.new l k, s, q⟩ ⟨k s.locals.length, { s with locals := s.locals ++ [l] }, q⟩
  | read {i k s q l} : s.locals[i]? = some l → AStep ⟨.read i k, s, q⟩ ⟨k l.bytes, s, q⟩
  | drop {k s q} : AStep ⟨.drop k, s, q⟩ ⟨k, { s with locals := s.locals.dropLast }, q⟩
  | load {p n k s q} : AStep ⟨.load p n k, s, q⟩ ⟨k (fun i => if i < n then s.mem (p + i) else 0), s, q⟩
  | poke {p n b k s q} : AStep ⟨.poke p n b k, s, q⟩ ⟨k, { s with mem := memPut s.mem p n b 0 }, q⟩

/-- A sequence of steps.
No counterpart in /repo: executions. -/
inductive ASteps {β : Type} : AConf β → AConf β → Prop
  | refl {c} : ASteps c c
  | step {c d e} : ASteps c d → AStep d e → ASteps c e

/-- Calls of the CUDA runtime by an event object: `cudaEventSynchronize` and `cudaEventDestroy`.
Code: `cuda/src/utils/cuda/async_copy.cpp`, lines 52 and 61. -/
inductive CudaCall where
  | synchronize (e : Nat)
  | destroy (e : Nat)
deriving DecidableEq, Repr

/-- The event object of CUDA, cuda/src/utils/cuda/async_copy.cpp:27-68: its `cudaEvent_t` (unless null), and the calls of
the CUDA runtime that were made. -/
structure CudaEvent where
  event : Option Nat
  log : List CudaCall := []

namespace CudaEvent

/-- `ignore`, cuda/src/utils/cuda/async_copy.cpp:57-63. -/
def ignore (c : CudaEvent) : CudaEvent :=
  match c.event with
  | none => c
  | some e => { event := none, log := c.log ++ [.destroy e] }

/-- `wait`, cuda/src/utils/cuda/async_copy.cpp:48-54. -/
def wait (c : CudaEvent) : CudaEvent :=
  match c.event with
  | none => c
  | some e => ignore { c with log := c.log ++ [.synchronize e] }

/-- The destructor, cuda/src/utils/cuda/async_copy.cpp:34-45, without `VECMEM_FAIL_ON_ASYNC_ERRORS`. -/
def destruct (c : CudaEvent) : CudaEvent :=
  match c.event with
  | none => c
  | some _ => c.wait

/-- Any number of calls of `wait` (true) and `ignore` (false), and then the destructor.
Code: `cuda/src/utils/cuda/async_copy.cpp`, lines 34-63. -/
def life (c : CudaEvent) (calls : List Bool) : CudaEvent :=
  (calls.foldl (fun c b => if b then c.wait else c.ignore) c).destruct

end CudaEvent

/-! ## Sequences of calls of a user -/

/-- A call of a function of the copy object.
Code: `core/include/vecmem/utils/copy.hpp` (the public functions). -/
inductive CopyCall where
  | setup (v : View)
  | memset (t : Nat) (v : View) (value : UInt8)
  | copy (t : Nat) (src dst : View)
  | toStd (t : Nat) (src : View) (resize : Nat → Nat)
  | setupJag (j : JagView)
  | memsetJag (t : Nat) (j : JagView) (value : UInt8)
  | copyJag (dbg : Bool) (t : Nat) (src dst : JagView)
  | toStdJag (dbg : Bool) (t : Nat) (src : JagView) (resize : List Nat → List Nat)
  | setSizes (sizes : List Nat) (vs : List View)
  | getSize (v : View)
  | getSizes (vs : List View)

/-- What it does: a program that returns the event (for `get_size` and `get_sizes`, which do not return one, and for
`set_sizes` with a vector that only lives until it was waited for, an event that waits for nothing).
Code: `core/include/vecmem/utils/impl/copy.ipp`, lines 29-327. -/
def CopyCall.prog : CopyCall → Prog Nat
  | .setup v => setupVec v
  | .memset t v value => memsetVec t v value
  | .copy t src dst => copyVec t src dst
  | .toStd t src resize => copyToStd t src resize
  | .setupJag j => Vecmem.setupJag j
  | .memsetJag t j value => Vecmem.memsetJag t j value
  | .copyJag dbg t src dst => Vecmem.copyJag dbg t src dst
  | .toStdJag dbg t src resize => copyJagToStd dbg t src resize
  | .setSizes sizes vs => (setSizesAndWait sizes vs).bind fun _ => .ret (.ok 0)
  | .getSize v => (Vecmem.getSize v).bind fun _ => .ret (.ok 0)
  | .getSizes vs => (Vecmem.getSizes vs).bind fun _ => .ret (.ok 0)

/-- A user's program: calls, each with whether its event is waited for or ignored, and then something else.
No counterpart in /repo: programs of users. -/
def calls {β : Type} (k : Prog β) : List (CopyCall × Bool) → Prog β
  | [] => k
  | (c, w) :: cs => c.prog.bind fun e => if w then .wait e (calls k cs) else calls k cs

/-- Calls, and in the end the stream is waited for.
No counterpart in /repo: programs of users. -/
def userProg (cs : List (CopyCall × Bool)) : Prog Unit := calls (Prog.sync (.ret (.ok ()))) cs

/-- Calls, a last call whose event is waited for, and then the host reads memory.
No counterpart in /repo: programs of users. -/
def userRead (cs : List (CopyCall × Bool)) (c : CopyCall) (p n : Nat) : Prog Mem :=
  calls (c.prog.bind fun e => .wait e (.load p n fun b => .ret (.ok b))) cs

/-! ## SYCL -/

/-- The program that remains, the memory and the host's variables, the operations that were not executed yet with their
numbers, how many operations there were, those collected for the next event (`m_events`), and the events there are.
Code: `sycl/src/utils/sycl/async_copy.sycl` (`m_events` and the events of `create_event`). -/
structure SConf (β : Type) where
  prog : Prog β
  st : DState
  pending : List (Nat × COp)
  issued : Nat
  collected : List Nat
  events : List (List Nat)

/-- One step with `vecmem::sycl::async_copy`.  `device`: the queue of a `queue_wrapper` (sycl/src/utils/sycl/queue_wrapper.sycl
and opaque_queue.hpp) is not an in-order queue, so that any of the operations may be executed.  `issue`: `do_copy` and
`do_memset` (with `VECMEM_HAVE_SYCL_MEMSET`), sycl/src/utils/sycl/async_copy.sycl:74-126; operations of size zero are not
skipped here, and do nothing.  `event`: `create_event`, sycl/src/utils/sycl/async_copy.sycl:128-136; events are numbered
starting from one, as zero is the event that does nothing.  `wait`: `sycl_event::wait`,
sycl/src/utils/sycl/async_copy.sycl:44-47: the host waits until the operations of the event were executed. -/
inductive SStep {β : Type} : SConf β → SConf β → Prop
  | device {p s t q i op q' n l ev} : op.exec s = some t → SStep ⟨p, s, q ++ (i, op) :: q', n, l, ev⟩ ⟨p, t, q ++ q', n, l, ev⟩
  | issue {op k s q n l ev} : SStep ⟨.issue op k, s, q, n, l, ev⟩ ⟨k, s, q ++ [(n, op)], n + 1, l ++ [n], ev⟩
  | event {k s q n l ev} : SStep ⟨.event k, s, q, n, l, ev⟩ ⟨k (ev.length + 1), s, q, n, [], ev ++ [l]⟩
  | wait {e k s q n l ev} : (∀ x ∈ q, e = 0 ∨ x.1 ∉ ev.getD (e - 1) []) → SStep ⟨.wait e k, s, q, n, l, ev⟩ ⟨k, s, q, n, l, ev⟩
  | new {x k s q n l ev} :
    SStep ⟨.new x k, s, q, n, l, ev⟩ ⟨k s.locals.length, { s with locals := s.locals ++ [x] }, q, n, l, ev⟩
  | read {i k s q x n l ev} : s.locals[i]? = some x → SStep ⟨.read i k, s, q, n, l, ev⟩ ⟨k x.bytes, s, q, n, l, ev⟩
  | drop {k s q n l ev} : SStep ⟨.drop k, s, q, n, l, ev⟩ ⟨k, { s with locals := s.locals.dropLast }, q, n, l, ev⟩
  | load {p c k s q n l ev} :
    SStep ⟨.load p c k, s, q, n, l, ev⟩ ⟨k (fun i => if i < c then s.mem (p + i) else 0), s, q, n, l, ev⟩
  | poke {p c b k s q n l ev} : SStep ⟨.poke p c b k, s, q, n, l, ev⟩ ⟨k, { s with mem := memPut s.mem p c b 0 }, q, n, l, ev⟩

/-- A sequence of steps.
No counterpart in /repo: executions. -/
inductive SSteps {β : Type} : SConf β → SConf β → Prop
  | refl {c} : SSteps c c
  | step {c d e} : SStep c d → SSteps d e → SSteps c e

end Vecmem
