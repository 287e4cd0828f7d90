/-!
# Model of the wrappers around CUDA streams and SYCL queues

The runtimes' streams and queues are numbered; those that the program obtained elsewhere are external.  Wrappers are
numbered as well.  `none` as the outcome of an operation means that the program is wrong: it constructs a wrapper where
one exists already, or uses one that does not exist.
-/

namespace Vecmem

/-- A stream or queue: one that a wrapper made, or one that the program brought along.
No counterpart in /repo: the runtime. -/
inductive Stream where
  | own (i : Nat)
  | ext (i : Nat)
deriving DecidableEq, Repr

/-- Operations on wrappers.
No counterpart in /repo: programs of users. -/
inductive WrapOp where
  /-- a new stream or queue -/
  | create (w : Nat)
  /-- a wrapper around an external stream or queue -/
  | view (w : Nat) (i : Nat)
  /-- a wrapper around what `v.stream()` or `v.queue()` returns -/
  | viewOf (w v : Nat)
  | copy (w v : Nat)
  | move (w v : Nat)
  | assign (w v : Nat)
  | moveAssign (w v : Nat)
  | destroy (w : Nat)
deriving Repr

/-- Change one entry.
No counterpart in /repo: programs of users. -/
def setAt {α : Type} (f : Nat → α) (i : Nat) (x : α) : Nat → α := fun j => if j = i then x else f j

/-! ## `vecmem::cuda::stream_wrapper` -/

/-- `stream_wrapper`, cuda/include/vecmem/utils/cuda/stream_wrapper.hpp:72-75: the bare pointer, and the stream that the
shared pointer manages, if any. -/
structure CudaWrap where
  stream : Stream
  managed : Option Nat
deriving DecidableEq, Repr

/-- All wrappers, the use counts of the shared pointers to the streams, the number of streams created, and the streams
destroyed, the last one first.
Code: `cuda/src/utils/stream_wrapper.cpp` (`m_managedStream`). -/
structure CudaState where
  wr : Nat → Option CudaWrap
  uses : Nat → Nat
  next : Nat
  destroyed : List Nat

namespace CudaState

/-- Nothing has happened yet.
No counterpart in /repo: programs of users. -/
def init : CudaState := ⟨fun _ => none, fun _ => 0, 0, []⟩

/-- Copy a shared pointer.
Code: `cuda/src/utils/stream_wrapper.cpp`, lines 44-66 (copies of `m_managedStream`). -/
def retain (s : CudaState) : Option Nat → CudaState
  | none => s
  | some m => { s with uses := setAt s.uses m (s.uses m + 1) }

/-- Drop a shared pointer; the last one destroys the stream: `~opaque_stream`, cuda/src/utils/opaque_stream.cpp:20-32. -/
def release (s : CudaState) : Option Nat → CudaState
  | none => s
  | some m =>
    { s with
      uses := setAt s.uses m (s.uses m - 1)
      destroyed := if s.uses m = 1 then m :: s.destroyed else s.destroyed }

/-- Put in or remove a wrapper.
No counterpart in /repo: programs of users. -/
def put (s : CudaState) (w : Nat) (c : Option CudaWrap) : CudaState := { s with wr := setAt s.wr w c }

/-- The member functions of `stream_wrapper`, cuda/src/utils/stream_wrapper.cpp:25-81.  The device that the stream is
made for is left out (see C48), and so are failures of `cudaStreamCreate`. -/
def step (s : CudaState) : WrapOp → Option CudaState
  -- 25-39 and cuda/src/utils/opaque_stream.cpp:15-18
  | .create w =>
    match s.wr w with
    | some _ => none
    | none => some ({ s with next := s.next + 1, uses := setAt s.uses s.next 1 }.put w (some ⟨.own s.next, some s.next⟩))
  -- 41-42
  | .view w i =>
    match s.wr w with
    | some _ => none
    | none => some (s.put w (some ⟨.ext i, none⟩))
  -- 41-42 and 83-86
  | .viewOf w v =>
    match s.wr w, s.wr v with
    | none, some c => some (s.put w (some ⟨c.stream, none⟩))
    | _, _ => none
  -- 44-45
  | .copy w v =>
    match s.wr w, s.wr v with
    | none, some c => some ((s.retain c.managed).put w (some ⟨c.stream, c.managed⟩))
    | _, _ => none
  -- 47-49
  | .move w v =>
    match s.wr w, s.wr v with
    | none, some c => some ((s.put v (some ⟨c.stream, none⟩)).put w (some ⟨c.stream, c.managed⟩))
    | _, _ => none
  -- 53-66
  | .assign w v =>
    match s.wr w, s.wr v with
    | some old, some c =>
      if w = v then some s
      else some (((s.retain c.managed).put w (some ⟨c.stream, c.managed⟩)).release old.managed)
    | _, _ => none
  -- 68-81
  | .moveAssign w v =>
    match s.wr w, s.wr v with
    | some old, some c =>
      if w = v then some s
      else some (((s.put v (some ⟨c.stream, none⟩)).put w (some ⟨c.stream, c.managed⟩)).release old.managed)
    | _, _ => none
  -- 51
  | .destroy w =>
    match s.wr w with
    | some old => some ((s.put w none).release old.managed)
    | none => none

/-- A program.
No counterpart in /repo: programs of users. -/
def run (s : CudaState) : List WrapOp → Option CudaState
  | [] => some s
  | op :: ops => (s.step op).bind fun s' => s'.run ops

end CudaState

/-! ## `vecmem::sycl::queue_wrapper` -/

/-- A pointer to an object of type `sycl::queue`: one that a wrapper allocated, or one of the program's.
Code: `sycl/src/utils/sycl/queue_wrapper.sycl` (`m_queue`). -/
inductive QueuePtr where
  | own (a : Nat)
  | ext (i : Nat)
deriving DecidableEq, Repr

/-- `queue_wrapper`, sycl/include/vecmem/utils/sycl/queue_wrapper.hpp:72-78: the bare pointer, and the object that the
unique pointer owns, if any. -/
structure SyclWrap where
  queue : QueuePtr
  managed : Option Nat
deriving DecidableEq, Repr

/-- All wrappers; the `sycl::queue` objects that wrappers allocated and have not deleted yet, with the queue that each
refers to (copies of a `sycl::queue` refer to the same queue); the numbers of objects and of queues made so far; and the
deleted objects, the last one first.  Addresses are not reused, so that pointers to deleted objects can be told.
Code: `sycl/src/utils/sycl/queue_wrapper.sycl` (`m_managedQueue`). -/
structure SyclState where
  wr : Nat → Option SyclWrap
  obj : Nat → Option Stream
  nextObj : Nat
  next : Nat
  deleted : List Nat

namespace SyclState

/-- Nothing has happened yet.
No counterpart in /repo: programs of users. -/
def init : SyclState := ⟨fun _ => none, fun _ => none, 0, 0, []⟩

/-- The queue that a pointer leads to; none if the object has been deleted.
Code: `sycl/src/utils/sycl/get_queue.sycl`. -/
def deref (s : SyclState) : QueuePtr → Option Stream
  | .own a => s.obj a
  | .ext i => some (.ext i)

/-- `std::make_unique<opaque_queue>(…)`: an object that refers to the given queue.
Code: `sycl/src/utils/sycl/queue_wrapper.sycl`, lines 21, 51 and 84. -/
def make (s : SyclState) (q : Stream) : SyclState :=
  { s with obj := setAt s.obj s.nextObj (some q), nextObj := s.nextObj + 1 }

/-- Delete the object that a unique pointer owned.
Code: `sycl/src/utils/sycl/queue_wrapper.sycl`, lines 73-115 (assignments to `m_managedQueue`). -/
def delete (s : SyclState) : Option Nat → SyclState
  | none => s
  | some a => { s with obj := setAt s.obj a none, deleted := a :: s.deleted }

/-- Put in or remove a wrapper.
No counterpart in /repo: programs of users. -/
def put (s : SyclState) (w : Nat) (c : Option SyclWrap) : SyclState := { s with wr := setAt s.wr w c }

/-- The member functions of `queue_wrapper`, sycl/src/utils/sycl/queue_wrapper.sycl:19-125. -/
def step (s : SyclState) : WrapOp → Option SyclState
  -- 19-31
  | .create w =>
    match s.wr w with
    | some _ => none
    | none =>
      let s' := { s with next := s.next + 1 }.make (.own s.next)
      some (s'.put w (some ⟨.own s.nextObj, some s.nextObj⟩))
  -- 33-42
  | .view w i =>
    match s.wr w with
    | some _ => none
    | none => some (s.put w (some ⟨.ext i, none⟩))
  -- 33-42 and 117-125
  | .viewOf w v =>
    match s.wr w, s.wr v with
    | none, some c => some (s.put w (some ⟨c.queue, none⟩))
    | _, _ => none
  -- 44-58
  | .copy w v =>
    match s.wr w, s.wr v with
    | none, some c =>
      match c.managed with
      | some a => (s.obj a).map fun q => (s.make q).put w (some ⟨.own s.nextObj, some s.nextObj⟩)
      | none => some (s.put w (some ⟨c.queue, none⟩))
    | _, _ => none
  -- 60-69
  | .move w v =>
    match s.wr w, s.wr v with
    | none, some c =>
      let s' := s.put v (some ⟨c.queue, none⟩)
      match c.managed with
      | some a => some (s'.put w (some ⟨.own a, some a⟩))
      | none => some (s'.put w (some ⟨c.queue, none⟩))
    | _, _ => none
  -- 73-94
  | .assign w v =>
    match s.wr w, s.wr v with
    | some old, some c =>
      if w = v then some s
      else
        match c.managed with
        | some a =>
          (s.obj a).map fun q => ((s.make q).put w (some ⟨.own s.nextObj, some s.nextObj⟩)).delete old.managed
        | none => some (s.put w (some ⟨c.queue, old.managed⟩))
    | _, _ => none
  -- 96-115
  | .moveAssign w v =>
    match s.wr w, s.wr v with
    | some old, some c =>
      if w = v then some s
      else
        let s' := s.put v (some ⟨c.queue, none⟩)
        match c.managed with
        | some a => some ((s'.put w (some ⟨.own a, some a⟩)).delete old.managed)
        | none => some ((s'.put w (some ⟨c.queue, none⟩)).delete old.managed)
    | _, _ => none
  -- 71
  | .destroy w =>
    match s.wr w with
    | some old => some ((s.put w none).delete old.managed)
    | none => none

/-- A program.
No counterpart in /repo: programs of users. -/
def run (s : SyclState) : List WrapOp → Option SyclState
  | [] => some s
  | op :: ops => (s.step op).bind fun s' => s'.run ops

/-- The queue that a wrapper gives access to.
Code: `sycl/src/utils/sycl/queue_wrapper.sycl`, lines 117-125. -/
def designates (s : SyclState) (w : Nat) : Option Stream := (s.wr w).bind fun c => s.deref c.queue

end SyclState

end Vecmem
