import Verif.Spec.Copy
import Verif.Model.DeviceVectorConcurrent

/-!
# Model of programs that use buffers, copies and kernels together

A program creates and destroys `vector_buffer`s (of several element types, in several resources), sets them up, fills
them, copies between them and from and to host vectors, and runs kernels on them.  A kernel is given views of buffers: it
reads some of them, and one `device_vector` is appended to by any number of threads, or used by one thread.  All this
happens in one memory of bytes.
-/

namespace Vecmem

open Prog

/-- The bytes of an element.
No counterpart in /repo: programs of users. -/
abbrev Elem := List UInt8

/-- What a program fixes for its buffers, which are numbered: the element type and the resource of each, the bytes of
a value-initialised element, and whether assertions are enabled in kernels.
No counterpart in /repo: programs of users. -/
structure PipeCfg where
  ty : Nat → CType
  res : Nat → Nat
  dflt : Nat → Elem
  dbg : Bool

/-- What a kernel thread gets: `device_vector(view)`, impl/device_vector.ipp:19-29, and the memory it points to.  The element type
has a trivial destructor, so that memory always holds elements. -/
def View.device (dbg : Bool) (dflt : Elem) (t : Nat) (m : Mem) (v : View) : DV Elem :=
  { dbg, trivialDtor := true, dflt, junk := fun _ => dflt, cap := v.capacity, hasSize := v.sizePtr != 0
    sizeWord := if v.sizePtr = 0 then 0 else readLE m v.sizePtr 4
    mem := fun i => if i < v.capacity then some (bytesAt m (v.ptr + i * t) t) else none }

/-- The memory after a kernel has left the vector `s` behind: its elements and its size are where the view says.
No counterpart in /repo: where device vectors have their elements and sizes. -/
def View.storeDevice (t : Nat) (m : Mem) (v : View) (s : DV Elem) : Mem := fun x =>
  if v.ptr ≤ x ∧ x < v.ptr + v.capacity * t then ((s.mem ((x - v.ptr) / t)).getD []).getD ((x - v.ptr) % t) 0
  else if v.sizePtr = 0 then m x
  else writeLE m v.sizePtr 4 s.sizeWord x

/-- How many steps a thread needs for a call, at most: `fetch_add`, the assertion, the constructions, the return.
No counterpart in /repo: threads and their interleaving. -/
def ACall.steps {α : Type} (c : ACall α) : Nat := c.writes + 3

/-- Thread after thread is run to its end.
No counterpart in /repo: kernels of users. -/
def drain {α : Type} (progs : List (List (ACall α))) : List Nat :=
  (List.range progs.length).flatMap fun i => List.replicate ((progs.getD i []).map ACall.steps).sum i

/-- A kernel whose threads run the given programs: they are scheduled as in `sched`, and what is left then runs thread
after thread.  (Every complete schedule is like this: a thread that has finished does nothing.)
No counterpart in /repo: kernels of users. -/
def Conc.kernel {α : Type} (s : DV α) (progs : List (List (ACall α))) (sched : List Nat) : Conc α :=
  (Conc.start s progs).run (sched ++ drain progs)

/-- A step of a program. `k`, `i` and `j` are numbers of buffers.
No counterpart in /repo: programs of users. -/
inductive PipeOp where
  /-- `k = vector_buffer(capacity, resource, type)` -/
  | create (k capacity : Nat) (resizable : Bool)
  /-- the destructor of `k` -/
  | destroy (k : Nat)
  /-- `copy.setup(k)->wait()` -/
  | setup (k : Nat)
  /-- `copy.memset(k, value)->wait()` -/
  | memset (k : Nat) (value : UInt8)
  /-- `copy(i, j)->wait()` -/
  | copy (i j : Nat)
  /-- `copy(get_data(l), k)->wait()`, for a host vector with the elements `l`, whose array is at address `at_` -/
  | upload (at_ : Nat) (l : List Elem) (k : Nat)
  /-- `copy(k, vec)->wait()`, for a host vector whose array is then at address `at_` -/
  | download (k at_ : Nat)
  /-- a kernel reads the buffers `ins`; its threads append to `k` what it computes from them -/
  | kernel (ins : List Nat) (k : Nat) (f : List (List Elem) → List (List (ACall Elem))) (sched : List Nat)
  /-- a kernel with one thread reads the buffers `ins`, and runs the operations on `k` which it computes from them -/
  | single (ins : List Nat) (k : Nat) (f : List (List Elem) → List (DVOp Elem))

/-- What a step gives: nothing, the elements of the host vector, for each thread of a kernel its calls with the
indices they returned, or the results of the operations.
No counterpart in /repo: programs of users. -/
inductive PipeOut where
  | unit
  | vals (l : List Elem)
  | claims (l : List (List (ACall Elem × Nat)))
  | rets (l : List (Res (Ret Elem)))

/-- The state of a program: the resources, the memory, and the buffers that exist.
No counterpart in /repo: programs of users. -/
structure Pipe (σ : Type) where
  res : σ
  mem : Mem
  bufs : List (Nat × VecBuffer)

namespace Pipe

variable {σ : Type}

/-- Write the elements of a host vector to its array.
No counterpart in /repo: programs of users. -/
def putElems (t : Nat) (m : Mem) (at_ : Nat) (l : List Elem) : Mem := fun x =>
  if at_ ≤ x ∧ x < at_ + l.length * t then (l.getD ((x - at_) / t) []).getD ((x - at_) % t) 0 else m x

/-- Run a step of `vecmem::copy` on the memory, and wait for it.
No counterpart in /repo: programs of users. -/
def onMem (p : Pipe σ) (q : Prog Nat) : Res PipeOut × Pipe σ :=
  let r := q.result p.mem
  (r.1.map fun _ => .unit, { p with mem := r.2 })

/-- The view that a kernel is given of a buffer, as a device vector.
Code: `core/include/vecmem/containers/impl/device_vector.ipp`, lines 20-30. -/
def device (c : PipeCfg) (p : Pipe σ) (k : Nat) (b : VecBuffer) : DV Elem :=
  b.view.device c.dbg (c.dflt k) (c.ty k).size p.mem

/-- A kernel reads all elements of the buffers `ins`.
No counterpart in /repo: kernels of users. -/
def reads (c : PipeCfg) (p : Pipe σ) : List Nat → Res (List (List Elem))
  | [] => .ok []
  | i :: is =>
    match p.bufs.lookup i with
    | none => .ub
    | some b =>
      match (p.device c i b).iterate with
      | .ok l => (p.reads c is).map (l :: ·)
      | e => e.map fun _ => []

/-- Make a step: the functions of `vecmem::vector_buffer` (`Model/Buffers.lean`), `vecmem::copy` (`Model/Copy.lean`) and
`vecmem::device_vector` (`Model/DeviceVector.lean`).  Each step includes waiting for its end; a kernel touches no memory but
the payload and the size of the vector it works on.
Code: `core/include/vecmem/containers/impl/vector_buffer.ipp`, `core/include/vecmem/utils/impl/copy.ipp`, `core/include/vecmem/containers/impl/device_vector.ipp`. -/
def exec (c : PipeCfg) (ups : Nat → MR σ) (p : Pipe σ) : PipeOp → Res PipeOut × Pipe σ
  | .create k capacity resizable =>
    match VecBuffer.create (ups (c.res k)) p.res (c.ty k) capacity resizable with
    | (.ok b, u) => (.ok .unit, { p with res := u, bufs := (k, b) :: p.bufs })
    | (e, u) => (e.map fun _ => .unit, { p with res := u })
  | .destroy k =>
    match p.bufs.lookup k with
    | none => (.ub, p)
    | some b =>
      let r := b.destroy (ups (c.res k)) p.res
      (r.1.map fun _ => .unit, { p with res := r.2, bufs := p.bufs.filter fun e => e.1 != k })
  | .setup k =>
    match p.bufs.lookup k with
    | none => (.ub, p)
    | some b => p.onMem (setupVec b.view)
  | .memset k value =>
    match p.bufs.lookup k with
    | none => (.ub, p)
    | some b => p.onMem (memsetVec (c.ty k).size b.view value)
  | .copy i j =>
    match p.bufs.lookup i, p.bufs.lookup j with
    | some a, some b => p.onMem (copyVec (c.ty i).size a.view b.view)
    | _, _ => (.ub, p)
  | .upload at_ l k =>
    match p.bufs.lookup k with
    | none => (.ub, p)
    | some b =>
      let t := (c.ty k).size
      { p with mem := putElems t p.mem at_ l }.onMem (copyVec t ⟨l.length, 0, at_⟩ b.view)
  | .download k at_ =>
    match p.bufs.lookup k with
    | none => (.ub, p)
    | some b =>
      let t := (c.ty k).size
      match (getSize b.view).value p.mem with
      | .ok n =>
        let r := (copyToStd t b.view fun _ => at_).result p.mem
        (r.1.map fun _ => .vals ((View.mk n 0 at_).elems r.2 t), { p with mem := r.2 })
      | e => (e.map fun _ => .unit, p)
  | .kernel ins k f sched =>
    match p.bufs.lookup k with
    | none => (.ub, p)
    | some b =>
      match p.reads c ins with
      | .ok ls =>
        let g := Conc.kernel (p.device c k b) (f ls) sched
        (if g.failed then .ub else .ok (.claims (g.threads.map Thread.done)),
          { p with mem := b.view.storeDevice (c.ty k).size p.mem g.vec })
      | e => (e.map fun _ => .unit, p)
  | .single ins k f =>
    match p.bufs.lookup k with
    | none => (.ub, p)
    | some b =>
      match p.reads c ins with
      | .ok ls =>
        let r := (p.device c k b).run (f ls)
        (.ok (.rets r.1), { p with mem := b.view.storeDevice (c.ty k).size p.mem r.2 })
      | e => (e.map fun _ => .unit, p)

end Pipe
end Vecmem
