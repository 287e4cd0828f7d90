import Verif.Model.Pipeline
import Verif.Model.AsyncCopy

/-!
# Model of programs with buffers, copies and kernels on a stream

The programs of `Model/Pipeline.lean`, with a `vecmem::copy` that gives its operations to a stream
(`vecmem::cuda::async_copy`), to which kernels are given as well.  The host waits for the event of an operation, or does not;
it goes on, destroys and creates buffers, fills its arrays and reads them, while the stream executes what it was given.
-/

namespace Vecmem

open Prog

namespace Prog

variable {β γ : Type}

/-- `try { p } catch (...)`: what follows gets the value or the exception.
No counterpart in /repo: C++ exceptions. -/
def attempt (f : Res β → Prog γ) : Prog β → Prog γ
  | .ret .ub => .ret .ub
  | .ret r => f r
  | .issue op k => .issue op (attempt f k)
  | .event k => .event fun e => attempt f (k e)
  | .wait e k => .wait e (attempt f k)
  | .new l k => .new l fun s => attempt f (k s)
  | .read s k => .read s fun b => attempt f (k b)
  | .drop k => .drop (attempt f k)
  | .load p n k => .load p n fun b => attempt f (k b)
  | .poke p n b k => .poke p n b (attempt f k)

end Prog

/-- The bytes of the vector: its payload, and its size word.
Code: `core/include/vecmem/containers/data/vector_view.hpp` (`m_capacity`, `m_size`, `m_ptr`). -/
def View.footprint (t : Nat) (v : View) (x : Nat) : Bool :=
  (v.ptr ≤ x && x < v.ptr + v.capacity * t) || (v.sizePtr != 0 && v.sizePtr ≤ x && x < v.sizePtr + 4)

/-- The bytes of the buffer `k`.
No counterpart in /repo: which memory a kernel uses. -/
def bufBytes (c : PipeCfg) (bufs : List (Nat × VecBuffer)) (k x : Nat) : Bool :=
  match bufs.lookup k with
  | none => false
  | some b => b.view.footprint (c.ty k).size x

/-- The memory after a step, unless it is undefined.
No counterpart in /repo: what kernels of users do. -/
def stepMem {σ : Type} (c : PipeCfg) (ups : Nat → MR σ) (u : σ) (bufs : List (Nat × VecBuffer)) (op : PipeOp) (m : Mem) : Option Mem :=
  match (Pipe.mk u m bufs).exec c ups op with
  | (.ok _, p) => some p.mem
  | _ => none

/-- A step that needs the stream, as the program of the host: calls of the functions of `vecmem::copy` (`Model/Copy.lean`), which
return an event, or giving a kernel to the stream and creating an event. A kernel reads the buffers `ins`, and reads and writes
`k`.
Code: `core/include/vecmem/utils/impl/copy.ipp`, lines 29-136; `cuda/src/utils/cuda/async_copy.cpp`, lines 90-150. -/
def streamStep {σ : Type} (c : PipeCfg) (ups : Nat → MR σ) (u : σ) (bufs : List (Nat × VecBuffer)) : PipeOp → Prog Nat
  | .create .. => .ret .ub
  | .destroy _ => .ret .ub
  | .setup k =>
    match bufs.lookup k with
    | none => .ret .ub
    | some b => setupVec b.view
  | .memset k value =>
    match bufs.lookup k with
    | none => .ret .ub
    | some b => memsetVec (c.ty k).size b.view value
  | .copy i j =>
    match bufs.lookup i, bufs.lookup j with
    | some a, some b => copyVec (c.ty i).size a.view b.view
    | _, _ => .ret .ub
  | .upload at_ l k =>
    match bufs.lookup k with
    | none => .ret .ub
    | some b =>
      let t := (c.ty k).size
      .poke at_ (l.length * t) (fun i => (l.getD (i / t) []).getD (i % t) 0) (copyVec t ⟨l.length, 0, at_⟩ b.view)
  | .download k at_ =>
    match bufs.lookup k with
    | none => .ret .ub
    | some b => copyToStd (c.ty k).size b.view fun _ => at_
  | .kernel ins k f sched =>
    .issue (.kernel (fun x => ins.any (bufBytes c bufs · x)) (bufBytes c bufs k) (stepMem c ups u bufs (.kernel ins k f sched))) retEvent
  | .single ins k f =>
    .issue (.kernel (fun x => ins.any (bufBytes c bufs · x)) (bufBytes c bufs k) (stepMem c ups u bufs (.single ins k f))) retEvent

/-- What the host does: a step, whose event is waited for or not; wait for all that was given to the stream; read `n` bytes of
memory.
No counterpart in /repo: programs of users. -/
inductive StreamOp where
  | step (op : PipeOp) (wait : Bool)
  | sync
  | look (a n : Nat)

/-- The program of the host, for resources in state `u` and existing buffers; `out` is what the steps so far gave: whether a
step has thrown, and the bytes that the host has read.  Creating and destroying a buffer needs no operations on the stream
(and the resources do not wait for it).  In the end everything is waited for.
Code: `core/include/vecmem/containers/impl/vector_buffer.ipp`; `cuda/src/utils/cuda/async_copy.cpp`, lines 34-63 (`wait`). -/
def streamProg {σ : Type} (c : PipeCfg) (ups : Nat → MR σ) : List StreamOp → σ → List (Nat × VecBuffer) → List (Res (List UInt8)) →
    Prog (List (Res (List UInt8)) × σ × List (Nat × VecBuffer))
  | [], u, bufs, out => sync (.ret (.ok (out, u, bufs)))
  | .sync :: ops, u, bufs, out => sync (streamProg c ups ops u bufs (out ++ [.ok []]))
  | .look a n :: ops, u, bufs, out =>
    .load a n fun b => streamProg c ups ops u bufs (out ++ [.ok ((List.range n).map b)])
  | .step (.create k capacity resizable) _ :: ops, u, bufs, out =>
    match VecBuffer.create (ups (c.res k)) u (c.ty k) capacity resizable with
    | (.ok b, u') => streamProg c ups ops u' ((k, b) :: bufs) (out ++ [.ok []])
    | (.ub, _) => .ret .ub
    | (e, u') => streamProg c ups ops u' bufs (out ++ [e.map fun _ => []])
  | .step (.destroy k) _ :: ops, u, bufs, out =>
    match bufs.lookup k with
    | none => .ret .ub
    | some b =>
      match b.destroy (ups (c.res k)) u with
      | (.ub, _) => .ret .ub
      | (r, u') => streamProg c ups ops u' (bufs.filter fun e => e.1 != k) (out ++ [r.map fun _ => []])
  | .step op w :: ops, u, bufs, out =>
    attempt (fun r =>
      match r with
      | .ok e => if w then .wait e (streamProg c ups ops u bufs (out ++ [.ok []])) else streamProg c ups ops u bufs (out ++ [.ok []])
      | r => streamProg c ups ops u bufs (out ++ [r.map fun _ => []])) (streamStep c ups u bufs op)

end Vecmem
