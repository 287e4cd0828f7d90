import Verif.Model.AsyncProgram
import Verif.Model.JagPipeline

/-!
# Model of programs with vector buffers and jagged buffers, copies and kernels on a stream

The steps of `Model/JagPipeline.lean`, with a `vecmem::copy` that gives its operations to a stream (`vecmem::cuda::async_copy`), to
which kernels are given as well.
-/

namespace Vecmem

open Prog

/-- What the host has: the state of the resources, and the buffers.
No counterpart in /repo: what a program of a user has. -/
structure JagHost (σ : Type) where
  res : σ
  bufs : List (Nat × VecBuffer)
  jags : List (Nat × JagBuffer)

/-- The byte at `x` is in a row of the jagged buffer `k`: in the payload, or in the size word.
No counterpart in /repo: which memory a kernel uses. -/
def rowBytes (c : JagCfg) (jags : List (Nat × JagBuffer)) (k x : Nat) : Bool :=
  match jags.lookup k with
  | none => false
  | some b => b.views.any fun v => v.footprint (c.ty k).size x

/-- The byte at `x` is in the array of views through which kernels find the rows of the jagged buffer `k`.
Code: `core/include/vecmem/containers/data/jagged_vector_view.hpp` (`ptr`). -/
def viewBytes (jags : List (Nat × JagBuffer)) (k x : Nat) : Bool :=
  match jags.lookup k with
  | none => false
  | some b => b.ptr ≤ x && x < b.ptr + b.views.length * viewSize

/-- What a kernel reads of vector buffers and jagged buffers.
No counterpart in /repo: which memory a kernel uses. -/
def inputBytes {σ : Type} (c : JagCfg) (a : JagHost σ) (ins jins : List Nat) (x : Nat) : Bool :=
  ins.any (bufBytes c.vec a.bufs · x) || jins.any fun i => rowBytes c a.jags i x || viewBytes a.jags i x

/-- The memory after a step, unless it is undefined.
No counterpart in /repo: what kernels of users do. -/
def jagMem {σ : Type} (c : JagCfg) (ups : Nat → MR σ) (a : JagHost σ) (op : JagOp) (m : Mem) : Option Mem :=
  match (JPipe.mk ⟨a.res, m, a.bufs⟩ a.jags).exec c ups op with
  | (.ok _, p) => some p.vec.mem
  | _ => none

/-- What the host has after a step, and the program of the step: calls of the functions of `vecmem::copy` (`Model/Copy.lean`), which
return an event, or giving a kernel to the stream and creating an event.  A kernel reads its inputs, and reads and writes the buffer it
works on; of a jagged buffer it also reads the array of views.  Constructors and destructors need no operations on the stream (and
the resources do not wait for it); the constructor of a jagged buffer writes the views of the rows.
Code: `core/include/vecmem/containers/impl/vector_buffer.ipp`, `jagged_vector_buffer.ipp`; `core/include/vecmem/utils/impl/copy.ipp`, lines 29-327; `cuda/src/utils/cuda/async_copy.cpp`, lines 90-150. -/
def jagPlan {σ : Type} (c : JagCfg) (ups : Nat → MR σ) (a : JagHost σ) : JagOp → JagHost σ × Prog Nat
  | .vec (.create k capacity resizable) =>
    match VecBuffer.create (ups (c.vec.res k)) a.res (c.vec.ty k) capacity resizable with
    | (.ok b, u) => ({ a with res := u, bufs := (k, b) :: a.bufs }, .ret (.ok 0))
    | (e, u) => ({ a with res := u }, .ret (e.map fun _ => 0))
  | .vec (.destroy k) =>
    match a.bufs.lookup k with
    | none => (a, .ret .ub)
    | some b =>
      let r := b.destroy (ups (c.vec.res k)) a.res
      ({ a with res := r.2, bufs := a.bufs.filter fun e => e.1 != k }, .ret (r.1.map fun _ => 0))
  | .vec op => (a, streamStep c.vec ups a.res a.bufs op)
  | .create k caps resizable =>
    match JagBuffer.create (fun h => ups (c.source k h)) a.res (c.ty k) caps (c.hasHost k) resizable with
    | (.ok b, u) => ({ a with res := u, jags := (k, b) :: a.jags }, pokes (viewPokes b.hostPtr b.views) retNoEvent)
    | (e, u) => ({ a with res := u }, .ret (e.map fun _ => 0))
  | .destroy k =>
    match a.jags.lookup k with
    | none => (a, .ret .ub)
    | some b =>
      let r := b.destroy (fun h => ups (c.source k h)) (c.hasHost k) a.res
      ({ a with res := r.2, jags := a.jags.filter fun e => e.1 != k }, .ret (r.1.map fun _ => 0))
  | .setup k =>
    match a.jags.lookup k with
    | none => (a, .ret .ub)
    | some b => (a, setupJag b.view)
  | .memset k value =>
    match a.jags.lookup k with
    | none => (a, .ret .ub)
    | some b => (a, memsetJag (c.ty k).size b.view value)
  | .copy i j =>
    match a.jags.lookup i, a.jags.lookup j with
    | some b, some b' => (a, copyJag c.vec.dbg (c.ty i).size b.view b'.view)
    | _, _ => (a, .ret .ub)
  | .upload ats rows k =>
    match a.jags.lookup k with
    | none => (a, .ret .ub)
    | some b => (a, pokes (rowPokes (c.ty k).size ats rows)
        (copyJag c.vec.dbg (c.ty k).size ⟨JPipe.hostRows rows ats, 0, 0⟩ b.view))
  | .download k ats =>
    match a.jags.lookup k with
    | none => (a, .ret .ub)
    | some b => (a, copyJagToStd c.vec.dbg (c.ty k).size b.view fun _ => ats)
  | .kernel ins jins k f sched => (a, .issue (.kernel (fun x => inputBytes c a ins jins x || viewBytes a.jags k x) (rowBytes c a.jags k)
      (jagMem c ups a (.kernel ins jins k f sched))) retEvent)
  | .single ins jins k f => (a, .issue (.kernel (fun x => inputBytes c a ins jins x || viewBytes a.jags k x) (rowBytes c a.jags k)
      (jagMem c ups a (.single ins jins k f))) retEvent)
  | .vecKernel ins jins k f sched => (a, .issue (.kernel (inputBytes c a ins jins) (bufBytes c.vec a.bufs k)
      (jagMem c ups a (.vecKernel ins jins k f sched))) retEvent)
  | .vecSingle ins jins k f => (a, .issue (.kernel (inputBytes c a ins jins) (bufBytes c.vec a.bufs k)
      (jagMem c ups a (.vecSingle ins jins k f))) retEvent)

end Vecmem
