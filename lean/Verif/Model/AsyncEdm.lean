import Verif.Model.AsyncProgram
import Verif.Model.EdmPipeline

/-!
# Model of programs with container buffers, copies and kernels on a stream

The steps of `Model/EdmPipeline.lean`, with a `vecmem::copy` that gives its operations to a stream (`vecmem::cuda::async_copy`), to
which kernels are given as well.
-/

namespace Vecmem

open Prog

/-- What the constructor of a container buffer writes, edm/details/buffer_traits.hpp:98-126 (`writeLayouts`). -/
def layoutPokes : List VarView → List (Nat × Nat × Mem)
  | [] => []
  | .jagged j :: xs => viewPokes j.hostPtr j.views ++ layoutPokes xs
  | _ :: xs => layoutPokes xs

/-- The elements of a host container, in its arrays (`putTable`).
No counterpart in /repo: the host writes to its own containers. -/
def tablePokes : Schema → List (List Nat) → Table → List (Nat × Nat × Mem)
  | v :: S, as :: ats, ls :: tbl => rowPokes v.type.size as ls ++ tablePokes S ats tbl
  | _, _, _ => []

/-- The byte at `x` is in the memory that the container buffer `k` has from its resource (not the host accessible one).
Code: `core/include/vecmem/edm/buffer.hpp` (`m_memory`). -/
def edmBytes (bufs : List (Nat × EBuffer)) (k x : Nat) : Bool :=
  match bufs.lookup k with
  | none => false
  | some b => b.buf.mem.ptr ≤ x && x < b.buf.mem.ptr + b.buf.mem.size

/-- The memory after a step, unless it is undefined.
No counterpart in /repo: what kernels of users do. -/
def edmMem {σ : Type} (c : EdmCfg) (ups : Nat → MR σ) (u : σ) (bufs : List (Nat × EBuffer)) (op : EdmOp) (m : Mem) : Option Mem :=
  match (EPipe.mk u m bufs).exec c ups op with
  | (.ok _, p) => some p.mem
  | _ => none

/-- A kernel is given to the stream, and an event is created.  It reads the buffers `ins`, and reads and writes `k`.
No counterpart in /repo: kernels are given to the stream by users. -/
def edmKernel {σ : Type} (c : EdmCfg) (ups : Nat → MR σ) (u : σ) (bufs : List (Nat × EBuffer)) (ins : List Nat) (k : Nat) (op : EdmOp) :
    Prog Nat :=
  .issue (.kernel (fun x => ins.any (edmBytes bufs · x)) (edmBytes bufs k) (edmMem c ups u bufs op)) retEvent

/-- What the host has after a step, for resources in state `a.1` and the buffers `a.2`, and the program of the step: calls of
the functions of `vecmem::copy` (`Model/EdmCopy.lean`, `Model/EdmToHost.lean`), which return an event, or giving a kernel to the stream.
Constructors and destructors need no operations on the stream (and the resources do not wait for it).
Code: `core/include/vecmem/edm/impl/buffer.ipp`, lines 24-245; `core/include/vecmem/utils/impl/copy.ipp`, lines 331-485; `cuda/src/utils/cuda/async_copy.cpp`, lines 90-150. -/
def edmPlan {σ : Type} (c : EdmCfg) (ups : Nat → MR σ) (a : σ × List (Nat × EBuffer)) : EdmOp → (σ × List (Nat × EBuffer)) × Prog Nat
  | .create k caps r =>
    match EdmBuffer.create (fun h => ups (c.source k h)) a.1 (c.schema k) caps (c.hasHost k) r with
    | (.ok b, u) => ((u, (k, ⟨b, caps, r⟩) :: a.2), pokes (layoutPokes b.view.vars) retNoEvent)
    | (e, u) => ((u, a.2), .ret (e.map fun _ => 0))
  | .destroy k =>
    match a.2.lookup k with
    | none => (a, .ret .ub)
    | some b =>
      let r := b.buf.destroy (fun h => ups (c.source k h)) a.1
      ((r.2, a.2.filter fun e => e.1 != k), .ret (r.1.map fun _ => 0))
  | .setup k =>
    match a.2.lookup k with
    | none => (a, .ret .ub)
    | some b => (a, setupEdm c.dbg b.buf.view)
  | .memset k value =>
    match a.2.lookup k with
    | none => (a, .ret .ub)
    | some b => (a, memsetEdm (c.schema k) b.buf.view value)
  | .copy i j =>
    match a.2.lookup i, a.2.lookup j with
    | some b, some b' => (a, copyEdm c.dbg (c.schema i) b.buf.view b'.buf.view)
    | _, _ => (a, .ret .ub)
  | .upload ats tbl k =>
    match a.2.lookup k with
    | none => (a, .ret .ub)
    | some b => (a, pokes (tablePokes (c.schema k) ats tbl)
        (copyEdmFromHost c.dbg (c.schema k) (tbl.map fun (ls : List (List Elem)) => ls.map List.length) ats b.buf.view))
  | .download k ats =>
    match a.2.lookup k with
    | none => (a, .ret .ub)
    | some b => (a, copyEdmToHost c.dbg (c.schema k) b.buf.view fun _ => ats)
  | .append ins k f sched => (a, edmKernel c ups a.1 a.2 ins k (.append ins k f sched))
  | .rows ins k v f sched => (a, edmKernel c ups a.1 a.2 ins k (.rows ins k v f sched))
  | .kernel ins k f sched => (a, edmKernel c ups a.1 a.2 ins k (.kernel ins k f sched))
  | .single ins k v f => (a, edmKernel c ups a.1 a.2 ins k (.single ins k v f))

end Vecmem
