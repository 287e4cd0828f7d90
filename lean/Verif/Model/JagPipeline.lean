import Verif.Model.Pipeline

/-!
# Model of programs that also use jagged buffers

Like `Model/Pipeline.lean`, for programs that use `vector_buffer`s and `jagged_vector_buffer`s together, in one memory.  The
views of the rows of a jagged buffer are objects in this memory: the constructor writes them to the host accessible array,
`copy.setup` copies them to the array in device memory, and kernels find the rows through the latter.
-/

namespace Vecmem

open Prog

/-- What a program fixes for its buffers: `vec` is for vector buffers; jagged buffers are numbered separately.  For each of
them: the element type, the resource, the host accessible resource (if one is given to the constructor), and the bytes of a
value-initialised element.
No counterpart in /repo: programs of users. -/
structure JagCfg where
  vec : PipeCfg
  ty : Nat → CType
  res : Nat → Nat
  host : Nat → Option Nat
  dflt : Nat → Elem

namespace JagCfg

/-- A host accessible resource is given to the constructor of `k`.
No counterpart in /repo: programs of users. -/
def hasHost (c : JagCfg) (k : Nat) : Bool := (c.host k).isSome

/-- The number of the resource (`false`) or the host accessible resource (`true`) of `k`.
No counterpart in /repo: programs of users. -/
def source (c : JagCfg) (k : Nat) (h : Bool) : Nat := if h then (c.host k).getD 0 else c.res k

end JagCfg

/-- The `vector_view` that is in memory at address `p`; the members are in the order of data/vector_view.hpp:134-138. -/
def readView (m : Mem) (p : Nat) : View := ⟨readLE m p 4, readLE m (p + 8) 8, readLE m (p + 16) 8⟩

/-- The rows of the `jagged_device_vector` that a kernel makes of its view of the buffer: impl/jagged_device_vector.ipp:16-19
and 66-80.  They are found through the pointer to the array in device memory. -/
def JagBuffer.deviceRows (m : Mem) (b : JagBuffer) : List View :=
  (List.range b.views.length).map fun i => readView m (b.ptr + viewSize * i)

/-! ## Kernels on the rows -/

/-- A thread: the calls still to be made, with the number of the row each of them is for; the row and the phase of the
current one; the finished ones with the index they returned.
No counterpart in /repo: threads and their interleaving. -/
structure RowThread where
  todo : List (Nat × ACall Elem)
  row : Nat
  phase : Phase Elem
  done : List (Nat × ACall Elem × Nat)

/-- The rows and the threads; `failed` once an assertion has failed or behaviour is undefined.
No counterpart in /repo: threads and their interleaving. -/
structure RowConc where
  rows : List (DV Elem)
  threads : List RowThread
  failed : Bool

/-- What the thread works on with its next step: the row, the call that it begins (if it begins one), and the calls still to
be made then.
No counterpart in /repo: threads and their interleaving. -/
def RowThread.next (t : RowThread) : Option (Nat × List (ACall Elem) × List (Nat × ACall Elem)) :=
  match t.phase, t.todo with
  | .idle, [] => none
  | .idle, (r, c) :: cs => some (r, [c], cs)
  | _, cs => some (t.row, [], cs)

namespace RowConc

/-- The start of the programs.
No counterpart in /repo: threads and their interleaving. -/
def start (rows : List (DV Elem)) (progs : List (List (Nat × ACall Elem))) : RowConc :=
  { rows, threads := progs.map fun p => { todo := p, row := 0, phase := .idle, done := [] }, failed := false }

/-- One step of one thread: that of `Conc.stepThread` on the row.
No counterpart in /repo: threads and their interleaving. -/
def stepThread (rows : List (DV Elem)) (t : RowThread) : Option (List (DV Elem) × RowThread) :=
  match t.next with
  | none => some (rows, t)
  | some (r, cs, rest) =>
    match rows[r]? with
    | none => none
    | some s =>
      match Conc.stepThread s ⟨cs, t.phase, []⟩ with
      | none => none
      | some (s', u) =>
        some (rows.set r s', { todo := rest, row := r, phase := u.phase, done := t.done ++ u.done.map fun x => (r, x) })

/-- Thread `i` makes its next step; nothing runs after a failure.
No counterpart in /repo: threads and their interleaving. -/
def step (g : RowConc) (i : Nat) : RowConc :=
  if g.failed then g
  else match g.threads[i]? with
    | none => g
    | some t =>
      match stepThread g.rows t with
      | none => { g with failed := true }
      | some (rows, t) => { g with rows, threads := g.threads.set i t }

/-- Run a schedule.
No counterpart in /repo: threads and their interleaving. -/
def run (g : RowConc) (sched : List Nat) : RowConc := sched.foldl step g

end RowConc

/-- Thread after thread is run to its end.
No counterpart in /repo: kernels of users. -/
def drainRows (progs : List (List (Nat × ACall Elem))) : List Nat := drain (progs.map (·.map (·.2)))

/-- A kernel whose threads run the given programs; compare `Conc.kernel`.
No counterpart in /repo: kernels of users. -/
def RowConc.kernel (rows : List (DV Elem)) (progs : List (List (Nat × ACall Elem))) (sched : List Nat) : RowConc :=
  (RowConc.start rows progs).run (sched ++ drainRows progs)

/-- One thread runs operations on the rows.
No counterpart in /repo: kernels of users. -/
def runRows (rows : List (DV Elem)) : List (Nat × DVOp Elem) → List (Res (Ret Elem)) × List (DV Elem)
  | [] => ([], rows)
  | (i, op) :: ops =>
    match rows[i]? with
    | none => ([.ub], rows)
    | some s => let r := s.step op; let rs := runRows (rows.set i r.2) ops; (r.1 :: rs.1, rs.2)

/-- The memory after a kernel has left the rows behind.
No counterpart in /repo: where device vectors have their elements and sizes. -/
def storeRows (t : Nat) (m : Mem) : List View → List (DV Elem) → Mem
  | v :: vs, s :: ss => storeRows t (v.storeDevice t m s) vs ss
  | _, _ => m

/-- Read all elements of all rows.
Code: `core/include/vecmem/containers/impl/device_vector.ipp`, lines 399-436. -/
def readRows (c : JagCfg) (k : Nat) (m : Mem) : List View → Res (List (List Elem))
  | [] => .ok []
  | v :: vs =>
    match (v.device c.vec.dbg (c.dflt k) (c.ty k).size m).iterate with
    | .ok l => (readRows c k m vs).map (l :: ·)
    | e => e.map fun _ => []

/-! ## Programs -/

/-- A step of a program. `k`, `i`, `j` and `jins` are numbers of jagged buffers, unless something else is said.
No counterpart in /repo: programs of users. -/
inductive JagOp where
  /-- a step that uses vector buffers only -/
  | vec (op : PipeOp)
  /-- `k = jagged_vector_buffer(capacities, resource, host_access_resource, type)` -/
  | create (k : Nat) (caps : List Nat) (resizable : Bool)
  /-- the destructor of `k` -/
  | destroy (k : Nat)
  /-- `copy.setup(k)->wait()` -/
  | setup (k : Nat)
  /-- `copy.memset(k, value)->wait()` -/
  | memset (k : Nat) (value : UInt8)
  /-- `copy(i, j)->wait()` -/
  | copy (i j : Nat)
  /-- `copy(get_data(rows), k)->wait()`, for host vectors with the elements `rows`, whose arrays are at the addresses `ats` -/
  | upload (ats : List Nat) (rows : List (List Elem)) (k : Nat)
  /-- `copy(k, rows)->wait()`, for host vectors whose arrays are then at the addresses `ats` -/
  | download (k : Nat) (ats : List Nat)
  /-- a kernel reads the vector buffers `ins` and the jagged buffers `jins`; its threads append to rows of `k` what it
  computes from them -/
  | kernel (ins jins : List Nat) (k : Nat) (f : List (List Elem) → List (List (List Elem)) → List (List (Nat × ACall Elem)))
      (sched : List Nat)
  /-- a kernel with one thread reads `ins` and `jins`, and runs the operations on rows of `k` which it computes from them -/
  | single (ins jins : List Nat) (k : Nat) (f : List (List Elem) → List (List (List Elem)) → List (Nat × DVOp Elem))
  /-- a kernel reads `ins` and `jins`; its threads append to the vector buffer `k` -/
  | vecKernel (ins jins : List Nat) (k : Nat) (f : List (List Elem) → List (List (List Elem)) → List (List (ACall Elem)))
      (sched : List Nat)
  /-- a kernel with one thread reads `ins` and `jins`, and uses the vector buffer `k` -/
  | vecSingle (ins jins : List Nat) (k : Nat) (f : List (List Elem) → List (List (List Elem)) → List (DVOp Elem))

/-- What a step gives: what a step on vector buffers gives, the elements of the host vectors, for each thread of a kernel its
calls with the indices they returned, or the results of the operations.
No counterpart in /repo: programs of users. -/
inductive JagOut where
  | vec (o : PipeOut)
  | rows (l : List (List Elem))
  | claims (l : List (List (Nat × ACall Elem × Nat)))
  | rets (l : List (Res (Ret Elem)))

/-- The state of a program: the resources, the memory and the vector buffers, and the jagged buffers.
No counterpart in /repo: programs of users. -/
structure JPipe (σ : Type) where
  vec : Pipe σ
  jags : List (Nat × JagBuffer)

namespace JPipe

variable {σ : Type}

/-- What has been done with the resources, the memory and vector buffers.
No counterpart in /repo: programs of users. -/
def lift (p : JPipe σ) (r : Res PipeOut × Pipe σ) : Res JagOut × JPipe σ := (r.1.map .vec, { p with vec := r.2 })

/-- Write the elements of host vectors to their arrays.
No counterpart in /repo: programs of users. -/
def putRows (t : Nat) (m : Mem) : List Nat → List (List Elem) → Mem
  | a :: as, l :: ls => putRows t (Pipe.putElems t m a l) as ls
  | _, _ => m

/-- The views of `get_data(rows)`, impl/jagged_vector.ipp:32-35.  (The memory for the array of views is not modelled here; see
`getJagged`.) -/
def hostRows (rows : List (List Elem)) (ats : List Nat) : List View :=
  List.zipWith (fun (l : List Elem) a => ⟨l.length, 0, a⟩) rows ats

/-- A kernel reads all elements of the jagged buffers `jins`.
No counterpart in /repo: kernels of users. -/
def reads (c : JagCfg) (p : JPipe σ) : List Nat → Res (List (List (List Elem)))
  | [] => .ok []
  | i :: is =>
    match p.jags.lookup i with
    | none => .ub
    | some b =>
      match readRows c i p.vec.mem (b.deviceRows p.vec.mem) with
      | .ok l => (p.reads c is).map (l :: ·)
      | e => e.map fun _ => []

/-- The rows of the buffer, as device vectors.
Code: `core/include/vecmem/containers/impl/jagged_device_vector.ipp`. -/
def devices (c : JagCfg) (p : JPipe σ) (k : Nat) (b : JagBuffer) : List (DV Elem) :=
  (b.deviceRows p.vec.mem).map fun v => v.device c.vec.dbg (c.dflt k) (c.ty k).size p.vec.mem

/-- The state after a kernel has left the rows of the buffer `k` behind.
No counterpart in /repo: kernels of users. -/
def leave (c : JagCfg) (p : JPipe σ) (k : Nat) (b : JagBuffer) (rows : List (DV Elem)) : JPipe σ :=
  { p with vec := { p.vec with mem := storeRows (c.ty k).size p.vec.mem (b.deviceRows p.vec.mem) rows } }

/-- Make a step: the functions of `vecmem::jagged_vector_buffer` (`Model/Buffers.lean`), `vecmem::copy` (`Model/Copy.lean`) and
the device vectors, as in `Pipe.exec`.
Code: `core/include/vecmem/containers/impl/jagged_vector_buffer.ipp`, `core/include/vecmem/utils/impl/copy.ipp`, `core/include/vecmem/containers/impl/device_vector.ipp`. -/
def exec (c : JagCfg) (ups : Nat → MR σ) (p : JPipe σ) : JagOp → Res JagOut × JPipe σ
  | .vec op => p.lift (p.vec.exec c.vec ups op)
  | .create k caps resizable =>
    match JagBuffer.create (fun h => ups (c.source k h)) p.vec.res (c.ty k) caps (c.hasHost k) resizable with
    | (.ok b, u) =>
      (.ok (.vec .unit),
        { vec := { p.vec with res := u, mem := writeViews p.vec.mem b.hostPtr b.views }, jags := (k, b) :: p.jags })
    | (e, u) => (e.map fun _ => .vec .unit, { p with vec := { p.vec with res := u } })
  | .destroy k =>
    match p.jags.lookup k with
    | none => (.ub, p)
    | some b =>
      let r := b.destroy (fun h => ups (c.source k h)) (c.hasHost k) p.vec.res
      (r.1.map fun _ => .vec .unit, { vec := { p.vec with res := r.2 }, jags := p.jags.filter fun e => e.1 != k })
  | .setup k =>
    match p.jags.lookup k with
    | none => (.ub, p)
    | some b => p.lift (p.vec.onMem (setupJag b.view))
  | .memset k value =>
    match p.jags.lookup k with
    | none => (.ub, p)
    | some b => p.lift (p.vec.onMem (memsetJag (c.ty k).size b.view value))
  | .copy i j =>
    match p.jags.lookup i, p.jags.lookup j with
    | some a, some b => p.lift (p.vec.onMem (copyJag c.vec.dbg (c.ty i).size a.view b.view))
    | _, _ => (.ub, p)
  | .upload ats rows k =>
    match p.jags.lookup k with
    | none => (.ub, p)
    | some b =>
      let t := (c.ty k).size
      p.lift ({ p.vec with mem := putRows t p.vec.mem ats rows }.onMem
        (copyJag c.vec.dbg t ⟨hostRows rows ats, 0, 0⟩ b.view))
  | .download k ats =>
    match p.jags.lookup k with
    | none => (.ub, p)
    | some b =>
      let t := (c.ty k).size
      match (getSizes b.views).value p.vec.mem with
      | .ok ns =>
        let r := (copyJagToStd c.vec.dbg t b.view fun _ => ats).result p.vec.mem
        (r.1.map fun _ => .rows (List.zipWith (fun n a => (View.mk n 0 a).elems r.2 t) ns ats),
          { p with vec := { p.vec with mem := r.2 } })
      | e => (e.map fun _ => .vec .unit, p)
  | .kernel ins jins k f sched =>
    match p.jags.lookup k with
    | none => (.ub, p)
    | some b =>
      match p.vec.reads c.vec ins, p.reads c jins with
      | .ok ls, .ok js =>
        let g := RowConc.kernel (p.devices c k b) (f ls js) sched
        (if g.failed then .ub else .ok (.claims (g.threads.map RowThread.done)), p.leave c k b g.rows)
      | _, _ => (.ub, p)
  | .single ins jins k f =>
    match p.jags.lookup k with
    | none => (.ub, p)
    | some b =>
      match p.vec.reads c.vec ins, p.reads c jins with
      | .ok ls, .ok js =>
        let r := runRows (p.devices c k b) (f ls js)
        (.ok (.rets r.1), p.leave c k b r.2)
      | _, _ => (.ub, p)
  | .vecKernel ins jins k f sched =>
    match p.reads c jins with
    | .ok js => p.lift (p.vec.exec c.vec ups (.kernel ins k (fun ls => f ls js) sched))
    | _ => (.ub, p)
  | .vecSingle ins jins k f =>
    match p.reads c jins with
    | .ok js => p.lift (p.vec.exec c.vec ups (.single ins k fun ls => f ls js))
    | _ => (.ub, p)

end JPipe
end Vecmem
