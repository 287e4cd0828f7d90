import Verif.Model.EdmToHost
import Verif.Model.EdmDevice
import Verif.Model.JagPipeline

/-!
# Model of programs that use container buffers

Like `Model/JagPipeline.lean`, for programs that use `edm::buffer`s: they create and destroy them, set them up, fill them, copy
between them and from and to host containers, and run kernels on them, all in one memory of bytes.
-/

namespace Vecmem

open Prog

/-- All elements of a container: for each variable its rows; a vector has one row, a scalar one row of one element.
No counterpart in /repo: the view of a user. -/
abbrev Table := List (List (List Elem))

/-- What a program fixes for its container buffers, which are numbered: the schema, the resource, the host accessible resource
(if one is given to the constructor), and for each variable the bytes of a value-initialised element.  Moreover a bound of all
alignments, and whether assertions are enabled.
No counterpart in /repo: programs of users. -/
structure EdmCfg where
  schema : Nat → Schema
  res : Nat → Nat
  host : Nat → Option Nat
  dflt : Nat → Nat → Elem
  align : Nat
  dbg : Bool

namespace EdmCfg

/-- A host accessible resource is given to the constructor of `k`.
No counterpart in /repo: programs of users. -/
def hasHost (c : EdmCfg) (k : Nat) : Bool := (c.host k).isSome

/-- The number of the resource (`false`) or the host accessible resource (`true`) of `k`.
No counterpart in /repo: programs of users. -/
def source (c : EdmCfg) (k : Nat) (h : Bool) : Nat := if h then (c.host k).getD 0 else c.res k

end EdmCfg

/-- A container buffer.  The arguments of its constructor are kept; no step looks at them.
Code: `core/include/vecmem/edm/buffer.hpp`. -/
structure EBuffer where
  buf : EdmBuffer
  caps : List Nat
  resizable : Bool

/-- The constructor of the buffer writes the views of the inner vectors to the host accessible arrays,
edm/details/buffer_traits.hpp:98-126. -/
def writeLayouts (m : Mem) : List VarView → Mem
  | [] => m
  | .jagged j :: xs => writeLayouts (writeViews m j.hostPtr j.views) xs
  | _ :: xs => writeLayouts m xs

/-! ## What kernels find -/

/-- The rows of a variable of the `edm::device` that a kernel makes of its view of the buffer,
edm/details/device_traits.hpp:27-75: those of a jagged vector are found through the array in device memory (see
`JagBuffer.deviceRows`). -/
def VarView.deviceRows (m : Mem) : VarView → List View
  | .scalar p => [⟨1, 0, p⟩]
  | .vector v => [v]
  | .jagged j => (List.range j.views.length).map fun i => readView m (j.ptr + viewSize * i)

/-- Read all elements of the rows of a variable.
Code: `core/include/vecmem/containers/impl/device_vector.ipp`, lines 399-436. -/
def readVar (dbg : Bool) (dflt : Elem) (t : Nat) (m : Mem) : List View → Res (List (List Elem))
  | [] => .ok []
  | v :: vs =>
    match (v.device dbg dflt t m).iterate with
    | .ok l => (readVar dbg dflt t m vs).map (l :: ·)
    | e => e.map fun _ => []

/-- Read all elements of all variables, which begin with number `i`.
Code: `core/include/vecmem/edm/impl/device.ipp`, lines 90-104. -/
def readVars (c : EdmCfg) (k : Nat) (m : Mem) (i : Nat) : Schema → List VarView → Res Table
  | v :: S, x :: xs =>
    match readVar c.dbg (c.dflt k i) v.type.size m (x.deviceRows m) with
    | .ok l => (readVars c k m (i + 1) S xs).map (l :: ·)
    | e => e.map fun _ => []
  | _, _ => .ok []

/-! ## Kernels that append elements -/

/-- A variable of the `edm::device` with the memory it points to, in a schema without jagged vectors.
Code: `core/include/vecmem/edm/impl/device.ipp`, lines 21-31. -/
def VarView.device (dflt : Elem) (t : Nat) (m : Mem) : VarView → DevVar Elem
  | .scalar p => .scalar (bytesAt m p t)
  | .vector v => .vector dflt v.capacity fun i => if i < v.capacity then some (bytesAt m (v.ptr + i * t) t) else none
  | .jagged _ => .scalar []

/-- The variables, which begin with number `i`.
Code: `core/include/vecmem/edm/impl/device.ipp`, lines 21-31. -/
def deviceVars (dflt : Nat → Elem) (m : Mem) (i : Nat) : Schema → List VarView → List (DevVar Elem)
  | v :: S, x :: xs => x.device (dflt i) v.type.size m :: deviceVars dflt m (i + 1) S xs
  | _, _ => []

/-- The `edm::device` that a kernel makes of its view of the buffer, edm/impl/device.ipp:17-32. -/
def EdmView.device (dbg : Bool) (dflt : Nat → Elem) (S : Schema) (m : Mem) (e : EdmView) : DevCont Elem :=
  { dbg, hasSize := e.size.ptr != 0, cap := e.capacity, sizeWord := if e.size.ptr = 0 then 0 else readLE m e.size.ptr 4
    vars := deviceVars dflt m 0 S e.vars }

/-- The memory after a kernel has left a variable behind.
No counterpart in /repo: where device vectors have their elements and sizes. -/
def VarView.store (t : Nat) (m : Mem) : VarView → DevVar Elem → Mem
  | .vector v, .vector _ _ f => Pipe.putElems t m v.ptr ((List.range v.capacity).map fun i => (f i).getD [])
  | .scalar p, .scalar e => Pipe.putElems t m p [e]
  | _, _ => m

/-- The memory after a kernel has left all variables behind.
No counterpart in /repo: where device vectors have their elements and sizes. -/
def storeVars (m : Mem) : Schema → List VarView → List (DevVar Elem) → Mem
  | v :: S, x :: xs, d :: ds => storeVars (x.store v.type.size m d) S xs ds
  | _, _, _ => m

/-- The memory after a kernel has left the container behind.
No counterpart in /repo: where the container has its elements and its size. -/
def EdmView.store (S : Schema) (m : Mem) (e : EdmView) (s : DevCont Elem) : Mem :=
  let m' := storeVars m S e.vars s.vars
  if e.size.ptr = 0 then m' else writeLE m' e.size.ptr 4 s.sizeWord

/-- Thread after thread is run to its end: for each call `push_back_default` with its `n` variables and the assignments.
No counterpart in /repo: kernels of users. -/
def drainCalls (n : Nat) (progs : List (List (DCall Elem))) : List Nat :=
  (List.range progs.length).flatMap fun i =>
    List.replicate ((progs.getD i []).map fun c => n + c.assigns.length + 4).sum i

/-- A kernel whose threads run the given programs; compare `Conc.kernel`.
No counterpart in /repo: kernels of users. -/
def DConc.kernel (s : DevCont Elem) (progs : List (List (DCall Elem))) (sched : List Nat) : DConc Elem :=
  (DConc.start s progs).run (sched ++ drainCalls s.vars.length progs)

/-! ## Kernels that load and store elements -/

/-- An element of a container: that with number `index` of the row `row` of the variable `var`.  (For a vector and a scalar there is
only the row 0, and for a scalar only the index 0.)
No counterpart in /repo: kernels of users. -/
structure Cell where
  var : Nat
  row : Nat
  index : Nat
deriving DecidableEq, Repr

/-- What a thread still does with the elements of a container: nothing; load an element, and go on depending on its value; or store
one, and go on.
No counterpart in /repo: kernels of users. -/
inductive KProg where
  | done
  | load (c : Cell) (next : Elem → KProg)
  | store (c : Cell) (x : Elem) (next : KProg)

/-- The size and the address of an element, as in `get<var>()[row][index]`, `at(index).get<var>()` or `get<var>()`: impl/device_vector.ipp:62-100,
impl/jagged_device_vector.ipp:43-82, edm/impl/device.ipp:106-165 and edm/impl/proxy.ipp.  There is none beyond the size: then behaviour is
undefined (or an assertion fails). -/
def EdmView.locate (S : Schema) (m : Mem) (e : EdmView) (c : Cell) : Option (Nat × Nat) :=
  match S[c.var]?, e.vars[c.var]? with
  | some v, some x =>
    match (x.deviceRows m)[c.row]? with
    | some r => if c.index < r.len m then some (v.type.size, r.ptr + c.index * v.type.size) else none
    | none => none
  | _, _ => none

/-- The next access of a thread.
Code: `core/include/vecmem/containers/impl/device_vector.ipp`, lines 64-100 (the references that are returned). -/
def KProg.act (S : Schema) (e : EdmView) (m : Mem) : KProg → Res (KProg × Mem)
  | .done => .ok (.done, m)
  | .load c next =>
    match e.locate S m c with
    | some (t, a) => .ok (next (bytesAt m a t), m)
    | none => .ub
  | .store c x next =>
    match e.locate S m c with
    | some (t, a) => .ok (next, Pipe.putElems t m a [x])
    | none => .ub

/-- All accesses of a thread.
No counterpart in /repo: kernels of users. -/
def KProg.exec (S : Schema) (e : EdmView) : KProg → Mem → Res Mem
  | .done, m => .ok m
  | .load c next, m =>
    match e.locate S m c with
    | some (t, a) => (next (bytesAt m a t)).exec S e m
    | none => .ub
  | .store c x next, m =>
    match e.locate S m c with
    | some (t, a) => next.exec S e (Pipe.putElems t m a [x])
    | none => .ub

/-- All accesses of thread after thread.
No counterpart in /repo: kernels of users. -/
def execThreads (S : Schema) (e : EdmView) : List KProg → Mem → Res Mem
  | [], m => .ok m
  | p :: ps, m =>
    match p.exec S e m with
    | .ok m' => execThreads S e ps m'
    | r => r

/-- A kernel whose threads make their accesses in the order given by `sched`, which names the thread that makes the next one; what
is left then is done thread after thread.
No counterpart in /repo: kernels of users. -/
def execKernel (S : Schema) (e : EdmView) : List KProg → List Nat → Mem → Res Mem
  | ps, [], m => execThreads S e ps m
  | ps, i :: sched, m =>
    match ps[i]? with
    | none => execKernel S e ps sched m
    | some p =>
      match p.act S e m with
      | .ok r => execKernel S e (ps.set i r.1) sched r.2
      | _ => .ub

/-! ## Programs -/

/-- A step of a program. `k`, `i`, `j` and `ins` are numbers of container buffers.
No counterpart in /repo: programs of users. -/
inductive EdmOp where
  /-- `k = edm::buffer(capacities, resource, host_access_resource, type)`, or `edm::buffer(capacity, resource, type)` if the schema
  has no jagged vectors; then only the number of `caps` counts -/
  | create (k : Nat) (caps : List Nat) (resizable : Bool)
  /-- the destructor of `k` -/
  | destroy (k : Nat)
  /-- `copy.setup(k)->wait()` -/
  | setup (k : Nat)
  /-- `copy.memset(k, value)->wait()` -/
  | memset (k : Nat) (value : UInt8)
  /-- `copy(i, j)->wait()` -/
  | copy (i j : Nat)
  /-- `copy(get_data(host), k)->wait()`, for a host container with the elements `tbl`, whose arrays are at the addresses `ats` -/
  | upload (ats : List (List Nat)) (tbl : Table) (k : Nat)
  /-- `copy(k, host)->wait()`, for a host container whose arrays are then at the addresses `ats` -/
  | download (k : Nat) (ats : List (List Nat))
  /-- a kernel reads the containers `ins`; its threads call `push_back_default` of `k` and assign to the new elements -/
  | append (ins : List Nat) (k : Nat) (f : List Table → List (List (DCall Elem))) (sched : List Nat)
  /-- a kernel reads `ins`; its threads append to rows of the jagged vector `v` of `k` -/
  | rows (ins : List Nat) (k v : Nat) (f : List Table → List (List (Nat × ACall Elem))) (sched : List Nat)
  /-- a kernel reads `ins`; its threads load and store elements of `k` -/
  | kernel (ins : List Nat) (k : Nat) (f : List Table → List KProg) (sched : List Nat)
  /-- a kernel with one thread reads `ins`, and runs operations on rows of the variable `v` of `k` -/
  | single (ins : List Nat) (k v : Nat) (f : List Table → List (Nat × DVOp Elem))

/-- What a step gives: nothing, the elements of the host container, for each thread of a kernel its calls with the indices they
returned, or the results of the operations.
No counterpart in /repo: programs of users. -/
inductive EdmOut where
  | unit
  | table (t : Table)
  | calls (l : List (List (DCall Elem × Nat)))
  | claims (l : List (List (Nat × ACall Elem × Nat)))
  | rets (l : List (Res (Ret Elem)))

/-- The state of a program: the resources, the memory, and the container buffers.
No counterpart in /repo: programs of users. -/
structure EPipe (σ : Type) where
  res : σ
  mem : Mem
  bufs : List (Nat × EBuffer)

/-- Write the elements of a host container to its arrays.
No counterpart in /repo: programs of users. -/
def putTable (m : Mem) : Schema → List (List Nat) → Table → Mem
  | v :: S, as :: ats, ls :: tbl => putTable (JPipe.putRows v.type.size m as ls) S ats tbl
  | _, _, _ => m

/-- The elements of a host container whose arrays have these sizes and addresses.
No counterpart in /repo: programs of users. -/
def hostTable (m : Mem) (S : Schema) (sizes addrs : List (List Nat)) : Table :=
  List.zipWith (fun v sa => List.zipWith (fun n a => (View.mk n 0 a).elems m v.type.size) sa.1 sa.2) S (List.zip sizes addrs)

namespace EPipe

variable {σ : Type}

/-- Run a step of `vecmem::copy` on the memory, and wait for it.
No counterpart in /repo: programs of users. -/
def onMem (p : EPipe σ) (q : Prog Nat) : Res EdmOut × EPipe σ :=
  let r := q.result p.mem
  (r.1.map fun _ => .unit, { p with mem := r.2 })

/-- A kernel reads all elements of the containers `ins`.
No counterpart in /repo: kernels of users. -/
def reads (c : EdmCfg) (p : EPipe σ) : List Nat → Res (List Table)
  | [] => .ok []
  | i :: is =>
    match p.bufs.lookup i with
    | none => .ub
    | some b =>
      match readVars c i p.mem 0 (c.schema i) b.buf.view.vars with
      | .ok l => (p.reads c is).map (l :: ·)
      | e => e.map fun _ => []

/-- The rows of a variable, as device vectors.
Code: `core/include/vecmem/containers/impl/jagged_device_vector.ipp`. -/
def devices (c : EdmCfg) (p : EPipe σ) (k v : Nat) (ty : Var) (x : VarView) : List (DV Elem) :=
  (x.deviceRows p.mem).map fun r => r.device c.dbg (c.dflt k v) ty.type.size p.mem

/-- The state after a kernel has left the rows of a variable behind.
No counterpart in /repo: kernels of users. -/
def leave (p : EPipe σ) (ty : Var) (x : VarView) (rows : List (DV Elem)) : EPipe σ :=
  { p with mem := storeRows ty.type.size p.mem (x.deviceRows p.mem) rows }

/-- Make a step: the functions of `edm::buffer` (`Model/EdmBuffer.lean`), `vecmem::copy` (`Model/EdmCopy.lean`,
`Model/EdmToHost.lean`), `edm::device` (`Model/EdmDevice.lean`) and the device vectors.  Each step includes waiting for its
end.
Code: `core/include/vecmem/edm/impl/buffer.ipp`, `core/include/vecmem/utils/impl/copy.ipp`, `core/include/vecmem/edm/impl/device.ipp`. -/
def exec (c : EdmCfg) (ups : Nat → MR σ) (p : EPipe σ) : EdmOp → Res EdmOut × EPipe σ
  | .create k caps resizable =>
    match EdmBuffer.create (fun h => ups (c.source k h)) p.res (c.schema k) caps (c.hasHost k) resizable with
    | (.ok b, u) => (.ok .unit, ⟨u, writeLayouts p.mem b.view.vars, (k, ⟨b, caps, resizable⟩) :: p.bufs⟩)
    | (e, u) => (e.map fun _ => .unit, { p with res := u })
  | .destroy k =>
    match p.bufs.lookup k with
    | none => (.ub, p)
    | some b =>
      let r := b.buf.destroy (fun h => ups (c.source k h)) p.res
      (r.1.map fun _ => .unit, { p with res := r.2, bufs := p.bufs.filter fun e => e.1 != k })
  | .setup k =>
    match p.bufs.lookup k with
    | none => (.ub, p)
    | some b => p.onMem (setupEdm c.dbg b.buf.view)
  | .memset k value =>
    match p.bufs.lookup k with
    | none => (.ub, p)
    | some b => p.onMem (memsetEdm (c.schema k) b.buf.view value)
  | .copy i j =>
    match p.bufs.lookup i, p.bufs.lookup j with
    | some a, some b => p.onMem (copyEdm c.dbg (c.schema i) a.buf.view b.buf.view)
    | _, _ => (.ub, p)
  | .upload ats tbl k =>
    match p.bufs.lookup k with
    | none => (.ub, p)
    | some b =>
      { p with mem := putTable p.mem (c.schema k) ats tbl }.onMem
        (copyEdmFromHost c.dbg (c.schema k) (tbl.map fun (ls : List (List Elem)) => ls.map List.length) ats b.buf.view)
  | .download k ats =>
    match p.bufs.lookup k with
    | none => (.ub, p)
    | some b =>
      match (hostSizes c.dbg (c.schema k) b.buf.view).value p.mem with
      | .ok ns =>
        let r := (copyEdmToHost c.dbg (c.schema k) b.buf.view fun _ => ats).result p.mem
        (r.1.map fun _ => .table (hostTable r.2 (c.schema k) ns ats), { p with mem := r.2 })
      | e => (e.map fun _ => .unit, p)
  | .append ins k f sched =>
    match p.bufs.lookup k, p.reads c ins with
    | some b, .ok ls =>
      let g := DConc.kernel (b.buf.view.device c.dbg (c.dflt k) (c.schema k) p.mem) (f ls) sched
      (if g.failed then .ub else .ok (.calls (g.threads.map DThread.done)),
        { p with mem := b.buf.view.store (c.schema k) p.mem g.cont })
    | _, _ => (.ub, p)
  | .rows ins k v f sched =>
    match p.bufs.lookup k, p.reads c ins with
    | some b, .ok ls =>
      match (c.schema k)[v]?, b.buf.view.vars[v]? with
      | some ty, some x =>
        let g := RowConc.kernel (p.devices c k v ty x) (f ls) sched
        (if g.failed then .ub else .ok (.claims (g.threads.map RowThread.done)), p.leave ty x g.rows)
      | _, _ => (.ub, p)
    | _, _ => (.ub, p)
  | .kernel ins k f sched =>
    match p.bufs.lookup k, p.reads c ins with
    | some b, .ok ls =>
      match execKernel (c.schema k) b.buf.view (f ls) sched p.mem with
      | .ok m => (.ok .unit, { p with mem := m })
      | _ => (.ub, p)
    | _, _ => (.ub, p)
  | .single ins k v f =>
    match p.bufs.lookup k, p.reads c ins with
    | some b, .ok ls =>
      match (c.schema k)[v]?, b.buf.view.vars[v]? with
      | some ty, some x =>
        let r := runRows (p.devices c k v ty x) (f ls)
        (.ok (.rets r.1), p.leave ty x r.2)
      | _, _ => (.ub, p)
    | _, _ => (.ub, p)

end EPipe
end Vecmem
