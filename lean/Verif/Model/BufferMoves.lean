import Verif.Model.JagPipeline

/-!
# Model of variables that hold buffers, and of moves between them

Programs as in `Model/JagPipeline.lean`, whose buffers are C++ variables: a buffer may be default-constructed, and its contents may
be moved to another variable by move construction or move assignment.  Every `unique_alloc_ptr` in a buffer carries the resource
that it gives its memory back to.
-/

namespace Vecmem

variable {σ : Type}

/-- A `unique_alloc_ptr` with its deleter: the pointer and the size (`mem`), and the number of the resource, details/unique_alloc_deleter.hpp:121-124
(`m_align` is 0). -/
structure Owner where
  mem : UniqueAlloc := {}
  res : Nat := 0
deriving DecidableEq, Repr

/-- What is left of a pointer that has been moved from: the pointer is null, the deleter has been copied.
Code: `core/include/vecmem/memory/unique_ptr.hpp`, line 55 (`std::unique_ptr`), `core/include/vecmem/memory/details/unique_alloc_deleter.hpp`, lines 74-93. -/
def Owner.moved (o : Owner) : Owner := { o with mem := { o.mem with ptr := 0 } }

/-- Several pointers are destroyed or reset, the first one first; details/unique_alloc_deleter.hpp:100-119. -/
def Owner.destroyAll (ups : Nat → MR σ) : List Owner → σ → Res Unit × σ
  | [], u => (.ok (), u)
  | o :: os, u =>
    match o.mem.destroy (ups o.res) u with
    | (.ok (), u) => destroyAll ups os u
    | (_, u) => (.ub, u)

/-- A `vector_buffer`: its base class and `m_memory`, data/vector_buffer.hpp:61-63. -/
structure VecVar where
  view : View
  own : Owner
deriving DecidableEq, Repr

namespace VecVar

/-- The buffer, without the resource.
Code: `core/include/vecmem/containers/data/vector_buffer.hpp`. -/
def buf (v : VecVar) : VecBuffer := ⟨v.view, v.own.mem⟩

/-- Default constructor, impl/vector_buffer.ipp:23-25. -/
def empty : VecVar := ⟨⟨0, 0, 0⟩, {}⟩

/-- What is left of a buffer that has been moved from by the defaulted move constructor or assignment, data/vector_buffer.hpp:56-59:
the base class has been copied and still is what it was. -/
def moved (v : VecVar) : VecVar := { v with own := v.own.moved }

end VecVar

/-- A `jagged_vector_buffer`: its base class (with the views that are in the host accessible array) and the three owning
pointers, data/jagged_vector_buffer.hpp:105-109. -/
structure JagVar where
  ptr : Nat
  hostPtr : Nat
  views : List View
  outer : Owner
  outerHost : Owner
  inner : Owner
deriving DecidableEq, Repr

namespace JagVar

/-- The buffer, without the resources.
Code: `core/include/vecmem/containers/data/jagged_vector_buffer.hpp`. -/
def buf (v : JagVar) : JagBuffer := ⟨v.ptr, v.hostPtr, v.views, v.outer.mem, v.outerHost.mem, v.inner.mem⟩

/-- Default constructor, impl/jagged_vector_buffer.ipp:55-60. -/
def empty : JagVar := ⟨0, 0, [], {}, {}, {}⟩

/-- What is left of a buffer that has been moved from, data/jagged_vector_buffer.hpp:98-102: the base class has been copied and still
is what it was. -/
def moved (v : JagVar) : JagVar :=
  { v with outer := v.outer.moved, outerHost := v.outerHost.moved, inner := v.inner.moved }

/-- The owning pointers in the order of their declaration, data/jagged_vector_buffer.hpp:105-109; this is the order in which a
move assignment resets them. -/
def owners (v : JagVar) : List Owner := [v.outer, v.outerHost, v.inner]

end JagVar

/-- What a program fixes for its variables: the element types, with the bytes of a value-initialised element, for vector buffers and for
jagged buffers, and whether assertions are enabled.
No counterpart in /repo: programs of users. -/
structure VarCfg where
  vecTy : Nat → CType
  vecDflt : Nat → Elem
  jagTy : Nat → CType
  jagDflt : Nat → Elem
  dbg : Bool

/-- The same with a resource and a host accessible resource for everything that is made.
No counterpart in /repo: programs of users. -/
def VarCfg.cfg (c : VarCfg) (res : Nat := 0) (host : Option Nat := none) : JagCfg :=
  { vec := { ty := c.vecTy, res := fun _ => res, dflt := c.vecDflt, dbg := c.dbg }
    ty := c.jagTy, res := fun _ => res, host := fun _ => host, dflt := c.jagDflt }

/-- A step of a program. `x` and `y` are numbers of variables; those of vector buffers and of jagged buffers are numbered separately.
No counterpart in /repo: programs of users. -/
inductive VarOp where
  /-- a step that uses buffers, but does not make or destroy any -/
  | use (op : JagOp)
  /-- `vector_buffer<T> x;` -/
  | vecEmpty (x : Nat)
  /-- `vector_buffer<T> x(capacity, resource, type);` -/
  | vecCreate (x res capacity : Nat) (resizable : Bool)
  /-- `vector_buffer<T> x(std::move(y));` -/
  | vecMove (x y : Nat)
  /-- `x = std::move(y);` -/
  | vecAssign (x y : Nat)
  /-- the end of the lifetime of `x` -/
  | vecDestroy (x : Nat)
  /-- `jagged_vector_buffer<T> x;` -/
  | jagEmpty (x : Nat)
  /-- `jagged_vector_buffer<T> x(capacities, resource, host_access_resource, type);` -/
  | jagCreate (x res : Nat) (host : Option Nat) (caps : List Nat) (resizable : Bool)
  /-- `jagged_vector_buffer<T> x(std::move(y));` -/
  | jagMove (x y : Nat)
  /-- `x = std::move(y);` -/
  | jagAssign (x y : Nat)
  /-- the end of the lifetime of `x` -/
  | jagDestroy (x : Nat)

/-- The state of a program: the resources, the memory, and the variables that exist.
No counterpart in /repo: programs of users. -/
structure Vars (σ : Type) where
  res : σ
  mem : Mem
  vecs : List (Nat × VecVar)
  jags : List (Nat × JagVar)

/-- Give a variable a value.
No counterpart in /repo: C++ variables. -/
def putVar {α : Type} (l : List (Nat × α)) (x : Nat) (v : α) : List (Nat × α) := (x, v) :: l.filter fun e => e.1 != x

namespace Vars

/-- The state as functions that use buffers see it.
No counterpart in /repo: programs of users. -/
def pipe (s : Vars σ) : JPipe σ :=
  ⟨⟨s.res, s.mem, s.vecs.map fun e => (e.1, e.2.buf)⟩, s.jags.map fun e => (e.1, e.2.buf)⟩

/-- Make a step.
Code: `core/include/vecmem/containers/impl/vector_buffer.ipp`, `core/include/vecmem/containers/impl/jagged_vector_buffer.ipp`, and the defaulted
members of `core/include/vecmem/containers/data/vector_buffer.hpp`, lines 55-59, and
`core/include/vecmem/containers/data/jagged_vector_buffer.hpp`, lines 98-102. A move assignment copies the base class, and then assigns member
by member: each `std::unique_ptr` gives back what it owned, with its own deleter, and takes over pointer and deleter.  Assigning
a buffer to itself does nothing: `std::unique_ptr` releases the pointer and takes it again. -/
def exec (c : VarCfg) (ups : Nat → MR σ) (s : Vars σ) : VarOp → Res JagOut × Vars σ
  | .use op =>
    let r := s.pipe.exec c.cfg ups op
    (r.1, { s with res := r.2.vec.res, mem := r.2.vec.mem })
  | .vecEmpty x => (.ok (.vec .unit), { s with vecs := putVar s.vecs x .empty })
  | .vecCreate x res capacity resizable =>
    match VecBuffer.create (ups res) s.res (c.vecTy x) capacity resizable with
    | (.ok b, u) => (.ok (.vec .unit), { s with res := u, vecs := putVar s.vecs x ⟨b.view, b.mem, res⟩ })
    | (e, u) => (e.map fun _ => .vec .unit, { s with res := u })
  | .vecMove x y =>
    match s.vecs.lookup y with
    | none => (.ub, s)
    | some v => (.ok (.vec .unit), { s with vecs := putVar (putVar s.vecs y v.moved) x v })
  | .vecAssign x y =>
    match s.vecs.lookup x, s.vecs.lookup y with
    | some w, some v =>
      if x = y then (.ok (.vec .unit), s)
      else
        let r := Owner.destroyAll ups [w.own] s.res
        (r.1.map fun _ => .vec .unit, { s with res := r.2, vecs := putVar (putVar s.vecs y v.moved) x v })
    | _, _ => (.ub, s)
  | .vecDestroy x =>
    match s.vecs.lookup x with
    | none => (.ub, s)
    | some v =>
      let r := Owner.destroyAll ups [v.own] s.res
      (r.1.map fun _ => .vec .unit, { s with res := r.2, vecs := s.vecs.filter fun e => e.1 != x })
  | .jagEmpty x => (.ok (.vec .unit), { s with jags := putVar s.jags x .empty })
  | .jagCreate x res host caps resizable =>
    match JagBuffer.create (fun h => ups (if h then host.getD 0 else res)) s.res (c.jagTy x) caps host.isSome resizable with
    | (.ok b, u) =>
      (.ok (.vec .unit),
        { s with res := u, mem := writeViews s.mem b.hostPtr b.views
                 jags := putVar s.jags x
                   ⟨b.ptr, b.hostPtr, b.views, ⟨b.outer, res⟩, ⟨b.outerHost, host.getD res⟩, ⟨b.inner, res⟩⟩ })
    | (e, u) => (e.map fun _ => .vec .unit, { s with res := u })
  | .jagMove x y =>
    match s.jags.lookup y with
    | none => (.ub, s)
    | some v => (.ok (.vec .unit), { s with jags := putVar (putVar s.jags y v.moved) x v })
  | .jagAssign x y =>
    match s.jags.lookup x, s.jags.lookup y with
    | some w, some v =>
      if x = y then (.ok (.vec .unit), s)
      else
        let r := Owner.destroyAll ups w.owners s.res
        (r.1.map fun _ => .vec .unit, { s with res := r.2, jags := putVar (putVar s.jags y v.moved) x v })
    | _, _ => (.ub, s)
  | .jagDestroy x =>
    match s.jags.lookup x with
    | none => (.ub, s)
    | some v =>
      let r := Owner.destroyAll ups v.owners.reverse s.res
      (r.1.map fun _ => .vec .unit, { s with res := r.2, jags := s.jags.filter fun e => e.1 != x })

end Vars
end Vecmem
