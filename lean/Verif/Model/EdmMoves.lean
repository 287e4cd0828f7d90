import Verif.Model.EdmPipeline
import Verif.Model.BufferMoves

/-!
# Model of variables that hold container buffers, and of moves between them

Programs as in `Model/EdmPipeline.lean`, whose container buffers are C++ variables; compare `Model/BufferMoves.lean`.
-/

namespace Vecmem

variable {σ : Type}

/-- An `edm::buffer`: its base class, `m_memory` and `m_host_memory`, edm/buffer.hpp:239-242.  The arguments of its constructor are kept; no
step looks at them. -/
structure EdmVar where
  view : EdmView
  mem : Owner := {}
  hostMem : Owner := {}
  caps : List Nat := []
  resizable : Bool := false
deriving DecidableEq, Repr

namespace EdmVar

/-- The buffer, without the resources.
Code: `core/include/vecmem/edm/buffer.hpp`. -/
def buf (v : EdmVar) : EBuffer := ⟨⟨v.view, v.mem.mem, v.hostMem.mem⟩, v.caps, v.resizable⟩

/-- What is left of a buffer that has been moved from by the defaulted move constructor or assignment, edm/buffer.hpp:186-190: the base
class has been copied and still is what it was. -/
def moved (v : EdmVar) : EdmVar := { v with mem := v.mem.moved, hostMem := v.hostMem.moved }

/-- The owning pointers in the order of their declaration, edm/buffer.hpp:239-242; this is the order in which a move assignment
resets them. -/
def owners (v : EdmVar) : List Owner := [v.mem, v.hostMem]

end EdmVar

/-- What a program fixes for its variables: the schema, and the bytes of value-initialised elements. Moreover a bound of all alignments, and
whether assertions are enabled.
No counterpart in /repo: programs of users. -/
structure EdmVarCfg where
  schema : Nat → Schema
  dflt : Nat → Nat → Elem
  align : Nat
  dbg : Bool

/-- The same with a resource and a host accessible resource for everything that is made.
No counterpart in /repo: programs of users. -/
def EdmVarCfg.cfg (c : EdmVarCfg) (res : Nat := 0) (host : Option Nat := none) : EdmCfg :=
  { schema := c.schema, res := fun _ => res, host := fun _ => host, dflt := c.dflt, align := c.align, dbg := c.dbg }

/-- A step of a program. `x` and `y` are numbers of variables.
No counterpart in /repo: programs of users. -/
inductive EdmVarOp where
  /-- a step that uses buffers, but does not make or destroy any -/
  | use (op : EdmOp)
  /-- `edm::buffer<S> x;`, where `view` is what happens to be in the base class: the members of `edm::view` are not initialised -/
  | empty (x : Nat) (view : EdmView)
  /-- `edm::buffer<S> x(capacities, resource, host_access_resource, type);` -/
  | create (x res : Nat) (host : Option Nat) (caps : List Nat) (resizable : Bool)
  /-- `edm::buffer<S> x(std::move(y));` -/
  | move (x y : Nat)
  /-- `x = std::move(y);` -/
  | assign (x y : Nat)
  /-- the end of the lifetime of `x` -/
  | destroy (x : Nat)

/-- The state of a program: the resources, the memory, and the variables that exist.
No counterpart in /repo: programs of users. -/
structure EdmVars (σ : Type) where
  res : σ
  mem : Mem
  vars : List (Nat × EdmVar)

namespace EdmVars

/-- The state as functions that use buffers see it.
No counterpart in /repo: programs of users. -/
def pipe (s : EdmVars σ) : EPipe σ := ⟨s.res, s.mem, s.vars.map fun e => (e.1, e.2.buf)⟩

/-- Make a step.
Code: `core/include/vecmem/edm/impl/buffer.ipp`, and the defaulted members of `core/include/vecmem/edm/buffer.hpp`, lines 184-190. A move
assignment copies the base class, and then assigns member by member, as in `Vars.exec`. -/
def exec (c : EdmVarCfg) (ups : Nat → MR σ) (s : EdmVars σ) : EdmVarOp → Res EdmOut × EdmVars σ
  | .use op =>
    let r := s.pipe.exec c.cfg ups op
    (r.1, { s with res := r.2.res, mem := r.2.mem })
  | .empty x view => (.ok .unit, { s with vars := putVar s.vars x { view } })
  | .create x res host caps resizable =>
    match EdmBuffer.create (fun h => ups (if h then host.getD 0 else res)) s.res (c.schema x) caps host.isSome resizable with
    | (.ok b, u) =>
      (.ok .unit,
        { s with res := u, mem := writeLayouts s.mem b.view.vars
                 vars := putVar s.vars x ⟨b.view, ⟨b.mem, res⟩, ⟨b.hostMem, host.getD 0⟩, caps, resizable⟩ })
    | (e, u) => (e.map fun _ => .unit, { s with res := u })
  | .move x y =>
    match s.vars.lookup y with
    | none => (.ub, s)
    | some v => (.ok .unit, { s with vars := putVar (putVar s.vars y v.moved) x v })
  | .assign x y =>
    match s.vars.lookup x, s.vars.lookup y with
    | some w, some v =>
      if x = y then (.ok .unit, s)
      else
        let r := Owner.destroyAll ups w.owners s.res
        (r.1.map fun _ => .unit, { s with res := r.2, vars := putVar (putVar s.vars y v.moved) x v })
    | _, _ => (.ub, s)
  | .destroy x =>
    match s.vars.lookup x with
    | none => (.ub, s)
    | some v =>
      let r := Owner.destroyAll ups v.owners.reverse s.res
      (r.1.map fun _ => .unit, { s with res := r.2, vars := s.vars.filter fun e => e.1 != x })

end EdmVars
end Vecmem
