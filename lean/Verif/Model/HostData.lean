import Verif.Model.Jagged
import Verif.Model.EdmHost
import Verif.Model.BufferMoves

/-!
# Model of the data objects of host containers: `jagged_vector_data` and `edm::data`

`get_data` of a host container makes an object that describes where the variables of the container are.  For jagged vectors it has
to hold arrays of views.  Several resources `ups i` act on a common state.
-/

namespace Vecmem

variable {α σ : Type}

/-- A variable of an `edm::host`, as far as it matters here: the address of the scalar, or `data()` and `size()` of the vectors.
Code: `core/include/vecmem/edm/details/host_traits.hpp`, lines 26-53. -/
inductive HostCol where
  | scalar (ptr : Nat)
  | vector (v : HostVec)
  | jagged (rows : List HostVec)
deriving DecidableEq, Repr

/-- The kinds of variables.
Code: `core/include/vecmem/edm/schema.hpp`. -/
inductive ColKind where
  | scalar | vector | jagged
deriving DecidableEq, Repr

/-- The kind of a variable.
Code: `core/include/vecmem/edm/schema.hpp`. -/
def HostCol.kind : HostCol → ColKind
  | .scalar _ => .scalar
  | .vector _ => .vector
  | .jagged _ => .jagged

/-- The size of a variable, if it is a vector, edm/details/host_traits.hpp:99-108. -/
def HostCol.size : HostCol → Option Nat
  | .scalar _ => none
  | .vector v => some v.size
  | .jagged rows => some rows.length

/-- The view of a variable, edm/details/view_traits.hpp:24-49. -/
inductive DataRef where
  | scalar (ptr : Nat)
  | vector (view : View)
  | jagged (view : JView)
deriving DecidableEq, Repr

/-- A data object: the capacity, and for each variable its view and the owning pointer of its `jagged_vector_data` (null for the other
variables, which have a `std::monostate`), edm/data.hpp:90-92 and data/jagged_vector_data.hpp:60-61.  (The `jagged_vector_data` has a
view of its own, which is the same.)  A `jagged_vector_data` alone is one with a single variable. -/
structure DataVar where
  capacity : Nat
  cols : List (DataRef × Owner)
deriving DecidableEq, Repr

/-- The owning pointers.  They are assigned and destroyed in this order by libstdc++; nothing depends on it.
Code: `core/include/vecmem/edm/data.hpp`, lines 53-55. -/
def DataVar.owners (v : DataVar) : List Owner := v.cols.map (·.2)

/-- What is left of an object that has been moved from by the defaulted members, edm/data.hpp:62-66 and data/jagged_vector_data.hpp:53-57:
views have been copied. -/
def DataVar.moved (v : DataVar) : DataVar := { v with cols := v.cols.map fun e => (e.1, e.2.moved) }

/-- The arguments of `std::make_tuple` in the constructor, edm/impl/data.ipp:18-19, with edm/details/data_traits.hpp:44-57: a
`jagged_vector_data` with `n` default views for every jagged vector (impl/jagged_vector_data.ipp:47-66).  `done` have been made.  If an
exception is thrown these are destroyed.  (The arguments may be evaluated in any order; all requests are the same.)  The views of the
other variables are null, edm/impl/view.ipp:23. -/
def makeCols (ups : Nat → MR σ) (res n : Nat) : List ColKind → List (DataRef × Owner) → σ → JMem α →
    Res (List (DataRef × Owner)) × σ × JMem α
  | [], done, u, m => (.ok done, u, m)
  | .scalar :: ks, done, u, m => makeCols ups res n ks (done ++ [(.scalar 0, {})]) u m
  | .vector :: ks, done, u, m => makeCols ups res n ks (done ++ [(.vector ⟨0, 0, 0⟩, {})]) u m
  | .jagged :: ks, done, u, m =>
    let r := allocOuter (ups res) u n
    match r.1 with
    | .ok b => makeCols ups res n ks (done ++ [(.jagged ⟨n, b.ptr⟩, ⟨b, res⟩)]) r.2 (initViews m b.ptr 0 n)
    | e =>
      let d := Owner.destroyAll ups (done.map (·.2)).reverse r.2
      (match d.1 with | .ok () => e.map fun _ => [] | _ => .ub, d.2, m)

/-- The constructor of `edm::data`, edm/impl/data.ipp:15-24. -/
def DataVar.make (ups : Nat → MR σ) (res n : Nat) (ks : List ColKind) (u : σ) (m : JMem α) : Res DataVar × σ × JMem α :=
  let r := makeCols ups res n ks [] u m
  (r.1.map fun cols => ⟨n, cols⟩, r.2)

/-- `get_data_impl`, edm/impl/host.ipp:167-201 (the other one, 236-271, differs in types only).  `done` are the variables that have been
set, the others have what the constructor gave them.  An array of views is made by `get_data` of the jagged vector, and then assigned
to `data.variables()`, which gives back the one that was there.  If an exception is thrown `result` is destroyed. -/
def fillCols (ups : Nat → MR σ) (res : Nat) : List (HostCol × DataRef × Owner) → List (DataRef × Owner) → σ → JMem α →
    Res (List (DataRef × Owner)) × σ × JMem α
  | [], done, u, m => (.ok done, u, m)
  | (.scalar p, _, o) :: cs, done, u, m => fillCols ups res cs (done ++ [(.scalar p, o)]) u m
  | (.vector v, _, o) :: cs, done, u, m => fillCols ups res cs (done ++ [(.vector ⟨v.size % 2 ^ 32, 0, v.data⟩, o)]) u m
  | (.jagged rows, _, o) :: cs, done, u, m =>
    let r := getJagged (ups res) u m rows
    match r.1 with
    | .ok (b, j) =>
      let d := o.mem.destroy (ups o.res) r.2.1
      match d.1 with
      | .ok () => fillCols ups res cs (done ++ [(.jagged j, ⟨b, res⟩)]) d.2 r.2.2
      | _ => (.ub, d.2, r.2.2)
    | e =>
      let d := Owner.destroyAll ups (done.map (·.2) ++ o :: cs.map fun c => c.2.2) r.2.1
      (match d.1 with | .ok () => e.map fun _ => [] | _ => .ub, d.2, r.2.2)

/-- `get_data` of an `edm::host`, edm/impl/host.ipp:203-227 (the other one, 273-297, differs in types only): `res` is the resource that is
used, the given one or that of the container.  `junk` is what is in the capacity of a default-constructed object, which is not set if
there are only scalars. -/
def getHostData (ups : Nat → MR σ) (res junk : Nat) (cols : List HostCol) (u : σ) (m : JMem α) : Res DataVar × σ × JMem α :=
  if cols.any fun c => c.size.isSome then
    match getHostSize (cols.map (·.size)) 0 false with
    | .ok n =>
      match DataVar.make ups res (n % 2 ^ 32) (cols.map (·.kind)) u m with
      | (.ok v, u, m) =>
        let r := fillCols ups res (cols.zip v.cols) [] u m
        (r.1.map fun cs => ⟨v.capacity, cs⟩, r.2)
      | (e, u, m) => (e, u, m)
    | e => (e.map fun _ => ⟨0, []⟩, u, m)
  else
    let r := fillCols ups res (cols.map fun c => (c, .scalar 0, {})) [] u m
    (r.1.map fun cs => ⟨junk, cs⟩, r.2)

/-- A step of a program. `x` and `y` are numbers of variables.
No counterpart in /repo: programs of users. -/
inductive DataOp where
  /-- `edm::data<S> x;` or `jagged_vector_data<T> x;`, with whatever is in the base class -/
  | empty (x capacity : Nat) (refs : List DataRef)
  /-- `edm::data<S> x(n, resource);` -/
  | make (x res n : Nat) (kinds : List ColKind)
  /-- `auto x = get_data(host, &resource);` -/
  | getHost (x res junk : Nat) (cols : List HostCol)
  /-- `auto x = get_data(jagged, &resource);` -/
  | getJag (x res : Nat) (rows : List HostVec)
  /-- `edm::data<S> x(std::move(y));`, or with `jagged_vector_data` -/
  | move (x y : Nat)
  /-- `x = std::move(y);` -/
  | assign (x y : Nat)
  /-- the end of the lifetime of `x` -/
  | destroy (x : Nat)
  /-- something else allocates memory -/
  | alloc (res n a : Nat)
  /-- and gives it back -/
  | free (res : Nat) (b : Blk)
  /-- a view is written somewhere else -/
  | write (a : Nat) (v : View)

/-- The state of a program: the resources, the memory, the variables that exist, and the memory that something else owns.
No counterpart in /repo: programs of users. -/
structure Datas (α σ : Type) where
  res : σ
  mem : JMem α
  vars : List (Nat × DataVar)
  other : List (Nat × Blk)

/-- Make a step.
Code: `core/include/vecmem/edm/impl/host.ipp`, `core/include/vecmem/edm/impl/data.ipp`, `core/include/vecmem/containers/impl/jagged_vector.ipp`,
and the defaulted members of `core/include/vecmem/edm/data.hpp`, lines 60-66, and
`core/include/vecmem/containers/data/jagged_vector_data.hpp`, lines 39-57. -/
def Datas.exec (ups : Nat → MR σ) (s : Datas α σ) : DataOp → Res Unit × Datas α σ
  | .empty x capacity refs => (.ok (), { s with vars := putVar s.vars x ⟨capacity, refs.map fun r => (r, {})⟩ })
  | .make x res n kinds =>
    match DataVar.make ups res (n % 2 ^ 32) kinds s.res s.mem with
    | (.ok v, u, m) => (.ok (), { s with res := u, mem := m, vars := putVar s.vars x v })
    | (e, u, m) => (e.map fun _ => (), { s with res := u, mem := m })
  | .getHost x res junk cols =>
    match getHostData ups res junk cols s.res s.mem with
    | (.ok v, u, m) => (.ok (), { s with res := u, mem := m, vars := putVar s.vars x v })
    | (e, u, m) => (e.map fun _ => (), { s with res := u, mem := m })
  | .getJag x res rows =>
    match getJagged (ups res) s.res s.mem rows with
    | (.ok (b, j), u, m) => (.ok (), { s with res := u, mem := m, vars := putVar s.vars x ⟨rows.length, [(.jagged j, ⟨b, res⟩)]⟩ })
    | (e, u, m) => (e.map fun _ => (), { s with res := u, mem := m })
  | .move x y =>
    match s.vars.lookup y with
    | none => (.ub, s)
    | some v => (.ok (), { s with vars := putVar (putVar s.vars y v.moved) x v })
  | .assign x y =>
    match s.vars.lookup x, s.vars.lookup y with
    | some w, some v =>
      if x = y then (.ok (), s)
      else
        let r := Owner.destroyAll ups w.owners s.res
        (r.1, { s with res := r.2, vars := putVar (putVar s.vars y v.moved) x v })
    | _, _ => (.ub, s)
  | .destroy x =>
    match s.vars.lookup x with
    | none => (.ub, s)
    | some v =>
      let r := Owner.destroyAll ups v.owners s.res
      (r.1, { s with res := r.2, vars := s.vars.filter fun e => e.1 != x })
  | .alloc res n a =>
    match (ups res).allocate s.res n a with
    | (.ok p, u) => (.ok (), { s with res := u, other := (res, ⟨p, n, a⟩) :: s.other })
    | (e, u) => (e.map fun _ => (), { s with res := u })
  | .free res b =>
    let r := (ups res).deallocate s.res b.addr b.size b.align
    (r.1, { s with res := r.2, other := s.other.erase (res, b) })
  | .write a v => (.ok (), { s with mem := s.mem.putView a v })

end Vecmem
