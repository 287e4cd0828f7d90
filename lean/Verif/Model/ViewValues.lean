import Verif.Model.BufferMoves
import Verif.Model.EdmBuffer

/-!
# Model of views as values

Views of vectors, of jagged vectors and of containers are small objects that programs make, copy, convert to views for reading,
assign and compare.  In `Model/Copy.lean` and `Model/EdmBuffer.lean` a jagged view comes with the views of its rows.  Here the rows
are in memory, where programs may replace them.  Not modelled: `volatile`, and views without a value (made by a default
constructor).
-/

namespace Vecmem

/-- The type of the elements: which type it is, without and with `const`.
No counterpart in /repo: C++ types. -/
structure QType where
  base : Nat
  const : Bool
deriving DecidableEq, Repr

/-- `details::is_same_nc<a, b>`, utils/type_traits.hpp:36-44. -/
def isSameNc (a b : QType) : Bool := a.const && !b.const && a.base == b.base

/-- The types of views: a pointer, `vector_view` or `jagged_vector_view` (these are also the views of the variables of a container,
edm/details/view_traits.hpp:35-54), or an `edm::view` of a schema. -/
inductive ViewType where
  | leaf (k : VarKind) (t : QType)
  | edm (vars : List (VarKind × QType))
deriving DecidableEq, Repr

/-- `std::is_constructible` for pointers and for views of vectors and of jagged vectors: the implicit copy constructors, and the
constructor templates of data/vector_view.hpp:77-80 and data/jagged_vector_view.hpp:79-83. -/
def leafFrom (a b : VarKind × QType) : Bool := a.1 == b.1 && (a.2 == b.2 || isSameNc a.2 b.2)

/-- The condition of the constructor template and the assignment template of `edm::view`, edm/view.hpp:91-123. -/
def edmFrom (a b : List (VarKind × QType)) : Bool :=
  a.length == b.length && (List.zipWith leafFrom a b).all id && (List.zipWith (fun x y => x != y) a b).any id

/-- An object of type `a` may be made from or assigned an object of type `b`: by the implicit members, if the types are the
same, or by the templates.
Code: `core/include/vecmem/containers/data/vector_view.hpp`, `core/include/vecmem/containers/data/jagged_vector_view.hpp`,
`core/include/vecmem/edm/view.hpp`. -/
def ViewType.from (a b : ViewType) : Bool :=
  a == b ||
    match a, b with
    | .leaf k t, .leaf l u => leafFrom (k, t) (l, u)
    | .edm vs, .edm ws => edmFrom vs ws
    | _, _ => false

/-- A `jagged_vector_view`: `m_size`, `m_ptr` and `m_host_ptr`, data/jagged_vector_view.hpp:148-160. -/
structure JagRef where
  size : Nat
  ptr : Nat
  hostPtr : Nat
deriving DecidableEq, Repr

/-- The view of a variable of a container, edm/details/view_traits.hpp:35-54; also a `vector_view` or a `jagged_vector_view` on its own. -/
inductive LeafView where
  | scalar (p : Nat)
  | vector (v : View)
  | jagged (j : JagRef)
deriving DecidableEq, Repr

/-- The members of an `edm::view`, edm/view.hpp:173-188; see `EdmView`. -/
structure EdmRef where
  capacity : Nat
  vars : List LeafView
  size : View
  payload : View
  layout : View
  hostLayout : View
deriving DecidableEq, Repr

/-- A view.
No counterpart in /repo: the values of three types. -/
inductive ViewVal where
  | leaf (l : LeafView)
  | edm (e : EdmRef)
deriving DecidableEq, Repr

namespace View

/-- The constructor for data of constant size, impl/vector_view.ipp:15-18. -/
def ofFixed (size ptr : Nat) : View := ⟨size, 0, ptr⟩

/-- The constructor for resizable data, impl/vector_view.ipp:20-24. -/
def ofResizable (capacity size ptr : Nat) : View := ⟨capacity, size, ptr⟩

/-- The constructor from a view of elements that are not `const`, impl/vector_view.ipp:26-33. -/
def convert (parent : View) : View := ⟨parent.capacity, parent.sizePtr, parent.ptr⟩

/-- The assignment of a view of elements that are not `const`, impl/vector_view.ipp:35-49. -/
def assign (self rhs : View) : View := { self with capacity := rhs.capacity, sizePtr := rhs.sizePtr, ptr := rhs.ptr }

/-- `operator==`, impl/vector_view.ipp:51-61. -/
def eq (a b : View) : Bool := a.capacity == b.capacity && a.sizePtr == b.sizePtr && a.ptr == b.ptr

end View

namespace JagRef

/-- The constructor from all members, impl/jagged_vector_view.ipp:14-19. -/
def make (size ptr hostPtr : Nat) : JagRef := ⟨size, ptr, if hostPtr ≠ 0 then hostPtr else ptr⟩

/-- The constructor from a view of elements that are not `const`, impl/jagged_vector_view.ipp:21-35. -/
def convert (parent : JagRef) : JagRef := ⟨parent.size, parent.ptr, parent.hostPtr⟩

/-- The assignment of a view of elements that are not `const`, impl/jagged_vector_view.ipp:37-54. -/
def assign (self rhs : JagRef) : JagRef := { self with size := rhs.size, ptr := rhs.ptr, hostPtr := rhs.hostPtr }

/-- `operator==`, impl/jagged_vector_view.ipp:56-69. -/
def eq (a b : JagRef) : Bool := a.size == b.size && a.ptr == b.ptr && a.hostPtr == b.hostPtr

/-- `ptr()` or `host_ptr()`, impl/jagged_vector_view.ipp:96-123. -/
def array (j : JagRef) (host : Bool) : Nat := if host then j.hostPtr else j.ptr

/-- The address of the view of row `i`.
Code: `core/include/vecmem/containers/impl/jagged_vector_view.ipp`, lines 96-123. -/
def slot (j : JagRef) (host : Bool) (i : Nat) : Nat := j.array host + viewSize * i

end JagRef

namespace LeafView

/-- Make a view from one of the same sort.
Code: `core/include/vecmem/containers/impl/vector_view.ipp`, `core/include/vecmem/containers/impl/jagged_vector_view.ipp`. -/
def convert : LeafView → LeafView
  | .scalar p => .scalar p
  | .vector v => .vector v.convert
  | .jagged j => .jagged j.convert

/-- Assign a view of the same sort.
Code: `core/include/vecmem/containers/impl/vector_view.ipp`, `core/include/vecmem/containers/impl/jagged_vector_view.ipp`. -/
def assign : LeafView → LeafView → LeafView
  | .vector v, .vector w => .vector (v.assign w)
  | .jagged j, .jagged k => .jagged (j.assign k)
  | _, w => w

/-- The sort of a view.
No counterpart in /repo: C++ types. -/
def kind : LeafView → VarKind
  | .scalar _ => .scalar
  | .vector _ => .vector
  | .jagged _ => .jagged

end LeafView

namespace EdmRef

/-- The constructor with a capacity, edm/impl/view.ipp:18-27: `m_views{}` value-initialises the views. -/
def make (kinds : List VarKind) (capacity : Nat) (size : View := ⟨0, 0, 0⟩) : EdmRef :=
  { capacity
    vars := kinds.map fun
      | .scalar => .scalar 0
      | .vector => .vector ⟨0, 0, 0⟩
      | .jagged => .jagged ⟨0, 0, 0⟩
    size
    payload := .ofFixed 0 0
    layout := .ofFixed 0 0
    hostLayout := .ofFixed 0 0 }

/-- The constructor from a different view, edm/impl/view.ipp:29-47; the tuple is converted element by element (see C63). -/
def convert (other : EdmRef) : EdmRef :=
  { capacity := other.capacity
    vars := other.vars.map LeafView.convert
    size := other.size.convert
    payload := other.payload.convert
    layout := other.layout.convert
    hostLayout := other.hostLayout.convert }

/-- The assignment of a different view, edm/impl/view.ipp:49-77; the tuple is assigned element by element (see C63). -/
def assign (self rhs : EdmRef) : EdmRef :=
  { capacity := rhs.capacity
    vars := List.zipWith LeafView.assign self.vars rhs.vars
    size := self.size.assign rhs.size
    payload := self.payload.assign rhs.payload
    layout := self.layout.assign rhs.layout
    hostLayout := self.hostLayout.assign rhs.hostLayout }

end EdmRef

namespace ViewVal

/-- `a x(y);` for views of types `a` and `b`: the implicit copy constructor copies the members.
Code: `core/include/vecmem/containers/impl/vector_view.ipp`, `core/include/vecmem/containers/impl/jagged_vector_view.ipp`,
`core/include/vecmem/edm/impl/view.ipp`. -/
def construct (a b : ViewType) (y : ViewVal) : ViewVal :=
  if a = b then y
  else match y with
    | .leaf l => .leaf l.convert
    | .edm e => .edm e.convert

/-- `x = y;` for views of types `a` and `b`: the implicit assignment copies the members.
Code: `core/include/vecmem/containers/impl/vector_view.ipp`, `core/include/vecmem/containers/impl/jagged_vector_view.ipp`,
`core/include/vecmem/edm/impl/view.ipp`. -/
def assign (a b : ViewType) (x y : ViewVal) : ViewVal :=
  if a = b then y
  else match x, y with
    | .leaf l, .leaf k => .leaf (l.assign k)
    | .edm e, .edm f => .edm (e.assign f)
    | _, _ => y

end ViewVal

/-- The block of bytes of a container that is written as a whole: `size()` and `payload()`, edm/view.hpp:154-160. -/
inductive EdmPart where
  | size
  | payload
deriving DecidableEq, Repr

@[inherit_doc EdmPart]
def EdmRef.part (e : EdmRef) : EdmPart → View
  | .size => e.size
  | .payload => e.payload

/-- A step of a program.  `x` and `y` are numbers of variables that hold views.
No counterpart in /repo: programs of users. -/
inductive ViewOp where
  /-- `vector_view<T> x(size, ptr);` -/
  | vecFixed (x : Nat) (t : QType) (size ptr : Nat)
  /-- `vector_view<T> x(capacity, size, ptr);` -/
  | vecResizable (x : Nat) (t : QType) (capacity size ptr : Nat)
  /-- `jagged_vector_view<T> x(size, ptr, host_ptr);` -/
  | jag (x : Nat) (t : QType) (size ptr hostPtr : Nat)
  /-- `edm::view<schema<VARTYPES...>> x(capacity, size);` -/
  | edm (x : Nat) (vars : List (VarKind × QType)) (capacity : Nat) (size : View)
  /-- `x` becomes the view in the base class of a container buffer, or what `get_data` returns -/
  | edmFilled (x : Nat) (vars : List (VarKind × QType)) (e : EdmRef)
  /-- `a x(y);` -/
  | init (x : Nat) (a : ViewType) (y : Nat)
  /-- `x = y;` -/
  | assign (x y : Nat)
  /-- `x == y` -/
  | equal (x y : Nat)
  /-- `a x(y.get<k>());` -/
  | get (x : Nat) (a : ViewType) (y k : Nat)
  /-- `x.get<k>() = y;` -/
  | set (x k y : Nat)
  /-- `vector_view<T> x(y.host_ptr()[i]);`, or with `ptr()` -/
  | row (x : Nat) (t : QType) (y : Nat) (host : Bool) (i : Nat)
  /-- `x.host_ptr()[i] = y;`, or with `ptr()` -/
  | setRow (x : Nat) (host : Bool) (i y : Nat)
  /-- `x.ptr()[i] = e;`, or `x[i] = e;` for a pointer -/
  | write (x i : Nat) (e : Elem)
  /-- `*x.size_ptr() = n;` -/
  | writeSize (x n : Nat)
  /-- `x.payload().ptr()[i] = b;`, or with `size()` -/
  | writePart (x : Nat) (p : EdmPart) (i : Nat) (b : UInt8)

/-- The state of a program: the memory, and the variables with their types.
No counterpart in /repo: programs of users. -/
structure ViewVars where
  mem : Mem
  vars : List (Nat × ViewType × ViewVal)

/-- What comes of a step.  The compiler may refuse it, or it may be undefined (an index that is out of range, a variable that does not
exist).
No counterpart in /repo: C++. -/
inductive ViewRes where
  | refused
  | ub
  | ok (b : Bool) (s : ViewVars)

/-- Store bytes.
No counterpart in /repo: memory. -/
def putBytes (m : Mem) (p : Nat) (l : List UInt8) : Mem := fun x => if p ≤ x ∧ x < p + l.length then l.getD (x - p) 0 else m x

namespace ViewVars

/-- Give a variable a value.
No counterpart in /repo: C++ variables. -/
def put (s : ViewVars) (x : Nat) (a : ViewType) (v : ViewVal) : ViewVars :=
  { s with vars := putVar s.vars x (a, v) }

/-- The step makes a view `x`.
No counterpart in /repo: C++ variables. -/
def made (s : ViewVars) (x : Nat) (a : ViewType) (v : ViewVal) : ViewRes := .ok true (s.put x a v)

/-- Make a step.  `sz` has the sizes of the types.  The compiler refuses to write to elements that are `const`, to a size that is
`const` (data/vector_view.hpp:50-53), to `payload()` and `size()` if one of the variables is `const` (edm/view.hpp:61-64), and whatever
`ViewType.from` does not allow; views can be compared if their types agree up to `const`, and those of containers cannot
be compared. A `vector_view<const T>` in an array that holds `vector_view<T>` is accessed as what the pointer says, impl/jagged_vector_view.ipp:26-34.
Code: see the functions that are called. -/
def exec (sz : Nat → Nat) (s : ViewVars) : ViewOp → ViewRes
  | .vecFixed x t size ptr => s.made x (.leaf .vector t) (.leaf (.vector (.ofFixed size ptr)))
  | .vecResizable x t capacity size ptr => s.made x (.leaf .vector t) (.leaf (.vector (.ofResizable capacity size ptr)))
  | .jag x t size ptr hostPtr => s.made x (.leaf .jagged t) (.leaf (.jagged (.make size ptr hostPtr)))
  | .edm x vars capacity size => s.made x (.edm vars) (.edm (.make (vars.map (·.1)) capacity size))
  | .edmFilled x vars e => s.made x (.edm vars) (.edm e)
  | .init x a y =>
    match s.vars.lookup y with
    | none => .ub
    | some (b, v) => if a.from b then s.made x a (v.construct a b) else .refused
  | .assign x y =>
    match s.vars.lookup x, s.vars.lookup y with
    | some (a, w), some (b, v) => if a.from b then .ok true (s.put x a (w.assign a b v)) else .refused
    | _, _ => .ub
  | .equal x y =>
    match s.vars.lookup x, s.vars.lookup y with
    | some (.leaf .vector t, .leaf (.vector v)), some (.leaf .vector u, .leaf (.vector w)) =>
      if t.base = u.base then .ok (v.eq w) s else .refused
    | some (.leaf .jagged t, .leaf (.jagged v)), some (.leaf .jagged u, .leaf (.jagged w)) =>
      if t.base = u.base then .ok (v.eq w) s else .refused
    | some _, some _ => .refused
    | _, _ => .ub
  | .get x a y k =>
    match s.vars.lookup y with
    | some (.edm vars, .edm e) =>
      match vars[k]?, e.vars[k]? with
      | some (kind, t), some l => if a.from (.leaf kind t) then s.made x a ((ViewVal.leaf l).construct a (.leaf kind t)) else .refused
      | _, _ => .refused
    | some _ => .refused
    | none => .ub
  | .set x k y =>
    match s.vars.lookup x, s.vars.lookup y with
    | some (.edm vars, .edm e), some (b, .leaf l) =>
      match vars[k]?, e.vars[k]? with
      | some (kind, t), some l' =>
        if (ViewType.leaf kind t).from b then
          .ok true (s.put x (.edm vars) (.edm { e with vars := e.vars.set k (if .leaf kind t = b then l else l'.assign l) }))
        else .refused
      | _, _ => .refused
    | some _, some _ => .refused
    | _, _ => .ub
  | .row x t y host i =>
    match s.vars.lookup y with
    | some (.leaf .jagged u, .leaf (.jagged j)) =>
      if (ViewType.leaf .vector t).from (.leaf .vector u) then
        if i < j.size then
          s.made x (.leaf .vector t) ((ViewVal.leaf (.vector (readView s.mem (j.slot host i)))).construct (.leaf .vector t) (.leaf .vector u))
        else .ub
      else .refused
    | some _ => .refused
    | none => .ub
  | .setRow x host i y =>
    match s.vars.lookup x, s.vars.lookup y with
    | some (.leaf .jagged t, .leaf (.jagged j)), some (.leaf .vector u, .leaf (.vector v)) =>
      if (ViewType.leaf .vector t).from (.leaf .vector u) then
        if i < j.size then
          let old := readView s.mem (j.slot host i)
          .ok true { s with mem := writeViews s.mem (j.slot host i) [if t = u then v else old.assign v] }
        else .ub
      else .refused
    | some _, some _ => .refused
    | _, _ => .ub
  | .write x i e =>
    match s.vars.lookup x with
    | some (.leaf .scalar t, .leaf (.scalar p)) =>
      if t.const then .refused else if p ≠ 0 ∧ i = 0 ∧ e.length = sz t.base then .ok true { s with mem := putBytes s.mem p e } else .ub
    | some (.leaf .vector t, .leaf (.vector v)) =>
      if t.const then .refused
      else if i < v.capacity ∧ e.length = sz t.base then .ok true { s with mem := putBytes s.mem (v.ptr + i * sz t.base) e }
      else .ub
    | some _ => .refused
    | none => .ub
  | .writeSize x n =>
    match s.vars.lookup x with
    | some (.leaf .vector t, .leaf (.vector v)) =>
      if t.const then .refused else if v.sizePtr = 0 then .ub else .ok true { s with mem := writeLE s.mem v.sizePtr 4 n }
    | some _ => .refused
    | none => .ub
  | .writePart x p i b =>
    match s.vars.lookup x with
    | some (.edm vars, .edm e) =>
      if vars.any (·.2.const) then .refused
      else if i < (e.part p).capacity then .ok true { s with mem := putBytes s.mem ((e.part p).ptr + i) [b] }
      else .ub
    | some _ => .refused
    | none => .ub

end ViewVars
end Vecmem
