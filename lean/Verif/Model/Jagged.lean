import Verif.Model.Buffers
import Verif.Model.DeviceVector
import Verif.Model.Iterators

/-!
# Model of `get_data` for jagged vectors, and of `jagged_device_vector`

The memory holds three kinds of objects, by address: elements (of one type), size words of resizable vectors, and
`vector_view`s.
-/

namespace Vecmem

variable {α σ : Type}

/-- The objects in memory.
No counterpart in /repo: memory. -/
structure JMem (α : Type) where
  cells : Nat → Option α
  sizes : Nat → Nat
  views : Nat → Option View

/-- The element type (`size` is its `sizeof`), and whether assertions are enabled; compare `DV`.
No counterpart in /repo: C++ types. -/
structure JKind (α : Type) where
  dbg : Bool
  trivialDtor : Bool
  dflt : α
  junk : Nat → α
  size : Nat

/-- A `jagged_vector_view` (data/jagged_vector_view.hpp): number of inner vectors and the (device) pointer to the array
of views. -/
structure JView where
  size : Nat
  ptr : Nat
deriving DecidableEq, Repr

/-- A `std::vector`, as far as it matters here: `data()` and `size()`.
No counterpart in /repo: `std::vector`. -/
structure HostVec where
  data : Nat
  size : Nat
deriving DecidableEq, Repr

/-- Write a view.
No counterpart in /repo: memory. -/
def JMem.putView (m : JMem α) (a : Nat) (v : View) : JMem α :=
  { m with views := fun b => if b = a then some v else m.views b }

/-- The loop of the constructor of `jagged_vector_data`, impl/jagged_vector_data.ipp:59-65: default views from index `i`
on. -/
def initViews (m : JMem α) (p i : Nat) : Nat → JMem α
  | 0 => m
  | n + 1 => initViews (m.putView (p + viewSize * i) ⟨0, 0, 0⟩) p (i + 1) n

/-- The loop of `get_data`, impl/jagged_vector.ipp:32-35: views of the host vectors from index `i` on (sizes are
converted to 32 bits). -/
def fillViews (m : JMem α) (p i : Nat) : List HostVec → JMem α
  | [] => m
  | v :: vs => fillViews (m.putView (p + viewSize * i) ⟨v.size % 2 ^ 32, 0, v.data⟩) p (i + 1) vs

/-- `get_data` of a jagged vector, impl/jagged_vector.ipp:14-39 (the other overloads, 41-121, differ in types only):
allocates the array of views (impl/jagged_vector_data.ipp:17-33, 47-66) and fills it. -/
def getJagged (up : MR σ) (u : σ) (m : JMem α) (vs : List HostVec) : Res (UniqueAlloc × JView) × σ × JMem α :=
  let r := allocOuter up u vs.length
  match r.1 with
  | .ok b => (.ok (b, ⟨vs.length, b.ptr⟩), r.2, fillViews (initViews m b.ptr 0 vs.length) b.ptr 0 vs)
  | e => (e.map fun b => (b, ⟨0, 0⟩), r.2, m)

/-- `device_vector` from a view (impl/device_vector.ipp:18-29), with the memory it points to. -/
def JMem.row (k : JKind α) (m : JMem α) (v : View) : DV α :=
  { dbg := k.dbg, trivialDtor := k.trivialDtor, dflt := k.dflt, junk := k.junk, cap := v.capacity,
    hasSize := v.sizePtr != 0, sizeWord := m.sizes v.sizePtr, mem := fun i => m.cells (v.ptr + k.size * i) }

/-- The memory after operations on such a vector.
No counterpart in /repo: where device vectors have their elements and sizes. -/
def JMem.store (k : JKind α) (m : JMem α) (v : View) (d : DV α) : JMem α :=
  { m with
    cells := fun a => if v.ptr ≤ a ∧ (a - v.ptr) % k.size = 0 then d.mem ((a - v.ptr) / k.size) else m.cells a
    sizes := fun a => if v.sizePtr ≠ 0 ∧ a = v.sizePtr then d.sizeWord else m.sizes a }

namespace JView

/-- `jagged_device_vector::operator[]`, impl/jagged_device_vector.ipp:66-80: the view that the returned
`device_vector` is made from. -/
def index (m : JMem α) (j : JView) (pos : Nat) : Res View :=
  match m.views (j.ptr + viewSize * pos) with
  | some v => .ok v
  | none => .ub

/-- `at`, impl/jagged_device_vector.ipp:44-64. -/
def at_ (dbg : Bool) (m : JMem α) (j : JView) (pos : Nat) : Res View :=
  if dbg && !(pos < j.size) then .ub else j.index m pos

/-- `front`, impl/jagged_device_vector.ipp:82-101. -/
def front (dbg : Bool) (m : JMem α) (j : JView) : Res View := if dbg && !(j.size > 0) then .ub else j.index m 0

/-- `back`, impl/jagged_device_vector.ipp:103-122. -/
def back (dbg : Bool) (m : JMem α) (j : JView) : Res View :=
  if dbg && !(j.size > 0) then .ub else j.index m ((j.size + 2 ^ 64 - 1) % 2 ^ 64)

/-- `empty`, impl/jagged_device_vector.ipp:206-209. -/
def empty (j : JView) : Bool := j.size == 0

/-- How a client gets at an inner vector.
Code: `core/include/vecmem/containers/impl/jagged_device_vector.ipp` (`at`, `operator[]`, `front`, `back` and the iterators). -/
inductive Access where
  | at_ (pos : Nat)
  | index (pos : Nat)
  | front
  | back

/-- The view of the inner vector.
Code: `core/include/vecmem/containers/impl/jagged_device_vector.ipp` (`at`, `operator[]`, `front`, `back` and the iterators). -/
def access (dbg : Bool) (m : JMem α) (j : JView) : Access → Res View
  | .at_ pos => j.at_ dbg m pos
  | .index pos => j.index m pos
  | .front => j.front dbg m
  | .back => j.back dbg m

/-- An operation on an inner vector.
No counterpart in /repo: programs of users. -/
def step (k : JKind α) (m : JMem α) (j : JView) (x : Access) (op : DVOp α) : Res (Ret α) × JMem α :=
  match j.access k.dbg m x with
  | .ok v => let r := (m.row k v).step op; (r.1, m.store k v r.2)
  | e => (e.map fun _ => .unit, m)

/-- A program: operations on inner vectors.
No counterpart in /repo: programs of users. -/
def run (k : JKind α) (m : JMem α) (j : JView) : List (Access × DVOp α) → List (Res (Ret α)) × JMem α
  | [] => ([], m)
  | (x, op) :: ops => let r := j.step k m x op; let rs := j.run k r.2 ops; (r.1 :: rs.1, rs.2)

end JView

/-- `jagged_device_vector_iterator`, impl/jagged_device_vector_iterator.ipp:84-181: a pointer to a view; `*` makes a
`device_vector` of the view. -/
def jagIter (k : JKind α) (m : JMem α) : Iter Int (DV α) :=
  let p := ptrIter viewSize m.views
  { inc := p.inc, dec := p.dec, add := p.add, sub := p.sub, deref := fun i => (p.deref i).map (m.row k), eq := p.eq }

/-- Iteration over the inner vectors, and over the elements of each: `begin()` to `end()`,
impl/jagged_device_vector.ipp:124-155, or `rbegin()` to `rend()`, 164-197. -/
def JView.iterate (k : JKind α) (m : JMem α) (j : JView) (fuel : Nat) : Res (List (DV α)) :=
  (jagIter k m).walk (j.ptr + viewSize * j.size) fuel j.ptr

/-- Iteration from `rbegin()` to `rend()`, impl/jagged_device_vector.ipp:164-197. -/
def JView.iterateBack (k : JKind α) (m : JMem α) (j : JView) (fuel : Nat) : Res (List (DV α)) :=
  (jagIter k m).rev.walk ⟨j.ptr⟩ fuel ⟨j.ptr + viewSize * j.size⟩

end Vecmem
