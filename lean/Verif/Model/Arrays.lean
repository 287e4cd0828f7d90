import Verif.Model.Iterators
import Verif.Model.DeviceVector

/-!
# Models of the arrays: `static_array`, `array` and `device_array`
-/

namespace Vecmem

variable {α : Type}

/-- A `static_array<T, N>` (static_array.hpp:271): its `N` elements; `elem` is only meaningful below `n`. -/
structure SArr (α : Type) where
  n : Nat
  elem : Nat → α

namespace SArr

/-- `operator[]`, impl/static_array.ipp:48-66. -/
def index (a : SArr α) (i : Nat) : Res α := if i < a.n then .ok (a.elem i) else .ub

/-- `at`, impl/static_array.ipp:21-46. -/
def at_ (a : SArr α) (i : Nat) : Res α := if i ≥ a.n then .outOfRange else a.index i

/-- `get<I>()`, impl/static_array.ipp:68-82 and 285-300: does not compile for other indices. -/
def get (a : SArr α) (i : Nat) (_ : i < a.n) : Res α := a.index i

/-- `front`, impl/static_array.ipp:84-100. -/
def front (a : SArr α) : Res α := a.index 0

/-- `back`, impl/static_array.ipp:102-118 (`N - 1` wraps). -/
def back (a : SArr α) : Res α := a.index ((a.n + 2 ^ 64 - 1) % 2 ^ 64)

/-- Assignment to an element.
Code: `core/include/vecmem/containers/impl/static_array.ipp`, lines 50-67 (the reference that `operator[]` returns). -/
def put (a : SArr α) (i : Nat) (v : α) : SArr α := { a with elem := fun j => if j = i then v else a.elem j }

/-- The value of a reference.
No counterpart in /repo: the meaning of a C++ reference. -/
def read (a : SArr α) : Arg α → α
  | .val v => v
  | .elem k => a.elem k

/-- The loop of `fill`, impl/static_array.ipp:240-246, from `i` on. -/
def fillFrom (a : SArr α) (v : Arg α) (i : Nat) : Nat → SArr α
  | 0 => a
  | k + 1 => (a.put i (a.read v)).fillFrom v (i + 1) k

/-- `fill`, impl/static_array.ipp:240-246. -/
def fill (a : SArr α) (v : Arg α) : SArr α := a.fillFrom v 0 a.n

/-- The loop of `operator==`, from `i` on; `ne` is the operator `!=` of the elements.
Code: `core/include/vecmem/containers/impl/static_array.ipp`, lines 249-266. -/
def eqFrom (ne : α → α → Bool) (a b : SArr α) (i : Nat) : Nat → Bool
  | 0 => true
  | k + 1 => if ne (a.elem i) (b.elem i) then false else eqFrom ne a b (i + 1) k

/-- `operator==`, impl/static_array.ipp:248-266; both arrays have the same type, hence the same size. -/
def eq (ne : α → α → Bool) (a b : SArr α) : Bool := eqFrom ne a b 0 a.n

/-- The loop of `operator!=`, from `i` on.
Code: `core/include/vecmem/containers/impl/static_array.ipp`, lines 269-286. -/
def neFrom (ne : α → α → Bool) (a b : SArr α) (i : Nat) : Nat → Bool
  | 0 => false
  | k + 1 => if ne (a.elem i) (b.elem i) then true else neFrom ne a b (i + 1) k

/-- `operator!=`, impl/static_array.ipp:268-283. -/
def ne (ne : α → α → Bool) (a b : SArr α) : Bool := neFrom ne a b 0 a.n

end SArr

/-- A `vecmem::array` (array.hpp): `m_size`, and the elements that `m_memory` owns (as many as the constructors,
impl/array.ipp:18-34, asked for). -/
structure RArr (α : Type) where
  size : Nat
  elems : List α

namespace RArr

/-- The constructors, impl/array.ipp:18-34 (`make_unique_obj` is the subject of C36). -/
def create (dflt : α) (n : Nat) : RArr α := ⟨n, List.replicate n dflt⟩

/-- `operator[]`, impl/array.ipp:58-68. -/
def index (a : RArr α) (i : Nat) : Res α :=
  match a.elems[i]? with
  | some v => .ok v
  | none => .ub

/-- `at`, impl/array.ipp:36-56. -/
def at_ (a : RArr α) (i : Nat) : Res α := if i ≥ a.size then .outOfRange else a.index i

/-- `front`, impl/array.ipp:70-79 (the `const` version, 81-90, does not compile when it is used). -/
def front (a : RArr α) : Res α := if a.size = 0 then .outOfRange else a.index 0

/-- `back`, impl/array.ipp:92-112. -/
def back (a : RArr α) : Res α := if a.size = 0 then .outOfRange else a.index (a.size - 1)

/-- Assignment to the element that `at` gives.
Code: `core/include/vecmem/containers/impl/array.ipp`, lines 37-46. -/
def write (a : RArr α) (i : Nat) (v : α) : Res Unit × RArr α :=
  match a.at_ i with
  | .ok _ => (.ok (), { a with elems := a.elems.set i v })
  | e => (e.map fun _ => (), a)

/-- The value of a reference.
No counterpart in /repo: the meaning of a C++ reference. -/
def read (l : List α) : Arg α → Option α
  | .val x => some x
  | .elem j => l[j]?

/-- `std::fill` from `i` on; the value is read anew for every element.
Code: `core/include/vecmem/containers/impl/array.ipp`, lines 211-214. -/
def fillFrom (l : List α) (v : Arg α) (i : Nat) : Nat → Res (List α)
  | 0 => .ok l
  | k + 1 =>
    match read l v with
    | none => .ub
    | some x => fillFrom (l.set i x) v (i + 1) k

/-- `fill`, impl/array.ipp:210-214. -/
def fill (a : RArr α) (v : Arg α) : Res (RArr α) := (fillFrom a.elems v 0 a.size).map fun l => { a with elems := l }

/-- `begin()` and `end()`, impl/array.ipp:126-160: the elements are `elemSize` bytes apart, from `p` on. -/
def bounds (a : RArr α) (elemSize p : Nat) : Int × Int := (p, p + elemSize * a.size)

end RArr

/-- A `device_array<T, N>` (device_array.hpp) and the memory it points to: the objects behind `m_ptr`. -/
structure DArr (α : Type) where
  dbg : Bool
  n : Nat
  mem : Nat → Option α

namespace DArr

/-- The constructors, impl/device_array.ipp:19-35, from a view of `size` elements. -/
def ofView (dbg : Bool) (n size : Nat) (mem : Nat → Option α) : Res (DArr α) :=
  if dbg && !(size ≥ n) then .ub else .ok ⟨dbg, n, mem⟩

/-- `operator[]`, impl/device_array.ipp:79-93. -/
def index (a : DArr α) (i : Nat) : Res α :=
  match a.mem i with
  | some v => .ok v
  | none => .ub

/-- `at`, impl/device_array.ipp:58-77. -/
def at_ (a : DArr α) (i : Nat) : Res α := if a.dbg && !(i < a.n) then .ub else a.index i

/-- `front`, impl/device_array.ipp:95-114; only compiles for non-empty arrays. -/
def front (a : DArr α) (_ : 0 < a.n) : Res α := a.index 0

/-- `back`, impl/device_array.ipp:116-135; only compiles for non-empty arrays. -/
def back (a : DArr α) (_ : 0 < a.n) : Res α := a.index (a.n - 1)

/-- `empty`, impl/device_array.ipp:227-231. -/
def empty (a : DArr α) : Bool := a.n == 0

end DArr

end Vecmem
