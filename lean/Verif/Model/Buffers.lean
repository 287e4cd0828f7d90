import Verif.Model.Align
import Verif.Spec.Resource

/-!
# Models of `aligned_multiple_placement`, `vector_buffer` and `jagged_vector_buffer`

All pointers are addresses; the null pointer is 0.
-/

namespace Vecmem

open IntMath

variable {σ : Type}

/-- A C++ object type, as far as memory is concerned: `sizeof` and `alignof`.
No counterpart in /repo: C++ types. -/
structure CType where
  size : Nat
  align : Nat
deriving DecidableEq, Repr

/-- `unsigned int`, the size type of vector views (data/vector_view.hpp:47). -/
def CType.uint : CType := ⟨4, 4⟩

/-- A `vecmem::unique_alloc_ptr<T[]>` (unique_ptr.hpp:55): the pointer, and the size held by its deleter.  The
default-constructed pointer is null. -/
structure UniqueAlloc where
  ptr : Nat := 0
  size : Nat := 0
deriving DecidableEq, Repr

/-- `make_unique_alloc<T[]>(m, n)`, unique_ptr.hpp:224-256: `n * sizeof(T)` (wrapping) bytes with the default
alignment. -/
def UniqueAlloc.make (up : MR σ) (u : σ) (sizeofT n : Nat) : Res UniqueAlloc × σ :=
  let s := wrap64 (n * sizeofT)
  let r := up.allocate u s maxAlign
  (r.1.map fun p => ⟨p, s⟩, r.2)

/-- Destruction of a `unique_alloc_ptr`: `std::unique_ptr` calls the deleter for non-null pointers only;
details/unique_alloc_deleter.hpp:101-119 with `m_align == 0`. -/
def UniqueAlloc.destroy (up : MR σ) (u : σ) (p : UniqueAlloc) : Res Unit × σ :=
  if p.ptr = 0 then (.ok (), u) else up.deallocate u p.ptr p.size maxAlign

/-- `aligned_multiple_placement_helper`, impl/aligned_multiple_placement.ipp:45-133, for the remaining types
and counts; `p` and `q` are the parameters of this name.  A failing assertion is `ub`. -/
def placeHelper (p q : Nat) : List (CType × Nat) → Res (List Nat)
  | [] => .ok []
  | (t, n) :: rest =>
    let size := wrap64 (t.size * n)
    if size > 0 then
      match stdAlign t.align size p q with
      | none => .ub
      | some (p', q') => (placeHelper (p' + size) (wrap64 (q' + 2 ^ 64 - size)) rest).map (p' :: ·)
    else (placeHelper p q rest).map (0 :: ·)

/-- The number of bytes, impl/aligned_multiple_placement.ipp:157-179. -/
def placeBytes (ts : List (CType × Nat)) : Nat :=
  let alignment := (ts.map (·.1.align)).foldl max 0
  wrap64 ((ts.map fun e => e.2 * e.1.size).sum + ts.length * alignment)

/-- `aligned_multiple_placement`, impl/aligned_multiple_placement.ipp:135-226. -/
def placement (up : MR σ) (u : σ) (ts : List (CType × Nat)) : Res (UniqueAlloc × List Nat) × σ :=
  let bytes := placeBytes ts
  let r := UniqueAlloc.make up u 1 bytes
  match r.1 with
  | .ok mem => ((placeHelper mem.ptr bytes ts).map fun ps => (mem, ps), r.2)
  | e => (e.map fun m => (m, []), r.2)

/-- A `vector_view`: `m_capacity`, `m_size` and `m_ptr` (data/vector_view.hpp:132-138). -/
structure View where
  capacity : Nat
  sizePtr : Nat
  ptr : Nat
deriving DecidableEq, Repr

/-- A `vector_buffer`: its base class and `m_memory` (data/vector_buffer.hpp:64). -/
structure VecBuffer where
  view : View
  mem : UniqueAlloc := {}
deriving DecidableEq, Repr

/-- Constructor of `vector_buffer`, impl/vector_buffer.ipp:27-41. -/
def VecBuffer.create (up : MR σ) (u : σ) (t : CType) (capacity : Nat) (resizable : Bool) :
    Res VecBuffer × σ :=
  if capacity = 0 then (.ok { view := ⟨capacity, 0, 0⟩ }, u)
  else
    let r := placement up u [(.uint, if resizable then 1 else 0), (t, capacity)]
    match r.1 with
    | .ok (mem, ps) => (.ok ⟨⟨capacity, ps.getD 0 0, ps.getD 1 0⟩, mem⟩, r.2)
    | e => (e.map fun _ => { view := ⟨0, 0, 0⟩ }, r.2)

/-- Destructor of `vector_buffer` (implicit).
Code: `core/include/vecmem/containers/data/vector_buffer.hpp` (`m_memory`). -/
def VecBuffer.destroy (up : MR σ) (u : σ) (b : VecBuffer) : Res Unit × σ := b.mem.destroy up u

/-- `sizeof(vector_view<T>)` on a 64-bit platform: a 4-byte capacity (padded to 8) and two pointers.
Code: `core/include/vecmem/containers/data/vector_view.hpp`. -/
def viewSize : Nat := 24

/-- A `jagged_vector_buffer`: its base class (`m_ptr`, `m_host_ptr`, and the views in the host accessible
array, in order) and its three owning pointers (data/jagged_vector_buffer.hpp:105-109). -/
structure JagBuffer where
  ptr : Nat
  hostPtr : Nat
  views : List View
  outer : UniqueAlloc
  outerHost : UniqueAlloc
  inner : UniqueAlloc
deriving DecidableEq, Repr

/-- `allocate_jagged_buffer_outer_memory`, impl/jagged_vector_buffer.ipp:36-50. -/
def allocOuter (up : MR σ) (u : σ) (n : Nat) : Res UniqueAlloc × σ :=
  if n = 0 then (.ok {}, u) else UniqueAlloc.make up u viewSize n

/-- The loop of impl/jagged_vector_buffer.ipp:116-129 over the remaining capacities: `hdr` is `header_ptr` (0 if
null), `i` the index, `diff` is `ptrdiff`. -/
def jagViews (t : CType) (hdr data : Nat) : List Nat → Nat → Nat → List View
  | [], _, _ => []
  | c :: cs, i, diff =>
    ⟨c % 2 ^ 32, if hdr ≠ 0 then hdr + 4 * i else 0, data + t.size * diff⟩ ::
      jagViews t hdr data cs (i + 1) (diff + c)

/-- The inner memory, impl/jagged_vector_buffer.ipp:87-108: owner, `header_ptr` and `data_ptr`. -/
def jagInner (up : MR σ) (u : σ) (t : CType) (caps : List Nat) (resizable : Bool) :
    Res (UniqueAlloc × Nat × Nat) × σ :=
  let total := wrap64 caps.sum
  if !resizable && total != 0 then
    let r := UniqueAlloc.make up u 1 (wrap64 (total * t.size))
    (r.1.map fun m => (m, 0, m.ptr), r.2)
  else if resizable && caps.length != 0 then
    let r := placement up u [(.uint, caps.length), (t, total)]
    (r.1.map fun x => (x.1, x.2.getD 0 0, x.2.getD 1 0), r.2)
  else (.ok ({}, 0, 0), u)

/-- Leave a constructor by an exception `e`: the members constructed so far are destroyed, last one first.
No counterpart in /repo: C++ exceptions in constructors. -/
def unwind {α : Type} (e : Res α) : List (MR σ × UniqueAlloc) → σ → Res α × σ
  | [], u => (e, u)
  | (up, m) :: ms, u =>
    match m.destroy up u with
    | (.ok (), u) => unwind e ms u
    | (_, u) => (.ub, u)

/-- Constructor of `jagged_vector_buffer`, impl/jagged_vector_buffer.ipp:71-130.  `ups false` is `resource`;
`ups true` is `*host_access_resource`, if `hasHost`. -/
def JagBuffer.create (ups : Bool → MR σ) (u : σ) (t : CType) (caps : List Nat) (hasHost resizable : Bool) :
    Res JagBuffer × σ :=
  let r1 := allocOuter (ups false) u (if hasHost then caps.length else 0)
  match r1.1 with
  | .ok outer =>
    let r2 := allocOuter (ups hasHost) r1.2 caps.length
    match r2.1 with
    | .ok outerHost =>
      let r3 := jagInner (ups false) r2.2 t caps resizable
      match r3.1 with
      | .ok (inner, hdr, data) =>
        (.ok { ptr := if hasHost then outer.ptr else outerHost.ptr
               hostPtr := outerHost.ptr
               views := jagViews t hdr data caps 0 0
               outer, outerHost, inner }, r3.2)
      | e => unwind (e.map fun _ => ⟨0, 0, [], {}, {}, {}⟩) [(ups hasHost, outerHost), (ups false, outer)] r3.2
    | e => unwind (e.map fun _ => ⟨0, 0, [], {}, {}, {}⟩) [(ups false, outer)] r2.2
  | e => (e.map fun _ => ⟨0, 0, [], {}, {}, {}⟩, r1.2)

/-- Destructor of `jagged_vector_buffer` (implicit): members in reverse order of declaration.
Code: `core/include/vecmem/containers/data/jagged_vector_buffer.hpp` (members). -/
def JagBuffer.destroy (ups : Bool → MR σ) (hasHost : Bool) (u : σ) (b : JagBuffer) : Res Unit × σ :=
  unwind (.ok ()) [(ups false, b.inner), (ups hasHost, b.outerHost), (ups false, b.outer)] u

end Vecmem
