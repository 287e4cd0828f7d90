import Verif.Model.Copy

/-!
# Model of `edm::view` and `edm::buffer`

A schema is the list of its variables.  All pointers are addresses; the null pointer is 0.
-/

namespace Vecmem

open IntMath

variable {σ : Type}

/-- The three sorts of variables, edm/schema.hpp:17-36. -/
inductive VarKind where
  | scalar
  | vector
  | jagged
deriving DecidableEq, Repr

/-- A variable of a schema: its sort, and the type of its elements.
Code: `core/include/vecmem/edm/schema.hpp`, lines 19-46. -/
structure Var where
  kind : VarKind
  type : CType
deriving DecidableEq, Repr

/-- `edm::schema<VARTYPES...>`, edm/schema.hpp:45. -/
abbrev Schema := List Var

/-- `std::disjunction_v<is_jagged_vector<VARTYPES>...>`, edm/details/schema_traits.hpp:81-92. -/
def Schema.hasJagged (S : Schema) : Bool := S.any (·.kind == .jagged)

/-- `vector_view<T>` as an object type.
Code: `core/include/vecmem/containers/data/vector_view.hpp`. -/
def CType.view : CType := ⟨viewSize, 8⟩

/-- `view_type<TYPE>::layout_type`, edm/details/view_traits.hpp:35-54: `int`, or a vector view. -/
def Var.layoutType (v : Var) : CType := if v.kind = .jagged then .view else ⟨4, 4⟩

/-- `buffer_alloc<TYPE>::layout_size`, edm/details/buffer_traits.hpp:40-44, 64-68 and 92-97. -/
def Var.layoutSize (v : Var) (caps : List Nat) : Nat := if v.kind = .jagged then caps.length else 0

/-- `buffer_alloc<TYPE>::payload_size`, edm/details/buffer_traits.hpp:35-39, 58-63 and 85-91. -/
def Var.payloadSize (v : Var) (caps : List Nat) : Nat :=
  match v.kind with
  | .scalar => 1
  | .vector => caps.length
  | .jagged => wrap64 caps.sum

/-- `view_type<TYPE>::type`, edm/details/view_traits.hpp:35-54: a pointer, a view, or a jagged view. -/
inductive VarView where
  | scalar (ptr : Nat)
  | vector (v : View)
  | jagged (j : JagView)
deriving DecidableEq, Repr

/-- An `edm::view` (edm/view.hpp): `m_capacity`, `m_views`, `m_size`, `m_payload`, `m_layout` and `m_host_layout`.  The
last four are memory views, that is, vector views of `char` without a size pointer. -/
structure EdmView where
  capacity : Nat
  vars : List VarView
  size : View := ⟨0, 0, 0⟩
  payload : View := ⟨0, 0, 0⟩
  layout : View := ⟨0, 0, 0⟩
  hostLayout : View := ⟨0, 0, 0⟩
deriving DecidableEq, Repr

/-- `buffer_alloc<TYPE>::make_view`, edm/details/buffer_traits.hpp:45-53, 69-80 and 98-126.  The constructor of
`jagged_vector_view` replaces a null `host_layout` by `layout` (containers/impl/jagged_vector_view.ipp:14-19).  The loop
that fills the host accessible layout is the same as the one of `jagged_vector_buffer`. -/
def Var.makeView (v : Var) (caps : List Nat) (size layout hostLayout ptr : Nat) : VarView :=
  match v.kind with
  | .scalar => .scalar ptr
  | .vector => .vector ⟨caps.length % 2 ^ 32, size, ptr⟩
  | .jagged => .jagged ⟨jagViews v.type size ptr caps 0 0, layout, if hostLayout ≠ 0 then hostLayout else layout⟩

/-- `make_buffer_views`, edm/details/buffer_traits.hpp:131-170; the arguments after `caps` are tuples of pointers.  The
version for fixed size buffers (131-143) is the one with null `sizes`. -/
def makeViews (S : Schema) (caps : List Nat) (sizes layouts hostLayouts payloads : Nat → Nat) : List VarView :=
  S.mapIdx fun i v =>
    v.makeView caps (if S.hasJagged && !(v.kind == .jagged) then 0 else sizes i) (layouts i) (hostLayouts i) (payloads i)

/-- `find_first_pointer`, edm/details/buffer_traits.hpp:174-191. -/
def findFirst (ps : List Nat) : Nat := (ps.find? (· ≠ 0)).getD 0

/-- `find_last_pointer`, edm/details/buffer_traits.hpp:193-212: the end of the last region. -/
def findLast (ts : List (CType × Nat)) (ps : List Nat) : Nat :=
  match (ts.zip ps).reverse.find? (·.2 ≠ 0) with
  | some e => e.2 + e.1.2 * e.1.1.size
  | none => 0

/-- `find_layout_view` and `find_payload_view`, edm/details/buffer_traits.hpp:214-259.  The number of bytes is converted
to 32 bits. -/
def memoryView (ts : List (CType × Nat)) (ps : List Nat) : View :=
  ⟨(findLast ts ps - findFirst ps) % 2 ^ 32, 0, findFirst ps⟩

/-- An `edm::buffer` (edm/buffer.hpp:239-242). -/
structure EdmBuffer where
  view : EdmView
  mem : UniqueAlloc := {}
  hostMem : UniqueAlloc := {}
deriving DecidableEq, Repr

/-- The size words that are allocated: none; one for the whole container; or one for each inner vector
(edm/impl/buffer.ipp:167-210). -/
def Schema.sizeRegions (S : Schema) (caps : List Nat) (resizable : Bool) : List (CType × Nat) :=
  if !resizable then []
  else if S.hasJagged then S.map fun v => (.uint, v.layoutSize caps)
  else [(.uint, 1)]

/-- The layouts that are allocated, edm/impl/buffer.ipp:98-105. -/
def Schema.layoutRegions (S : Schema) (caps : List Nat) : List (CType × Nat) :=
  S.map fun v => (v.layoutType, v.layoutSize caps)

/-- The payloads that are allocated, edm/impl/buffer.ipp:98-105. -/
def Schema.payloadRegions (S : Schema) (caps : List Nat) : List (CType × Nat) :=
  S.map fun v => (v.type, v.payloadSize caps)

/-- `m_size`, edm/impl/buffer.ipp:181-189 and 202-208. -/
def Schema.sizeView (S : Schema) (caps : List Nat) (resizable : Bool) (ps : List Nat) : View :=
  if !resizable then ⟨0, 0, 0⟩
  else if S.hasJagged then ⟨wrap64 ((S.map fun v => v.layoutSize caps).sum * 4) % 2 ^ 32, 0, findFirst ps⟩
  else ⟨4, 0, ps.getD 0 0⟩

/-- The view that `setup_fixed` and `setup_resizable` fill, edm/impl/buffer.ipp:91-137 and 158-242, from the pointers `ps`
to all regions, and the pointers to the layouts in host memory, if there are any. -/
def Schema.bufferView (S : Schema) (caps : List Nat) (resizable : Bool) (ps : List Nat) (hps : Option (List Nat)) :
    EdmView :=
  let k := (S.sizeRegions caps resizable).length
  let sizes := ps.take k
  let layouts := (ps.drop k).take S.length
  let payloads := (ps.drop k).drop S.length
  { capacity := caps.length % 2 ^ 32
    vars := makeViews S caps
      (fun i => if !resizable then 0 else if S.hasJagged then sizes.getD i 0 else sizes.getD 0 0)
      (layouts.getD · 0) ((hps.getD []).getD · 0) (payloads.getD · 0)
    size := S.sizeView caps resizable sizes
    payload := memoryView (S.payloadRegions caps) payloads
    layout := memoryView (S.layoutRegions caps) layouts
    hostLayout := memoryView (S.layoutRegions caps) (hps.getD layouts) }

/-- Constructors of `edm::buffer`, with `setup_fixed` and `setup_resizable`, edm/impl/buffer.ipp:23-243.  `ups false` is
`mr`; `ups true` is `*host_mr`, if `hasHost`.  The constructor for containers without jagged vectors is the one with
`capacity` zeros for `caps`, and without `hasHost`. -/
def EdmBuffer.create (ups : Bool → MR σ) (u : σ) (S : Schema) (caps : List Nat) (hasHost resizable : Bool) :
    Res EdmBuffer × σ :=
  let r := placement (ups false) u (S.sizeRegions caps resizable ++ (S.layoutRegions caps ++ S.payloadRegions caps))
  match r.1 with
  | .ok (mem, ps) =>
    if hasHost then
      let r2 := placement (ups true) r.2 (S.layoutRegions caps)
      match r2.1 with
      | .ok (hostMem, hps) => (.ok ⟨S.bufferView caps resizable ps (some hps), mem, hostMem⟩, r2.2)
      | e => unwind (e.map fun _ => { view := { capacity := 0, vars := [] } }) [(ups false, mem)] r2.2
    else (.ok ⟨S.bufferView caps resizable ps none, mem, {}⟩, r.2)
  | e => (e.map fun _ => { view := { capacity := 0, vars := [] } }, r.2)

/-- Destructor of `edm::buffer` (implicit): members in reverse order of declaration.
Code: `core/include/vecmem/edm/buffer.hpp` (members). -/
def EdmBuffer.destroy (ups : Bool → MR σ) (u : σ) (b : EdmBuffer) : Res Unit × σ :=
  unwind (.ok ()) [(ups true, b.hostMem), (ups false, b.mem)] u

end Vecmem
