import Verif.Model.CopyProg
import Verif.Model.Buffers
import Verif.Model.IntMath

/-!
# Model of `vecmem::copy` for vectors and jagged vectors

The type of copy (`type::copy_type`), which tells implementations where the pointers point to, is left out.  `t` is
`sizeof(TYPE)`, and `dbg` says whether assertions are enabled.
-/

namespace Vecmem

open IntMath Prog

/-- A 4-byte variable.
Code: `core/include/vecmem/utils/impl/copy.ipp`, lines 126-133 (`result`), for example. -/
def Local.uint (v : Nat) : Local := ⟨4, writeLE (fun _ => 0) 0 4 v⟩

/-- The array of a `std::vector<unsigned int>`.
Code: `core/include/vecmem/utils/impl/copy.ipp`, lines 279-327 and 694-725. -/
def Local.uints (vs : List Nat) : Local := ⟨4 * vs.length, fun x => UInt8.ofNat (vs.getD (x / 4) 0 / 256 ^ (x % 4))⟩

/-- The values in such an array.
Code: `core/include/vecmem/utils/impl/copy.ipp`, lines 694-725. -/
def readUints (b : Mem) (n : Nat) : List Nat := (List.range n).map fun i => readLE b (4 * i) 4

/-- `get_size`, impl/copy.ipp:115-137. -/
def getSize (v : View) : Prog Nat :=
  if v.sizePtr = 0 then .ret (.ok v.capacity)
  else scope (.uint 0) fun s => .issue (.fetch s 0 4 v.sizePtr) <| sync <| .read s fun b => .ret (.ok (readLE b 0 4))

/-- `setup` for vectors, impl/copy.ipp:28-46. -/
def setupVec (v : View) : Prog Nat :=
  if v.sizePtr = 0 ∨ v.capacity = 0 then retNoEvent else .issue (.memset 4 v.sizePtr 0) retEvent

/-- `memset` for vectors, impl/copy.ipp:48-63. -/
def memsetVec (t : Nat) (v : View) (value : UInt8) : Prog Nat :=
  if v.capacity = 0 then retNoEvent else .issue (.memset (wrap64 (v.capacity * t)) v.ptr value) retEvent

/-- Setting the size of the target, impl/copy.ipp:509-533. -/
def putSize (size : Nat) (dst : View) : Prog Unit :=
  if dst.sizePtr = 0 then .ret (.ok ())
  else scope (.uint size) fun s => .issue (.store s 0 4 dst.sizePtr) <| sync <| .ret (.ok ())

/-- `copy_view_impl` for vectors, impl/copy.ipp:487-539. -/
def copyView (t : Nat) (src dst : View) : Prog Bool :=
  (getSize src).bind fun size =>
    if size = 0 then .ret (.ok false)
    else if dst.capacity < size then .ret .lengthError
    else (putSize size dst).bind fun _ => .issue (.copy (wrap64 (size * t)) src.ptr dst.ptr) (.ret (.ok true))

/-- `operator()` for vectors, impl/copy.ipp:83-95. -/
def copyVec (t : Nat) (src dst : View) : Prog Nat :=
  (copyView t src dst).bind fun b => if b then retEvent else retNoEvent

/-- `operator()` from a vector to a `std::vector`, impl/copy.ipp:97-113.  `resize` is what `std::vector::resize` does: the
address of the array of the vector with so many elements.  (The elements it had before are not modelled.) -/
def copyToStd (t : Nat) (src : View) (resize : Nat → Nat) : Prog Nat :=
  (getSize src).bind fun size => .issue (.copy (wrap64 (size * t)) src.ptr (resize size)) retEvent

/-- Run the destructor of a buffer because of an exception `e`.
No counterpart in /repo: C++ exceptions. -/
def dropBuffer {σ : Type} (up : MR σ) (e : Res VecBuffer) (b : VecBuffer) (u : σ) : Res VecBuffer × σ :=
  match b.destroy up u with
  | (.ok (), u') => (e, u')
  | (_, u') => (.ub, u')

/-- `to` for vectors, impl/copy.ipp:65-81, with an immediate copy: the buffer, the state of the resource, and the memory.
The events are waited for. -/
def copyTo {σ : Type} (up : MR σ) (t : CType) (src : View) (u : σ) (m : Mem) : Res VecBuffer × σ × Mem :=
  match (getSize src).value m with
  | .ok n =>
    match VecBuffer.create up u t n false with
    | (.ok b, u') =>
      match ((setupVec b.view).bind fun e => .wait e <| (copyVec t.size src b.view).bind fun e => .wait e (.ret (.ok ()))).result m with
      | (.ok (), m') => (.ok b, u', m')
      | (e, m') => let r := dropBuffer up (e.map fun _ => b) b u'; (r.1, r.2, m')
    | (e, u') => (e, u', m)
  | e => (e.map fun _ => { view := ⟨0, 0, 0⟩ }, u, m)

/-- A jagged view: the views in the host accessible array, and the pointers to the array and to its host accessible copy
(data/jagged_vector_view.hpp:148-161). -/
structure JagView where
  views : List View
  ptr : Nat
  hostPtr : Nat
deriving DecidableEq, Repr

/-- `setup` for jagged vectors, impl/copy.ipp:139-173. -/
def setupJag (j : JagView) : Prog Nat :=
  match j.views with
  | [] => retNoEvent
  | v :: _ =>
    let rest := if j.ptr = j.hostPtr then retEvent
      else .issue (.copy (wrap64 (j.views.length * viewSize)) j.hostPtr j.ptr) retEvent
    if v.sizePtr ≠ 0 then .issue (.memset (wrap64 (4 * j.views.length)) v.sizePtr 0) rest else rest

/-- `is_contiguous`, impl/copy.ipp:727-743, for a non-empty array. -/
def isContiguous (t : Nat) : List View → Bool
  | v :: w :: vs => v.ptr + v.capacity * t == w.ptr && isContiguous t (w :: vs)
  | _ => true

/-- The loop of impl/copy.ipp:192-200. -/
def memsetFirst (n : Nat) (value : UInt8) : List View → Prog Nat
  | [] => retNoEvent
  | v :: vs => if v.capacity ≠ 0 ∧ v.ptr ≠ 0 then .issue (.memset n v.ptr value) retEvent else memsetFirst n value vs

/-- The loop of impl/copy.ipp:207-210. -/
def memsetEach (t : Nat) (value : UInt8) : List View → Prog Nat
  | [] => retEvent
  | v :: vs => .issue (.memset (wrap64 (v.capacity * t)) v.ptr value) (memsetEach t value vs)

/-- `memset` for jagged vectors, impl/copy.ipp:175-213.  For an empty one `is_contiguous` reads the first element of an
empty array. -/
def memsetJag (t : Nat) (j : JagView) (value : UInt8) : Prog Nat :=
  if j.views = [] then .ret .ub
  else if isContiguous t j.views then
    memsetFirst (wrap64 (wrap64 (j.views.map (·.capacity)).sum * t)) value j.views
  else memsetEach t value j.views

/-- `get_sizes` (and `get_sizes_impl`), impl/copy.ipp:270-276 and 693-725. -/
def getSizes (vs : List View) : Prog (List Nat) :=
  scope (.uints (List.replicate vs.length 0)) fun s =>
    match vs.findIdx? fun v => v.capacity ≠ 0 ∧ v.sizePtr ≠ 0 with
    | some i =>
      .issue (.fetch s (4 * i) (wrap64 (4 * (vs.length - i))) (vs.getD i ⟨0, 0, 0⟩).sizePtr) <| sync <|
        .read s fun b => .ret (.ok (readUints b vs.length))
    | none => .ret (.ok (vs.map (·.capacity)))

/-- The checks of `set_sizes`, impl/copy.ipp:297-318: whether to copy (`perform` is `perform_copy`). -/
def checkSizes (perform : Bool) : List View → List Nat → Res Bool
  | v :: vs, n :: ns =>
    if v.capacity < n then .lengthError
    else if v.sizePtr = 0 then checkSizes false vs ns
    else if perform then checkSizes perform vs ns else .runtimeError
  | _, _ => .ok perform

/-- `set_sizes`, impl/copy.ipp:278-328; `sizes` are the contents of the vector, which is the variable `slot`. -/
def setSizes (slot : Nat) (sizes : List Nat) (vs : List View) : Prog Nat :=
  if sizes.length = 0 ∧ vs.length = 0 then retNoEvent
  else if sizes.length ≠ vs.length then .ret .lengthError
  else (Prog.ret (checkSizes true vs sizes)).bind fun perform =>
    if perform then .issue (.store slot 0 (wrap64 (4 * sizes.length)) (vs.getD 0 ⟨0, 0, 0⟩).sizePtr) retEvent
    else retNoEvent

/-- A call of `set_sizes` by a user who keeps the vector until the event was waited for.
No counterpart in /repo: programs of users. -/
def setSizesAndWait (sizes : List Nat) (vs : List View) : Prog Unit :=
  scope (.uints sizes) fun s => (setSizes s sizes vs).bind fun e => .wait e (.ret (.ok ()))

/-- `copy_views_impl`, impl/copy.ipp:609-648. -/
def copyViews (dbg : Bool) (t : Nat) : List Nat → List View → List View → Prog Unit
  | n :: ns, v :: vs, w :: ws =>
    if n = 0 then copyViews dbg t ns vs ws
    else if dbg && !(v.ptr ≠ 0 ∧ w.ptr ≠ 0 ∧ n ≤ v.capacity ∧ n ≤ w.capacity) then .ret .ub
    else .issue (.copy (wrap64 (n * t)) v.ptr w.ptr) (copyViews dbg t ns vs ws)
  | _, _, _ => .ret (.ok ())

/-- The loop of `copy_views_contiguous_impl`, impl/copy.ipp:671-686. -/
def copyFirst (dbg : Bool) (total : Nat) : List Nat → List View → List View → Prog Unit
  | n :: ns, v :: vs, w :: ws =>
    if n = 0 then copyFirst dbg total ns vs ws
    else if dbg && !(v.ptr ≠ 0 ∧ w.ptr ≠ 0) then .ret .ub
    else .issue (.copy total v.ptr w.ptr) (.ret (.ok ()))
  | _, _, _ => .ret (.ok ())

/-- `copy_views_contiguous_impl`, impl/copy.ipp:650-691.  (Its assertions that the views are contiguous repeat what was
checked before the call.) -/
def copyContiguous (dbg : Bool) (t : Nat) (caps : List Nat) (src dst : List View) : Prog Unit :=
  copyFirst dbg (wrap64 (wrap64 caps.sum * t)) caps src dst

/-- `copy_view_impl` for jagged vectors, impl/copy.ipp:541-607. -/
def copyViewJag (dbg : Bool) (t : Nat) (src dst : JagView) : Prog Bool :=
  let n := src.views.length
  if n > dst.views.length then .ret .lengthError
  else if n = 0 then .ret (.ok false)
  else
    let fromContiguous := isContiguous t src.views
    let toContiguous := isContiguous t (dst.views.take n)
    (getSizes src.views).bind fun sizes => scope (.uints sizes) fun s =>
      (setSizes s sizes dst.views).bind fun e =>
        (if fromContiguous && toContiguous && (src.views.map (·.capacity) == (dst.views.take n).map (·.capacity)) then
          copyContiguous dbg t (src.views.map (·.capacity)) src.views dst.views
        else copyViews dbg t sizes src.views dst.views).bind fun _ => .wait e (.ret (.ok true))

/-- `operator()` for jagged vectors, impl/copy.ipp:236-248. -/
def copyJag (dbg : Bool) (t : Nat) (src dst : JagView) : Prog Nat :=
  (copyViewJag dbg t src dst).bind fun b => if b then retEvent else retNoEvent

/-- `operator()` from a jagged vector to a `std::vector` of `std::vector`s, impl/copy.ipp:250-268.  `resize` gives the
addresses of the arrays of the inner vectors once they have these sizes; the views of them are those of `get_data`
(`fillViews`). -/
def copyJagToStd (dbg : Bool) (t : Nat) (src : JagView) (resize : List Nat → List Nat) : Prog Nat :=
  (getSizes src.views).bind fun sizes =>
    copyJag dbg t src ⟨List.zipWith (fun n p => ⟨n % 2 ^ 32, 0, p⟩) sizes (resize sizes), 0, 0⟩

/-- The constructor of `jagged_vector_buffer` writes the views into the host accessible array,
containers/impl/jagged_vector_buffer.ipp:116-129.  The members are in the order of data/vector_view.hpp:134-138; the
padding after the capacity is left as it is. -/
def writeViews (m : Mem) (p : Nat) : List View → Mem
  | [] => m
  | v :: vs => writeViews (writeLE (writeLE (writeLE m p 4 v.capacity) (p + 8) 8 v.sizePtr) (p + 16) 8 v.ptr) (p + viewSize) vs

/-- The jagged view that is the base class of a jagged buffer.
Code: `core/include/vecmem/containers/data/jagged_vector_buffer.hpp` (base class). -/
def JagBuffer.view (b : JagBuffer) : JagView := ⟨b.views, b.ptr, b.hostPtr⟩

/-- Run the destructor of a jagged buffer because of an exception `e`.
No counterpart in /repo: C++ exceptions. -/
def dropJagBuffer {σ : Type} (ups : Bool → MR σ) (hasHost : Bool) (e : Res JagBuffer) (b : JagBuffer) (u : σ) :
    Res JagBuffer × σ :=
  match b.destroy ups hasHost u with
  | (.ok (), u') => (e, u')
  | (_, u') => (.ub, u')

/-- `to` for jagged vectors, impl/copy.ipp:215-234, with an immediate copy: the buffer, the state of the resources, and
the memory.  The sizes are read by the host directly (`::get_sizes`, containers/impl/jagged_vector_buffer.ipp:23-33 and
65-69), so the size words must be host accessible. -/
def copyToJag {σ : Type} (dbg : Bool) (ups : Bool → MR σ) (hasHost : Bool) (t : CType) (src : JagView) (u : σ) (m : Mem) :
    Res JagBuffer × σ × Mem :=
  let sizes := src.views.map fun v => if v.sizePtr = 0 then v.capacity else readLE m v.sizePtr 4
  match JagBuffer.create ups u t sizes hasHost false with
  | (.ok b, u') =>
    match ((setupJag b.view).bind fun e => .wait e <| (copyJag dbg t.size src b.view).bind fun e =>
        .wait e (.ret (.ok ()))).result (writeViews m b.hostPtr b.views) with
    | (.ok (), m') => (.ok b, u', m')
    | (e, m') => let r := dropJagBuffer ups hasHost (e.map fun _ => b) b u'; (r.1, r.2, m')
  | (e, u') => (e, u', m)

end Vecmem
