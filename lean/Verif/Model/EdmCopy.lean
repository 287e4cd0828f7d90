import Verif.Model.EdmBuffer

/-!
# Model of `vecmem::copy` for containers

`S` is the schema.  As in `Model/Copy`, the type of copy is left out, and `dbg` says whether assertions are enabled.
-/

namespace Vecmem

open IntMath Prog

/-- `assert`.
Code: `core/include/vecmem/utils/impl/copy.ipp`, line 343, for example. -/
def assertion (dbg : Bool) (c : Bool) (k : Prog β) : Prog β := if dbg && !c then .ret .ub else k

/-- The copy of the layout in `setup`, impl/copy.ipp:337-343. -/
def setupLayout (dbg : Bool) (e : EdmView) : Prog Unit :=
  if e.layout.ptr ≠ e.hostLayout.ptr then
    assertion dbg (decide (e.layout.capacity > 0)) <|
      (copyView 1 e.hostLayout e.layout).bind fun did => assertion dbg did (.ret (.ok ()))
  else .ret (.ok ())

/-- The initialisation of the sizes in `setup`, impl/copy.ipp:346-349. -/
def setupSizes (dbg : Bool) (e : EdmView) : Prog Unit :=
  if e.size.ptr ≠ 0 then
    assertion dbg (decide (e.size.capacity > 0)) <| .issue (.memset e.size.capacity e.size.ptr 0) (.ret (.ok ()))
  else .ret (.ok ())

/-- `setup` for containers, impl/copy.ipp:329-360. -/
def setupEdm (dbg : Bool) (e : EdmView) : Prog Nat :=
  if e.capacity = 0 then retNoEvent
  else (setupLayout dbg e).bind fun _ => (setupSizes dbg e).bind fun _ => retEvent

/-- The end of the life of an event object that was neither waited for nor ignored: the destructor waits,
cuda/src/utils/cuda/async_copy.cpp:34-45 and sycl/src/utils/sycl/async_copy.sycl:29-41.  `strict` says that the library was
built with `VECMEM_FAIL_ON_ASYNC_ERRORS`; then the program is terminated, which is `ub` here.  (0 is the event of
core/src/utils/copy.cpp:16-22, for which nothing happens.) -/
def discard (strict : Bool) (e : Nat) : Prog Unit := if strict && e != 0 then .ret .ub else .wait e (.ret (.ok ()))

/-- One variable in `memset_impl`, impl/copy.ipp:750-758.  The events that `memset` returns are temporary objects. -/
def memsetVar (t : Nat) (value : UInt8) (x : VarView) (strict := false) : Prog Unit :=
  match x with
  | .scalar p => .issue (.memset t p value) (.ret (.ok ()))
  | .vector v => (memsetVec t v value).bind (discard strict)
  | .jagged j => (memsetJag t j value).bind (discard strict)

/-- `memset_impl`, impl/copy.ipp:745-763. -/
def memsetVars (value : UInt8) (S : Schema) (xs : List VarView) (strict := false) : Prog Unit :=
  match S, xs with
  | v :: S, x :: xs => (memsetVar v.type.size value x strict).bind fun _ => memsetVars value S xs strict
  | _, _ => .ret (.ok ())

/-- `memset` for containers, impl/copy.ipp:362-376.  In line 368 there is a temporary event, too. -/
def memsetEdm (S : Schema) (e : EdmView) (value : UInt8) (strict := false) : Prog Nat :=
  (if e.payload.ptr ≠ 0 then (memsetVec 1 e.payload value).bind (discard strict)
  else memsetVars value S e.vars strict).bind fun _ => retEvent

/-- One variable in `copy_payload_impl`, impl/copy.ipp:911-920.  Variables of different sorts do not compile. -/
def copyVar (dbg : Bool) (t : Nat) : VarView → VarView → Prog Unit
  | .scalar p, .scalar q => .issue (.copy t p q) (.ret (.ok ()))
  | .vector v, .vector w => (copyView t v w).bind fun _ => .ret (.ok ())
  | .jagged j, .jagged k => (copyViewJag dbg t j k).bind fun _ => .ret (.ok ())
  | _, _ => .ret .ub

/-- `copy_payload_impl`, impl/copy.ipp:904-926. -/
def copyVars (dbg : Bool) : Schema → List VarView → List VarView → Prog Unit
  | v :: S, x :: xs, y :: ys => (copyVar dbg v.type.size x y).bind fun _ => copyVars dbg S xs ys
  | _, _, _ => .ret (.ok ())

/-- `copy_sizes_impl` in the case with jagged vectors, impl/copy.ipp:885-901. -/
def copyJagSizes : List VarView → List VarView → Prog Unit
  | x :: xs, y :: ys =>
    (match x, y with
      | .jagged j, .jagged k => (getSizes j.views).bind fun sizes => setSizesAndWait sizes k.views
      | _, _ => .ret (.ok ())).bind fun _ => copyJagSizes xs ys
  | _, _ => .ret (.ok ())

/-- `copy_sizes_impl`, impl/copy.ipp:844-902.  The assertions (852-853) repeat what is checked before the call. -/
def copySizes (S : Schema) (src dst : EdmView) : Prog Unit :=
  if S.hasJagged then copyJagSizes src.vars dst.vars
  else scope (.uint src.capacity) fun s => .issue (.store s 0 4 dst.size.ptr) <| sync <| .ret (.ok ())

/-- The part of `operator()` that sets the size of the target, impl/copy.ipp:403-422. -/
def copyEdmSizes (S : Schema) (src dst : EdmView) : Prog Unit :=
  if dst.size.ptr ≠ 0 then
    if src.size.ptr ≠ 0 then
      if src.size.capacity ≠ dst.size.capacity then .ret .lengthError
      else (copyView 1 src.size dst.size).bind fun _ => .ret (.ok ())
    else copySizes S src dst
  else .ret (.ok ())

/-- Whether the payloads are copied as one block, impl/copy.ipp:386-388. -/
def oneBlock (src dst : EdmView) : Bool :=
  src.payload.ptr ≠ 0 && dst.payload.ptr ≠ 0 && src.payload.capacity == dst.payload.capacity

/-- `operator()` for containers, impl/copy.ipp:378-432. -/
def copyEdm (dbg : Bool) (S : Schema) (src dst : EdmView) : Prog Nat :=
  if oneBlock src dst then
    if src.payload.capacity = 0 then retNoEvent
    else (copyView 1 src.payload dst.payload).bind fun _ => (copyEdmSizes S src dst).bind fun _ => retEvent
  else (copyVars dbg S src.vars dst.vars).bind fun _ => retEvent

/-- `get_size` for containers, impl/copy.ipp:448-485. -/
def getSizeEdm (dbg : Bool) (S : Schema) (e : EdmView) : Prog Nat :=
  if S.hasJagged then .ret (.ok e.capacity)
  else if e.size.ptr = 0 then .ret (.ok e.capacity)
  else assertion dbg (e.size.capacity == 4) <|
    scope (.uint e.capacity) fun s => .issue (.fetch s 0 4 e.size.ptr) <| sync <| .read s fun b => .ret (.ok (readLE b 0 4))

end Vecmem
