import Verif.Model.Buffers

/-!
# Model of `vecmem::unique_obj_ptr` / `unique_alloc_ptr`, their factories and deleters, and of `vecmem::allocator`

Several resources `ups i` act on a common state.  Whatever happens to memory and to objects is written to a trace.
-/

namespace Vecmem

open IntMath

variable {ι σ : Type}

/-- What happens to memory and objects.
No counterpart in /repo: what is observed. -/
inductive Ev (ι : Type) where
  | alloc (i : ι) (p n a : Nat)
  | free (i : ι) (p n a : Nat)
  /-- the constructor of the object occupying these bytes has finished -/
  | ctor (o : Blk)
  /-- the destructor of the object occupying these bytes is called -/
  | dtor (o : Blk)
  /-- a copy helper is called to fill `n` bytes at `p` -/
  | copy (p n : Nat)
deriving DecidableEq, Repr

/-- The three kinds of deleter instantiations.
Code: `core/include/vecmem/memory/details/unique_alloc_deleter.hpp`, `unique_obj_deleter.hpp`. -/
inductive DelKind where
  | obj | objArray | alloc
deriving DecidableEq, Repr

/-- `unique_obj_deleter<T>` (details/unique_obj_deleter.hpp:172-175) or `unique_alloc_deleter<T>`
(details/unique_alloc_deleter.hpp:122-124, without `elems`); `kind` and `elem` stand for the template arguments.  The
default-constructed deleter has indeterminate members in C++; here it has no resource. -/
structure Deleter (ι : Type) where
  kind : DelKind := .alloc
  elem : CType := ⟨1, 1⟩
  mr : Option ι := none
  size : Nat := 0
  align : Nat := 0
  elems : Nat := 0
deriving DecidableEq, Repr

/-- A `std::unique_ptr` with such a deleter.
Code: `core/include/vecmem/memory/unique_ptr.hpp`, lines 37 and 55. -/
structure UPtr (ι : Type) where
  ptr : Nat := 0
  del : Deleter ι := {}
deriving DecidableEq, Repr

/-- Memory state and trace.
No counterpart in /repo: what is observed. -/
structure Tr (ι σ : Type) where
  u : σ
  trace : List (Ev ι) := []

/-- A call of `allocate` on resource `i`.
No counterpart in /repo: what is observed. -/
def Tr.allocate (ups : ι → MR σ) (w : Tr ι σ) (i : ι) (n a : Nat) : Res Nat × Tr ι σ :=
  match (ups i).allocate w.u n a with
  | (.ok p, u) => (.ok p, ⟨u, w.trace ++ [.alloc i p n a]⟩)
  | (e, u) => (e, ⟨u, w.trace⟩)

/-- A call of `deallocate` on resource `i`.
No counterpart in /repo: what is observed. -/
def Tr.deallocate (ups : ι → MR σ) (w : Tr ι σ) (i : ι) (p n a : Nat) : Res Unit × Tr ι σ :=
  let r := (ups i).deallocate w.u p n a
  (r.1, ⟨r.2, w.trace ++ [.free i p n a]⟩)

/-- The `k`-th element of an array of `t` at `p`.
No counterpart in /repo: C++ arrays. -/
def elemAt (t : CType) (p k : Nat) : Blk := ⟨p + k * t.size, t.size, t.align⟩

/-- Which factory is called, unique_ptr.hpp. -/
inductive Factory where
  /-- `make_unique_obj<T>(m, args...)`, L74-94 -/
  | obj (t : CType)
  /-- `make_unique_obj<T[]>(m, n)`, L113-137 -/
  | objArray (t : CType) (n : Nat)
  /-- `make_unique_alloc<T>(m)`, L165-195 -/
  | alloc (t : CType)
  /-- `make_unique_alloc<T[]>(m, n)`, L224-256 -/
  | allocArray (t : CType) (n : Nat)
  /-- `make_unique_alloc<T>(m, f, c)`, L296-330 -/
  | allocCopy (t : CType)
  /-- `make_unique_alloc<T[]>(m, n, f, c)`, L370-407 -/
  | allocArrayCopy (t : CType) (n : Nat)
deriving DecidableEq, Repr

/-- The size `s` computed by the factory (L81, L123, L188, L249, L321, L398): a wrapping product.
Code: `core/include/vecmem/memory/unique_ptr.hpp`. -/
def Factory.bytes : Factory → Nat
  | .obj t | .alloc t | .allocCopy t => t.size
  | .objArray t n | .allocArray t n | .allocArrayCopy t n => wrap64 (n * t.size)

/-- The number of constructor calls (L88, L129-131).
Code: `core/include/vecmem/memory/unique_ptr.hpp`. -/
def Factory.constructs : Factory → Nat
  | .obj _ => 1
  | .objArray _ n => n
  | _ => 0

/-- The element type.
Code: `core/include/vecmem/memory/unique_ptr.hpp`. -/
def Factory.elem : Factory → CType
  | .obj t | .objArray t _ | .alloc t | .allocArray t _ | .allocCopy t | .allocArrayCopy t _ => t

/-- The deleter of the new pointer (L93, L136, L194, L255, L329, L406); `n` has the default 1 for single objects.
Code: `core/include/vecmem/memory/unique_ptr.hpp`. -/
def Factory.deleter (i : ι) : Factory → Deleter ι
  | .obj t => { kind := .obj, elem := t, mr := some i, size := t.size, align := 0, elems := 1 }
  | .objArray t n => { kind := .objArray, elem := t, mr := some i, size := wrap64 (n * t.size), align := 0, elems := n }
  | .alloc t | .allocCopy t => { kind := .alloc, elem := t, mr := some i, size := t.size, align := 0 }
  | .allocArray t n | .allocArrayCopy t n =>
    { kind := .alloc, elem := t, mr := some i, size := wrap64 (n * t.size), align := 0 }

/-- Does the factory call a copy helper?
Code: `core/include/vecmem/memory/unique_ptr.hpp`, lines 297-406. -/
def Factory.copies : Factory → Bool
  | .allocCopy _ | .allocArrayCopy _ _ => true
  | _ => false

/-- The factories.  `fail = some k`: the constructor call number `k` throws (here: `logicError`); nothing is caught, so
neither the memory nor the objects constructed before are given up.
Code: `core/include/vecmem/memory/unique_ptr.hpp`, lines 76-406. -/
def Factory.make (ups : ι → MR σ) (w : Tr ι σ) (i : ι) (f : Factory) (fail : Option Nat) : Res (UPtr ι) × Tr ι σ :=
  match w.allocate ups i f.bytes maxAlign with
  | (.ok p, w) =>
    let objs := (List.range f.constructs).map (elemAt f.elem p)
    match fail.filter (· < f.constructs) with
    | some k => (.logicError, ⟨w.u, w.trace ++ (objs.take k).map .ctor⟩)
    | none =>
      (.ok ⟨p, f.deleter i⟩,
        ⟨w.u, w.trace ++ objs.map .ctor ++ (if f.copies then [.copy p f.bytes] else [])⟩)
  | (e, w) => (e.map fun _ => {}, w)

/-- `unique_obj_deleter::operator()` (details/unique_obj_deleter.hpp:124-163) and `unique_alloc_deleter::operator()`
(details/unique_alloc_deleter.hpp:101-119). -/
def Deleter.run (ups : ι → MR σ) (w : Tr ι σ) (d : Deleter ι) (p : Nat) : Res Unit × Tr ι σ :=
  match d.mr with
  | none => (.ub, w)
  | some i =>
    let n := match d.kind with
      | .obj => 1
      | .objArray => d.elems
      | .alloc => 0
    let w : Tr ι σ := ⟨w.u, w.trace ++ ((List.range n).map (elemAt d.elem p)).map .dtor⟩
    w.deallocate ups i p d.size (if d.align > 0 then d.align else maxAlign)

/-- The pointer variables of a program, and the pointers it has released (for whose memory it is now responsible
itself).
No counterpart in /repo: programs of users. -/
structure PWorld (ι σ : Type) where
  tr : Tr ι σ
  slots : List (UPtr ι)
  released : List (UPtr ι) := []

/-- `slots[d].reset(p)`, as specified for `std::unique_ptr` ([unique.ptr.single.modifiers]): the old pointer, if not
null, is passed to the (old) deleter after the new one has been stored.
No counterpart in /repo: `std::unique_ptr`. -/
def PWorld.resetTo (ups : ι → MR σ) (w : PWorld ι σ) (d : Nat) (p : Nat) : Res Unit × PWorld ι σ :=
  let old := w.slots.getD d {}
  let w : PWorld ι σ := { w with slots := w.slots.set d { old with ptr := p } }
  if old.ptr = 0 then (.ok (), w)
  else
    let r := old.del.run ups w.tr old.ptr
    (r.1, { w with tr := r.2 })

/-- `slots[d] = std::move(x)` for a pointer `x` already released from its variable
([unique.ptr.single.asgn]): `reset(x.release())`, then the deleter is assigned.
No counterpart in /repo: `std::unique_ptr`. -/
def PWorld.assign (ups : ι → MR σ) (w : PWorld ι σ) (d : Nat) (x : UPtr ι) : Res Unit × PWorld ι σ :=
  match w.resetTo ups d x.ptr with
  | (.ok (), w) => (.ok (), { w with slots := w.slots.set d { (w.slots.getD d {}) with del := x.del } })
  | (e, w) => (e, w)

/-- What a program does with its pointers.
No counterpart in /repo: programs of users. -/
inductive POp (ι : Type) where
  /-- `slots[d] = make_unique_...(resource i, ...)` -/
  | make (d : Nat) (i : ι) (f : Factory) (fail : Option Nat := none)
  /-- `slots[d] = std::move(slots[s])` -/
  | move (d s : Nat)
  /-- `slots[d].reset()`, or the end of the life of the variable -/
  | reset (d : Nat)
  /-- `slots[d].release()` -/
  | release (d : Nat)
  /-- `swap(slots[d], slots[e])` -/
  | swap (d e : Nat)
deriving Repr

/-- One operation.
No counterpart in /repo: programs of users. -/
def PWorld.step (ups : ι → MR σ) (w : PWorld ι σ) : POp ι → Res Unit × PWorld ι σ
  | .make d i f fail =>
    match f.make ups w.tr i fail with
    | (.ok x, tr) => { w with tr := tr }.assign ups d x
    | (e, tr) => (e.map fun _ => (), { w with tr := tr })
  | .move d s =>
    let x := w.slots.getD s {}
    { w with slots := w.slots.set s { x with ptr := 0 } }.assign ups d x
  | .reset d => w.resetTo ups d 0
  | .release d =>
    let x := w.slots.getD d {}
    (.ok (), { w with slots := w.slots.set d { x with ptr := 0 }
                      released := if x.ptr = 0 then w.released else x :: w.released })
  | .swap d e =>
    let x := w.slots.getD d {}
    let y := w.slots.getD e {}
    (.ok (), { w with slots := (w.slots.set d y).set e x })

/-- A program; its outcomes.
No counterpart in /repo: programs of users. -/
def PWorld.run (ups : ι → MR σ) (w : PWorld ι σ) : List (POp ι) → List (Res Unit) × PWorld ι σ
  | [] => ([], w)
  | op :: ops =>
    let r := w.step ups op
    let rs := r.2.run ups ops
    (r.1 :: rs.1, rs.2)

/-! ## `vecmem::allocator` -/

/-- `allocator::allocate_bytes`, core/src/memory/allocator.cpp:16-27. -/
def Tr.allocateBytes (ups : ι → MR σ) (w : Tr ι σ) (i : ι) (n a : Nat) : Res Nat × Tr ι σ :=
  if n = 0 then (.ok 0, w) else w.allocate ups i n a

/-- `allocator::deallocate_bytes`, core/src/memory/allocator.cpp:29-40. -/
def Tr.deallocateBytes (ups : ι → MR σ) (w : Tr ι σ) (i : ι) (p n a : Nat) : Res Unit × Tr ι σ :=
  if p = 0 then (.ok (), w) else w.deallocate ups i p n a

/-- `allocator::allocate_object`, impl/allocator.ipp:14-23. -/
def Tr.allocateObject (ups : ι → MR σ) (w : Tr ι σ) (i : ι) (t : CType) (n : Nat) : Res Nat × Tr ι σ :=
  w.allocate ups i (wrap64 (n * t.size)) t.align

/-- `allocator::deallocate_object`, impl/allocator.ipp:25-33. -/
def Tr.deallocateObject (ups : ι → MR σ) (w : Tr ι σ) (i : ι) (t : CType) (p n : Nat) : Res Unit × Tr ι σ :=
  w.deallocate ups i p (wrap64 (n * t.size)) t.align

/-- `allocator::new_object`, impl/allocator.ipp:35-51; `fails`: the constructor throws (here: `logicError`), and nothing
is caught. -/
def Tr.newObject (ups : ι → MR σ) (w : Tr ι σ) (i : ι) (t : CType) (fails : Bool) : Res Nat × Tr ι σ :=
  match w.allocateObject ups i t 1 with
  | (.ok p, w) => if fails then (.logicError, w) else (.ok p, ⟨w.u, w.trace ++ [.ctor (elemAt t p 0)]⟩)
  | (e, w) => (e, w)

/-- `allocator::delete_object`, impl/allocator.ipp:53-67; calling a destructor on null is undefined. -/
def Tr.deleteObject (ups : ι → MR σ) (w : Tr ι σ) (i : ι) (t : CType) (p : Nat) : Res Unit × Tr ι σ :=
  if p = 0 then (.ub, w)
  else Tr.deallocateObject ups ⟨w.u, w.trace ++ [.dtor (elemAt t p 0)]⟩ i t p 1

end Vecmem
