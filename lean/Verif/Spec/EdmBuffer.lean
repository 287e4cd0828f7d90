import Verif.Model.EdmBuffer
import Verif.Spec.Copy

/-!
# Specification: the memory of the variables of a container buffer (C42)
-/

namespace Vecmem

/-- Types and capacities that 32-bit numbers of elements can describe. -/
structure Schema.Ok (S : Schema) (caps : List Nat) : Prop where
  types : ∀ v ∈ S, v.type.Wf
  caps32 : ∀ c ∈ caps, c < 2 ^ 32
  count : caps.length < 2 ^ 32
  total : caps.sum < 2 ^ 64

/-- The number of bytes a variable needs: for its elements, and for the view and the size word of every inner vector. -/
def Var.room (v : Var) (caps : List Nat) : Nat :=
  match v.kind with
  | .scalar => v.type.size
  | .vector => caps.length * v.type.size
  | .jagged => caps.sum * v.type.size + caps.length * (viewSize + 4)

/-- A number of bytes that is enough for a container, if no alignment is above `A`. -/
def Schema.room (S : Schema) (caps : List Nat) (A : Nat) : Nat := (S.map fun v => v.room caps + 3 * A).sum + (4 + A)

/-- The parts of the memory of a buffer that belong to one variable: the scalar; the elements of a vector; the array of
the views of the inner vectors, their size words if they are resizable, and their elements. -/
def VarView.regions (t : CType) (resizable : Bool) : VarView → List Blk
  | .scalar p => [t.region p 1]
  | .vector v => [v.payload t]
  | .jagged j => CType.view.region j.ptr j.views.length ::
      ((if resizable then j.views.map (·.sizeWord) else []) ++ j.views.map (·.payload t))

/-- All parts of the memory of a buffer: also the size word, if all vectors share one. -/
def EdmView.regions (S : Schema) (resizable : Bool) (e : EdmView) : List Blk :=
  (if resizable && !S.hasJagged then [CType.uint.region e.size.ptr 1] else []) ++
    (S.zip e.vars).flatMap fun x => x.2.regions x.1.type resizable

/-- A variable of a buffer with the capacities `caps` has memory of the right size and alignment inside the block `m`; the
copy of the views of a jagged vector that is for the host is inside `mh`, if there is such a copy.  `word` is the address
of the size of vectors. -/
def VarView.Fits (m mh : Blk) (hasHost resizable : Bool) (caps : List Nat) (word : Nat) (v : Var) (x : VarView) : Prop :=
  match v.kind, x with
  | .scalar, .scalar p => (v.type.region p 1).Aligned ∧ (v.type.region p 1).Inside m
  | .vector, .vector w => w.capacity = caps.length ∧ w.sizePtr = word ∧
      (caps ≠ [] → (w.payload v.type).Aligned ∧ (w.payload v.type).Inside m)
  | .jagged, .jagged j => InnerVectors m v.type caps resizable j.views ∧
      (∀ w ∈ j.views, (w.payload v.type).Aligned) ∧
      (caps ≠ [] → (CType.view.region j.ptr caps.length).Aligned ∧ (CType.view.region j.ptr caps.length).Inside m ∧
        if hasHost then (CType.view.region j.hostPtr caps.length).Aligned ∧
          (CType.view.region j.hostPtr caps.length).Inside mh
        else j.hostPtr = j.ptr)
  | _, _ => False

/-- The copies for the host of the views of the inner vectors. -/
def EdmView.hostLayouts (e : EdmView) : List Blk :=
  e.vars.filterMap fun x =>
    match x with
    | .jagged j => some (CType.view.region j.hostPtr j.views.length)
    | _ => none

/-- A container with the schema `S` and the capacities `caps`, with all its memory inside the block `m`: it has one variable
for each one of the schema, all of them fit, and no two parts of the memory overlap.  If all vectors share a size word, then it is
aligned and inside `m`. -/
structure EdmPlaced (m mh : Blk) (S : Schema) (caps : List Nat) (hasHost resizable : Bool) (e : EdmView) : Prop where
  capacity : e.capacity = caps.length
  count : e.vars.length = S.length
  vars : ∀ (i : Nat) (v : Var) (x : VarView), S[i]? = some v → e.vars[i]? = some x →
    x.Fits m mh hasHost resizable caps (if resizable && !S.hasJagged then e.size.ptr else 0) v
  word : resizable = true → S.hasJagged = false →
    e.size.ptr ≠ 0 ∧ (CType.uint.region e.size.ptr 1).Aligned ∧ (CType.uint.region e.size.ptr 1).Inside m
  fixed : resizable = false → e.size.ptr = 0
  disjoint : (e.regions S resizable).Pairwise Blk.Disjoint
  hostDisjoint : hasHost = true → e.hostLayouts.Pairwise Blk.Disjoint

/-- The memory that a memory view (`size()`, `layout()`, `payload()`) describes. -/
def View.bytes (v : View) : Blk := ⟨v.ptr, v.capacity, 1⟩

/-- The parts of the memory of a variable that hold elements. -/
def VarView.payloads (t : CType) : VarView → List Blk
  | .scalar p => [t.region p 1]
  | .vector v => [v.payload t]
  | .jagged j => j.views.map (·.payload t)

/-- The memory views of the container describe disjoint parts of `m`: one with the elements of all variables, one with
the arrays of views of all jagged vectors, and one with all size words. -/
structure EdmBlocks (m : Blk) (S : Schema) (caps : List Nat) (resizable : Bool) (e : EdmView) : Prop where
  inside : ∀ b ∈ [e.size.bytes, e.layout.bytes, e.payload.bytes], b.size ≠ 0 → b.Inside m
  apart : [e.size.bytes, e.layout.bytes, e.payload.bytes].Pairwise Blk.Disjoint
  payload : ∀ (i : Nat) (v : Var) (x : VarView), S[i]? = some v → e.vars[i]? = some x →
    ∀ b ∈ x.payloads v.type, b.size ≠ 0 → b.Inside e.payload.bytes
  layout : ∀ (i : Nat) (j : JagView), e.vars[i]? = some (.jagged j) → j.views ≠ [] →
    (CType.view.region j.ptr j.views.length).Inside e.layout.bytes
  word : resizable = true → S.hasJagged = false → e.size.capacity = 4
  words : resizable = true → ∀ (i : Nat) (j : JagView), e.vars[i]? = some (.jagged j) →
    ∀ w ∈ j.views, w.sizeWord.Inside e.size.bytes

/-- The memory a container buffer owns: the blocks of its non-null owning pointers, with the resource each of them is
from (`true` is the host accessible resource). -/
def EdmBuffer.owned (b : EdmBuffer) : List (Bool × Blk) :=
  ([(true, b.hostMem), (false, b.mem)].filter fun e => e.2.ptr != 0).map fun e => (e.1, ⟨e.2.ptr, e.2.size, maxAlign⟩)

end Vecmem
