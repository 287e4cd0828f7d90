import Verif.Model.Buffers

/-!
# Specification: regions inside one allocation, and buffers
-/

namespace Vecmem

/-- A possible C++ object type: positive size, and an alignment that is a power of two and divides the size. -/
def CType.Wf (t : CType) : Prop := 0 < t.size ∧ (∃ k, t.align = 2 ^ k) ∧ t.align ∣ t.size

/-- The memory of `n` objects of type `t` starting at address `p`. -/
def CType.region (t : CType) (p n : Nat) : Blk := ⟨p, n * t.size, t.align⟩

/-- A block starts at a multiple of its alignment. -/
def Blk.Aligned (b : Blk) : Prop := b.align ∣ b.addr

instance (b : Blk) : Decidable b.Aligned := by unfold Blk.Aligned; infer_instance

/-- The pointers `ps` name regions for the requested types and counts `ts`, all inside the block `m`: a region with
count zero is null, every other one is aligned and inside, and they follow each other in order without overlap. -/
structure PlacedIn (m : Blk) (ts : List (CType × Nat)) (ps : List Nat) : Prop where
  length : ps.length = ts.length
  empty : ∀ t n p, ((t, n), p) ∈ ts.zip ps → n = 0 → p = 0
  inside : ∀ t n p, ((t, n), p) ∈ ts.zip ps → n ≠ 0 → (t.region p n).Aligned ∧ (t.region p n).Inside m
  order : (ts.zip ps).Pairwise fun x y => x.1.2 ≠ 0 → y.1.2 ≠ 0 → x.2 + x.1.2 * x.1.1.size ≤ y.2

/-- The number of bytes one allocation needs to hold the regions `ts` wherever it starts: the regions and, for each
of them, padding up to the largest alignment `A`. -/
def neededBytes (A : Nat) (ts : List (CType × Nat)) : Nat :=
  (ts.map fun e => e.2 * e.1.size).sum + ts.length * A

/-- The payload memory of a view on elements of type `t`. -/
def View.payload (t : CType) (v : View) : Blk := t.region v.ptr v.capacity

/-- The memory of the size word of a view. -/
def View.sizeWord (v : View) : Blk := CType.uint.region v.sizePtr 1

/-- The inner vectors of a jagged buffer with the capacities `caps`, with their memory inside the block `m`:
vector `i` has capacity `caps[i]`; the payloads are inside `m`, which is not null then, and follow each other without gaps; a resizable
buffer has one size word for each vector, inside `m`, the words being adjacent, and all before all payloads; a
fixed size one has no size words. -/
structure InnerVectors (m : Blk) (t : CType) (caps : List Nat) (resizable : Bool) (views : List View) : Prop where
  capacities : views.map (·.capacity) = caps
  payload : ∀ v ∈ views, v.capacity ≠ 0 → m.addr ≠ 0 ∧ (v.payload t).Inside m
  contiguous : ∃ d, ∀ i v, views[i]? = some v → v.ptr = d + (caps.take i).sum * t.size
  payloads : views.Pairwise fun v w => v.ptr + v.capacity * t.size ≤ w.ptr
  words : ∀ v ∈ views, if resizable then v.sizePtr ≠ 0 ∧ v.sizeWord.Aligned ∧ v.sizeWord.Inside m else v.sizePtr = 0
  adjacent : resizable = true → ∃ h, ∀ i v, views[i]? = some v → v.sizePtr = h + 4 * i
  before : resizable = true → ∀ v ∈ views, ∀ w ∈ views, w.capacity ≠ 0 → v.sizePtr + 4 ≤ w.ptr

/-- The memory a jagged buffer owns: the blocks of its non-null owning pointers, with the resource each of them is
from (`true` is the host accessible resource, if there is one). -/
def JagBuffer.owned (hasHost : Bool) (b : JagBuffer) : List (Bool × Blk) :=
  ([(false, b.inner), (hasHost, b.outerHost), (false, b.outer)].filter fun e => e.2.ptr != 0).map
    fun e => (e.1, ⟨e.2.ptr, e.2.size, maxAlign⟩)

end Vecmem
