import Verif.Model.Buffers

/-!
# Model of class layout

The members of a standard-layout class, in the order of their declaration, as every ABI that vecmem is used with lays
them out (no bit-fields, no empty members): each one at the next offset that its alignment allows.
-/

namespace Vecmem

/-- The next multiple of the alignment.
No counterpart in /repo: the layout of C++ classes. -/
def padTo (offset align : Nat) : Nat := (offset + align - 1) / align * align

/-- The offsets of the members, starting at `offset`, and the end of the last one.
No counterpart in /repo: the layout of C++ classes. -/
def memberOffsets (offset : Nat) : List CType → List Nat × Nat
  | [] => ([], offset)
  | m :: ms =>
    let here := padTo offset m.align
    let rest := memberOffsets (here + m.size) ms
    (here :: rest.1, rest.2)

/-- The alignment of a class: the strictest alignment of its members.
No counterpart in /repo: the layout of C++ classes. -/
def classAlign (ms : List CType) : Nat := ms.foldr (fun m a => max m.align a) 1

/-- `std::size_t`.
No counterpart in /repo: the layout of C++ classes. -/
def sizeT : CType := ⟨8, 8⟩

/-- The members of `static_vector<TYPE, MAX_SIZE>` with a `MAX_SIZE` above 0, static_vector.hpp:47-49 and 316-319: the
size, and an array of `char` (details/static_vector_traits.hpp:26-34). -/
def staticVectorMembers (elem : CType) (maxSize : Nat) : List CType := [sizeT, ⟨maxSize * elem.size, 1⟩]

/-- The offset of the array in a `static_vector`.
Code: `core/include/vecmem/containers/static_vector.hpp`, lines 317-319. -/
def staticVectorArray (elem : CType) (maxSize : Nat) : Nat :=
  ((memberOffsets 0 (staticVectorMembers elem maxSize)).1[1]?).getD 0

/-- The address of an element: the array reinterpreted as one of the element type, impl/static_vector.ipp:45-137 and
486-494. -/
def staticVectorElement (elem : CType) (maxSize object i : Nat) : Nat :=
  object + staticVectorArray elem maxSize + i * elem.size

end Vecmem
