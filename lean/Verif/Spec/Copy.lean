import Verif.Model.Copy
import Verif.Spec.Buffers

/-!
# What copying means (C37–C40)

Everything is said about bytes in memory: `t` is the size of an element in bytes.
-/

namespace Vecmem

/-- The current size of the vector: the contents of its size word, or its capacity. -/
def View.len (m : Mem) (v : View) : Nat := if v.sizePtr = 0 then v.capacity else readLE m v.sizePtr 4

/-- `n` bytes starting at `p`. -/
def bytesAt (m : Mem) (p n : Nat) : List UInt8 := (List.range n).map fun i => m (p + i)

/-- The elements of the vector, in order, each a list of bytes. -/
def View.elems (m : Mem) (t : Nat) (v : View) : List (List UInt8) :=
  (List.range (v.len m)).map fun i => bytesAt m (v.ptr + i * t) t

/-- The byte at `x` belongs to the payload (all of it, up to the capacity). -/
def View.HasPayload (t : Nat) (v : View) (x : Nat) : Prop := v.ptr ≤ x ∧ x < v.ptr + v.capacity * t

/-- The byte at `x` belongs to the size word. -/
def View.HasWord (v : View) (x : Nat) : Prop := v.sizePtr ≠ 0 ∧ v.sizePtr ≤ x ∧ x < v.sizePtr + 4

/-- The byte at `x` belongs to the vector. -/
def View.Has (t : Nat) (v : View) (x : Nat) : Prop := v.HasPayload t x ∨ v.HasWord x

/-- A view that may be set up: it points to memory in the address space, and its size word is not in its payload. -/
structure View.Placed (t : Nat) (v : View) : Prop where
  ptr : v.capacity ≠ 0 → v.ptr ≠ 0
  space : v.capacity ≠ 0 → v.ptr + v.capacity * t ≤ 2 ^ 64
  word32 : v.capacity < 2 ^ 32
  apart : ∀ x, ¬ (v.HasPayload t x ∧ v.HasWord x)

/-- A view that may be used: also, its size is not larger than its capacity. -/
structure View.Valid (m : Mem) (t : Nat) (v : View) : Prop extends v.Placed t where
  len : v.len m ≤ v.capacity

/-- Two vectors share no byte. -/
def View.Separate (t : Nat) (v w : View) : Prop := ∀ x, ¬ (v.Has t x ∧ w.Has t x)

/-- After a copy (of memory `m` into `m'`) the target holds the elements of the source: it has exactly these elements if it
is resizable; if it is not, they are its first elements, and the others are what they were. -/
def View.HoldsCopy (m m' : Mem) (t : Nat) (src dst : View) : Prop :=
  dst.elems m' t = src.elems m t ++ (if dst.sizePtr = 0 then (dst.elems m t).drop (src.len m) else [])

/-- The vectors of a jagged view are either all resizable, with adjacent size words (as in a jagged buffer), or none of
them is. -/
def WordsAdjacent (vs : List View) : Prop :=
  (∀ v ∈ vs, v.sizePtr = 0) ∨ ∃ h, h ≠ 0 ∧ ∀ (i : Nat) (v : View), vs[i]? = some v → v.sizePtr = h + 4 * i

/-- A jagged view that may be set up: its vectors may be set up, share no memory, and their size words are adjacent. -/
structure JagPlaced (t : Nat) (vs : List View) : Prop where
  placed : ∀ v ∈ vs, v.Placed t
  separate : vs.Pairwise (View.Separate t)
  words : WordsAdjacent vs
  count : vs.length * 4 < 2 ^ 64

/-- A jagged view that may be used: also, no vector's size is larger than its capacity. -/
structure JagValid (m : Mem) (t : Nat) (vs : List View) : Prop extends JagPlaced t vs where
  sizes : ∀ v ∈ vs, v.len m ≤ v.capacity

theorem JagValid.inner {m : Mem} {t : Nat} {vs : List View} (h : JagValid m t vs) : ∀ v ∈ vs, v.Valid m t :=
  fun v hv => ⟨h.placed v hv, h.sizes v hv⟩

/-- The byte at `x` belongs to one of the vectors. -/
def JagHas (t : Nat) (vs : List View) (x : Nat) : Prop := ∃ v ∈ vs, v.Has t x

/-- After a copy (of memory `m` into `m'`) a row of the target holds the elements of the row of the source: it has exactly
these elements if it is resizable, and if it is not, they are its first elements. -/
def View.HoldsRow (m m' : Mem) (t : Nat) (src dst : View) : Prop :=
  if dst.sizePtr = 0 then src.elems m t <+: dst.elems m' t else dst.elems m' t = src.elems m t

/-- An array of views, as they are laid out in memory, starts at address `p`.  (The pointer of a view without elements does
not matter.) -/
def DescribedAt (m : Mem) (p : Nat) (vs : List View) : Prop :=
  ∀ (i : Nat) (v : View), vs[i]? = some v → readLE m (p + 24 * i) 4 = v.capacity ∧
    readLE m (p + 24 * i + 8) 8 = v.sizePtr ∧ (v.capacity ≠ 0 → readLE m (p + 24 * i + 16) 8 = v.ptr)

end Vecmem
