import Verif.Model.Pool

/-!
# Specification: option sets of the pool resource that mean what they say

The pool constructor checks its options with wrapping arithmetic and does not compare every pair of
limits; these are the additional conditions under which the theorems about the pool hold.
-/

namespace Vecmem

/-- The fields are `std::size_t` values. -/
def PoolOpts.InRange (o : PoolOpts) : Prop :=
  o.minBlocks < 2 ^ 64 ∧ o.minBytes < 2 ^ 64 ∧ o.maxBlocks < 2 ^ 64 ∧ o.maxBytes < 2 ^ 64 ∧
    o.smallest < 2 ^ 64 ∧ o.largest < 2 ^ 64 ∧ o.alignment < 2 ^ 64

/-- The arithmetic the constructor and the growth of chunks perform on the options does not overflow. -/
def PoolOpts.NoOverflow (o : PoolOpts) : Prop :=
  o.minBlocks * o.largest < 2 ^ 64 ∧ (o.maxBlocks ≤ 2 ^ 62 ∨ o.maxBytes ≤ 2 ^ 62 ∨ 4 ≤ o.smallest)

/-- Every first chunk contains at least one block, and blocks are aligned to something. -/
def PoolOpts.NonEmpty (o : PoolOpts) : Prop :=
  o.alignment ≠ 0 ∧ (0 < o.minBlocks ∨ o.largest ≤ o.minBytes)

/-- For each block size of the pool, the minimal number of bytes of a chunk is reached by the minimal
number of blocks, or it is a multiple of the block size. -/
def PoolOpts.MinFits (o : PoolOpts) : Prop :=
  ∀ k, o.smallest ≤ 2 ^ k → 2 ^ k ≤ o.largest →
    o.minBytes ≤ o.minBlocks * 2 ^ k ∨ 2 ^ k ∣ o.minBytes

/-- Options under which the pool works as intended; `MinFits` matters only if assertions are compiled
in. -/
structure PoolOpts.Sound (dbg : Bool) (o : PoolOpts) : Prop where
  range : o.InRange
  noOverflow : o.NoOverflow
  nonEmpty : o.NonEmpty
  minFits : dbg = true → o.MinFits

end Vecmem
