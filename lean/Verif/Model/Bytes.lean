/-!
# Byte-addressed memory

Not a piece of the code base: the memory the modelled code reads and writes.  Integers and pointers are
stored least significant byte first (the byte order of all platforms vecmem is built for).
-/

namespace Vecmem

/-- The contents of memory.
No counterpart in /repo: memory as bytes, little endian. -/
abbrev Mem := Nat → UInt8

/-- Store the `k`-byte number `v` at address `a`.
No counterpart in /repo: memory as bytes, little endian. -/
def writeLE (m : Mem) (a k v : Nat) : Mem :=
  fun x => if a ≤ x ∧ x < a + k then UInt8.ofNat (v / 256 ^ (x - a)) else m x

/-- Load a `k`-byte number from address `a`.
No counterpart in /repo: memory as bytes, little endian. -/
def readLE (m : Mem) (a : Nat) : Nat → Nat
  | 0 => 0
  | k + 1 => (m a).toNat + 256 * readLE m (a + 1) k

/-- `memcpy(dst, src, n)` for ranges that do not overlap.
Code: called in `core/src/utils/copy.cpp`, line 31. -/
def memCopy (m : Mem) (dst src n : Nat) : Mem :=
  fun x => if dst ≤ x ∧ x < dst + n then m (src + (x - dst)) else m x

/-- `memset(dst, value, n)`.
Code: called in `core/src/utils/copy.cpp`, line 43. -/
def memFill (m : Mem) (dst : Nat) (v : UInt8) (n : Nat) : Mem :=
  fun x => if dst ≤ x ∧ x < dst + n then v else m x

end Vecmem
