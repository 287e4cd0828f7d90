import Verif.Spec.Resource

/-! # Specification: pages of the binary page resource -/

namespace Vecmem

/-- The bytes of the page that serves a request of `n` bytes: the least power of two not below `n` and
not below 256. -/
def pageBytes (n : Nat) : Nat :=
  if n ≤ 256 then 256 else if n = 2 ^ Nat.log2 n then n else 2 ^ (Nat.log2 n + 1)

/-- The block of memory a live block keeps from being used. -/
def pageOf (b : Blk) : Blk := ⟨b.addr, pageBytes b.size, b.align⟩

/-- The limits on requests under which a binary page resource works, and its own requests to upstream
satisfy them too: sizes up to a power of two between 2^20 and 2^63. -/
def PageLimits (R : Limits) : Prop :=
  maxAlign ≤ R.align ∧ ∃ K, R.size = 2 ^ K ∧ 20 ≤ K ∧ K ≤ 63

end Vecmem
