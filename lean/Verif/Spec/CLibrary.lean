import Verif.Model.Bytes
import Verif.Spec.Resource

/-!
# Specification: the C library's allocation functions, and clients that write to their memory
-/

namespace Vecmem

/-- `malloc(size)`, `aligned_alloc(alignment, size)` (null is address 0) and `free(ptr)`, acting on the
state of the C library. -/
structure CLib (σ : Type) where
  malloc : σ → Nat → Nat × σ
  alignedAlloc : σ → Nat → Nat → Nat × σ
  free : σ → Nat → Res Unit × σ

/-- A block obtained from the C library. -/
structure CBlk where
  addr : Nat
  size : Nat
deriving DecidableEq, Repr

/-- States of the C library reachable by correct use, with the blocks that are allocated. -/
inductive CLib.Reach {σ : Type} (c : CLib σ) (s0 : σ) : σ → List CBlk → Prop
  | init : CLib.Reach c s0 s0 []
  | malloc {s s' C n p} : CLib.Reach c s0 s C → n < 2 ^ 64 → c.malloc s n = (p, s') → p ≠ 0 →
      CLib.Reach c s0 s' (⟨p, n⟩ :: C)
  | mallocFail {s s' C n} : CLib.Reach c s0 s C → n < 2 ^ 64 → c.malloc s n = (0, s') →
      CLib.Reach c s0 s' C
  | aligned {s s' C n a p} : CLib.Reach c s0 s C → n < 2 ^ 64 → (∃ k, a = 2 ^ k) → a ∣ n →
      c.alignedAlloc s a n = (p, s') → p ≠ 0 → CLib.Reach c s0 s' (⟨p, n⟩ :: C)
  | alignedFail {s s' C n a} : CLib.Reach c s0 s C → n < 2 ^ 64 → (∃ k, a = 2 ^ k) → a ∣ n →
      c.alignedAlloc s a n = (0, s') → CLib.Reach c s0 s' C
  | free {s s' b C} : CLib.Reach c s0 s (b :: C) → c.free s b.addr = (.ok (), s') →
      CLib.Reach c s0 s' C
  | perm {s C C'} : CLib.Reach c s0 s C → C.Perm C' → CLib.Reach c s0 s C'

/-- A block `p, n` just obtained while the blocks `C` are allocated: inside the address space and disjoint
from all of them. -/
def CLib.Fresh (C : List CBlk) (p n : Nat) : Prop :=
  p + n ≤ 2 ^ 64 ∧ ∀ b ∈ C, b.addr ≠ p ∧ (p + n ≤ b.addr ∨ b.addr + b.size ≤ p)

/-- What the C standard says: allocated blocks are fresh; `aligned_alloc` aligns as asked, for a size that is
a multiple of the alignment (C11, 7.22.3.1); what is allocated can be freed. -/
structure CLib.Good {σ : Type} (c : CLib σ) (s0 : σ) : Prop where
  malloc : ∀ {s C n}, CLib.Reach c s0 s C → n < 2 ^ 64 → (c.malloc s n).1 ≠ 0 →
    CLib.Fresh C (c.malloc s n).1 n
  aligned : ∀ {s C n a}, CLib.Reach c s0 s C → n < 2 ^ 64 → (∃ k, a = 2 ^ k) → a ∣ n →
    (c.alignedAlloc s a n).1 ≠ 0 → a ∣ (c.alignedAlloc s a n).1 ∧ CLib.Fresh C (c.alignedAlloc s a n).1 n
  free : ∀ {s C b}, CLib.Reach c s0 s C → b ∈ C → (c.free s b.addr).1 = .ok ()

/-- Like `Reach`, for a resource that itself keeps data in the memory it manages: between calls, clients may
write anything into the blocks they hold. -/
inductive WReach {σ : Type} (R : Limits) (m : MR (σ × Mem)) (s0 : σ × Mem) : σ × Mem → List Blk → Prop
  | init : WReach R m s0 s0 []
  | alloc {s s' L n a p} : WReach R m s0 s L → IsReq R n a → 0 < n →
      m.allocate s n a = (.ok p, s') → WReach R m s0 s' (⟨p, n, a⟩ :: L)
  | refuse {s s' L n a} : WReach R m s0 s L → IsReq R n a → 0 < n →
      m.allocate s n a = (.badAlloc, s') → WReach R m s0 s' L
  | zero {s s' L a r} : WReach R m s0 s L → IsReq R 0 a →
      m.allocate s 0 a = (r, s') → WReach R m s0 s' L
  | free {s s' L b} : WReach R m s0 s (b :: L) →
      m.deallocate s b.addr b.size b.align = (.ok (), s') → WReach R m s0 s' L
  | freeNull {s s' L n a r} : WReach R m s0 s L →
      m.deallocate s 0 n a = (r, s') → WReach R m s0 s' L
  | perm {s L L'} : WReach R m s0 s L → L.Perm L' → WReach R m s0 s L'
  | write {s mem' L} : WReach R m s0 s L →
      (∀ x, (∀ b ∈ L, x < b.addr ∨ b.addr + b.size ≤ x) → mem' x = s.2 x) →
      WReach R m s0 (s.1, mem') L

end Vecmem
