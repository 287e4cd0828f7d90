import Verif.Spec.Resource

/-! # Specification: the arena resource and its upstream -/

namespace Vecmem

/-- The bytes an arena sets aside for a request of `n` bytes: the least multiple of 256 not below `n`. -/
def arenaBytes (n : Nat) : Nat := (n + 255) / 256 * 256

/-- A resource that never answers a request with a block that begins where a live block ends, or ends where
a live block begins.  (So do allocators that keep a header between blocks.) -/
def Gapped {σ : Type} (R : Limits) (m : MR σ) (s0 : σ) : Prop :=
  ∀ s L n a p s', Reach R m s0 s L → IsReq R n a → 0 < n → m.allocate s n a = (.ok p, s') →
    ∀ b ∈ L, b.addr + b.size ≠ p ∧ p + n ≠ b.addr

end Vecmem
