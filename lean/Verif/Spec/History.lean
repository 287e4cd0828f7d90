import Verif.Spec.Family

/-!
# Specification: lists of calls that are correct against the answers received
-/

namespace Vecmem

/-- The calls, made one after the other to `m` in state `s` by a client holding the blocks `L`, are
correct: requests are legal, and only null or a block held at that time is freed. -/
def CorrectRun {σ : Type} (R : Limits) (m : MR σ) : σ → List Blk → List Call → Prop
  | _, _, [] => True
  | s, L, .alloc n a :: cs =>
    IsReq R n a ∧ CorrectRun R m (m.allocate s n a).2
      (match (m.allocate s n a).1 with
        | .ok p => if n = 0 then L else ⟨p, n, a⟩ :: L
        | _ => L) cs
  | s, L, .free p n a :: cs =>
    (p = 0 ∨ (⟨p, n, a⟩ : Blk) ∈ L) ∧ CorrectRun R m (m.deallocate s p n a).2
      (if p = 0 then L else L.erase ⟨p, n, a⟩) cs

/-- Total size of some blocks. -/
def totalSize (L : List Blk) : Nat := (L.map (·.size)).sum

end Vecmem
