import Verif.Spec.Resource

/-!
# Specification: several resources side by side, and calls as seen by clients

A downstream resource may use several upstream resources.  They are a family `ups i` acting on one
common world state; each live block remembers which of them serves it.
-/

namespace Vecmem

/-- Like `Reach`, for a family of resources on a common state; live blocks carry the index of the
resource that served them, and are freed to the same resource. -/
inductive FReach {ι σ : Type} (R : Limits) (ups : ι → MR σ) (s0 : σ) : σ → List (ι × Blk) → Prop
  | init : FReach R ups s0 s0 []
  | alloc {s s' T n a p} (i : ι) : FReach R ups s0 s T → IsReq R n a → 0 < n →
      (ups i).allocate s n a = (.ok p, s') → FReach R ups s0 s' ((i, ⟨p, n, a⟩) :: T)
  | refuse {s s' T n a} (i : ι) : FReach R ups s0 s T → IsReq R n a → 0 < n →
      (ups i).allocate s n a = (.badAlloc, s') → FReach R ups s0 s' T
  | zero {s s' T a r} (i : ι) : FReach R ups s0 s T → IsReq R 0 a →
      (ups i).allocate s 0 a = (r, s') → FReach R ups s0 s' T
  | free {s s' T b} {i : ι} : FReach R ups s0 s ((i, b) :: T) →
      (ups i).deallocate s b.addr b.size b.align = (.ok (), s') → FReach R ups s0 s' T
  | freeNull {s s' T n a r} (i : ι) : FReach R ups s0 s T →
      (ups i).deallocate s 0 n a = (r, s') → FReach R ups s0 s' T
  | perm {s T T'} : FReach R ups s0 s T → T.Perm T' → FReach R ups s0 s T'

/-- A family of resources sharing one address space is well-behaved: each answer is good with respect
to *all* live blocks, whichever resource served them. -/
structure FamLawful {ι σ : Type} (R : Limits) (G : Nat) (ups : ι → MR σ) (s0 : σ) : Prop where
  alloc : ∀ {s T n a} (i : ι), FReach R ups s0 s T → IsReq R n a → 0 < n →
    GoodAnswer G (T.map (·.2)) n a ((ups i).allocate s n a).1
  zero : ∀ {s T a} (i : ι), FReach R ups s0 s T → IsReq R 0 a →
    ((ups i).allocate s 0 a).1 = .ok 0 ∨ ((ups i).allocate s 0 a).1 = .badAlloc
  dealloc : ∀ {s T b} {i : ι}, FReach R ups s0 s T → (i, b) ∈ T →
    ((ups i).deallocate s b.addr b.size b.align).1 = .ok ()
  null : ∀ {s T n a} (i : ι), FReach R ups s0 s T → ((ups i).deallocate s 0 n a).1 = .ok ()

/-- Like `Reach` for a downstream resource `m`, with each live block labelled by `served s n a`, the
upstream that is to serve a successful request `n, a` in state `s`. -/
inductive TReach {ι σ : Type} (R : Limits) (m : MR σ) (served : σ → Nat → Nat → Option ι) (s0 : σ) :
    σ → List (ι × Blk) → Prop
  | init : TReach R m served s0 s0 []
  | alloc {s s' T n a p i} : TReach R m served s0 s T → IsReq R n a → 0 < n →
      m.allocate s n a = (.ok p, s') → served s n a = some i →
      TReach R m served s0 s' ((i, ⟨p, n, a⟩) :: T)
  | refuse {s s' T n a} : TReach R m served s0 s T → IsReq R n a → 0 < n →
      m.allocate s n a = (.badAlloc, s') → TReach R m served s0 s' T
  | zero {s s' T a r} : TReach R m served s0 s T → IsReq R 0 a →
      m.allocate s 0 a = (r, s') → TReach R m served s0 s' T
  | free {s s' T b i} : TReach R m served s0 s ((i, b) :: T) →
      m.deallocate s b.addr b.size b.align = (.ok (), s') → TReach R m served s0 s' T
  | freeNull {s s' T n a r} : TReach R m served s0 s T →
      m.deallocate s 0 n a = (r, s') → TReach R m served s0 s' T
  | perm {s T T'} : TReach R m served s0 s T → T.Perm T' → TReach R m served s0 s T'

/-- Zero-byte allocations and null deallocations. -/
def Call.isTrivial : Call → Bool
  | .alloc n _ => n == 0
  | .free p _ _ => p == 0

/-- The conventional answers to trivial calls. -/
def Call.trivialAnswer : Call → Answer
  | .alloc _ _ => .alloc (.ok 0)
  | .free _ _ _ => .free (.ok ())

/-- Answers `as` to the non-trivial calls, completed by the conventional answers to the trivial ones. -/
def weave : List Call → List Answer → List Answer
  | [], _ => []
  | c :: cs, as =>
    if c.isTrivial then c.trivialAnswer :: weave cs as
    else match as with
      | [] => []
      | a :: as => a :: weave cs as

/-- The blocks a client holds after these calls with these answers: what was served and not yet
successfully given back. -/
def ledger : List Call → List Answer → List Blk
  | cs, as => go [] cs as
where
  go (acc : List Blk) : List Call → List Answer → List Blk
    | .alloc n a :: cs, .alloc (.ok p) :: as =>
        go (if n = 0 then acc else ⟨p, n, a⟩ :: acc) cs as
    | .free p n a :: cs, .free (.ok ()) :: as =>
        go (if p = 0 then acc else acc.erase ⟨p, n, a⟩) cs as
    | _ :: cs, _ :: as => go acc cs as
    | _, _ => acc

end Vecmem
