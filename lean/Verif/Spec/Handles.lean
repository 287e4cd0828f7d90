import Verif.Model.Handles

/-!
# Specification: programs that move memory resources

Correct programs with objects that own memory resources and can be moved.  An object may be moved, assigned to or
destroyed when no other resource is built over it.  The blocks obtained from an object belong, after it has been moved,
to the object that it has been moved to.
-/

namespace Vecmem

section

variable {β σ : Type}

/-- What a reference to a base resource or to an object leads to: a base resource or an implementation. -/
def target (o : Handles) : β ⊕ Nat → Option (β ⊕ Nat)
  | .inl b => some (.inl b)
  | .inr h =>
    match o h with
    | .holds k => some (.inr k)
    | _ => none

/-- The implementations with the upstreams that they had when they were made. -/
abbrev linked (d : Nat → HDecl β) (link : (k : Nat) → (d k).kind.ι → β ⊕ Fin k) : (k : Nat) → Decl β k :=
  fun k => ⟨(d k).kind, link k⟩

/-- Some resource is built over object `h`. -/
def InUse {d : Nat → HDecl β} (s : HState σ d) (h : Nat) : Prop :=
  ∃ k i, (s.w.loc k).isSome = true ∧ (d k).up i = .inr h

/-- The blocks after object `from_` has been moved to `h`. -/
def moveBlocks (h from_ : Nat) (T : List ((β ⊕ Nat) × Blk)) : List ((β ⊕ Nat) × Blk) :=
  T.map fun e =>
    match e.1 with
    | .inr h' => if h' = from_ then (.inr h, e.2) else e
    | .inl _ => e

variable (bases : β → MR σ) (d : Nat → HDecl β) (link : (k : Nat) → (d k).kind.ι → β ⊕ Fin k)

/-- `MoveReach … s T`: some run of a correct program leads from the base state `s0` to `s`, with the blocks `T` live,
each with the object or base resource that it belongs to.  Implementations are numbered in the order in which they are
made; `link` tells which ones were the upstreams of each when it was made, `N` bounds their number, and `P k` are
the limits for the requests to implementation `k`. -/
inductive MoveReach (P : β ⊕ Nat → Port) (N : Nat) (s0 : σ) : HState σ d → List ((β ⊕ Nat) × Blk) → Prop
  | init : MoveReach P N s0 ⟨⟨s0, fun _ => none⟩, fun _ => .noObject⟩ []
  | construct {s s' T r} (h k : Nat) : MoveReach P N s0 s T → s.o h = .noObject → s.w.loc k = none → k < N →
      (∀ i, target s.o ((d k).up i) = some ((linked d link k).ref i)) → s.construct bases d N h k = (r, s') →
      MoveReach P N s0 s' T
  | moveConstruct {s s' T r} (h from_ : Nat) : MoveReach P N s0 s T → s.o h = .noObject → s.o from_ ≠ .noObject →
      ¬ InUse s from_ → s.moveConstruct d h from_ = (r, s') → MoveReach P N s0 s' (moveBlocks h from_ T)
  | moveAssign {s s' T r} (h from_ : Nat) : MoveReach P N s0 s T → s.o h ≠ .noObject → s.o from_ ≠ .noObject → h ≠ from_ →
      ¬ InUse s h → ¬ InUse s from_ → (∀ b, (.inr h, b) ∉ T) → s.moveAssign bases d N h from_ = (r, s') →
      MoveReach P N s0 s' (moveBlocks h from_ T)
  | selfAssign {s s' T r} (h : Nat) : MoveReach P N s0 s T → s.o h ≠ .noObject →
      s.moveAssign bases d N h h = (r, s') → MoveReach P N s0 s' T
  | destruct {s s' T r} (h : Nat) : MoveReach P N s0 s T → s.o h ≠ .noObject → ¬ InUse s h → (∀ b, (.inr h, b) ∉ T) →
      s.destruct bases d N h = (r, s') → MoveReach P N s0 s' T
  | alloc {s s' T n a p y} (x : β ⊕ Nat) : MoveReach P N s0 s T → target s.o x = some y → IsReq (P y).R n a → 0 < n →
      s.allocate bases d N x n a = (.ok p, s') → MoveReach P N s0 s' ((x, ⟨p, n, a⟩) :: T)
  | refuse {s s' T n a y} (x : β ⊕ Nat) : MoveReach P N s0 s T → target s.o x = some y → IsReq (P y).R n a → 0 < n →
      s.allocate bases d N x n a = (.badAlloc, s') → MoveReach P N s0 s' T
  | zero {s s' T a r y} (x : β ⊕ Nat) : MoveReach P N s0 s T → target s.o x = some y → IsReq (P y).R 0 a →
      s.allocate bases d N x 0 a = (r, s') → MoveReach P N s0 s' T
  | free {s s' T b} {x : β ⊕ Nat} : MoveReach P N s0 s ((x, b) :: T) →
      s.deallocate bases d N x b.addr b.size b.align = (.ok (), s') → MoveReach P N s0 s' T
  | freeNull {s s' T n a r y} (x : β ⊕ Nat) : MoveReach P N s0 s T → target s.o x = some y →
      s.deallocate bases d N x 0 n a = (r, s') → MoveReach P N s0 s' T
  | perm {s T T'} : MoveReach P N s0 s T → T.Perm T' → MoveReach P N s0 s T'

end

end Vecmem
