/-!
# Specification: memory blocks and well-behaved memory resources

Independent of the model.  A memory resource is a state machine with two calls; `Reach` enumerates
every history of *correct* client calls together with the multiset of live blocks, and `Lawful`
says what a user may rely on in each of these states.
-/

namespace Vecmem

/-- Outcome of a call: a normal result, a C++ exception, or `ub` — undefined behaviour or a failing
`assert`. -/
inductive Res (α : Type) where
  | ok (a : α)
  | badAlloc
  | logicError
  | lengthError
  | invalidArgument
  | outOfRange
  | runtimeError
  | ub
deriving DecidableEq, Repr

/-- Apply a function to a normal result; exceptions and `ub` are passed on. -/
def Res.map {α β : Type} (f : α → β) : Res α → Res β
  | .ok a => .ok (f a)
  | .badAlloc => .badAlloc
  | .logicError => .logicError
  | .lengthError => .lengthError
  | .invalidArgument => .invalidArgument
  | .outOfRange => .outOfRange
  | .runtimeError => .runtimeError
  | .ub => .ub

/-- A block handed out to a client: address, requested size and requested alignment. -/
structure Blk where
  addr : Nat
  size : Nat
  align : Nat
deriving DecidableEq, Repr

/-- Two blocks share no byte. -/
def Blk.Disjoint (a b : Blk) : Prop :=
  a.addr + a.size ≤ b.addr ∨ b.addr + b.size ≤ a.addr

instance (a b : Blk) : Decidable (a.Disjoint b) := by unfold Blk.Disjoint; infer_instance

/-- Block `a` lies completely inside block `b`. -/
def Blk.Inside (a b : Blk) : Prop :=
  b.addr ≤ a.addr ∧ a.addr + a.size ≤ b.addr + b.size

instance (a b : Blk) : Decidable (a.Inside b) := by unfold Blk.Inside; infer_instance

/-- The interface of `vecmem::memory_resource` (a `std::pmr::memory_resource`): `allocate state size
alignment` and `deallocate state pointer size alignment`, each giving an outcome and a new state.
The null pointer is address `0`. -/
structure MR (σ : Type) where
  allocate : σ → Nat → Nat → Res Nat × σ
  deallocate : σ → Nat → Nat → Nat → Res Unit × σ

/-- Which requests are considered: alignments up to `align`, sizes up to `size` (by default all 64-bit
sizes).  A number stands for that bound on the alignment, and all sizes. -/
structure Limits where
  align : Nat
  size : Nat := 2 ^ 64 - 1
deriving DecidableEq, Repr

instance (n : Nat) : OfNat Limits n := ⟨{ align := n }⟩

instance : Coe Nat Limits := ⟨fun n => { align := n }⟩

/-- A legal request within the limits `R`: the size is a `std::size_t`, the alignment a power of two. -/
def IsReq (R : Limits) (n a : Nat) : Prop :=
  (n ≤ R.size ∧ n < 2 ^ 64) ∧ a ≤ R.align ∧ ∃ k, a = 2 ^ k

/-- `Reach R m s0 s L`: some history of correct client calls (requests within the limits `R`;
only live blocks are freed, with the size and alignment they were requested with) leads from `s0` to
state `s`, with the blocks `L` live.  `L` is a multiset: it may be permuted freely (so `free` may free
any live block). -/
inductive Reach {σ : Type} (R : Limits) (m : MR σ) (s0 : σ) : σ → List Blk → Prop
  | init : Reach R m s0 s0 []
  | alloc {s s' L n a p} : Reach R m s0 s L → IsReq R n a → 0 < n →
      m.allocate s n a = (.ok p, s') → Reach R m s0 s' (⟨p, n, a⟩ :: L)
  | refuse {s s' L n a} : Reach R m s0 s L → IsReq R n a → 0 < n →
      m.allocate s n a = (.badAlloc, s') → Reach R m s0 s' L
  | zero {s s' L a r} : Reach R m s0 s L → IsReq R 0 a →
      m.allocate s 0 a = (r, s') → Reach R m s0 s' L
  | free {s s' L b} : Reach R m s0 s (b :: L) →
      m.deallocate s b.addr b.size b.align = (.ok (), s') → Reach R m s0 s' L
  | freeNull {s s' L n a r} : Reach R m s0 s L →
      m.deallocate s 0 n a = (r, s') → Reach R m s0 s' L
  | perm {s L L'} : Reach R m s0 s L → L.Perm L' → Reach R m s0 s L'

/-- What a client may rely on when a request of `n` bytes with alignment `a` is answered by `r` while
the blocks `L` are live: either it is refused with `bad_alloc`, or the block is non-null, inside the
64-bit address space, aligned (for alignments up to `G`) and disjoint from every live block. -/
def GoodAnswer (G : Nat) (L : List Blk) (n a : Nat) : Res Nat → Prop
  | .ok p => p ≠ 0 ∧ p + n ≤ 2 ^ 64 ∧ (a ≤ G → a ∣ p) ∧ ∀ b ∈ L, Blk.Disjoint ⟨p, n, a⟩ b
  | .badAlloc => True
  | _ => False

/-- A resource in initial state `s0` is well-behaved for requests within the limits `R`,
guaranteeing alignments up to `G`: in every state reachable by correct calls, every request is
answered well (`GoodAnswer`), zero-byte requests yield null (or are refused), freeing a live block and freeing null
succeed.  In particular no correct history ever runs into undefined behaviour. -/
structure Lawful {σ : Type} (R : Limits) (G : Nat) (m : MR σ) (s0 : σ) : Prop where
  alloc : ∀ {s L n a}, Reach R m s0 s L → IsReq R n a → 0 < n →
    GoodAnswer G L n a (m.allocate s n a).1
  zero : ∀ {s L a}, Reach R m s0 s L → IsReq R 0 a →
    (m.allocate s 0 a).1 = .ok 0 ∨ (m.allocate s 0 a).1 = .badAlloc
  dealloc : ∀ {s L b}, Reach R m s0 s L → b ∈ L →
    (m.deallocate s b.addr b.size b.align).1 = .ok ()
  null : ∀ {s L n a}, Reach R m s0 s L → (m.deallocate s 0 n a).1 = .ok ()

/-- A client call, correct or not. -/
inductive Call where
  | alloc (n a : Nat)
  | free (p n a : Nat)
deriving DecidableEq, Repr

/-- What a call answered. -/
inductive Answer where
  | alloc (r : Res Nat)
  | free (r : Res Unit)
deriving DecidableEq, Repr

/-- Run one call. -/
def MR.call {σ : Type} (m : MR σ) (s : σ) : Call → Answer × σ
  | .alloc n a => let r := m.allocate s n a; (.alloc r.1, r.2)
  | .free p n a => let r := m.deallocate s p n a; (.free r.1, r.2)

/-- Run a list of calls, collecting the answers. -/
def MR.run {σ : Type} (m : MR σ) (s : σ) : List Call → List Answer × σ
  | [] => ([], s)
  | c :: cs => let r := m.call s c; let rs := m.run r.2 cs; (r.1 :: rs.1, rs.2)

/-- The blocks served (successful non-zero allocations) by a list of calls with these answers, in
order, whether freed later or not. -/
def servedBlocks : List Call → List Answer → List Blk
  | .alloc n a :: cs, .alloc (.ok p) :: as =>
      if n = 0 then servedBlocks cs as else ⟨p, n, a⟩ :: servedBlocks cs as
  | _ :: cs, _ :: as => servedBlocks cs as
  | _, _ => []

/-- `alignof(std::max_align_t)` on the 64-bit platforms vecmem targets: the default alignment of
`memory_resource::allocate`. -/
def maxAlign : Nat := 16

end Vecmem
