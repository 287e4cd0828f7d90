import Verif.Model.Contiguous

/-!
# Models of the forwarding memory resources

identity, terminal, conditional, choice, coalescing, debug, instrumenting (+ memory_monitor).
An upstream resource is an `MR σ`; several upstreams are a family `ι → MR σ` on a common state.
-/

namespace Vecmem

/-! ## Association maps (`std::unordered_map` with pointer keys) -/

namespace PMap

variable {β : Type}

/-- `emplace(k, v)`: does nothing if the key is present.
No counterpart in /repo: `std::unordered_map`. -/
def emplace (m : List (Nat × β)) (k : Nat) (v : β) : List (Nat × β) :=
  if (m.lookup k).isSome then m else (k, v) :: m

/-- `extract(k)` / `erase(find(k))`.
No counterpart in /repo: `std::unordered_map`. -/
def erase (m : List (Nat × β)) (k : Nat) : List (Nat × β) := m.filter (fun e => e.1 != k)

end PMap

variable {σ ι : Type}

/-! ## identity -/

/-- `identity_memory_resource`, core/src/memory/identity_memory_resource.cpp:19-43. -/
def identityMR (up : MR σ) : MR σ where
  allocate s size align := if size = 0 then (.ok 0, s) else up.allocate s size align
  deallocate s ptr size align := if ptr = 0 then (.ok (), s) else up.deallocate s ptr size align

/-! ## terminal -/

/-- `terminal_memory_resource`, core/src/memory/terminal_memory_resource.cpp:23-37.  Not a PIMPL class:
zero-byte requests throw, too. -/
def terminalMR : MR σ where
  allocate s _ _ := (.badAlloc, s)
  deallocate s _ _ _ := (.ok (), s)

/-! ## conditional -/

/-- `conditional_memory_resource`, details/conditional_memory_resource_impl.cpp:19-50 behind the PIMPL
macro.  The predicate is a `std::function`, so it may carry state `π`. -/
def conditionalMR {π : Type} (pred : π → Nat → Nat → Bool × π) (up : MR σ) : MR (π × σ) :=
  pimpl
    { allocate := fun s size align =>
        if size = 0 then (.ok 0, s)
        else
          let d := pred s.1 size align
          if d.1 then
            let r := up.allocate s.2 size align
            (r.1, (d.2, r.2))
          else (.badAlloc, (d.2, s.2))
      deallocate := fun s ptr size align =>
        if ptr = 0 then (.ok (), s)
        else
          let r := up.deallocate s.2 ptr size align
          (r.1, (s.1, r.2)) }

/-! ## choice -/

/-- State of a choice resource: the state of the decision function, `m_allocations`
(choice_memory_resource_impl.hpp:34-36) and the upstream world. -/
structure Choice (π ι σ : Type) where
  dec : π
  allocations : List (Nat × ι)
  up : σ

/-- `allocate`, details/choice_memory_resource_impl.cpp:21-40. -/
def Choice.allocate {π : Type} (decision : π → Nat → Nat → ι × π) (ups : ι → MR σ)
    (s : Choice π ι σ) (size align : Nat) : Res Nat × Choice π ι σ :=
  if size = 0 then (.ok 0, s)
  else
    let d := decision s.dec size align
    let r := (ups d.1).allocate s.up size align
    match r.1 with
    | .ok ptr =>
      (.ok ptr, { dec := d.2, allocations := PMap.emplace s.allocations ptr d.1, up := r.2 })
    | e => (e, { s with dec := d.2, up := r.2 })

/-- The tail shared by choice_memory_resource_impl.cpp:42-67 and
coalescing_memory_resource_impl.cpp:56-81: extract the record (asserting that there is one) and
forward the deallocation to the recorded resource. -/
def recordedDeallocate (ups : ι → MR σ) (allocations : List (Nat × ι)) (up : σ)
    (ptr size align : Nat) : Res Unit × List (Nat × ι) × σ :=
  if ptr = 0 then (.ok (), allocations, up)
  else match allocations.lookup ptr with
    | none => (.ub, allocations, up)  -- assert(nh) fails; without assertions: empty node handle
    | some i =>
      let r := (ups i).deallocate up ptr size align
      (r.1, PMap.erase allocations ptr, r.2)

/-- `choice_memory_resource`; `deallocate` is details/choice_memory_resource_impl.cpp:42-67. -/
def choiceMR {π : Type} (decision : π → Nat → Nat → ι × π) (ups : ι → MR σ) :
    MR (Choice π ι σ) :=
  pimpl
    { allocate := Choice.allocate decision ups
      deallocate := fun s ptr size align =>
        let r := recordedDeallocate ups s.allocations s.up ptr size align
        (r.1, { s with allocations := r.2.1, up := r.2.2 }) }

/-! ## coalescing -/

/-- State of a coalescing resource: `m_allocations` (coalescing_memory_resource_impl.hpp:38-40) and
the upstream world. -/
structure Coalescing (ι σ : Type) where
  allocations : List (Nat × ι)
  up : σ

/-- The loop of details/coalescing_memory_resource_impl.cpp:31-53 over the remaining upstreams: only
`bad_alloc` is caught. -/
def Coalescing.tryAll (ups : ι → MR σ) (size align : Nat) :
    List ι → Coalescing ι σ → Res Nat × Coalescing ι σ
  | [], s => (.badAlloc, s)
  | i :: is, s =>
    let r := (ups i).allocate s.up size align
    match r.1 with
    | .ok ptr => (.ok ptr, { allocations := PMap.emplace s.allocations ptr i, up := r.2 })
    | .badAlloc => Coalescing.tryAll ups size align is { s with up := r.2 }
    | e => (e, { s with up := r.2 })

/-- `coalescing_memory_resource`, details/coalescing_memory_resource_impl.cpp:21-81. -/
def coalescingMR (order : List ι) (ups : ι → MR σ) : MR (Coalescing ι σ) :=
  pimpl
    { allocate := fun s size align =>
        if size = 0 then (.ok 0, s) else Coalescing.tryAll ups size align order s
      deallocate := fun s ptr size align =>
        let r := recordedDeallocate ups s.allocations s.up ptr size align
        (r.1, { allocations := r.2.1, up := r.2.2 }) }

/-! ## debug -/

/-- State of a debug resource: `m_allocations` (debug_memory_resource_impl.hpp:40-41, pointer to size
and alignment) and upstream. -/
structure Debug (σ : Type) where
  allocations : List (Nat × (Nat × Nat))
  up : σ

/-- The overlap test of details/debug_memory_resource_impl.cpp:43-59:
`ptr < i_end && i_beg < end`. -/
def Debug.overlaps (ptr size : Nat) (e : Nat × (Nat × Nat)) : Bool :=
  decide (ptr < e.1 + e.2.1) && decide (e.1 < ptr + size)

/-- `allocate`, details/debug_memory_resource_impl.cpp:22-67.  Pointer sums are not wrapped. -/
def Debug.allocate (up : MR σ) (s : Debug σ) (size align : Nat) : Res Nat × Debug σ :=
  if size = 0 then (.ok 0, s)
  else
    let r := up.allocate s.up size align
    match r.1 with
    | .ok ptr =>
      if s.allocations.any (Debug.overlaps ptr size) then (.logicError, { s with up := r.2 })
      else (.ok ptr, { allocations := PMap.emplace s.allocations ptr (size, align), up := r.2 })
    | e => (e, { s with up := r.2 })

/-- `deallocate`, details/debug_memory_resource_impl.cpp:69-118. -/
def Debug.deallocate (up : MR σ) (s : Debug σ) (ptr size align : Nat) : Res Unit × Debug σ :=
  if ptr = 0 then (.ok (), s)
  else match s.allocations.lookup ptr with
    | none => (.logicError, s)
    | some alloc =>
      if alloc.1 ≠ size ∨ alloc.2 ≠ align then (.logicError, s)
      else
        let r := up.deallocate s.up ptr size align
        match r.1 with
        | .ok () => (.ok (), { allocations := PMap.erase s.allocations ptr, up := r.2 })
        | e => (e, { s with up := r.2 })

/-- `debug_memory_resource`.
Code: `core/src/memory/details/debug_memory_resource_impl.cpp`. -/
def debugMR (up : MR σ) : MR (Debug σ) :=
  pimpl { allocate := Debug.allocate up, deallocate := Debug.deallocate up }

/-! ## instrumenting -/

/-- `instrumenting_memory_resource::memory_event` (instrumenting_memory_resource.hpp:70-103) without
the time measurement `m_time`. -/
structure MemEvent where
  isAlloc : Bool
  size : Nat
  align : Nat
  ptr : Nat
deriving DecidableEq, Repr

/-- State of an instrumenting resource (instrumenting_memory_resource_impl.hpp:89-113).  Hooks are
arbitrary functions on the world `ω`, which also contains the state of upstream. -/
structure Instr (ω : Type) where
  events : List MemEvent
  preAlloc : List (ω → Nat → Nat → ω)
  postAlloc : List (ω → Nat → Nat → Nat → ω)
  preDealloc : List (ω → Nat → Nat → Nat → ω)
  world : ω

namespace Instr

variable {ω : Type}

/-- `add_pre_allocate_hook`, details/instrumenting_memory_resource_impl.cpp:27-31. -/
def addPreAlloc (s : Instr ω) (f : ω → Nat → Nat → ω) : Instr ω :=
  { s with preAlloc := s.preAlloc ++ [f] }

/-- `add_post_allocate_hook`, details/instrumenting_memory_resource_impl.cpp:33-37. -/
def addPostAlloc (s : Instr ω) (f : ω → Nat → Nat → Nat → ω) : Instr ω :=
  { s with postAlloc := s.postAlloc ++ [f] }

/-- `add_pre_deallocate_hook`, details/instrumenting_memory_resource_impl.cpp:39-43. -/
def addPreDealloc (s : Instr ω) (f : ω → Nat → Nat → Nat → ω) : Instr ω :=
  { s with preDealloc := s.preDealloc ++ [f] }

/-- Lines 91-116 of `allocate`: record the event, run the post-hooks, and throw if the pointer is
null.
Code: `core/src/memory/details/instrumenting_memory_resource_impl.cpp`. -/
def finish (s : Instr ω) (w : ω) (size align ptr : Nat) : Res Nat × Instr ω :=
  let s' := { s with
    events := s.events ++ [⟨true, size, align, ptr⟩]
    world := s.postAlloc.foldl (fun w f => f w size align ptr) w }
  if ptr = 0 then (.badAlloc, s') else (.ok ptr, s')

/-- `allocate`, details/instrumenting_memory_resource_impl.cpp:45-117.  An exception other than
`bad_alloc` leaves the function at line 76. -/
def allocate (up : MR ω) (s : Instr ω) (size align : Nat) : Res Nat × Instr ω :=
  if size = 0 then (.ok 0, s)
  else
    let w := s.preAlloc.foldl (fun w f => f w size align) s.world
    let r := up.allocate w size align
    match r.1 with
    | .ok ptr => s.finish r.2 size align ptr
    | .badAlloc => s.finish r.2 size align 0
    | e => (e, { s with world := r.2 })

/-- `deallocate`, details/instrumenting_memory_resource_impl.cpp:119-161. -/
def deallocate (up : MR ω) (s : Instr ω) (ptr size align : Nat) : Res Unit × Instr ω :=
  if ptr = 0 then (.ok (), s)
  else
    let w := s.preDealloc.foldl (fun w f => f w ptr size align) s.world
    let r := up.deallocate w ptr size align
    match r.1 with
    | .ok () => (.ok (), { s with events := s.events ++ [⟨false, size, align, ptr⟩], world := r.2 })
    | e => (e, { s with world := r.2 })

end Instr

/-- `instrumenting_memory_resource`.
Code: `core/src/memory/details/instrumenting_memory_resource_impl.cpp`. -/
def instrumentingMR {ω : Type} (up : MR ω) : MR (Instr ω) :=
  pimpl { allocate := Instr.allocate up, deallocate := Instr.deallocate up }

end Vecmem
