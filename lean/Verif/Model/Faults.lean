import Verif.Model.Pool
import Verif.Model.BinaryPage
import Verif.Model.Arena
import Verif.Model.Wrappers

/-!
# Memory resources that run out of memory for their own bookkeeping

The resources keep records in `std::vector`, `std::unordered_map` and `std::set`, which allocate from the global
heap.  Elsewhere in the model that never fails.  Here every operation that may allocate such memory may fail with
`bad_alloc`; the standard containers then are as before.  The argument `f` says for each of these operations,
in the order in which a call makes them, whether it fails (`true`); those after the end of the list succeed.
With the empty list the functions are those of the other modules.
-/

namespace Vecmem

open IntMath

/-- Which of the operations of a call that need memory for bookkeeping fail.
No counterpart in /repo: the behaviour of the global heap. -/
abbrev Faults := List Bool

/-- Does the next operation fail?
No counterpart in /repo: the behaviour of the global heap. -/
def Faults.now (f : Faults) : Bool := f.headD false

/-- Out of `n` operations that stop at the first one that fails: how many succeed, and whether all do.
No counterpart in /repo: the behaviour of the global heap. -/
def Faults.run : Faults → Nat → Nat × Bool
  | _, 0 => (0, true)
  | [], n => (n, true)
  | true :: _, _ + 1 => (0, false)
  | false :: f, n + 1 => let r := Faults.run f n; (r.1 + 1, r.2)

variable {σ ι : Type}

/-! ## Pool -/

namespace Pool

/-- A new oversized block, pool_memory_resource_impl.cpp:162-166: `m_oversized.push_back` (165) may fail; the block
has been obtained by then. -/
def allocateFreshF (f : Faults) (up : MR σ) (s : Pool × σ) (bytes alignment : Nat) : Res Nat × (Pool × σ) :=
  match up.allocate s.2 bytes alignment with
  | (.ok p, u) =>
    if f.now then (.badAlloc, (s.1, u))
    else (.ok p, ({ s.1 with oversized := s.1.oversized ++ [⟨bytes, alignment, p⟩] }, u))
  | (r, u) => (r, (s.1, u))

/-- The oversized branch of `allocate`, pool_memory_resource_impl.cpp:105-167.  Taking a block out of the cache needs
no memory. -/
def allocateOversizedF (f : Faults) (o : PoolOpts) (up : MR σ) (s : Pool × σ) (bytes alignment : Nat) :
    Res Nat × (Pool × σ) :=
  if o.cacheOversized && !s.1.cached.isEmpty then
    match findCached o s.1.cached bytes alignment with
    | .ok it =>
      match s.1.cached[it]? with
      | some d => (.ok d.ptr, ({ s.1 with cached := s.1.cached.eraseIdx it }, s.2))
      | none => allocateFreshF f up s bytes alignment
    | _ => (.ub, s)
  else allocateFreshF f up s bytes alignment

/-- Adding a chunk to the empty bucket `b`, pool_memory_resource_impl.cpp:179-215: `m_allocated.push_back` (209) may fail, and any of
the `n` calls of `free_blocks.push_back` (213). -/
def addChunkF (f : Faults) (dbg : Bool) (o : PoolOpts) (up : MR σ) (s : Pool × σ) (log idx : Nat) (b : Bucket) :
    Res Unit × (Pool × σ) :=
  let bucketSize := wrap64 (1 <<< log)
  let n := chunkBlocks o log b.prev
  let bytes := wrap64 (n <<< log)
  -- lines 200-203
  if dbg && !(n ≥ o.minBlocks && n ≤ o.maxBlocks && bytes ≥ o.minBytes && bytes ≤ o.maxBytes) then
    (.ub, s)
  else match up.allocate s.2 bytes o.alignment with
    | (.ok p, u) =>
      if f.now then (.badAlloc, (s.1, u))
      else
        let r := Faults.run f.tail n
        (if r.2 then .ok () else .badAlloc, ({ s.1 with
          allocated := s.1.allocated ++ [(bytes, p)],
          buckets := s.1.buckets.set idx
            { free := b.free ++ (List.range r.1).map (fun i => p + i * bucketSize), prev := n } }, u))
    | (r, u) => (r.map fun _ => (), (s.1, u))

/-- The pooled branch of `allocate`, pool_memory_resource_impl.cpp:169-222. -/
def allocatePooledF (f : Faults) (dbg : Bool) (o : PoolOpts) (up : MR σ) (s : Pool × σ) (bytes : Nat) :
    Res Nat × (Pool × σ) :=
  match log2Ri bytes with
  | none => (.ub, s)
  | some log =>
    let idx := wrap64 (log + 2 ^ 64 - s.1.smallestLog2)
    match s.1.buckets[idx]? with
    | none => (.ub, s)
    | some b =>
      if b.free.isEmpty then
        match addChunkF f dbg o up s log idx b with
        | (.ok (), s') => takeBlock s' idx
        | (r, s') => (r.map fun _ => 0, s')
      else takeBlock s idx

/-- `allocate`, pool_memory_resource_impl.cpp:96-223. -/
def allocateF (f : Faults) (dbg : Bool) (o : PoolOpts) (up : MR σ) (s : Pool × σ) (bytes alignment : Nat) :
    Res Nat × (Pool × σ) :=
  let bytes := max bytes o.smallest
  if dbg && !isPowerOf2 alignment then (.ub, s)
  else if bytes > o.largest || alignment > o.alignment then
    allocateOversizedF f o up s bytes alignment
  else allocatePooledF f dbg o up s bytes

/-- `deallocate`, pool_memory_resource_impl.cpp:225-267: `m_cached_oversized.insert` (251) and
`free_blocks.push_back` (266) may fail. -/
def deallocateF (f : Faults) (dbg : Bool) (o : PoolOpts) (up : MR σ) (s : Pool × σ) (ptr bytes alignment : Nat) :
    Res Unit × (Pool × σ) :=
  let bytes := max bytes o.smallest
  if dbg && !(isPowerOf2 alignment && isAligned ptr alignment) then (.ub, s)
  else if bytes > o.largest || alignment > o.alignment then
    let it := s.1.oversized.findIdx (fun d => d.ptr == ptr)
    match s.1.oversized[it]? with
    | none => (.ub, s)
    | some d =>
      if o.cacheOversized then
        if f.now then (.badAlloc, s)
        else (.ok (), ({ s.1 with cached := s.1.cached.insertIdx (lowerBound s.1.cached d) d }, s.2))
      else
        let r := up.deallocate s.2 ptr d.size d.alignment
        (r.1, ({ s.1 with oversized := s.1.oversized.eraseIdx it }, r.2))
  else
    match log2Ri bytes with
    | none => (.ub, s)
    | some log =>
      let idx := wrap64 (log + 2 ^ 64 - s.1.smallestLog2)
      match s.1.buckets[idx]? with
      | none => (.ub, s)
      | some b =>
        if f.now then (.badAlloc, s)
        else
          (.ok (), ({ s.1 with buckets := s.1.buckets.set idx { b with free := b.free ++ [ptr] } }, s.2))

/-- `pool_memory_resource`, pool_memory_resource.cpp:17-24. -/
def mrF (f : Faults) (dbg : Bool) (o : PoolOpts) (up : MR σ) : MR (Pool × σ) :=
  pimpl { allocate := allocateF f dbg o up, deallocate := deallocateF f dbg o up }

end Pool

/-! ## Binary pages -/

namespace BinPage

/-- `allocate_upstream`, binary_page_memory_resource_impl.cpp:245-256.  The storage of `m_superpages` and the array of page states
(line 264) are obtained first, so upstream is not called if one of them fails. -/
def allocateUpstreamF (f : Faults) (up : MR σ) (s : List Superpage × σ) (size : Nat) :
    Res Unit × (List Superpage × σ) :=
  if f.now || Faults.now f.tail then (.badAlloc, s) else allocateUpstream up s size

/-- binary_page_memory_resource_impl.cpp:54-98: what follows if there is no candidate. -/
def allocateFreshF (f : Faults) (up : MR σ) (s : List Superpage × σ) (goal : Nat) :
    Res Nat × (List Superpage × σ) :=
  let r := allocateUpstreamF f up s goal
  match r.1 with
  | .ok () =>
    match findFreePage r.2.1 goal with
    | none => (.ub, r.2)
    | some none => (.badAlloc, r.2)
    | some (some c) => take r.2 goal c
  | e => (e.map fun _ => 0, r.2)

/-- `allocate`, binary_page_memory_resource_impl.cpp:28-99. -/
def allocateF (f : Faults) (dbg : Bool) (up : MR σ) (s : List Superpage × σ) (size : Nat) :
    Res Nat × (List Superpage × σ) :=
  match roundUp? dbg size with
  | none => (.ub, s)
  | some r =>
    let goal := max minPageSize r
    match findFreePage s.1 goal with
    | none => (.ub, s)
    | some (some c) => take s goal c
    | some none => allocateFreshF f up s goal

/-- `binary_page_memory_resource`, binary_page_memory_resource.cpp:17-22; `deallocate` needs no memory. -/
def mrF (f : Faults) (dbg : Bool) (up : MR σ) : MR (List Superpage × σ) :=
  pimpl { allocate := fun s size _ => allocateF f dbg up s size
          deallocate := fun s p size _ => deallocate dbg s p size }

end BinPage

/-! ## Arena -/

namespace Arena

/-- `first_fit`, arena_memory_resource_impl.cpp:143-167: inserting the remainder (160) may fail, and the block has been
taken out by then.  The block, if there was no failure, and the free blocks afterwards. -/
def firstFitF (f : Faults) (free : List ABlock) (size : Nat) : Res ABlock × List ABlock × Faults :=
  match free.find? (fun b => size ≤ b.size) with
  | none => (.ok {}, free, f)
  | some b =>
    if b.size > size then
      if f.now then (.badAlloc, free.erase b, f.tail)
      else (.ok ⟨b.ptr, size⟩, setInsert (free.erase b) ⟨b.ptr + size, b.size - size⟩, f.tail)
    else (.ok b, free.erase b, f)

/-- The free blocks that `coalesce_block`, arena_memory_resource_impl.cpp:187-210, leaves when it fails to insert: neighbours to be
merged have been erased.  `none` as in `coalesceAt`. -/
def coalesceLeft (before after : List ABlock) (pb b : ABlock) : Option (List ABlock) :=
  let mergePrev := pb.ptr + pb.size == b.ptr
  match mergePrev, after with
  | true, nb :: rest =>
    if b.ptr + b.size == nb.ptr then
      if before.isEmpty then none
      else some (before.dropLast ++ rest)
    else if before.isEmpty then some rest
    else some (before.dropLast ++ nb :: rest)
  | true, [] => some before.dropLast
  | false, nb :: rest =>
    if b.ptr + b.size == nb.ptr then some (before ++ rest)
    else some (before ++ nb :: rest)
  | false, [] => some before

/-- `coalesce_block`, arena_memory_resource_impl.cpp:169-213, with one insertion (193, 199, 205 or 208).  The outcome and the free
blocks; `ub` as in `coalesce`. -/
def coalesceF (f : Faults) (free : List ABlock) (b : ABlock) : Res Unit × List ABlock × Faults :=
  if b.ptr = 0 then (.ok (), free, f)
  else
    let before := free.takeWhile (fun c => c.ptr < b.ptr)
    let after := free.dropWhile (fun c => c.ptr < b.ptr)
    match before.getLast?.or after.head? with
    | none => (.ub, free, f)
    | some pb =>
      match if f.now then coalesceLeft before after pb b else coalesceAt before after pb b with
      | none => (.ub, free, f)
      | some free' => (if f.now then .badAlloc else .ok (), free', f.tail)

/-- `expand_arena`, arena_memory_resource_impl.cpp:230-243: inserting the new superblock (238-239) may fail. -/
def expandF (f : Faults) (up : MR σ) (s : Arena × σ) (size : Nat) : Res ABlock × (Arena × σ) :=
  let size := expandSize s.1.superSize size
  let r := up.allocate s.2 size maxAlign
  match r.1 with
  | .ok p =>
    if f.now then (.badAlloc, (s.1, r.2))
    else
      let b := (s.1.free.find? (fun c => c.ptr == p)).getD ⟨p, size⟩
      (.ok b, ({ s.1 with free := setInsert s.1.free ⟨p, size⟩,
                          current := wrap64 (s.1.current + size) }, r.2))
  | e => (e.map fun _ => {}, (s.1, r.2))

/-- Constructor, arena_memory_resource_impl.cpp:83-102: inserting the superblock into the set it is in already (101) may fail
too.  The destructor does not run when the constructor throws. -/
def createF (f : Faults) (up : MR σ) (u : σ) (initial maximum : Nat) : Res Arena × σ :=
  let a : Arena := { superSize := initial, maxSize := maximum }
  let initial' := if initial = 2 ^ 64 - 1 then alignUp (initial / 2) else initial
  let a := if maximum = 2 ^ 64 - 1 then { a with maxSize := 2 ^ 64 - 1 - 2 ^ 26 } else a
  let r := expandF f up (a, u) initial'
  match r.1 with
  | .ok b => (if Faults.now f.tail then .badAlloc else .ok { r.2.1 with free := setInsert r.2.1.free b }, r.2.2)
  | e => (e.map fun _ => a, r.2.2)

/-- arena_memory_resource_impl.cpp:225-227: expand, coalesce, and search again. -/
def expandAndFitF (f : Faults) (up : MR σ) (s : Arena × σ) (size : Nat) : Res ABlock × (Arena × σ) × Faults :=
  let r := expandF f up s size
  match r.1 with
  | .ok b =>
    match coalesceF f.tail r.2.1.free b with
    | (.ok (), free, f) =>
      let x := firstFitF f free size
      (x.1, ({ r.2.1 with free := x.2.1 }, r.2.2), x.2.2)
    | (e, free, f) => (e.map fun _ => {}, ({ r.2.1 with free := free }, r.2.2), f)
  | e => (e, r.2, f.tail)

/-- `get_block`, arena_memory_resource_impl.cpp:215-228. -/
def getBlockF (f : Faults) (up : MR σ) (s : Arena × σ) (size : Nat) : Res ABlock × (Arena × σ) × Faults :=
  if size < minSuper then
    let x := firstFitF f s.1.free size
    match x.1 with
    | .ok b =>
      if b.ptr ≠ 0 then (.ok b, ({ s.1 with free := x.2.1 }, s.2), x.2.2)
      else expandAndFitF x.2.2 up ({ s.1 with free := x.2.1 }, s.2) size
    | e => (e, ({ s.1 with free := x.2.1 }, s.2), x.2.2)
  else expandAndFitF f up s size

/-- `allocate`, arena_memory_resource_impl.cpp:120-128: recording the block (125) may fail. -/
def allocateF (f : Faults) (up : MR σ) (s : Arena × σ) (bytes : Nat) : Res Nat × (Arena × σ) :=
  let r := getBlockF f up s (alignUp bytes)
  match r.1 with
  | .ok b =>
    if r.2.2.now then (.badAlloc, r.2.1)
    else (.ok b.ptr, ({ r.2.1.1 with allocated := setInsert r.2.1.1.allocated b }, r.2.1.2))
  | e => (e.map fun _ => 0, r.2.1)

/-- `deallocate`, arena_memory_resource_impl.cpp:130-141, with `free_block` (245-261). -/
def deallocateF (f : Faults) (a : Arena) (p : Nat) : Res Unit × Arena :=
  match a.allocated.find? (fun b => b.ptr == p) with
  | none => (.ok (), a)
  | some b =>
    let a := { a with allocated := a.allocated.erase b }
    if b.ptr = 0 then (.ok (), a)
    else
      let r := coalesceF f a.free b
      (r.1, { a with free := r.2.1 })

/-- `arena_memory_resource`, arena_memory_resource.cpp:17-25. -/
def mrF (f : Faults) (up : MR σ) : MR (Arena × σ) :=
  pimpl { allocate := fun s size _ => allocateF f up s size
          deallocate := fun s p _ _ => let r := deallocateF f s.1 p; (r.1, (r.2, s.2)) }

end Arena

/-! ## Resources that record the blocks they hand out -/

/-- `allocate`, details/choice_memory_resource_impl.cpp:21-40: `m_allocations.emplace` (37) may fail. -/
def Choice.allocateF {π : Type} (f : Faults) (decision : π → Nat → Nat → ι × π) (ups : ι → MR σ)
    (s : Choice π ι σ) (size align : Nat) : Res Nat × Choice π ι σ :=
  if size = 0 then (.ok 0, s)
  else
    let d := decision s.dec size align
    let r := (ups d.1).allocate s.up size align
    match r.1 with
    | .ok ptr =>
      if f.now then (.badAlloc, { s with dec := d.2, up := r.2 })
      else (.ok ptr, { dec := d.2, allocations := PMap.emplace s.allocations ptr d.1, up := r.2 })
    | e => (e, { s with dec := d.2, up := r.2 })

/-- `choice_memory_resource`; `deallocate`, details/choice_memory_resource_impl.cpp:42-67, needs no memory. -/
def choiceMRF {π : Type} (f : Faults) (decision : π → Nat → Nat → ι × π) (ups : ι → MR σ) :
    MR (Choice π ι σ) :=
  pimpl
    { allocate := Choice.allocateF f decision ups
      deallocate := fun s ptr size align =>
        let r := recordedDeallocate ups s.allocations s.up ptr size align
        (r.1, { s with allocations := r.2.1, up := r.2.2 }) }

/-- The loop of details/coalescing_memory_resource_impl.cpp:31-53: `m_allocations.emplace` (39) is inside the `try` block, so when
it fails the next upstream is tried. -/
def Coalescing.tryAllF (ups : ι → MR σ) (size align : Nat) :
    List ι → Faults → Coalescing ι σ → Res Nat × Coalescing ι σ
  | [], _, s => (.badAlloc, s)
  | i :: is, f, s =>
    let r := (ups i).allocate s.up size align
    match r.1 with
    | .ok ptr =>
      if f.now then Coalescing.tryAllF ups size align is f.tail { s with up := r.2 }
      else (.ok ptr, { allocations := PMap.emplace s.allocations ptr i, up := r.2 })
    | .badAlloc => Coalescing.tryAllF ups size align is f { s with up := r.2 }
    | e => (e, { s with up := r.2 })

/-- `coalescing_memory_resource`, details/coalescing_memory_resource_impl.cpp:21-81; `deallocate` needs no memory. -/
def coalescingMRF (f : Faults) (order : List ι) (ups : ι → MR σ) : MR (Coalescing ι σ) :=
  pimpl
    { allocate := fun s size align =>
        if size = 0 then (.ok 0, s) else Coalescing.tryAllF ups size align order f s
      deallocate := fun s ptr size align =>
        let r := recordedDeallocate ups s.allocations s.up ptr size align
        (r.1, { allocations := r.2.1, up := r.2.2 }) }

/-- `allocate`, details/debug_memory_resource_impl.cpp:22-67: `m_allocations.emplace` (64) may fail.  (So may the message of the
`logic_error`, which is not modelled.) -/
def Debug.allocateF (f : Faults) (up : MR σ) (s : Debug σ) (size align : Nat) : Res Nat × Debug σ :=
  if size = 0 then (.ok 0, s)
  else
    let r := up.allocate s.up size align
    match r.1 with
    | .ok ptr =>
      if s.allocations.any (Debug.overlaps ptr size) then (.logicError, { s with up := r.2 })
      else if f.now then (.badAlloc, { s with up := r.2 })
      else (.ok ptr, { allocations := PMap.emplace s.allocations ptr (size, align), up := r.2 })
    | e => (e, { s with up := r.2 })

/-- `debug_memory_resource`; `deallocate`, details/debug_memory_resource_impl.cpp:69-118, needs no memory unless it throws
`logic_error`. -/
def debugMRF (f : Faults) (up : MR σ) : MR (Debug σ) :=
  pimpl { allocate := Debug.allocateF f up, deallocate := Debug.deallocate up }

namespace Instr

variable {ω : Type}

/-- Lines 91-116 of `allocate`: `m_events.emplace_back` (95-97) may fail; the hooks are not run then.
Code: `core/src/memory/details/instrumenting_memory_resource_impl.cpp`. -/
def finishF (f : Faults) (s : Instr ω) (w : ω) (size align ptr : Nat) : Res Nat × Instr ω :=
  if f.now then (.badAlloc, { s with world := w }) else s.finish w size align ptr

/-- `allocate`, details/instrumenting_memory_resource_impl.cpp:45-117. -/
def allocateF (f : Faults) (up : MR ω) (s : Instr ω) (size align : Nat) : Res Nat × Instr ω :=
  if size = 0 then (.ok 0, s)
  else
    let w := s.preAlloc.foldl (fun w g => g w size align) s.world
    let r := up.allocate w size align
    match r.1 with
    | .ok ptr => s.finishF f r.2 size align ptr
    | .badAlloc => s.finishF f r.2 size align 0
    | e => (e, { s with world := r.2 })

/-- `deallocate`, details/instrumenting_memory_resource_impl.cpp:119-161: `m_events.emplace_back` (158-160) may fail, after the
block has been given back. -/
def deallocateF (f : Faults) (up : MR ω) (s : Instr ω) (ptr size align : Nat) : Res Unit × Instr ω :=
  if ptr = 0 then (.ok (), s)
  else
    let w := s.preDealloc.foldl (fun w g => g w ptr size align) s.world
    let r := up.deallocate w ptr size align
    match r.1 with
    | .ok () =>
      if f.now then (.badAlloc, { s with world := r.2 })
      else (.ok (), { s with events := s.events ++ [⟨false, size, align, ptr⟩], world := r.2 })
    | e => (e, { s with world := r.2 })

end Instr

/-- `instrumenting_memory_resource`.
Code: `core/src/memory/details/instrumenting_memory_resource_impl.cpp`. -/
def instrumentingMRF {ω : Type} (f : Faults) (up : MR ω) : MR (Instr ω) :=
  pimpl { allocate := Instr.allocateF f up, deallocate := Instr.deallocateF f up }

end Vecmem
