import Verif.Model.Contiguous

/-!
# Model of `pool_memory_resource`

`core/include/vecmem/memory/pool_memory_resource.hpp`,
`core/src/memory/details/pool_memory_resource_impl.{hpp,cpp}`,
`core/src/memory/pool_memory_resource.cpp`

`std::vector`s are lists, with the back of the vector at the end of the list; growing them never fails.
The argument `dbg` says whether assertions are compiled in: with them a failing `assert` is `ub`, without
them execution goes on.
-/

namespace Vecmem

open IntMath

/-- `pool_memory_resource::options`, pool_memory_resource.hpp:43-102. -/
structure PoolOpts where
  minBlocks : Nat := 16
  minBytes : Nat := 1024
  maxBlocks : Nat := 2 ^ 20
  maxBytes : Nat := 2 ^ 30
  smallest : Nat := maxAlign
  largest : Nat := 2 ^ 20
  alignment : Nat := maxAlign
  cacheOversized : Bool := true
  sizeCutoff : Nat := 16
  alignCutoff : Nat := 16
deriving DecidableEq, Repr

/-- `check_valid`, pool_memory_resource_impl.cpp:38-65: `true` if nothing is thrown.  The products are
wrapping `std::size_t` products. -/
def PoolOpts.checkValid (o : PoolOpts) : Bool :=
  isPowerOf2 o.smallest && isPowerOf2 o.largest && isPowerOf2 o.alignment &&
  !(o.maxBytes == 0 || o.maxBlocks == 0) && !(o.smallest == 0 || o.largest == 0) &&
  !(o.minBlocks > o.maxBlocks) && !(o.minBytes > o.maxBytes) && !(o.smallest > o.largest) &&
  !(wrap64 (o.minBlocks * o.smallest) > o.maxBytes) &&
  !(wrap64 (o.minBlocks * o.largest) > o.maxBytes) &&
  !(wrap64 (o.maxBlocks * o.largest) < o.minBytes) &&
  !(wrap64 (o.maxBlocks * o.smallest) < o.minBytes) &&
  !(o.alignment > o.smallest)

/-- `oversized_block_descriptor`, pool_memory_resource_impl.hpp:52-62. -/
structure OvDesc where
  size : Nat
  alignment : Nat
  ptr : Nat
deriving DecidableEq, Repr

/-- `oversized_block_descriptor::operator<`, pool_memory_resource_impl.cpp:269-273. -/
def OvDesc.lt (a b : OvDesc) : Bool :=
  a.size < b.size || (a.size == b.size && a.alignment < b.alignment)

/-- `pool`, pool_memory_resource_impl.hpp:65-69. -/
structure Bucket where
  free : List Nat := []
  prev : Nat := 0
deriving DecidableEq, Repr

/-- Data members of `pool_memory_resource_impl`, pool_memory_resource_impl.hpp:71-83, except for the
upstream and the options, which are parameters.  A chunk descriptor (hpp:44-49) is a pair of size and
pointer. -/
structure Pool where
  smallestLog2 : Nat
  buckets : List Bucket
  allocated : List (Nat × Nat)
  cached : List OvDesc
  oversized : List OvDesc
deriving DecidableEq, Repr

/-- The loop of `std::lower_bound` on `xs` for `v`, with `first` the current position and `count` the
remaining length; `fuel` bounds the number of iterations.
No counterpart in /repo: `std::lower_bound`. -/
def lowerBoundLoop (xs : List OvDesc) (v : OvDesc) : Nat → Nat → Nat → Nat
  | 0, first, _ => first
  | fuel + 1, first, count =>
    if count = 0 then first
    else
      let step := count / 2
      match xs[first + step]? with
      | some d =>
        if d.lt v then lowerBoundLoop xs v fuel (first + step + 1) (count - (step + 1))
        else lowerBoundLoop xs v fuel first step
      | none => first

/-- `std::lower_bound` ([lower.bound]), by bisection, as an index.
Code: called in `core/src/memory/details/pool_memory_resource_impl.cpp`. -/
def lowerBound (xs : List OvDesc) (v : OvDesc) : Nat := lowerBoundLoop xs v (xs.length + 1) 0 xs.length

namespace Pool

variable {σ : Type}

/-- Constructor, pool_memory_resource_impl.cpp:69-80; `log2_ri` of the smallest block size is evaluated
before the options are checked. -/
def create (o : PoolOpts) : Res Pool :=
  match log2Ri o.smallest with
  | none => .ub
  | some k =>
    if !o.checkValid then .invalidArgument
    else match log2Ri o.largest with
      | none => .ub
      | some l => .ok { smallestLog2 := k, buckets := List.replicate (l - k + 1) {},
                        allocated := [], cached := [], oversized := [] }

/-- The cutoff for the alignment, pool_memory_resource_impl.cpp:146-152.  `ub` for the division by a zero
alignment in line 147. -/
def cutAlign (o : PoolOpts) (cached : List OvDesc) (alignment it : Nat) : Res Nat :=
  match cached[it]? with
  | some d =>
    if alignment = 0 then .ub
    else if d.alignment / alignment ≥ o.alignCutoff then .ok cached.length
    else .ok it
  | none => .ok it

/-- The search in the cache, pool_memory_resource_impl.cpp:118-152, as an index (the length of the cache
stands for `end()`). -/
def findCached (o : PoolOpts) (cached : List OvDesc) (bytes alignment : Nat) : Res Nat :=
  -- lines 119-120
  let it := lowerBound cached ⟨bytes, alignment, 0⟩
  -- lines 125-130
  let it := match cached[it]? with
    | some d => if d.size / bytes ≥ o.sizeCutoff then cached.length else it
    | none => it
  -- lines 133-141
  let it := match cached[it]? with
    | some d =>
      if d.alignment < alignment then
        it + 1 + (cached.drop (it + 1)).findIdx (fun d => d.alignment ≥ alignment)
      else it
    | none => it
  cutAlign o cached alignment it

/-- A new oversized block, pool_memory_resource_impl.cpp:162-166. -/
def allocateFresh (up : MR σ) (s : Pool × σ) (bytes alignment : Nat) : Res Nat × (Pool × σ) :=
  match up.allocate s.2 bytes alignment with
  | (.ok p, u) => (.ok p, ({ s.1 with oversized := s.1.oversized ++ [⟨bytes, alignment, p⟩] }, u))
  | (r, u) => (r, (s.1, u))

/-- The oversized branch of `allocate`, pool_memory_resource_impl.cpp:105-167. -/
def allocateOversized (o : PoolOpts) (up : MR σ) (s : Pool × σ) (bytes alignment : Nat) :
    Res Nat × (Pool × σ) :=
  -- lines 115-160
  if o.cacheOversized && !s.1.cached.isEmpty then
    match findCached o s.1.cached bytes alignment with
    | .ok it =>
      match s.1.cached[it]? with
      | some d => (.ok d.ptr, ({ s.1 with cached := s.1.cached.eraseIdx it }, s.2))
      | none => allocateFresh up s bytes alignment
    | _ => (.ub, s)
  else allocateFresh up s bytes alignment

/-- The number of blocks of the next chunk of a bucket, pool_memory_resource_impl.cpp:182-196. -/
def chunkBlocks (o : PoolOpts) (log : Nat) (prev : Nat) : Nat :=
  if prev = 0 then
    if o.minBlocks < o.minBytes >>> log then o.minBytes >>> log else o.minBlocks
  else
    let n := wrap64 (prev * 3) / 2
    let n := if n > o.maxBytes >>> log then o.maxBytes >>> log else n
    if n > o.maxBlocks then o.maxBlocks else n

/-- Taking a block from the back of a bucket's free list, pool_memory_resource_impl.cpp:218-222; `back()`
of an empty list is `ub`, with or without assertions. -/
def takeBlock (s : Pool × σ) (idx : Nat) : Res Nat × (Pool × σ) :=
  match s.1.buckets[idx]? with
  | none => (.ub, s)
  | some b =>
    match b.free.getLast? with
    | none => (.ub, s)
    | some p =>
      (.ok p, ({ s.1 with buckets := s.1.buckets.set idx { b with free := b.free.dropLast } }, s.2))

/-- Adding a chunk to the empty bucket `b`, pool_memory_resource_impl.cpp:179-215. -/
def addChunk (dbg : Bool) (o : PoolOpts) (up : MR σ) (s : Pool × σ) (log idx : Nat) (b : Bucket) :
    Res Unit × (Pool × σ) :=
  let bucketSize := wrap64 (1 <<< log)
  let n := chunkBlocks o log b.prev
  let bytes := wrap64 (n <<< log)
  -- lines 200-203
  if dbg && !(n ≥ o.minBlocks && n ≤ o.maxBlocks && bytes ≥ o.minBytes && bytes ≤ o.maxBytes) then
    (.ub, s)
  else match up.allocate s.2 bytes o.alignment with
    | (.ok p, u) =>
      (.ok (), ({ s.1 with
          allocated := s.1.allocated ++ [(bytes, p)],
          buckets := s.1.buckets.set idx
            { free := b.free ++ (List.range n).map (fun i => p + i * bucketSize), prev := n } }, u))
    | (r, u) => (r.map fun _ => (), (s.1, u))

/-- The pooled branch of `allocate`, pool_memory_resource_impl.cpp:169-222.  An index outside of
`m_pools` is `ub`. -/
def allocatePooled (dbg : Bool) (o : PoolOpts) (up : MR σ) (s : Pool × σ) (bytes : Nat) :
    Res Nat × (Pool × σ) :=
  match log2Ri bytes with
  | none => (.ub, s)
  | some log =>
    let idx := wrap64 (log + 2 ^ 64 - s.1.smallestLog2)
    match s.1.buckets[idx]? with
    | none => (.ub, s)
    | some b =>
      if b.free.isEmpty then
        match addChunk dbg o up s log idx b with
        | (.ok (), s') => takeBlock s' idx
        | (r, s') => (r.map fun _ => 0, s')
      else takeBlock s idx

/-- `allocate`, pool_memory_resource_impl.cpp:96-223. -/
def allocate (dbg : Bool) (o : PoolOpts) (up : MR σ) (s : Pool × σ) (bytes alignment : Nat) :
    Res Nat × (Pool × σ) :=
  let bytes := max bytes o.smallest
  if dbg && !isPowerOf2 alignment then (.ub, s)
  else if bytes > o.largest || alignment > o.alignment then
    allocateOversized o up s bytes alignment
  else allocatePooled dbg o up s bytes

/-- `deallocate`, pool_memory_resource_impl.cpp:225-267.  Not finding the pointer in `m_oversized` is
`ub` (line 243 dereferences the end iterator), as is an index outside of `m_pools`. -/
def deallocate (dbg : Bool) (o : PoolOpts) (up : MR σ) (s : Pool × σ) (ptr bytes alignment : Nat) :
    Res Unit × (Pool × σ) :=
  let bytes := max bytes o.smallest
  if dbg && !(isPowerOf2 alignment && isAligned ptr alignment) then (.ub, s)
  else if bytes > o.largest || alignment > o.alignment then
    let it := s.1.oversized.findIdx (fun d => d.ptr == ptr)
    match s.1.oversized[it]? with
    | none => (.ub, s)
    | some d =>
      if o.cacheOversized then
        (.ok (), ({ s.1 with cached := s.1.cached.insertIdx (lowerBound s.1.cached d) d }, s.2))
      else
        let r := up.deallocate s.2 ptr d.size d.alignment
        (r.1, ({ s.1 with oversized := s.1.oversized.eraseIdx it }, r.2))
  else
    match log2Ri bytes with
    | none => (.ub, s)
    | some log =>
      let idx := wrap64 (log + 2 ^ 64 - s.1.smallestLog2)
      match s.1.buckets[idx]? with
      | none => (.ub, s)
      | some b =>
        (.ok (), ({ s.1 with buckets := s.1.buckets.set idx { b with free := b.free ++ [ptr] } }, s.2))

/-- A list of deallocations `(pointer, size, alignment)`; stops at the first one that does not answer
normally.
Code: `core/src/memory/details/pool_memory_resource_impl.cpp` (the loops of the destructor). -/
def freeAll (up : MR σ) (u : σ) : List (Nat × Nat × Nat) → Res Unit × σ
  | [] => (.ok (), u)
  | (p, n, a) :: rest =>
    match up.deallocate u p n a with
    | (.ok (), u') => freeAll up u' rest
    | (r, u') => (r, u')

/-- Destructor, pool_memory_resource_impl.cpp:82-94. -/
def destroy (o : PoolOpts) (up : MR σ) (s : Pool × σ) : Res Unit × σ :=
  freeAll up s.2 (s.1.allocated.map (fun c => (c.2, c.1, o.alignment)) ++
    s.1.cached.map (fun d => (d.ptr, d.size, d.alignment)))

/-- The implementation class as a resource.
Code: `core/src/memory/details/pool_memory_resource_impl.hpp`. -/
def impl (dbg : Bool) (o : PoolOpts) (up : MR σ) : MR (Pool × σ) where
  allocate := allocate dbg o up
  deallocate := deallocate dbg o up

/-- `pool_memory_resource`, pool_memory_resource.cpp:17-24. -/
def mr (dbg : Bool) (o : PoolOpts) (up : MR σ) : MR (Pool × σ) := pimpl (impl dbg o up)

end Pool

end Vecmem
