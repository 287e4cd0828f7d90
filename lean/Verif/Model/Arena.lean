import Verif.Model.Contiguous

/-!
# Model of `arena_memory_resource`

`core/src/memory/details/arena_memory_resource_impl.{hpp,cpp}` (called "impl" below) and
`core/src/memory/arena_memory_resource.cpp`.

A `std::set<block>` is a list sorted by address (`block::operator<`, arena_memory_resource_impl.cpp:79-81, compares addresses
only).  Inserting into a set never fails, and the hint given to `insert` has no effect on the result.
-/

namespace Vecmem

open IntMath

/-- `block`, arena_memory_resource_impl.hpp:62-115. -/
structure ABlock where
  ptr : Nat := 0
  size : Nat := 0
deriving DecidableEq, Repr

/-- Data members, arena_memory_resource_impl.hpp:141-151, except for upstream. -/
structure Arena where
  /-- `size_superblocks_` -/
  superSize : Nat
  /-- `maximum_size_` -/
  maxSize : Nat
  /-- `current_size_` -/
  current : Nat := 0
  /-- `free_blocks_` -/
  free : List ABlock := []
  /-- `allocated_blocks_` -/
  allocated : List ABlock := []
deriving DecidableEq, Repr

namespace Arena

variable {σ : Type}

/-- `align_up` with 256 bytes, arena_memory_resource_impl.cpp:23-28: `(v + 255) & ~255`, wrapping. -/
def alignUp (v : Nat) : Nat := wrap64 (v + 255) &&& (2 ^ 64 - 256)

/-- `minimum_superblock_size`, arena_memory_resource_impl.cpp:30. -/
def minSuper : Nat := 2 ^ 18

/-- `std::set::insert`: nothing happens if the address is present.
Code: `core/src/memory/details/arena_memory_resource_impl.cpp`, lines 160-239 (calls of `insert`). -/
def setInsert (xs : List ABlock) (b : ABlock) : List ABlock :=
  if xs.any (fun c => c.ptr == b.ptr) then xs
  else xs.takeWhile (fun c => c.ptr < b.ptr) ++ b :: xs.dropWhile (fun c => c.ptr < b.ptr)

/-- `first_fit`, arena_memory_resource_impl.cpp:143-167, with `split` (60-70): the block (invalid if there is none) and the free
blocks afterwards. -/
def firstFit (free : List ABlock) (size : Nat) : ABlock × List ABlock :=
  match free.find? (fun b => size ≤ b.size) with
  | none => ({}, free)
  | some b =>
    if b.size > size then
      (⟨b.ptr, size⟩, setInsert (free.erase b) ⟨b.ptr + size, b.size - size⟩)
    else (b, free.erase b)

/-- The four cases of `coalesce_block`, arena_memory_resource_impl.cpp:187-210, for the free blocks before `b` and those from
`lower_bound(b)` on; `pb` is `*previous`.  `merge_prev` with no block before `b` means that `previous` and
`next` are the same element; erasing it twice is `none` (undefined). -/
def coalesceAt (before after : List ABlock) (pb b : ABlock) : Option (List ABlock) :=
  let mergePrev := pb.ptr + pb.size == b.ptr
  match mergePrev, after with
  | true, nb :: rest =>
    if b.ptr + b.size == nb.ptr then
      if before.isEmpty then none
      else some (setInsert (before.dropLast ++ rest) ⟨pb.ptr, pb.size + b.size + nb.size⟩)
    else if before.isEmpty then some (setInsert rest ⟨pb.ptr, pb.size + b.size⟩)
    else some (setInsert (before.dropLast ++ nb :: rest) ⟨pb.ptr, pb.size + b.size⟩)
  | true, [] => some (setInsert before.dropLast ⟨pb.ptr, pb.size + b.size⟩)
  | false, nb :: rest =>
    if b.ptr + b.size == nb.ptr then some (setInsert (before ++ rest) ⟨b.ptr, b.size + nb.size⟩)
    else some (setInsert (before ++ nb :: rest) b)
  | false, [] => some (setInsert before b)

/-- `coalesce_block`, arena_memory_resource_impl.cpp:169-213.  `none`: line 181 dereferences `end()`. -/
def coalesce (free : List ABlock) (b : ABlock) : Option (List ABlock) :=
  if b.ptr = 0 then some free
  else
    let before := free.takeWhile (fun c => c.ptr < b.ptr)
    let after := free.dropWhile (fun c => c.ptr < b.ptr)
    match before.getLast?.or after.head? with
    | none => none
    | some pb => coalesceAt before after pb b

/-- The size of a new superblock, arena_memory_resource_impl.cpp:233-237. -/
def expandSize (superSize size : Nat) : Nat := if size > superSize then minSuper else superSize

/-- `expand_arena`, arena_memory_resource_impl.cpp:230-243; returns the element of the set with the address of the new
superblock. -/
def expand (up : MR σ) (s : Arena × σ) (size : Nat) : Res ABlock × (Arena × σ) :=
  let size := expandSize s.1.superSize size
  let r := up.allocate s.2 size maxAlign
  match r.1 with
  | .ok p =>
    let b := (s.1.free.find? (fun c => c.ptr == p)).getD ⟨p, size⟩
    (.ok b, ({ s.1 with free := setInsert s.1.free ⟨p, size⟩,
                        current := wrap64 (s.1.current + size) }, r.2))
  | e => (e.map fun _ => {}, (s.1, r.2))

/-- Constructor, arena_memory_resource_impl.cpp:83-102. -/
def create (up : MR σ) (u : σ) (initial maximum : Nat) : Res Arena × σ :=
  let a : Arena := { superSize := initial, maxSize := maximum }
  let initial' := if initial = 2 ^ 64 - 1 then alignUp (initial / 2) else initial
  let a := if maximum = 2 ^ 64 - 1 then { a with maxSize := 2 ^ 64 - 1 - 2 ^ 26 } else a
  let r := expand up (a, u) initial'
  match r.1 with
  | .ok b => (.ok { r.2.1 with free := setInsert r.2.1.free b }, r.2.2)
  | e => (e.map fun _ => a, r.2.2)

/-- arena_memory_resource_impl.cpp:225-227: expand, coalesce, and search again. -/
def expandAndFit (up : MR σ) (s : Arena × σ) (size : Nat) : Res ABlock × (Arena × σ) :=
  let r := expand up s size
  match r.1 with
  | .ok b =>
    match coalesce r.2.1.free b with
    | none => (.ub, r.2)
    | some free =>
      let f := firstFit free size
      (.ok f.1, ({ r.2.1 with free := f.2 }, r.2.2))
  | e => (e, r.2)

/-- `get_block`, arena_memory_resource_impl.cpp:215-228. -/
def getBlock (up : MR σ) (s : Arena × σ) (size : Nat) : Res ABlock × (Arena × σ) :=
  if size < minSuper then
    let f := firstFit s.1.free size
    if f.1.ptr ≠ 0 then (.ok f.1, ({ s.1 with free := f.2 }, s.2))
    else expandAndFit up ({ s.1 with free := f.2 }, s.2) size
  else expandAndFit up s size

/-- `allocate`, arena_memory_resource_impl.cpp:120-128. -/
def allocate (up : MR σ) (s : Arena × σ) (bytes : Nat) : Res Nat × (Arena × σ) :=
  let r := getBlock up s (alignUp bytes)
  match r.1 with
  | .ok b => (.ok b.ptr, ({ r.2.1 with allocated := setInsert r.2.1.allocated b }, r.2.2))
  | e => (e.map fun _ => 0, r.2)

/-- `deallocate`, arena_memory_resource_impl.cpp:130-141, with `free_block` (245-261).  A pointer that is not known is ignored. -/
def deallocate (a : Arena) (p : Nat) : Res Unit × Arena :=
  match a.allocated.find? (fun b => b.ptr == p) with
  | none => (.ok (), a)
  | some b =>
    let a := { a with allocated := a.allocated.erase b }
    if b.ptr = 0 then (.ok (), a)
    else match coalesce a.free b with
      | none => (.ub, a)
      | some free => (.ok (), { a with free := free })

/-- The first loop of the destructor, arena_memory_resource_impl.cpp:106-110. -/
def releaseAll : List ABlock → Arena → Res Unit × Arena
  | [], a => (.ok (), a)
  | b :: rest, a =>
    match deallocate a b.ptr with
    | (.ok (), a) => releaseAll rest a
    | r => r

/-- The second loop of the destructor, arena_memory_resource_impl.cpp:112-117. -/
def returnAll (up : MR σ) (u : σ) : List ABlock → Res Unit × σ
  | [] => (.ok (), u)
  | b :: rest =>
    match up.deallocate u b.ptr b.size maxAlign with
    | (.ok (), u) => returnAll up u rest
    | r => r

/-- Destructor, arena_memory_resource_impl.cpp:104-118. -/
def destroy (up : MR σ) (s : Arena × σ) : Res Unit × σ :=
  match releaseAll s.1.allocated s.1 with
  | (.ok (), a) => returnAll up s.2 a.free
  | (r, _) => (r, s.2)

/-- The implementation class; alignments are ignored.
Code: `core/src/memory/details/arena_memory_resource_impl.hpp`, lines 22-153. -/
def impl (up : MR σ) : MR (Arena × σ) where
  allocate s size _ := allocate up s size
  deallocate s p _ _ := let r := deallocate s.1 p; (r.1, (r.2, s.2))

/-- `arena_memory_resource`, arena_memory_resource.cpp:17-25. -/
def mr (up : MR σ) : MR (Arena × σ) := pimpl (impl up)

end Arena

end Vecmem
