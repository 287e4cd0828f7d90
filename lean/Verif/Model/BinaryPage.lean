import Verif.Model.Contiguous

/-!
# Model of `binary_page_memory_resource`

`core/src/memory/details/binary_page_memory_resource_impl.{hpp,cpp}` (called "impl" below) and
`core/src/memory/binary_page_memory_resource.cpp`.

Page indices are those of the code (root 0, children `2 i + 1` and `2 i + 2`).  In the page operations
`none` means that an assertion fails (or, without assertions, that an array is accessed out of bounds
or the page tree is corrupted); the resource functions turn this into `ub`.  The only assertion that can
be switched off here (`dbg = false`) is the one of `round_up`, as it is the only one that correct calls can
violate.  Loops and recursion have a fuel argument, which the proofs show to be sufficient.
-/

namespace Vecmem

open IntMath

/-- `page_state`, binary_page_memory_resource_impl.hpp:69. -/
inductive PageState where
  | occupied
  | vacant
  | split
  | nonExtant
deriving DecidableEq, Repr

/-- `superpage`, binary_page_memory_resource_impl.hpp:77-116.  `m_num_pages` is the length of `pages`. -/
structure Superpage where
  /-- `m_size`, log₂ of the bytes of the chunk -/
  size : Nat
  /-- `m_min_page_size`, log₂ of the bytes of the smallest page -/
  minPage : Nat
  /-- `m_pages` -/
  pages : List PageState
  /-- `m_memory`, the address of the chunk -/
  mem : Nat
deriving DecidableEq, Repr

namespace BinPage

variable {σ : Type}

/-- `min_superpage_size`, binary_page_memory_resource_impl.hpp:38. -/
def minSuperpageSize : Nat := 20
/-- `delta_superpage_size`, binary_page_memory_resource_impl.hpp:48. -/
def deltaSuperpageSize : Nat := 8
/-- `min_page_size`, binary_page_memory_resource_impl.hpp:56. -/
def minPageSize : Nat := 8

/-- Constructor of `superpage` (binary_page_memory_resource_impl.cpp:258-277), given the address upstream has returned; `none` if the
assertion of line 261 fails. -/
def newSuperpage (size mem : Nat) : Option Superpage :=
  let minPage := wrap64 (size + 2 ^ 64 - deltaSuperpageSize)
  if minPage < minPageSize then none
  else
    let num := (2 <<< (size - minPage)) - 1
    some ⟨size, minPage,
      (List.range num).map (fun i => if i = 0 then PageState.vacant else PageState.nonExtant), mem⟩

/-- Constructor of `page_ref` (binary_page_memory_resource_impl.cpp:331-335) followed by `get_state` (337-340). -/
def getState (sp : Superpage) (i : Nat) : Option PageState := sp.pages[i]?

/-- `get_size`, binary_page_memory_resource_impl.cpp:283-289. -/
def getSize (sp : Superpage) (i : Nat) : Option Nat :=
  (clzl (i + 1)).map fun c => sp.size - (63 - c)

/-- The functions `change_state_x_to_y`, binary_page_memory_resource_impl.cpp:291-325. -/
def changeState (sp : Superpage) (i : Nat) (x y : PageState) : Option Superpage :=
  if getState sp i = some x then some { sp with pages := sp.pages.set i y } else none

/-- `get_addr`, binary_page_memory_resource_impl.cpp:342-349. -/
def getAddr (sp : Superpage) (i : Nat) : Option Nat :=
  (getSize sp i).map fun g => sp.mem + (i - (2 ^ (sp.size - g) - 1)) * 2 ^ g

/-- `left_child`, binary_page_memory_resource_impl.cpp:361-364. -/
def leftChild (i : Nat) : Nat := 2 * i + 1
/-- `right_child`, binary_page_memory_resource_impl.cpp:366-369. -/
def rightChild (i : Nat) : Nat := 2 * i + 2

/-- `parent`, binary_page_memory_resource_impl.cpp:371-380. -/
def parent (i : Nat) : Option Nat :=
  if i = 0 then none else if i % 2 = 0 then some ((i - 2) / 2) else some ((i - 1) / 2)

/-- `sibling`, binary_page_memory_resource_impl.cpp:382-391. -/
def sibling (i : Nat) : Option Nat :=
  if i = 0 then none else if i % 2 = 0 then some (i - 1) else some (i + 1)

/-- `split`, binary_page_memory_resource_impl.cpp:412-416. -/
def split (sp : Superpage) (i : Nat) : Option Superpage := do
  let sp ← changeState sp i .vacant .split
  let sp ← changeState sp (leftChild i) .nonExtant .vacant
  changeState sp (rightChild i) .nonExtant .vacant

/-- `unsplit`, binary_page_memory_resource_impl.cpp:393-411. -/
def unsplit : Nat → Superpage → Nat → Option Superpage
  | 0, _, _ => none
  | fuel + 1, sp, i => do
    if getState sp i ≠ some .split then none
    if getState sp (leftChild i) ≠ some .split ∧ getState sp (leftChild i) ≠ some .vacant then none
    if getState sp (rightChild i) ≠ some .split ∧ getState sp (rightChild i) ≠ some .vacant then none
    let sp ← (if getState sp (leftChild i) = some .split then unsplit fuel sp (leftChild i) else some sp)
    let sp ← (if getState sp (rightChild i) = some .split then unsplit fuel sp (rightChild i) else some sp)
    let sp ← changeState sp i .split .vacant
    let sp ← changeState sp (leftChild i) .vacant .nonExtant
    changeState sp (rightChild i) .vacant .nonExtant

/-- The loops of binary_page_memory_resource_impl.cpp:141-143 and 211-213: from page `i` down the left children to the first page of
(log₂) size `s`. -/
def levelStart (sp : Superpage) (s : Nat) : Nat → Nat → Option Nat
  | 0, _ => none
  | fuel + 1, i => do
    if ¬ i < sp.pages.length then none
    let g ← getSize sp i
    if g > s then levelStart sp s fuel (2 * i + 1) else some i

/-- The loop of binary_page_memory_resource_impl.cpp:220-229 over the pages `p`, `p + 1`, … (`count` of them): the first vacant one. -/
def scan (sp : Superpage) : Nat → Nat → Option (Option Nat)
  | 0, _ => some none
  | count + 1, p => do
    let st ← getState sp p
    if st = .vacant then some (some p) else scan sp count (p + 1)

/-- The loop over the superpages, binary_page_memory_resource_impl.cpp:198-231.  The result: was there a superpage that may have such
pages, and the page found (superpage number and page). -/
def searchSize (size search : Nat) : Nat → List Superpage → Option (Bool × Option (Nat × Nat))
  | _, [] => some (false, none)
  | k, sp :: rest => do
    if size ≥ sp.minPage ∧ search ≤ sp.size then
      let i ← levelStart sp search 64 0
      let j := 2 * i + 1
      match ← scan sp (j - i) i with
      | some p => some (true, some (k, p))
      | none => (searchSize size search (k + 1) rest).map fun r => (true, r.2)
    else searchSize size search (k + 1) rest

/-- The outer loop of `find_free_page`, binary_page_memory_resource_impl.cpp:190-237. -/
def findLoop (sps : List Superpage) (size : Nat) : Nat → Nat → Option (Option (Nat × Nat))
  | 0, _ => none
  | fuel + 1, search => do
    let r ← searchSize size search 0 sps
    match r with
    | (_, some c) => some (some c)
    | (true, none) => findLoop sps size fuel (search + 1)
    | (false, none) => some none

/-- `find_free_page`, binary_page_memory_resource_impl.cpp:180-243. -/
def findFreePage (sps : List Superpage) (size : Nat) : Option (Option (Nat × Nat)) :=
  findLoop sps size 66 size

/-- The (log₂) size of a new superpage, binary_page_memory_resource_impl.cpp:249-255. -/
def superpageLog (size : Nat) : Nat :=
  if size ≥ minSuperpageSize then size else min (size + deltaSuperpageSize) minSuperpageSize

/-- `m_superpages.emplace_back`, binary_page_memory_resource_impl.cpp:250-254, once the superpage has been constructed. -/
def pushSuperpage (sps : List Superpage) (u : σ) : Option Superpage → Res Unit × (List Superpage × σ)
  | some sp => (.ok (), (sps ++ [sp], u))
  | none => (.ub, (sps, u))

/-- `m_superpages.emplace_back(m, m_upstream)`, i.e. the superpage constructor (binary_page_memory_resource_impl.cpp:258-277):
`make_unique_alloc<std::byte[]>(resource, 1 << m)` allocates with the default alignment
(memory/unique_ptr.hpp:224-256).  Failure to allocate the array of page states is not modelled. -/
def addSuperpage (up : MR σ) (s : List Superpage × σ) (m : Nat) : Res Unit × (List Superpage × σ) :=
  let r := up.allocate s.2 (2 ^ m) maxAlign
  match r.1 with
  | .ok p => pushSuperpage s.1 r.2 (newSuperpage m p)
  | e => (e.map fun _ => (), (s.1, r.2))

/-- `allocate_upstream`, binary_page_memory_resource_impl.cpp:245-256. -/
def allocateUpstream (up : MR σ) (s : List Superpage × σ) (size : Nat) : Res Unit × (List Superpage × σ) :=
  addSuperpage up s (superpageLog size)

/-- The loop of binary_page_memory_resource_impl.cpp:75-80: split until the page has the (log₂) size `goal`. -/
def splitDown (goal : Nat) : Nat → Superpage → Nat → Option (Superpage × Nat)
  | 0, _, _ => none
  | fuel + 1, sp, i => do
    let g ← getSize sp i
    if g > goal then
      let sp ← split sp i
      splitDown goal fuel sp (leftChild i)
    else some (sp, i)

/-- binary_page_memory_resource_impl.cpp:70-91: split the candidate, mark it as occupied; its superpage afterwards and its address. -/
def takePage (goal : Nat) (sp : Superpage) (i : Nat) : Option (Superpage × Nat) := do
  if getState sp i ≠ some .vacant then none  -- line 70
  let (sp, i) ← splitDown goal 64 sp i
  let sp ← changeState sp i .vacant .occupied
  let p ← getAddr sp i
  some (sp, p)

/-- binary_page_memory_resource_impl.cpp:70-98. -/
def take (s : List Superpage × σ) (goal : Nat) (c : Nat × Nat) : Res Nat × (List Superpage × σ) :=
  match s.1[c.1]? with
  | none => (.ub, s)
  | some sp =>
    match takePage goal sp c.2 with
    | none => (.ub, s)
    | some (sp', p) => (.ok p, (s.1.set c.1 sp', s.2))

/-- `round_up` (utils/integer_math.hpp:88-98) with and without its assertion. -/
def roundUp? (dbg : Bool) (size : Nat) : Option Nat :=
  if dbg then roundUp size else some (roundUpRelease size)

/-- binary_page_memory_resource_impl.cpp:54-98: what follows if there is no candidate. -/
def allocateFresh (up : MR σ) (s : List Superpage × σ) (goal : Nat) : Res Nat × (List Superpage × σ) :=
  let r := allocateUpstream up s goal
  match r.1 with
  | .ok () =>
    match findFreePage r.2.1 goal with
    | none => (.ub, r.2)
    | some none => (.badAlloc, r.2)
    | some (some c) => take r.2 goal c
  | e => (e.map fun _ => 0, r.2)

/-- `allocate`, binary_page_memory_resource_impl.cpp:28-99; the alignment is not used by the code. -/
def allocate (dbg : Bool) (up : MR σ) (s : List Superpage × σ) (size : Nat) :
    Res Nat × (List Superpage × σ) :=
  match roundUp? dbg size with
  | none => (.ub, s)
  | some r =>
    let goal := max minPageSize r
    match findFreePage s.1 goal with
    | none => (.ub, s)
    | some (some c) => take s goal c
    | some none => allocateFresh up s goal

/-- The loop of binary_page_memory_resource_impl.cpp:164-171: up to the parent as long as the sibling is vacant. -/
def climb (sp : Superpage) : Nat → Nat → Option Nat
  | 0, _ => none
  | fuel + 1, i =>
    match sibling i with
    | none => some i
    | some b =>
      match getState sp b with
      | none => none
      | some st =>
        if st = .vacant then
          match parent i with
          | none => none
          | some q => climb sp fuel q
        else some i

/-- binary_page_memory_resource_impl.cpp:140-177: what happens in the superpage to free the page at address `p`.  Pointer differences
are nonnegative, as `p` lies inside the chunk. -/
def freePage (dbg : Bool) (sp : Superpage) (p size : Nat) : Option Superpage := do
  let r ← roundUp? dbg size
  let goal := max sp.minPage r
  let pMin ← levelStart sp goal 64 0
  let i := pMin + (p - sp.mem) / 2 ^ goal
  let sp ← changeState sp i .occupied .vacant
  let top ← climb sp 64 i
  if top ≠ i then
    let sp ← unsplit 64 sp top
    if getState sp i = some .nonExtant then some sp else none
  else some sp

/-- `deallocate`, binary_page_memory_resource_impl.cpp:101-178: in the first superpage whose chunk contains `p` (115-128); if there is
none, `sp->get()` dereferences an empty optional. -/
def deallocate (dbg : Bool) (s : List Superpage × σ) (p size : Nat) :
    Res Unit × (List Superpage × σ) :=
  match s.1.findIdx? (fun sp => sp.mem ≤ p && p < sp.mem + 2 ^ sp.size) with
  | none => (.ub, s)
  | some k =>
    match s.1[k]? with
    | none => (.ub, s)
    | some sp =>
      match freePage dbg sp p size with
      | none => (.ub, s)
      | some sp' => (.ok (), (s.1.set k sp', s.2))

/-- The implementation class.
Code: `core/src/memory/details/binary_page_memory_resource_impl.hpp`. -/
def impl (dbg : Bool) (up : MR σ) : MR (List Superpage × σ) where
  allocate s size _ := allocate dbg up s size
  deallocate s p size _ := deallocate dbg s p size

/-- `binary_page_memory_resource` (binary_page_memory_resource.cpp:17-22); the constructor starts with no
superpage. -/
def mr (dbg : Bool) (up : MR σ) : MR (List Superpage × σ) := pimpl (impl dbg up)

/-- Destructor (implicit): `m_superpages` is destroyed, each chunk goes back to upstream through its
`unique_alloc_ptr` (details/unique_alloc_deleter.hpp:101-119), with its size and the default alignment. -/
def destroy (up : MR σ) : List Superpage → σ → Res Unit × σ
  | [], u => (.ok (), u)
  | sp :: rest, u =>
    let r := up.deallocate u sp.mem (2 ^ sp.size) maxAlign
    match r.1 with
    | .ok () => destroy up rest r.2
    | e => (e, r.2)

end BinPage

end Vecmem
