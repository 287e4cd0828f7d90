import Verif.Model.DeviceVector

/-!
# Model of `vecmem::static_vector`

All vectors of one type `static_vector<TYPE, MAX_SIZE>` live in one world that also counts the objects of the element
type: an object gets a number when it is constructed, its number is in `alive` until its destructor is called, and moving
its bytes moves the number with it.  Iterators are represented by the index of the element they point to.
-/

namespace Vecmem

variable {α : Type}

/-- A `static_vector` (static_vector.hpp:317-319): its size, and the cells of its array; a cell holds the bytes of an
object (its number and its value), which may be a leftover, or nothing that could be read. -/
structure SVData (α : Type) where
  size : Nat
  mem : Nat → Option (Nat × α)

/-- One vector and the objects of the world.  `trivial`: the element type is trivially copyable and destructible (its
objects are not counted); `cap` is `MAX_SIZE`; `dflt` is `value_type()`.
Code: `core/include/vecmem/containers/static_vector.hpp`, lines 317-319. -/
structure SV (α : Type) where
  dbg : Bool
  trivial : Bool
  dflt : α
  cap : Nat
  next : Nat
  alive : List Nat
  size : Nat
  mem : Nat → Option (Nat × α)

namespace SV

/-- Read a `const_reference`.
No counterpart in /repo: C++ references. -/
def read (s : SV α) : Arg α → Option α
  | .val v => some v
  | .elem k => (s.mem k).map (·.2)

/-- Write a cell.
No counterpart in /repo: memory cells. -/
def put (s : SV α) (pos : Nat) (c : Option (Nat × α)) : SV α :=
  { s with mem := fun i => if i = pos then c else s.mem i }

/-- An object is created.
No counterpart in /repo: counting objects. -/
def born (s : SV α) : SV α :=
  { s with next := s.next + 1, alive := if s.trivial then s.alive else s.next :: s.alive }

/-- `construct`, impl/static_vector.ipp:462-472; constructing an object from itself is undefined, unless the type is
trivial. -/
def construct (s : SV α) (pos : Nat) (a : Arg α) : Res Unit × SV α :=
  if s.dbg && !(pos < s.cap) then (.ub, s)
  else match s.read a with
    | none => (.ub, s)
    | some v =>
      if !s.trivial && (match a with | .val _ => false | .elem k => k == pos) then (.ub, s)
      else (.ok (), s.born.put pos (some (s.next, v)))

/-- `destruct`, impl/static_vector.ipp:474-484; it is undefined if no living object is there. -/
def destruct (s : SV α) (pos : Nat) : Res Unit × SV α :=
  if s.dbg && !(pos < s.size) then (.ub, s)
  else if s.trivial then (.ok (), s)
  else match s.mem pos with
    | none => (.ub, s)
    | some (id, _) =>
      if id ∈ s.alive then (.ok (), { s.put pos none with alive := s.alive.erase id }) else (.ub, s)

/-- Construct `n` elements from `pos` on.
Code: `core/include/vecmem/containers/impl/static_vector.ipp` (the loops that call `construct`). -/
def constructs (s : SV α) (pos : Nat) (a : Arg α) : Nat → Res Unit × SV α
  | 0 => (.ok (), s)
  | n + 1 =>
    match s.construct pos a with
    | (.ok (), s) => constructs s (pos + 1) a n
    | e => e

/-- Destroy `n` elements from `pos` on.
Code: `core/include/vecmem/containers/impl/static_vector.ipp` (the loops that call `destruct`). -/
def destructs (s : SV α) (pos : Nat) : Nat → Res Unit × SV α
  | 0 => (.ok (), s)
  | n + 1 =>
    match s.destruct pos with
    | (.ok (), s) => destructs s (pos + 1) n
    | e => e

/-- `memmove` of `n` cells.
Code: called in `core/include/vecmem/containers/impl/static_vector.ipp`, lines 159-298. -/
def memmove (s : SV α) (dst src n : Nat) : SV α :=
  { s with mem := fun i => if dst ≤ i ∧ i < dst + n then s.mem (i - dst + src) else s.mem i }

/-- `element_id`, impl/static_vector.ipp:486-494: the index, if the assertion holds. -/
def elementId (s : SV α) (pos : Nat) : Option Nat := if s.dbg && !(pos ≤ s.size) then none else some pos

/-- `clear`, impl/static_vector.ipp:305-312. -/
def clear (s : SV α) : Res Unit × SV α :=
  match s.destructs 0 s.size with
  | (.ok (), s) => (.ok (), { s with size := 0 })
  | e => e

/-- `assign(count, value)`, impl/static_vector.ipp:139-156. -/
def assign (s : SV α) (count : Nat) (a : Arg α) : Res Unit × SV α :=
  if s.dbg && !(s.cap ≥ count) then (.ub, s)
  else match s.clear with
    | (.ok (), s) =>
      match s.constructs 0 a count with
      | (.ok (), s) => (.ok (), { s with size := count })
      | e => e
    | e => e

/-- The loop of `assign(begin, end)`, static_vector.hpp:161-163: `construct(m_size++, *itr)`. -/
def constructEach (s : SV α) : List α → Res Unit × SV α
  | [] => (.ok (), s)
  | v :: vs =>
    match { s with size := s.size + 1 }.construct s.size (.val v) with
    | (.ok (), s) => constructEach s vs
    | e => e

/-- `assign(begin, end)` with a range outside the vector, static_vector.hpp:153-164. -/
def assignRange (s : SV α) (vs : List α) : Res Unit × SV α :=
  match s.clear with
  | (.ok (), s) => s.constructEach vs
  | e => e

/-- `insert(pos, count, value)`, impl/static_vector.ipp:183-208 (sums of sizes wrap at 64 bits). -/
def insertCount (s : SV α) (pos count : Nat) (a : Arg α) : Res Nat × SV α :=
  if s.dbg && !((s.size + count) % 2 ^ 64 ≤ s.cap) then (.ub, s)
  else match s.elementId pos with
    | none => (.ub, s)
    | some index =>
      match (s.memmove (index + count) index (s.size - index)).constructs index a count with
      | (.ok (), s) => (.ok index, { s with size := (s.size + count) % 2 ^ 64 })
      | (_, s) => (.ub, s)

/-- `insert(pos, value)`, impl/static_vector.ipp:158-181. -/
def insert (s : SV α) (pos : Nat) (a : Arg α) : Res Nat × SV α :=
  if s.dbg && !(s.size < s.cap) then (.ub, s)
  else match s.elementId pos with
    | none => (.ub, s)
    | some index =>
      match (s.memmove (index + 1) index (s.size - index)).construct index a with
      | (.ok (), s) => (.ok index, { s with size := s.size + 1 })
      | (_, s) => (.ub, s)

/-- `emplace(pos, args...)` with arguments that construct the value of `a`, impl/static_vector.ipp:210-234. -/
def emplace (s : SV α) (pos : Nat) (a : Arg α) : Res Nat × SV α :=
  if s.dbg && !(s.size < s.cap) then (.ub, s)
  else match s.elementId pos with
    | none => (.ub, s)
    | some index =>
      let s := s.memmove (index + 1) index (s.size - index)
      match s.read a with
      | none => (.ub, s)
      | some v =>
        if !s.trivial && (match a with | .val _ => false | .elem k => k == index) then (.ub, s)
        else (.ok index, { s.born.put index (some (s.next, v)) with size := s.size + 1 })

/-- The loop of the range `insert`, static_vector.hpp:186-190. -/
def insertEach (s : SV α) (pos : Nat) : List α → Res Unit × SV α
  | [] => (.ok (), s)
  | v :: vs =>
    match s.insert pos (.val v) with
    | (.ok _, s) => insertEach s (pos + 1) vs
    | (_, s) => (.ub, s)

/-- `insert(pos, begin, end)` with a range outside the vector, static_vector.hpp:177-194. -/
def insertRange (s : SV α) (pos : Nat) (vs : List α) : Res Nat × SV α :=
  match s.elementId pos with
  | none => (.ub, s)
  | some index => let r := s.insertEach pos vs; (r.1.map fun _ => index, r.2)

/-- `erase(first, last)`, impl/static_vector.ipp:273-297. -/
def eraseRange (s : SV α) (first last : Nat) : Res Nat × SV α :=
  match s.elementId first, s.elementId last with
  | some first, some last =>
    if s.dbg && !(first ≤ last) then (.ub, s)
    else match s.destructs first (last - first) with
      | (.ok (), s) =>
        let s := s.memmove first last (s.size - last)
        (.ok first, { s with size := s.size - (last - first) })
      | (_, s) => (.ub, s)
  | _, _ => (.ub, s)

/-- `erase(pos)`, impl/static_vector.ipp:251-271; `erase(end())` moves a number of bytes that has wrapped. -/
def erase (s : SV α) (pos : Nat) : Res Nat × SV α :=
  match s.elementId pos with
  | none => (.ub, s)
  | some index =>
    match s.destruct index with
    | (.ok (), s) =>
      if index < s.size then
        let s := s.memmove index (index + 1) (s.size - index - 1)
        (.ok index, { s with size := s.size - 1 })
      else (.ub, s)
    | (_, s) => (.ub, s)

/-- `push_back`, impl/static_vector.ipp:244-249. -/
def pushBack (s : SV α) (a : Arg α) : Res Unit × SV α :=
  let r := s.insert s.size a
  (r.1.map fun _ => (), r.2)

/-- `emplace_back`, impl/static_vector.ipp:236-242: the index of the element referred to. -/
def emplaceBack (s : SV α) (a : Arg α) : Res Nat × SV α := s.emplace s.size a

/-- `pop_back`, impl/static_vector.ipp:299-303; the pointer before the first element has no index. -/
def popBack (s : SV α) : Res Unit × SV α :=
  if s.size = 0 then (.ub, s)
  else
    let r := s.erase (s.size - 1)
    (r.1.map fun _ => (), r.2)

/-- `resize(new_size, value)`, impl/static_vector.ipp:321-342. -/
def resize (s : SV α) (newSize : Nat) (a : Arg α) : Res Unit × SV α :=
  if s.dbg && !(newSize ≤ s.cap) then (.ub, s)
  else if newSize = s.size then (.ok (), s)
  else if newSize < s.size then
    let r := s.eraseRange newSize s.size
    (r.1.map fun _ => (), r.2)
  else
    let r := s.insertCount s.size (newSize - s.size) a
    (r.1.map fun _ => (), r.2)

/-- `reserve`, impl/static_vector.ipp:453-460. -/
def reserve (s : SV α) (newCap : Nat) : Res Unit × SV α :=
  if s.dbg && !(newCap ≤ s.cap) then (.ub, s) else (.ok (), s)

/-- Read the object in a cell.
No counterpart in /repo: reading an object. -/
def deref (s : SV α) (pos : Nat) : Res α :=
  match s.mem pos with
  | none => .ub
  | some (_, v) => .ok v

/-- `at` (read), impl/static_vector.ipp:45-65. -/
def at_ (s : SV α) (pos : Nat) : Res α := if s.dbg && !(pos < s.size) then .ub else s.deref pos

/-- `operator[]` (read), impl/static_vector.ipp:67-81. -/
def index (s : SV α) (pos : Nat) : Res α := s.deref pos

/-- `front` (read), impl/static_vector.ipp:83-103. -/
def front (s : SV α) : Res α := if s.dbg && !(s.size > 0) then .ub else s.deref 0

/-- `back` (read), impl/static_vector.ipp:105-124. -/
def back (s : SV α) : Res α := if s.dbg && !(s.size > 0) then .ub else s.deref (s.size - 1)

/-- Assignment to the element referred to by `at` (`checked`) or `operator[]`.
Code: `core/include/vecmem/containers/impl/static_vector.ipp`, lines 46-82 (the references that are returned). -/
def write (s : SV α) (checked : Bool) (pos : Nat) (v : α) : Res Unit × SV α :=
  if checked && s.dbg && !(pos < s.size) then (.ub, s)
  else match s.mem pos with
    | none => (.ub, s)
    | some (id, _) => (.ok (), s.put pos (some (id, v)))

/-- Read `n` elements from `pos` on.
Code: `core/include/vecmem/containers/impl/static_vector.ipp`, lines 345-383 (the iterators are pointers). -/
def readFrom (s : SV α) (pos : Nat) : Nat → Res (List α)
  | 0 => .ok []
  | n + 1 =>
    match s.deref pos with
    | .ok v => (s.readFrom (pos + 1) n).map (v :: ·)
    | e => e.map fun _ => []

/-- Iteration from `begin()` to `end()`, impl/static_vector.ipp:344-382. -/
def iterate (s : SV α) : Res (List α) := s.readFrom 0 s.size

/-- Read `n` elements backwards (impl/reverse_iterator.ipp:58-87). -/
def readBack (s : SV α) (pos : Nat) : Nat → Res (List α)
  | 0 => .ok []
  | n + 1 =>
    match s.deref (pos - 1) with
    | .ok v => (s.readBack (pos - 1) n).map (v :: ·)
    | e => e.map fun _ => []

/-- Iteration from `rbegin()` to `rend()`, impl/static_vector.ipp:384-424. -/
def iterateBack (s : SV α) : Res (List α) := s.readBack s.size s.size

end SV

/-- An operation on one vector.
No counterpart in /repo: programs of users. -/
inductive SVOp (α : Type) where
  | assign (n : Nat) (a : Arg α)
  | assignRange (vs : List α)
  | insert (i : Nat) (a : Arg α)
  | insertCount (i n : Nat) (a : Arg α)
  | insertRange (i : Nat) (vs : List α)
  | emplace (i : Nat) (a : Arg α)
  | emplaceBack (a : Arg α)
  | push (a : Arg α)
  | erase (i : Nat)
  | eraseRange (i j : Nat)
  | pop
  | clear
  | resize (n : Nat)
  | resizeValue (n : Nat) (a : Arg α)
  | reserve (n : Nat)
  | at_ (i : Nat)
  | index (i : Nat)
  | write (checked : Bool) (i : Nat) (v : α)
  | front
  | back
  | size
  | empty
  | capacity
  | iterate
  | iterateBack

/-- Run an operation on one vector.
No counterpart in /repo: programs of users. -/
def SV.step (s : SV α) : SVOp α → Res (Ret α) × SV α
  | .assign n a => let r := s.assign n a; (r.1.map fun _ => .unit, r.2)
  | .assignRange vs => let r := s.assignRange vs; (r.1.map fun _ => .unit, r.2)
  | .insert i a => let r := s.insert i a; (r.1.map .num, r.2)
  | .insertCount i n a => let r := s.insertCount i n a; (r.1.map .num, r.2)
  | .insertRange i vs => let r := s.insertRange i vs; (r.1.map .num, r.2)
  | .emplace i a => let r := s.emplace i a; (r.1.map .num, r.2)
  | .emplaceBack a => let r := s.emplaceBack a; (r.1.map .num, r.2)
  | .push a => let r := s.pushBack a; (r.1.map fun _ => .unit, r.2)
  | .erase i => let r := s.erase i; (r.1.map .num, r.2)
  | .eraseRange i j => let r := s.eraseRange i j; (r.1.map .num, r.2)
  | .pop => let r := s.popBack; (r.1.map fun _ => .unit, r.2)
  | .clear => let r := s.clear; (r.1.map fun _ => .unit, r.2)
  | .resize n => let r := s.resize n (.val s.dflt); (r.1.map fun _ => .unit, r.2)
  | .resizeValue n a => let r := s.resize n a; (r.1.map fun _ => .unit, r.2)
  | .reserve n => let r := s.reserve n; (r.1.map fun _ => .unit, r.2)
  | .at_ i => ((s.at_ i).map .val, s)
  | .index i => ((s.index i).map .val, s)
  | .write c i v => let r := s.write c i v; (r.1.map fun _ => .unit, r.2)
  | .front => (s.front.map .val, s)
  | .back => (s.back.map .val, s)
  | .size => (.ok (.num s.size), s)
  | .empty => (.ok (.bool (s.size == 0)), s)
  | .capacity => (.ok (.num s.cap), s)
  | .iterate => (s.iterate.map .vals, s)
  | .iterateBack => (s.iterateBack.map .vals, s)

/-- The vectors of a type; `none` where there is none (yet, or any more).
No counterpart in /repo: programs of users. -/
structure SVWorld (α : Type) where
  dbg : Bool
  trivial : Bool
  dflt : α
  cap : Nat
  next : Nat
  alive : List Nat
  vecs : List (Option (SVData α))

namespace SVWorld

/-- Look at one vector.
No counterpart in /repo: programs of users. -/
def focus (w : SVWorld α) (d : SVData α) : SV α :=
  { dbg := w.dbg, trivial := w.trivial, dflt := w.dflt, cap := w.cap, next := w.next, alive := w.alive,
    size := d.size, mem := d.mem }

/-- Put a vector back.
No counterpart in /repo: programs of users. -/
def unfocus (w : SVWorld α) (i : Nat) (s : SV α) : SVWorld α :=
  { w with next := s.next, alive := s.alive, vecs := w.vecs.set i (some ⟨s.size, s.mem⟩) }

end SVWorld

/-- An operation of a client: constructors, the destructor, the (implicit) copy assignment, and the operations on one
vector.
No counterpart in /repo: programs of users. -/
inductive SWOp (α : Type) where
  | new (i : Nat)
  | newFill (i n : Nat) (v : α)
  | newRange (i : Nat) (vs : List α)
  | newCopy (i j : Nat)
  | copyAssign (i j : Nat)
  | destroy (i : Nat)
  | op (i : Nat) (o : SVOp α)

/-- The loop of the copy constructor, impl/static_vector.ipp:34-36. -/
def SV.copyEach (s : SV α) (parent : SVData α) (pos : Nat) : Nat → Res Unit × SV α
  | 0 => (.ok (), s)
  | n + 1 =>
    match parent.mem pos with
    | none => (.ub, s)
    | some (_, v) =>
      match s.construct pos (.val v) with
      | (.ok (), s) => copyEach s parent (pos + 1) n
      | e => e

namespace SVWorld

/-- The slot for a new vector is free.
No counterpart in /repo: programs of users. -/
def free (w : SVWorld α) (i : Nat) : Bool :=
  match w.vecs[i]? with
  | some none => true
  | _ => false

/-- A new vector of the given initial size, with an uninitialized array, and then its constructor's body.
Code: `core/include/vecmem/containers/impl/static_vector.ipp`, lines 17-38. -/
def build (w : SVWorld α) (i size : Nat) (body : SV α → Res Unit × SV α) : Res (Ret α) × SVWorld α :=
  if w.free i then
    let r := body (w.focus ⟨size, fun _ => none⟩)
    (r.1.map fun _ => .unit, w.unfocus i r.2)
  else (.ub, w)

/-- The vector in a slot.
No counterpart in /repo: programs of users. -/
def get (w : SVWorld α) (i : Nat) : Option (SVData α) := (w.vecs[i]?).getD none

/-- Run an operation.
No counterpart in /repo: programs of users. -/
def step (w : SVWorld α) : SWOp α → Res (Ret α) × SVWorld α
  -- impl/static_vector.ipp:16-18
  | .new i => w.build i 0 fun s => (.ok (), s)
  -- impl/static_vector.ipp:20-26: the size is set before `assign` clears the vector
  | .newFill i n v => w.build i n fun s => s.assign n (.val v)
  -- static_vector.hpp:87-91
  | .newRange i vs => w.build i 0 fun s => s.assignRange vs
  -- impl/static_vector.ipp:28-37
  | .newCopy i j =>
    match w.get j with
    | none => (.ub, w)
    | some d => w.build i d.size fun s => s.copyEach d 0 d.size
  -- implicitly defined: member by member, i.e. the size and the bytes of the array
  | .copyAssign i j =>
    match w.get i, w.get j with
    | some _, some d => (.ok .unit, { w with vecs := w.vecs.set i (some d) })
    | _, _ => (.ub, w)
  -- impl/static_vector.ipp:39-43
  | .destroy i =>
    match w.get i with
    | none => (.ub, w)
    | some d =>
      match (w.focus d).clear with
      | (.ok (), s) => (.ok .unit, { w with next := s.next, alive := s.alive, vecs := w.vecs.set i none })
      | (_, _) => (.ub, w)
  | .op i o =>
    match w.get i with
    | none => (.ub, w)
    | some d => let r := (w.focus d).step o; (r.1, w.unfocus i r.2)

/-- Run a program.
No counterpart in /repo: programs of users. -/
def run (w : SVWorld α) : List (SWOp α) → List (Res (Ret α)) × SVWorld α
  | [] => ([], w)
  | op :: ops => let r := w.step op; let rs := r.2.run ops; (r.1 :: rs.1, rs.2)

end SVWorld
end Vecmem
