import Verif.Spec.Resource

/-!
# Model of `vecmem::device_vector` (one thread)

The payload is an array of cells; a cell holds a living object (`some v`) or none.  Cells from the capacity on are
memory that does not belong to the vector.  `size_type` is a 32-bit unsigned integer.
-/

namespace Vecmem

variable {α : Type}

/-- `device_vector` (device_vector.hpp) together with the memory it points to.  `dbg`: assertions are enabled;
`trivialDtor`: destructors of the element type do nothing; `hasSize`: `m_size` is not null; `junk`: what an object
that is created implicitly (without initialization) holds, if there was none; `dflt` is `value_type()`. -/
structure DV (α : Type) where
  dbg : Bool
  trivialDtor : Bool
  dflt : α
  junk : Nat → α
  cap : Nat
  hasSize : Bool
  sizeWord : Nat
  mem : Nat → Option α

/-- A `const_reference` argument: to an object outside, or to the element at some index of this vector.
No counterpart in /repo: C++ references. -/
inductive Arg (α : Type) where
  | val (v : α)
  | elem (k : Nat)
deriving Repr

namespace DV

/-- Read a `const_reference`.
No counterpart in /repo: C++ references. -/
def read (s : DV α) : Arg α → Option α
  | .val v => some v
  | .elem k => s.mem k

/-- Write a cell.
No counterpart in /repo: memory cells. -/
def put (s : DV α) (pos : Nat) (c : Option α) : DV α := { s with mem := fun i => if i = pos then c else s.mem i }

/-- `size()`, impl/device_vector.ipp:483-497. -/
def size (s : DV α) : Nat := if s.hasSize then s.sizeWord else s.cap

/-- `construct`, impl/device_vector.ipp:511-520. -/
def construct (s : DV α) (pos : Nat) (a : Arg α) : Res Unit × DV α :=
  if s.dbg && !(pos < s.cap) then (.ub, s)
  else match s.read a with
    | none => (.ub, s)
    | some v => (.ok (), s.put pos (some v))

/-- `destruct`, impl/device_vector.ipp:522-531; destroying an object that does not live is undefined, unless the
destructor does nothing. -/
def destruct (s : DV α) (pos : Nat) : Res Unit × DV α :=
  if s.dbg && !(pos < s.cap) then (.ub, s)
  else if s.trivialDtor then (.ok (), s)
  else match s.mem pos with
    | none => (.ub, s)
    | some _ => (.ok (), s.put pos none)

/-- Construct `n` elements from position `pos` on (32-bit arithmetic).
Code: `core/include/vecmem/containers/impl/device_vector.ipp`, lines 170-172, 252-254 and 361-363 (the loops that call `construct`). -/
def constructs (s : DV α) (pos : Nat) (a : Arg α) : Nat → Res Unit × DV α
  | 0 => (.ok (), s)
  | n + 1 =>
    match s.construct (pos % 2 ^ 32) a with
    | (.ok (), s) => constructs s (pos + 1) a n
    | e => e

/-- Destroy `n` elements from position `pos` on.
Code: `core/include/vecmem/containers/impl/device_vector.ipp`, lines 322-324 and 355-357 (the loops that call `destruct`). -/
def destructs (s : DV α) (pos : Nat) : Nat → Res Unit × DV α
  | 0 => (.ok (), s)
  | n + 1 =>
    match s.destruct (pos % 2 ^ 32) with
    | (.ok (), s) => destructs s (pos + 1) n
    | e => e

/-- `device_atomic_ref::fetch_add` on the size: the old value.
Code: `core/include/vecmem/containers/impl/device_vector.ipp`, lines 177-295 (calls of `fetch_add`). -/
def fetchAdd (s : DV α) (n : Nat) : Nat × DV α := (s.sizeWord, { s with sizeWord := (s.sizeWord + n) % 2 ^ 32 })

/-- `push_back`, impl/device_vector.ipp:196-214. -/
def pushBack (s : DV α) (a : Arg α) : Res Nat × DV α :=
  if !s.hasSize then (.ub, s)
  else
    let (index, s) := s.fetchAdd 1
    if s.dbg && !(index < s.cap) then (.ub, s)
    else
      let r := s.construct index a
      (r.1.map fun _ => index, r.2)

/-- `emplace_back` with arguments that construct the value of `a`, impl/device_vector.ipp:175-194; the index of the
element referred to by the result. -/
def emplaceBack (s : DV α) (a : Arg α) : Res Nat × DV α :=
  if !s.hasSize then (.ub, s)
  else
    let (index, s) := s.fetchAdd 1
    if s.dbg && !(index < s.cap) then (.ub, s)
    else match s.read a with
      | none => (.ub, s)
      | some v => (.ok index, s.put index (some v))

/-- `bulk_append(n, v)`, impl/device_vector.ipp:237-257; `index + n` wraps at 32 bits. -/
def bulkAppend (s : DV α) (n : Nat) (a : Arg α) : Res Nat × DV α :=
  if !s.hasSize then (.ub, s)
  else
    let (index, s) := s.fetchAdd n
    if s.dbg && !((index + n) % 2 ^ 32 ≤ s.cap) then (.ub, s)
    else
      let r := s.constructs index a n
      (r.1.map fun _ => index, r.2)

/-- `bulk_append(n)`, impl/device_vector.ipp:216-235. -/
def bulkAppendDefault (s : DV α) (n : Nat) : Res Nat × DV α := s.bulkAppend n (.val s.dflt)

/-- Objects of an implicit-lifetime type exist in the `n` cells of the payload from `pos` on, with whatever value the
memory has; nothing is written.
Code: `core/include/vecmem/containers/impl/device_vector.ipp`, lines 260-295. -/
def implicit (s : DV α) (pos n : Nat) : DV α :=
  { s with mem := fun i =>
      if pos ≤ i ∧ i < pos + n ∧ i < s.cap then some ((s.mem i).getD (s.junk i)) else s.mem i }

/-- `bulk_append_implicit` and `bulk_append_implicit_unsafe`, impl/device_vector.ipp:259-294. -/
def bulkAppendImplicit (s : DV α) (n : Nat) : Res Nat × DV α :=
  if !s.hasSize then (.ub, s)
  else
    let (index, s) := s.fetchAdd n
    if s.dbg && !((index + n) % 2 ^ 32 ≤ s.cap) then (.ub, s)
    else (.ok index, s.implicit index n)

/-- `pop_back`, impl/device_vector.ipp:296-311. -/
def popBack (s : DV α) : Res Nat × DV α :=
  if !s.hasSize then (.ub, s)
  else
    let newSize := (s.sizeWord + 2 ^ 32 - 1) % 2 ^ 32
    let r := { s with sizeWord := newSize }.destruct newSize
    (r.1.map fun _ => newSize, r.2)

/-- `clear`, impl/device_vector.ipp:313-328. -/
def clear (s : DV α) : Res Unit × DV α :=
  if !s.hasSize then (.ub, s)
  else match s.destructs 0 s.sizeWord with
    | (.ok (), s) => (.ok (), { s with sizeWord := 0 })
    | e => e

/-- `assign`, impl/device_vector.ipp:155-173. -/
def assign (s : DV α) (count : Nat) (a : Arg α) : Res Unit × DV α :=
  if !s.hasSize then (.ub, s)
  else if s.dbg && !(s.cap ≥ count) then (.ub, s)
  else match s.clear with
    | (.ok (), s) => { s with sizeWord := count }.constructs 0 a count
    | e => e

/-- `resize(new_size, value)`, impl/device_vector.ipp:336-368. -/
def resize (s : DV α) (newSize : Nat) (a : Arg α) : Res Unit × DV α :=
  if !s.hasSize then (.ub, s)
  else
    let current := s.sizeWord
    if newSize = current then (.ok (), s)
    else
      let r := if newSize < current then s.destructs newSize (current - newSize)
               else s.constructs current a (newSize - current)
      match r with
      | (.ok (), s) => (.ok (), { s with sizeWord := newSize })
      | e => e

/-- `resize(new_size)`, impl/device_vector.ipp:330-334. -/
def resizeDefault (s : DV α) (newSize : Nat) : Res Unit × DV α := s.resize newSize (.val s.dflt)

/-- `resize_implicit` and `resize_implicit_unsafe`, impl/device_vector.ipp:370-396. -/
def resizeImplicit (s : DV α) (newSize : Nat) : Res Unit × DV α :=
  if !s.hasSize then (.ub, s)
  else if s.dbg && !(newSize ≤ s.cap) then (.ub, s)
  else (.ok (), { s.implicit s.sizeWord (newSize - s.sizeWord) with sizeWord := newSize })

/-- Read the object at `m_ptr[pos]`.
No counterpart in /repo: reading an object. -/
def deref (s : DV α) (pos : Nat) : Res α :=
  match s.mem pos with
  | none => .ub
  | some v => .ok v

/-- `at` (read), impl/device_vector.ipp:63-83. -/
def at_ (s : DV α) (pos : Nat) : Res α := if s.dbg && !(pos < s.size) then .ub else s.deref pos

/-- `operator[]` (read), impl/device_vector.ipp:85-99. -/
def index (s : DV α) (pos : Nat) : Res α := s.deref pos

/-- Assignment to the element referred to by `at` (`checked`) or `operator[]`.
Code: `core/include/vecmem/containers/impl/device_vector.ipp`, lines 64-100 (the references that are returned). -/
def write (s : DV α) (checked : Bool) (pos : Nat) (v : α) : Res Unit × DV α :=
  if checked && s.dbg && !(pos < s.size) then (.ub, s)
  else match s.mem pos with
    | none => (.ub, s)
    | some _ => (.ok (), s.put pos (some v))

/-- `front` (read), impl/device_vector.ipp:101-120. -/
def front (s : DV α) : Res α := if s.dbg && !(s.size > 0) then .ub else s.deref 0

/-- `back` (read), impl/device_vector.ipp:122-141. -/
def back (s : DV α) : Res α :=
  if s.dbg && !(s.size > 0) then .ub else s.deref ((s.size + 2 ^ 32 - 1) % 2 ^ 32)

/-- Read `n` elements from `pos` on, through a pointer that is incremented.
Code: `core/include/vecmem/containers/impl/device_vector.ipp`, lines 399-436 (the iterators are pointers). -/
def readFrom (s : DV α) (pos : Nat) : Nat → Res (List α)
  | 0 => .ok []
  | n + 1 =>
    match s.deref pos with
    | .ok v => (s.readFrom (pos + 1) n).map (v :: ·)
    | e => e.map fun _ => []

/-- Iteration from `begin()` to `end()`, impl/device_vector.ipp:398-428. -/
def iterate (s : DV α) : Res (List α) := s.readFrom 0 s.size

/-- Read `n` elements backwards: a `reverse_iterator` holding `pos` refers to the element before it
(impl/reverse_iterator.ipp:58-87), and is incremented by decrementing `pos`. -/
def readBack (s : DV α) (pos : Nat) : Nat → Res (List α)
  | 0 => .ok []
  | n + 1 =>
    match s.deref (pos - 1) with
    | .ok v => (s.readBack (pos - 1) n).map (v :: ·)
    | e => e.map fun _ => []

/-- Iteration from `rbegin()` to `rend()`, impl/device_vector.ipp:437-468. -/
def iterateBack (s : DV α) : Res (List α) := s.readBack s.size s.size

end DV

/-- An operation of a client.
No counterpart in /repo: programs of users. -/
inductive DVOp (α : Type) where
  | push (a : Arg α)
  | emplace (a : Arg α)
  | bulk (n : Nat)
  | bulkValue (n : Nat) (a : Arg α)
  | bulkImplicit (n : Nat)
  | pop
  | clear
  | resize (n : Nat)
  | resizeValue (n : Nat) (a : Arg α)
  | resizeImplicit (n : Nat)
  | assign (n : Nat) (a : Arg α)
  | at_ (i : Nat)
  | index (i : Nat)
  | write (checked : Bool) (i : Nat) (v : α)
  | front
  | back
  | size
  | empty
  | capacity
  | iterate
  | iterateBack

/-- What an operation returns.
No counterpart in /repo: programs of users. -/
inductive Ret (α : Type) where
  | unit
  | num (n : Nat)
  | bool (b : Bool)
  | val (v : α)
  | vals (l : List α)
deriving DecidableEq, Repr

/-- Run an operation.
No counterpart in /repo: programs of users. -/
def DV.step (s : DV α) : DVOp α → Res (Ret α) × DV α
  | .push a => let r := s.pushBack a; (r.1.map .num, r.2)
  | .emplace a => let r := s.emplaceBack a; (r.1.map .num, r.2)
  | .bulk n => let r := s.bulkAppendDefault n; (r.1.map .num, r.2)
  | .bulkValue n a => let r := s.bulkAppend n a; (r.1.map .num, r.2)
  | .bulkImplicit n => let r := s.bulkAppendImplicit n; (r.1.map .num, r.2)
  | .pop => let r := s.popBack; (r.1.map .num, r.2)
  | .clear => let r := s.clear; (r.1.map fun _ => .unit, r.2)
  | .resize n => let r := s.resizeDefault n; (r.1.map fun _ => .unit, r.2)
  | .resizeValue n a => let r := s.resize n a; (r.1.map fun _ => .unit, r.2)
  | .resizeImplicit n => let r := s.resizeImplicit n; (r.1.map fun _ => .unit, r.2)
  | .assign n a => let r := s.assign n a; (r.1.map fun _ => .unit, r.2)
  | .at_ i => ((s.at_ i).map .val, s)
  | .index i => ((s.index i).map .val, s)
  | .write c i v => let r := s.write c i v; (r.1.map fun _ => .unit, r.2)
  | .front => (s.front.map .val, s)
  | .back => (s.back.map .val, s)
  | .size => (.ok (.num s.size), s)
  | .empty => (.ok (.bool (s.size == 0)), s)
  | .capacity => (.ok (.num s.cap), s)
  | .iterate => (s.iterate.map .vals, s)
  | .iterateBack => (s.iterateBack.map .vals, s)

/-- Run a program.
No counterpart in /repo: programs of users. -/
def DV.run (s : DV α) : List (DVOp α) → List (Res (Ret α)) × DV α
  | [] => ([], s)
  | op :: ops => let r := s.step op; let rs := r.2.run ops; (r.1 :: rs.1, rs.2)

end Vecmem
