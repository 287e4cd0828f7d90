import Verif.Model.WeakMemory

/-!
# Model of appends to a vector, or to a container, on weak memory

The threads run programs on the machine of `Model/WeakMemory`: what a thread does next may depend on all that it has read.  The programs call
the functions of a vector, or of a container, which append, and do other accesses.  The size and the elements are variables of the machine; the elements are
words, and an element is written by one access (simplification).
-/

namespace Vecmem

variable {w : Nat}

/-- A program of accesses, which continues with the value read.  It has ended; an assertion has failed; or it makes an access.
No counterpart in /repo: programs. -/
inductive WProg (w : Nat) where
  | done
  | failed
  | act (addr : Nat) (call : WCall w) (next : Option (BitVec w) → WProg w)

/-- A vector or container on the device: the variable with the size, the variables of the elements of each variable of the container
(of a vector, there is one, variable 0), its capacity, and whether assertions are enabled.
Code: `core/include/vecmem/containers/device_vector.hpp` (members `m_capacity`, `m_size`, `m_ptr`); `core/include/vecmem/edm/device.hpp`. -/
structure WVec where
  size : Nat
  cell : Nat → Nat → Nat
  cap : Nat
  dbg : Bool

/-- A call that appends: by how much it increases the size, whether the assertion is that of one element, and what it then stores: to which
variable of the container, at which place from the first new one on, which value.
No counterpart in /repo: what follows has its instances. -/
structure WAppend (w : Nat) where
  count : Nat
  single : Bool
  stores : List (Nat × Nat × BitVec w)

namespace WAppend

/-- `push_back` and `emplace_back`, impl/device_vector.ipp:175-214. -/
def push (x : BitVec w) : WAppend w := ⟨1, true, [(0, 0, x)]⟩

/-- `bulk_append`, impl/device_vector.ipp:216-257. -/
def bulk (n : Nat) (x : BitVec w) : WAppend w := ⟨n, false, (List.range n).map fun j => (0, j, x)⟩

/-- `bulk_append_implicit` and `bulk_append_implicit_unsafe`, impl/device_vector.ipp:259-294. -/
def bulkImplicit (n : Nat) : WAppend w := ⟨n, false, []⟩

/-- `push_back_default` of a container, edm/impl/device.ipp:55-84 and 162-191, and then assignments to variables of the element at the
index that it returns.  `vectors` are the variables that are vectors, with their default values. -/
def record (vectors : List (Nat × BitVec w)) (assigns : List (Nat × BitVec w)) : WAppend w :=
  ⟨1, true, (vectors ++ assigns).map fun x => (x.1, 0, x.2)⟩

/-- The assertion behind the `fetch_add`: impl/device_vector.ipp:187, 207 (`index < m_capacity`), 228, 250, 273, 291
(`(index + n) <= m_capacity`, with the width of the size); edm/impl/device.ipp:77.  That of `construct`, impl/device_vector.ipp:516, says no more
for the places that the calls store at, and is left out (simplification). -/
def check (c : WAppend w) (cap index : Nat) : Bool :=
  if c.single then decide (index < cap) else decide ((index + c.count) % 2 ^ w ≤ cap)

end WAppend

/-- The stores of a call one after the other.
Code: `core/include/vecmem/containers/impl/device_vector.ipp`, lines 190, 209-210, 230-232 and 252-254; `core/include/vecmem/edm/impl/device.ipp`,
lines 162-191. -/
def WVec.stores (V : WVec) (index : Nat) (k : WProg w) : List (Nat × Nat × BitVec w) → WProg w
  | [] => k
  | (v, j, x) :: l => .act (V.cell v ((index + j) % 2 ^ w)) (.write x) fun _ => V.stores index k l

/-- What a thread does with a vector: nothing more; an access; or a call that appends, which returns the index.
No counterpart in /repo: programs of users. -/
inductive WTask (w : Nat) where
  | done
  | access (addr : Nat) (call : WCall w) (next : Option (BitVec w) → WTask w)
  | append (c : WAppend w) (next : Nat → WTask w)

/-- The accesses of a program: an appending call is `fetch_add` on the size with its default order, the assertion, and the stores.
Code: `core/include/vecmem/containers/impl/device_vector.ipp`, lines 175-294; `core/include/vecmem/edm/impl/device.ipp`, lines 55-84. -/
def WTask.code (V : WVec) : WTask w → WProg w
  | .done => .done
  | .access a c next => .act a c fun r => (next r).code V
  | .append c next => .act V.size (.atomic (.fetchAdd (BitVec.ofNat w c.count)) none) fun r =>
      if V.dbg && !c.check V.cap (r.getD 0).toNat then .failed
      else V.stores (r.getD 0).toNat ((next (r.getD 0).toNat).code V) c.stores

/-- The machine and the rest of the program of each thread.
No counterpart in /repo: threads and their interleaving. -/
structure WRun (w : Nat) where
  sys : WSys w
  prog : Nat → WProg w

namespace WRun

/-- A thread is in the middle of an operation.
No counterpart in /repo: threads and their interleaving. -/
def Doing (s : WSys w) (i a : Nat) (c : WCall w) : Prop := ∃ code, s.phase i = .fencing a c code ∨ s.phase i = .accessing a c code

/-- A step of the machine that agrees with the programs: a thread is only in the middle of the operation that its program has next, and the program
continues when the access is made.
No counterpart in /repo: threads and their interleaving. -/
inductive Step (I : WImpl w) : WRun w → WRun w → Prop
  | quiet (s : WRun w) (s' : WSys w) (_ : s.sys.Step I s') (_ : s'.trace = s.sys.trace)
      (_ : ∀ i a c, Doing s' i a c → ∃ next, s.prog i = .act a c next) : Step I s { s with sys := s' }
  | access (s : WRun w) (s' : WSys w) (e : WEvent w) (next : Option (BitVec w) → WProg w) (_ : s.sys.Step I s')
      (_ : s'.trace = s.sys.trace ++ [e]) (_ : s.prog e.thread = .act e.addr e.call next) :
      Step I s { sys := s', prog := WSys.set s.prog e.thread (next (e.read.map (·.2))) }

/-- The states that the programs can reach.
No counterpart in /repo: threads and their interleaving. -/
inductive Reach (I : WImpl w) (m : AMem w) (progs : Nat → WProg w) : WRun w → Prop
  | start : Reach I m progs ⟨.start m, progs⟩
  | step {s s' : WRun w} (_ : Reach I m progs s) (_ : Step I s s') : Reach I m progs s'

end WRun

end Vecmem
