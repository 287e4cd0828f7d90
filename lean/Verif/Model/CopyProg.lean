import Verif.Model.Bytes
import Verif.Spec.Resource

/-!
# Host programs that use a `vecmem::copy` object

The functions of `vecmem::copy` are written once, in terms of three virtual functions: `do_copy`, `do_memset` and
`create_event` (utils/copy.hpp:238-247).  Their model is a program of such operations, `Prog`, which is given its meaning
by a second definition: `Prog.run` for the implementation in core/src/utils/copy.cpp, which executes operations
immediately, and `Model/AsyncCopy` for implementations on a stream.

Variables of the host functions (like the `size` that is copied from or to the device) are kept apart from the rest of
the memory, on a stack of variables.
-/

namespace Vecmem

/-- A variable of a host function: its size, and its bytes.
No counterpart in /repo: host programs as data, so that asynchronous executions can be described. -/
structure Local where
  size : Nat
  bytes : Mem

/-- The memory, the stack of variables of host functions (the last one is the youngest), and the number of operations
executed so far.
No counterpart in /repo: host programs as data, so that asynchronous executions can be described. -/
structure DState where
  mem : Mem
  locals : List Local
  done : Nat

/-- The operations that are given to `do_copy` and `do_memset`: copies from memory to memory, setting memory to a value,
copies from memory into a variable (at an offset), and copies from a variable into memory.  And, for programs of users, kernels:
a kernel reads and writes the bytes at the addresses in `reads` and `writes`, and computes what it writes with `f` (`none`: it
does something undefined).
Code: `core/include/vecmem/utils/copy.hpp` (`do_copy`, `do_memset`). -/
inductive COp where
  | copy (n src dst : Nat)
  | memset (n dst : Nat) (v : UInt8)
  | fetch (slot off n src : Nat)
  | store (slot off n dst : Nat)
  | kernel (reads writes : Nat → Bool) (f : Mem → Option Mem)

/-- `memcpy` of `n` bytes from `src` to `dst` is undefined if the ranges overlap.
Code: `memcpy` in `core/src/utils/copy.cpp`, line 31. -/
def overlap (n src dst : Nat) : Prop := src < dst + n ∧ dst < src + n

instance (n src dst : Nat) : Decidable (overlap n src dst) := by unfold overlap; infer_instance

/-- Write the first bytes of a variable, starting at an offset.
No counterpart in /repo: host programs as data, so that asynchronous executions can be described. -/
def memPut (m : Mem) (dst n : Nat) (b : Mem) (off : Nat) : Mem :=
  fun x => if dst ≤ x ∧ x < dst + n then b (off + (x - dst)) else m x

/-- The memory as a kernel sees it.
No counterpart in /repo: what a kernel of a user may see. -/
def kernelMem (m : Mem) (reads writes : Nat → Bool) : Mem := fun x => if reads x || writes x then m x else 0

/-- Execute an operation: `copy::do_copy` and `copy::do_memset`, core/src/utils/copy.cpp:27-49.  `none` is undefined
behaviour. -/
def COp.exec (s : DState) : COp → Option DState
  | .copy n src dst =>
    if overlap n src dst then none else some { s with mem := memCopy s.mem dst src n, done := s.done + 1 }
  | .memset n dst v => some { s with mem := memFill s.mem dst v n, done := s.done + 1 }
  | .fetch slot off n src =>
    match s.locals[slot]? with
    | some l =>
      if off + n ≤ l.size then
        some { s with locals := s.locals.set slot ⟨l.size, memPut l.bytes off n s.mem src⟩, done := s.done + 1 }
      else none
    | none => none
  | .store slot off n dst =>
    match s.locals[slot]? with
    | some l => if off + n ≤ l.size then some { s with mem := memPut s.mem dst n l.bytes off, done := s.done + 1 } else none
    | none => none
  | .kernel reads writes f =>
    (f (kernelMem s.mem reads writes)).map fun m =>
      { s with mem := fun x => if writes x then m x else s.mem x, done := s.done + 1 }

/-- A host program that returns a value: issue an operation, create an event, wait for an event, make a variable, read a
variable, end the life of the youngest variable, and, for programs of users, read or write memory directly.
No counterpart in /repo: host programs as data, so that asynchronous executions can be described. -/
inductive Prog (β : Type) where
  | ret (r : Res β)
  | issue (op : COp) (k : Prog β)
  | event (k : Nat → Prog β)
  | wait (e : Nat) (k : Prog β)
  | new (l : Local) (k : Nat → Prog β)
  | read (slot : Nat) (k : Mem → Prog β)
  | drop (k : Prog β)
  | load (p n : Nat) (k : Mem → Prog β)
  | poke (p n : Nat) (b : Mem) (k : Prog β)

namespace Prog

variable {β γ : Type}

/-- One program after the other; exceptions are passed on.
No counterpart in /repo: host programs as data, so that asynchronous executions can be described. -/
def bind (f : β → Prog γ) : Prog β → Prog γ
  | .ret (.ok b) => f b
  | .ret .badAlloc => .ret .badAlloc
  | .ret .logicError => .ret .logicError
  | .ret .lengthError => .ret .lengthError
  | .ret .invalidArgument => .ret .invalidArgument
  | .ret .outOfRange => .ret .outOfRange
  | .ret .runtimeError => .ret .runtimeError
  | .ret .ub => .ret .ub
  | .issue op k => .issue op (bind f k)
  | .event k => .event fun e => bind f (k e)
  | .wait e k => .wait e (bind f k)
  | .new l k => .new l fun s => bind f (k s)
  | .read s k => .read s fun b => bind f (k b)
  | .drop k => .drop (bind f k)
  | .load p n k => .load p n fun b => bind f (k b)
  | .poke p n b k => .poke p n b (bind f k)

/-- End the life of the youngest variable when the program ends, also if it ends with an exception.
No counterpart in /repo: host programs as data, so that asynchronous executions can be described. -/
def thenDrop : Prog β → Prog β
  | .ret r => .drop (.ret r)
  | .issue op k => .issue op (thenDrop k)
  | .event k => .event fun e => thenDrop (k e)
  | .wait e k => .wait e (thenDrop k)
  | .new l k => .new l fun s => thenDrop (k s)
  | .read s k => .read s fun b => thenDrop (k b)
  | .drop k => .drop (thenDrop k)
  | .load p n k => .load p n fun b => thenDrop (k b)
  | .poke p n b k => .poke p n b (thenDrop k)

/-- A block with a variable.
No counterpart in /repo: host programs as data, so that asynchronous executions can be described. -/
def scope (l : Local) (body : Nat → Prog β) : Prog β := .new l fun s => thenDrop (body s)

/-- `create_event()->wait()`.
Code: `core/include/vecmem/utils/impl/copy.ipp`, line 133, for example. -/
def sync (k : Prog β) : Prog β := .event fun e => .wait e k

/-- `return create_event();`: an event is represented by the number of operations it waits for.
Code: `core/include/vecmem/utils/impl/copy.ipp`, line 45, for example. -/
def retEvent : Prog Nat := .event fun e => .ret (.ok e)

/-- `return vecmem::copy::create_event();`, an event that waits for nothing.
Code: `core/include/vecmem/utils/impl/copy.ipp`, line 33, for example. -/
def retNoEvent : Prog Nat := .ret (.ok 0)

/-- Run a program with the operations of `vecmem::copy` itself, which are executed immediately; events do nothing
(core/src/utils/copy.cpp:18-21, 51-55). -/
def run : Prog β → DState → Res β × DState
  | .ret r, s => (r, s)
  | .issue op k, s =>
    match op.exec s with
    | some t => k.run t
    | none => (.ub, s)
  | .event k, s => (k s.done).run s
  | .wait _ k, s => k.run s
  | .new l k, s => (k s.locals.length).run { s with locals := s.locals ++ [l] }
  | .read i k, s =>
    match s.locals[i]? with
    | some l => (k l.bytes).run s
    | none => (.ub, s)
  | .drop k, s => k.run { s with locals := s.locals.dropLast }
  | .load p n k, s => (k (fun i => if i < n then s.mem (p + i) else 0)).run s
  | .poke p n b k, s => k.run { s with mem := memPut s.mem p n b 0 }

/-- The outcome, without the value, and the memory afterwards.
No counterpart in /repo: host programs as data, so that asynchronous executions can be described. -/
def result (p : Prog β) (m : Mem) : Res Unit × Mem :=
  let r := p.run ⟨m, [], 0⟩
  (r.1.map fun _ => (), r.2.mem)

/-- The outcome.
No counterpart in /repo: host programs as data, so that asynchronous executions can be described. -/
def value (p : Prog β) (m : Mem) : Res β := (p.run ⟨m, [], 0⟩).1

end Prog

end Vecmem
