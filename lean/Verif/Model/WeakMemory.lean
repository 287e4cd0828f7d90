import Verif.Spec.WeakMemory
import Verif.Model.Atomics

/-!
# Model of the atomic references on weak memory

The memory is that of the release/acquire fragment of C++ with fences, in its operational form: a variable has all the
values written to it, at the positions of its modification order; a thread may read any of them that is not older than what
it knows of the variable.  What a thread knows is a position for every variable.  A write carries what a reader learns from it: everything
its thread knew, if it releases; what the thread knew at its last fence, if it does not.  A reader learns it at once if it
acquires, at its next fence if it does not.  Fences are ordered one after the other, and each learns what the ones before knew.

Simplifications: an access of the modelled code is one access of this memory; a thread never reads a value that will be written later
(load buffering); accesses without memory order are allowed to race, and teach nothing; the strongest order is taken as
acquire and release only, so nothing is claimed from it beyond that, except by the fences.
-/

namespace Vecmem

variable {w : Nat}

/-- Positions in the modification orders of all variables.
No counterpart in /repo: the memory. -/
abbrev Front := Nat → Nat

namespace Front

/-- The later of the positions.
No counterpart in /repo: the memory. -/
def join (f g : Front) : Front := fun a => max (f a) (g a)

/-- One position.
No counterpart in /repo: the memory. -/
def one (a t : Nat) : Front := fun b => if b = a then t else 0

/-- What is added under a condition.
No counterpart in /repo: the memory. -/
def joinIf (b : Bool) (f g : Front) : Front := if b then f.join g else f

end Front

/-- A value in the memory, with what a reader can learn from it.
No counterpart in /repo: the memory. -/
structure WMsg (w : Nat) where
  val : BitVec w
  front : Front

/-- The access of an instruction: a load, a store, an atomic update (which may leave the value as it is, so it only reads), or an ordinary
load or store.  `acq` and `rel` say whether it acquires and releases.
No counterpart in /repo: the instructions. -/
inductive WAcc (w : Nat) where
  | load (acq : Bool)
  | store (x : BitVec w) (rel : Bool)
  | update (f : BitVec w → Option (BitVec w)) (acq rel acqFailed : Bool)
  | plainLoad
  | plainStore (x : BitVec w)

/-- What an operation does: one access, perhaps with fences before and after it.
No counterpart in /repo: the instructions. -/
structure WCode (w : Nat) where
  before : Bool
  acc : WAcc w
  after : Bool

/-- An implementation: the instructions of each operation; `none`, if the operation must not be called like this.
No counterpart in /repo: the instructions. -/
abbrev WImpl (w : Nat) := WCall w → Option (WCode w)

/-! ## the implementations -/

/-- A memory order of the built-in functions acquires.
Code: `core/include/vecmem/memory/impl/posix_device_atomic_ref.ipp`, lines 19-38 (the constants `__ATOMIC_...`; `__ATOMIC_CONSUME` is not
taken to acquire). -/
def orderAcq : MemOrder → Bool
  | .acquire | .acqRel | .seqCst => true
  | _ => false

/-- A memory order of the built-in functions releases.
Code: `core/include/vecmem/memory/impl/posix_device_atomic_ref.ipp`, lines 19-38 (the constants `__ATOMIC_...`). -/
def orderRel : MemOrder → Bool
  | .release | .acqRel | .seqCst => true
  | _ => false

/-- `memorder_to_posix_builtin`, impl/posix_device_atomic_ref.ipp:19-38; the built-in orders have the names of the others. -/
def builtinOrder : MemOrder → MemOrder
  | .relaxed => .relaxed
  | .consume => .consume
  | .acquire => .acquire
  | .release => .release
  | .acqRel => .acqRel
  | .seqCst => .seqCst

/-- `__atomic_store_n`: not with the orders for loads.
Code: called in `core/include/vecmem/memory/impl/posix_device_atomic_ref.ipp`, lines 60-65. -/
def builtinStore (x : BitVec w) (o : MemOrder) : Option (WCode w) :=
  if o = .consume ∨ o = .acquire ∨ o = .acqRel then none else some ⟨false, .store x (orderRel o), false⟩

/-- `__atomic_load_n`: not with the orders for stores.
Code: called in `core/include/vecmem/memory/impl/posix_device_atomic_ref.ipp`, lines 67-72. -/
def builtinLoad (o : MemOrder) : Option (WCode w) :=
  if o = .release ∨ o = .acqRel then none else some ⟨false, .load (orderAcq o), false⟩

/-- `__atomic_exchange_n`, `__atomic_fetch_add` and so on.
Code: called in `core/include/vecmem/memory/impl/posix_device_atomic_ref.ipp`, lines 74-80 and 110-149. -/
def builtinUpdate (f : BitVec w → BitVec w) (o : MemOrder) : Option (WCode w) :=
  some ⟨false, .update (fun v => some (f v)) (orderAcq o) (orderRel o) (orderAcq o), false⟩

/-- `__atomic_compare_exchange_n`.
Code: called in `core/include/vecmem/memory/impl/posix_device_atomic_ref.ipp`, lines 97-108. -/
def builtinCompare (e d : BitVec w) (s f : MemOrder) : Option (WCode w) :=
  some ⟨false, .update (fun v => if v = e then some d else none) (orderAcq s) (orderRel s) (orderAcq f), false⟩

/-- `compare_exchange_strong` with two orders, impl/posix_device_atomic_ref.ipp:97-108. -/
def posixCompare (e d : BitVec w) (s f : MemOrder) : Option (WCode w) :=
  if casAssertion f then builtinCompare e d (builtinOrder s) (builtinOrder f) else none

/-- `posix_device_atomic_ref`, impl/posix_device_atomic_ref.ipp:60-149, with the default orders of
details/posix_device_atomic_ref.hpp:75-123.  Other accesses are ordinary ones. -/
def posixWeak : WImpl w
  | .read => some ⟨false, .plainLoad, false⟩
  | .write x => some ⟨false, .plainStore x, false⟩
  | .atomic (.store data) o => builtinStore data (builtinOrder (o.getD .seqCst))
  | .atomic .load o => builtinLoad (builtinOrder (o.getD .seqCst))
  | .atomic (.exchange data) o => builtinUpdate (fun _ => data) (builtinOrder (o.getD .seqCst))
  | .atomic (.compareExchange e d) o => posixCompare e d (casOrders (o.getD .seqCst)).1 (casOrders (o.getD .seqCst)).2
  | .atomic (.fetchAdd data) o => builtinUpdate (fun v => v + data) (builtinOrder (o.getD .seqCst))
  | .atomic (.fetchSub data) o => builtinUpdate (fun v => v + -data) (builtinOrder (o.getD .seqCst))
  | .atomic (.fetchAnd data) o => builtinUpdate (fun v => v &&& data) (builtinOrder (o.getD .seqCst))
  | .atomic (.fetchOr data) o => builtinUpdate (fun v => v ||| data) (builtinOrder (o.getD .seqCst))
  | .atomic (.fetchXor data) o => builtinUpdate (fun v => v ^^^ data) (builtinOrder (o.getD .seqCst))
  | .compareExchange2 e d s f => posixCompare e d s f

/-- `atomicExch`, `atomicAdd` and so on: without order.
Code: called in `core/include/vecmem/memory/impl/cuda_device_atomic_ref.ipp`, lines 69-74 and 113-146. -/
def gpuUpdate (f : BitVec w → BitVec w) : Option (WCode w) :=
  some ⟨false, .update (fun v => some (f v)) false false false, false⟩

/-- `compare_exchange_strong` with two orders, of which the second one is looked at in the assertion only,
impl/cuda_device_atomic_ref.ipp:92-111; `atomicCAS` is without order. -/
def gpuCompare (e d : BitVec w) (_s f : MemOrder) : Option (WCode w) :=
  if casAssertion f then some ⟨false, .update (fun v => if v = e then some d else none) false false false, false⟩ else none

/-- `cuda::device_atomic_ref` and `hip::device_atomic_ref` in device code, impl/cuda_device_atomic_ref.ipp:47-146: stores and loads have
fences around them, whatever the order, and the other operations have none.  The accesses `*addr` of 52 and 61 are taken as accesses which
cannot be divided, but without order; in the language they are ordinary accesses, as `volatile pointer` makes the pointer volatile and not the
variable.  `vecmem::atomic` in device code (impl/atomic.ipp:40-193, first branches) does the same. -/
def cudaWeak : WImpl w
  | .read => some ⟨false, .plainLoad, false⟩
  | .write x => some ⟨false, .plainStore x, false⟩
  | .atomic (.store data) _ => some ⟨true, .store data false, false⟩
  | .atomic .load _ => some ⟨true, .load false, true⟩
  | .atomic (.exchange data) _ => gpuUpdate (fun _ => data)
  | .atomic (.compareExchange e d) o => gpuCompare e d (casOrders (o.getD .seqCst)).1 (casOrders (o.getD .seqCst)).2
  | .atomic (.fetchAdd data) _ => gpuUpdate (fun v => v + data)
  | .atomic (.fetchSub data) _ => gpuUpdate (fun v => v - data)
  | .atomic (.fetchAnd data) _ => gpuUpdate (fun v => v &&& data)
  | .atomic (.fetchOr data) _ => gpuUpdate (fun v => v ||| data)
  | .atomic (.fetchXor data) _ => gpuUpdate (fun v => v ^^^ data)
  | .compareExchange2 e d s f => gpuCompare e d s f

/-- `sycl::custom_device_atomic_ref`, impl/sycl_custom_device_atomic_ref.ipp:82-168: the orders are not passed on, and the default
order of the functions `sycl::atomic_...` is the relaxed one. -/
def syclWeak : WImpl w
  | .read => some ⟨false, .plainLoad, false⟩
  | .write x => some ⟨false, .plainStore x, false⟩
  | .atomic (.store data) _ => some ⟨false, .store data false, false⟩
  | .atomic .load _ => some ⟨false, .load false, false⟩
  | .atomic (.exchange data) _ => gpuUpdate (fun _ => data)
  | .atomic (.compareExchange e d) o => gpuCompare e d (casOrders (o.getD .seqCst)).1 (casOrders (o.getD .seqCst)).2
  | .atomic (.fetchAdd data) _ => gpuUpdate (fun v => v + data)
  | .atomic (.fetchSub data) _ => gpuUpdate (fun v => v - data)
  | .atomic (.fetchAnd data) _ => gpuUpdate (fun v => v &&& data)
  | .atomic (.fetchOr data) _ => gpuUpdate (fun v => v ||| data)
  | .atomic (.fetchXor data) _ => gpuUpdate (fun v => v ^^^ data)
  | .compareExchange2 e d s f => gpuCompare e d s f

/-- `sycl::builtin_device_atomic_ref`, details/sycl_builtin_device_atomic_ref.hpp:28-56: `sycl::atomic_ref` with the relaxed order as its
default.  The functions are taken to have the orders that they are given, as the built-in functions above. -/
def syclBuiltinWeak : WImpl w
  | .atomic op o => posixWeak (.atomic op (some (o.getD .relaxed)))
  | c => posixWeak c

/-! ## the machine -/

/-- What a thread is doing: nothing; it has an operation in front of it, its fence first, or its access; or the last fence of an
operation.
No counterpart in /repo: threads and their interleaving. -/
inductive WPhase (w : Nat) where
  | idle
  | fencing (addr : Nat) (call : WCall w) (code : WCode w)
  | accessing (addr : Nat) (call : WCall w) (code : WCode w)
  | leaving

/-- The memory and the threads.  A thread knows `cur`; it will know `acq` at its next fence, and it knew `rel` at its last one.  `sc` is what the
fences know.
No counterpart in /repo: threads and their interleaving. -/
structure WSys (w : Nat) where
  mem : Nat → Nat → Option (WMsg w)
  cur : Nat → Front
  acq : Nat → Front
  rel : Nat → Front
  sc : Front
  phase : Nat → WPhase w
  trace : WTrace w

namespace WSys

/-- Set the value of a thread.
No counterpart in /repo: threads and their interleaving. -/
def set {α : Type} (f : Nat → α) (i : Nat) (x : α) : Nat → α := fun j => if j = i then x else f j

/-- The variables have initial values, and the threads are idle.
No counterpart in /repo: threads and their interleaving. -/
def start (m : AMem w) : WSys w where
  mem a t := if t = 0 then some ⟨m a, fun _ => 0⟩ else none
  cur _ _ := 0
  acq _ _ := 0
  rel _ _ := 0
  sc _ := 0
  phase _ := .idle
  trace := []

/-- Put a value in the memory.
No counterpart in /repo: the memory. -/
def put (mem : Nat → Nat → Option (WMsg w)) (a t : Nat) (m : WMsg w) : Nat → Nat → Option (WMsg w) :=
  fun b u => if b = a ∧ u = t then some m else mem b u

/-- What follows the access of an operation.
No counterpart in /repo: threads and their interleaving. -/
def next (code : WCode w) : WPhase w := if code.after then .leaving else .idle

/-- A fence.
No counterpart in /repo: the memory. -/
def fence (s : WSys w) (i : Nat) (p : WPhase w) : WSys w :=
  let f := s.sc.join (s.acq i)
  { s with sc := f, cur := set s.cur i f, acq := set s.acq i f, rel := set s.rel i f, phase := set s.phase i p }

/-- The state after a read of the message `m` at position `t`.
No counterpart in /repo: the memory. -/
def readAt (s : WSys w) (i a t : Nat) (m : WMsg w) (acq : Bool) (c : WCall w) (p : WPhase w) : WSys w :=
  { s with
    cur := set s.cur i (Front.joinIf acq ((s.cur i).join (Front.one a t)) m.front)
    acq := set s.acq i (((s.acq i).join (Front.one a t)).join m.front)
    phase := set s.phase i p
    trace := s.trace ++ [⟨i, a, c, some (t, m.val), none⟩] }

/-- The state after a write of `x` at position `t`.
No counterpart in /repo: the memory. -/
def writeAt (s : WSys w) (i a t : Nat) (x : BitVec w) (rel : Bool) (c : WCall w) (p : WPhase w) : WSys w :=
  { s with
    mem := put s.mem a t ⟨x, (if rel then s.cur i else s.rel i).join (Front.one a t)⟩
    cur := set s.cur i ((s.cur i).join (Front.one a t))
    acq := set s.acq i ((s.acq i).join (Front.one a t))
    phase := set s.phase i p
    trace := s.trace ++ [⟨i, a, c, none, some (t, x)⟩] }

/-- The state after an update of the message `m` at position `t` to `x`, which comes directly after it.
No counterpart in /repo: the memory. -/
def updateAt (s : WSys w) (i a t : Nat) (m : WMsg w) (x : BitVec w) (acq rel : Bool) (c : WCall w) (p : WPhase w) : WSys w :=
  let known := (Front.joinIf acq (s.cur i) m.front).join (Front.one a (t + 1))
  { s with
    mem := put s.mem a (t + 1) ⟨x, ((if rel then known else s.rel i).join (Front.one a (t + 1))).join m.front⟩
    cur := set s.cur i known
    acq := set s.acq i (((s.acq i).join (Front.one a (t + 1))).join m.front)
    phase := set s.phase i p
    trace := s.trace ++ [⟨i, a, c, some (t, m.val), some (t + 1, x)⟩] }

/-- The state after an ordinary read, from which nothing is learned.
No counterpart in /repo: the memory. -/
def plainReadAt (s : WSys w) (i a t : Nat) (m : WMsg w) (c : WCall w) (p : WPhase w) : WSys w :=
  { s with
    cur := set s.cur i ((s.cur i).join (Front.one a t))
    acq := set s.acq i ((s.acq i).join (Front.one a t))
    phase := set s.phase i p
    trace := s.trace ++ [⟨i, a, c, some (t, m.val), none⟩] }

/-- The state after an ordinary write, from which nothing can be learned.
No counterpart in /repo: the memory. -/
def plainWriteAt (s : WSys w) (i a t : Nat) (x : BitVec w) (c : WCall w) (p : WPhase w) : WSys w :=
  { s with
    mem := put s.mem a t ⟨x, Front.one a t⟩
    cur := set s.cur i ((s.cur i).join (Front.one a t))
    acq := set s.acq i ((s.acq i).join (Front.one a t))
    phase := set s.phase i p
    trace := s.trace ++ [⟨i, a, c, none, some (t, x)⟩] }

/-- The steps of thread `i`.  It can call any operation on any variable when it is idle.
No counterpart in /repo: threads and their interleaving. -/
inductive Step (I : WImpl w) : WSys w → WSys w → Prop
  | call (s : WSys w) (i a : Nat) (c : WCall w) (code : WCode w) (_ : s.phase i = .idle) (_ : I c = some code) :
      Step I s { s with phase := set s.phase i (if code.before then .fencing a c code else .accessing a c code) }
  | fence (s : WSys w) (i a : Nat) (c : WCall w) (code : WCode w) (_ : s.phase i = .fencing a c code) :
      Step I s (s.fence i (.accessing a c code))
  | leave (s : WSys w) (i : Nat) (_ : s.phase i = .leaving) : Step I s (s.fence i .idle)
  | load (s : WSys w) (i a t : Nat) (c : WCall w) (code : WCode w) (acq : Bool) (m : WMsg w)
      (_ : s.phase i = .accessing a c code) (_ : code.acc = .load acq) (_ : s.cur i a ≤ t) (_ : s.mem a t = some m) :
      Step I s (s.readAt i a t m acq c (next code))
  | store (s : WSys w) (i a t : Nat) (c : WCall w) (code : WCode w) (x : BitVec w) (rel : Bool)
      (_ : s.phase i = .accessing a c code) (_ : code.acc = .store x rel) (_ : s.cur i a < t) (_ : s.mem a t = none) :
      Step I s (s.writeAt i a t x rel c (next code))
  | update (s : WSys w) (i a t : Nat) (c : WCall w) (code : WCode w) (f : BitVec w → Option (BitVec w)) (acq rel acqF : Bool)
      (m : WMsg w) (x : BitVec w)
      (_ : s.phase i = .accessing a c code) (_ : code.acc = .update f acq rel acqF) (_ : s.cur i a ≤ t) (_ : s.mem a t = some m)
      (_ : f m.val = some x) (_ : s.mem a (t + 1) = none) :
      Step I s (s.updateAt i a t m x acq rel c (next code))
  | keep (s : WSys w) (i a t : Nat) (c : WCall w) (code : WCode w) (f : BitVec w → Option (BitVec w)) (acq rel acqF : Bool)
      (m : WMsg w)
      (_ : s.phase i = .accessing a c code) (_ : code.acc = .update f acq rel acqF) (_ : s.cur i a ≤ t) (_ : s.mem a t = some m)
      (_ : f m.val = none) :
      Step I s (s.readAt i a t m acqF c (next code))
  | plainLoad (s : WSys w) (i a t : Nat) (c : WCall w) (code : WCode w) (m : WMsg w)
      (_ : s.phase i = .accessing a c code) (_ : code.acc = .plainLoad) (_ : s.cur i a ≤ t) (_ : s.mem a t = some m) :
      Step I s (s.plainReadAt i a t m c (next code))
  | plainStore (s : WSys w) (i a t : Nat) (c : WCall w) (code : WCode w) (x : BitVec w)
      (_ : s.phase i = .accessing a c code) (_ : code.acc = .plainStore x) (_ : s.cur i a < t) (_ : s.mem a t = none) :
      Step I s (s.plainWriteAt i a t x c (next code))

/-- The states that threads can reach.
No counterpart in /repo: threads and their interleaving. -/
inductive Reach (I : WImpl w) (m : AMem w) : WSys w → Prop
  | start : Reach I m (start m)
  | step {s s' : WSys w} (_ : Reach I m s) (_ : Step I s s') : Reach I m s'

end WSys

end Vecmem
