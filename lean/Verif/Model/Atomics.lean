import Verif.Spec.Atomics

/-!
# Model of the atomic references

An implementation of the operations is a program for each of them, which accesses the variable step by step: between the
steps other threads can access it.  One access (a read, a write, or a read-modify-write instruction of the processor) is
indivisible, and memory is sequentially consistent.  Integers are `w` bits wide, and their arithmetic wraps, as for
unsigned types (for signed types, C++ leaves overflows of `+`, `-` and `+=` undefined).
-/

namespace Vecmem

variable {w : Nat}

/-- The next thing an operation does: return, or access the variable, which gives it a new value.
No counterpart in /repo: a memory of atomic accesses. -/
inductive AAct (w : Nat) (S : Type) where
  | ret (r : ARet w)
  | access (f : BitVec w → BitVec w × S)

/-- An implementation of the operations.
No counterpart in /repo: a memory of atomic accesses. -/
structure AImpl (w : Nat) where
  State : Type
  start : AOp w → State
  act : State → AAct w State

/-- Read the variable.
No counterpart in /repo: a memory of atomic accesses. -/
def AAct.read {S : Type} (k : BitVec w → S) : AAct w S := .access fun v => (v, k v)

/-- Write the variable.
No counterpart in /repo: a memory of atomic accesses. -/
def AAct.write {S : Type} (x : BitVec w) (s : S) : AAct w S := .access fun _ => (x, s)

/-- An implementation in which each operation is one access.
No counterpart in /repo: a memory of atomic accesses. -/
def AImpl.oneAccess (f : AOp w → BitVec w → BitVec w × ARet w) : AImpl w where
  State := AOp w ⊕ ARet w
  start := .inl
  act
    | .inl op => .access fun v => let r := f op v; (r.1, .inr r.2)
    | .inr r => .ret r

/-- `atomicCAS` of CUDA: the new value; the old value is returned.
Code: called in `core/include/vecmem/memory/impl/cuda_device_atomic_ref.ipp`, lines 77-110. -/
def atomicCAS (v cmp val : BitVec w) : BitVec w := if v = cmp then val else v

/-- `cuda::device_atomic_ref` and `hip::device_atomic_ref`, impl/cuda_device_atomic_ref.ipp:47-146.  The stores and loads of
47-65 are one access; fences are not modelled.  `atomicExch`, `atomicAdd`, `atomicSub`, `atomicAnd`, `atomicOr` and `atomicXor`
return the old value. -/
def cudaRef : AImpl w := .oneAccess fun op v => match op with
  | .load => (v, .val v)
  | .store x => (x, .unit)
  | .exchange x => (x, .val v)
  | .compareExchange e d =>
    let r := v
    if r = e then (atomicCAS v e d, .compared true e) else (atomicCAS v e d, .compared false r)
  | .fetchAdd x => (v + x, .val v)
  | .fetchSub x => (v - x, .val v)
  | .fetchAnd x => (v &&& x, .val v)
  | .fetchOr x => (v ||| x, .val v)
  | .fetchXor x => (v ^^^ x, .val v)

/-- `posix_device_atomic_ref`, impl/posix_device_atomic_ref.ipp:60-149, with the built-in functions of GCC; `fetch_sub` adds
`-data` (119-125).  Memory orders are treated as the strongest one. -/
def posixRef : AImpl w := .oneAccess fun op v => match op with
  | .load => (v, .val v)
  | .store x => (x, .unit)
  | .exchange x => (x, .val v)
  | .compareExchange e d => if v = e then (d, .compared true e) else (v, .compared false v)
  | .fetchAdd x => (v + x, .val v)
  | .fetchSub x => (v + -x, .val v)
  | .fetchAnd x => (v &&& x, .val v)
  | .fetchOr x => (v ||| x, .val v)
  | .fetchXor x => (v ^^^ x, .val v)

/-- The functions `sycl::atomic_load`, `atomic_store` and so on, which return the old value; `atomic_compare_exchange_strong` puts
it in `expected` if it fails.
Code: called in `core/include/vecmem/memory/impl/sycl_custom_device_atomic_ref.ipp`, lines 38-62, and in
`core/include/vecmem/memory/impl/atomic.ipp`, lines 20-32. -/
def syclAtomic (op : AOp w) (v : BitVec w) : BitVec w × ARet w :=
  match op with
  | .load => (v, .val v)
  | .store x => (x, .unit)
  | .exchange x => (x, .val v)
  | .compareExchange e d => if v = e then (d, .compared true e) else (v, .compared false v)
  | .fetchAdd x => (v + x, .val v)
  | .fetchSub x => (v - x, .val v)
  | .fetchAnd x => (v &&& x, .val v)
  | .fetchOr x => (v ||| x, .val v)
  | .fetchXor x => (v ^^^ x, .val v)

/-- `sycl::custom_device_atomic_ref`, impl/sycl_custom_device_atomic_ref.ipp:82-168: each operation is one call.  Memory orders are
ignored by the code; all threads have access to the variable (for local memory, those of its work group). -/
def syclRef : AImpl w := .oneAccess fun op v => match op with
  | .load => syclAtomic .load v
  | .store data => syclAtomic (.store data) v
  | .exchange data => syclAtomic (.exchange data) v
  | .compareExchange expected desired => syclAtomic (.compareExchange expected desired) v
  | .fetchAdd data => syclAtomic (.fetchAdd data) v
  | .fetchSub data => syclAtomic (.fetchSub data) v
  | .fetchAnd data => syclAtomic (.fetchAnd data) v
  | .fetchOr data => syclAtomic (.fetchOr data) v
  | .fetchXor data => syclAtomic (.fetchXor data) v

/-- `vecmem::atomic` in SYCL code without `sycl::atomic_ref`, impl/atomic.ipp:39-186, second branches. -/
def atomicSycl : AImpl w := .oneAccess fun op v => match op with
  | .load => syclAtomic .load v
  | .store data => syclAtomic (.store data) v
  | .exchange data => syclAtomic (.exchange data) v
  | .compareExchange expected desired => syclAtomic (.compareExchange expected desired) v
  | .fetchAdd data => syclAtomic (.fetchAdd data) v
  | .fetchSub data => syclAtomic (.fetchSub data) v
  | .fetchAnd data => syclAtomic (.fetchAnd data) v
  | .fetchOr data => syclAtomic (.fetchOr data) v
  | .fetchXor data => syclAtomic (.fetchXor data) v

/-- `vecmem::atomic` in CUDA and HIP code, impl/atomic.ipp:34-193, first branches.  `compare_exchange_strong` (86-93) returns
the old value, as a truth value. -/
def atomicCuda : AImpl w := .oneAccess fun op v => match op with
  | .load => (v, .val v)
  | .store x => (x, .unit)
  | .exchange x => (x, .val v)
  | .compareExchange e d => (atomicCAS v e d, .compared (decide (v ≠ 0)) e)
  | .fetchAdd x => (v + x, .val v)
  | .fetchSub x => (v - x, .val v)
  | .fetchAnd x => (v &&& x, .val v)
  | .fetchOr x => (v ||| x, .val v)
  | .fetchXor x => (v ^^^ x, .val v)

/-- The result of `x op= data`.
Code: `core/include/vecmem/memory/impl/atomic.ipp`, lines 108-185 (the branches for host code). -/
def AOp.update (v : BitVec w) : AOp w → BitVec w
  | .load => v
  | .store x => x
  | .exchange x => x
  | .compareExchange _ d => d
  | .fetchAdd x => v + x
  | .fetchSub x => v - x
  | .fetchAnd x => v &&& x
  | .fetchOr x => v ||| x
  | .fetchXor x => v ^^^ x

/-- Where an operation of `vecmem::atomic` in host code is.
Code: `core/include/vecmem/memory/impl/atomic.ipp`, lines 40-185. -/
inductive HostAtomicState (w : Nat) where
  | start (op : AOp w)
  /-- `*m_ptr op= data`, reading, for operation `op`, which has read `result` before -/
  | again (op : AOp w) (result : BitVec w)
  /-- writing `x` -/
  | writing (x : BitVec w) (r : ARet w)
  /-- `expected = *m_ptr` -/
  | failing
  | done (r : ARet w)

/-- `vecmem::atomic` in host code, impl/atomic.ipp:38-193, last branches. -/
def atomicHost : AImpl w where
  State := HostAtomicState w
  start := .start
  act
    | .start .load => .read fun v => .done (.val v)
    | .start (.store x) => .write x (.done .unit)
    | .start (.exchange x) => .read fun v => .writing x (.val v)
    | .start (.compareExchange e d) => .read fun v => if v = e then .writing d (.compared true e) else .failing
    | .start op => .read fun v => .again op v
    | .again op result => .read fun v => .writing (op.update v) (.val result)
    | .writing x r => .write x (.done r)
    | .failing => .read fun v => .done (.compared false v)
    | .done r => .ret r

/-- What follows a call to `compare_exchange_strong` inside `dummy_device_atomic_ref`.
Code: `core/include/vecmem/memory/impl/dummy_device_atomic_ref.ipp`, lines 39-145. -/
inductive DummyCont (w : Nat) where
  /-- `load()`, called by the program -/
  | load
  /-- `compare_exchange_strong`, called by the program -/
  | direct
  /-- `load()` in the first line of `op` -/
  | first (op : AOp w)
  /-- the loop of `op` -/
  | loop (op : AOp w)

/-- Where an operation of `dummy_device_atomic_ref` is.
Code: `core/include/vecmem/memory/impl/dummy_device_atomic_ref.ipp`, lines 39-145. -/
inductive DummyState (w : Nat) where
  /-- before `old = *m_ptr` in `compare_exchange_strong(expected, desired)` -/
  | reading (expected desired : BitVec w) (k : DummyCont w)
  /-- before `*m_ptr = desired` -/
  | writing (expected desired : BitVec w) (k : DummyCont w)
  | done (r : ARet w)

/-- What an operation with a loop returns: `store` calls `exchange`, and ignores what it returns.
Code: `core/include/vecmem/memory/impl/dummy_device_atomic_ref.ipp`, lines 39-63 and 97-145. -/
def AOp.loopRet (tmp : BitVec w) : AOp w → ARet w
  | .store _ => .unit
  | _ => .val tmp

/-- What happens when `compare_exchange_strong` returns and `expected` is `tmp`.
Code: `core/include/vecmem/memory/impl/dummy_device_atomic_ref.ipp`, lines 55-145 (the conditions of the loops). -/
def DummyCont.returned (success : Bool) (tmp : BitVec w) : DummyCont w → DummyState w
  | .load => .done (.val tmp)
  | .direct => .done (.compared success tmp)
  | .first op => .reading tmp (op.update tmp) (.loop op)
  | .loop op => if success then .done (op.loopRet tmp) else .reading tmp (op.update tmp) (.loop op)

/-- `dummy_device_atomic_ref`, impl/dummy_device_atomic_ref.ipp:38-144. -/
def dummyRef : AImpl w where
  State := DummyState w
  start
    | .load => .reading 0 0 .load
    | .compareExchange e d => .reading e d .direct
    | op => .reading 0 0 (.first op)
  act
    | .reading e d k => .read fun old => if old = e then .writing e d k else k.returned false old
    | .writing e d k => .write d (k.returned true e)
    | .done r => .ret r

/-! ## threads -/

/-- A thread: the operations still to be called, the current one, and the finished ones.
No counterpart in /repo: threads and their interleaving. -/
structure AThread (I : AImpl w) where
  todo : List (ACallAt w)
  now : Option (ACallAt w × I.State)
  done : List (ADone w)

/-- The memory and the threads.
No counterpart in /repo: threads and their interleaving. -/
structure ASys (I : AImpl w) where
  mem : AMem w
  threads : List (AThread I)

namespace ASys

/-- The start of the programs.
No counterpart in /repo: threads and their interleaving. -/
def start (I : AImpl w) (m : AMem w) (progs : List (List (ACallAt w))) : ASys I :=
  { mem := m, threads := progs.map fun p => ⟨p, none, []⟩ }

/-- One step of one thread: call an operation, make an access, or return.
No counterpart in /repo: threads and their interleaving. -/
def stepThread {I : AImpl w} (m : AMem w) (t : AThread I) : AMem w × AThread I :=
  match t.now with
  | none => match t.todo with
    | [] => (m, t)
    | c :: cs => (m, { t with todo := cs, now := some (c, I.start c.op) })
  | some (c, s) => match I.act s with
    | .ret r => (m, { t with now := none, done := t.done ++ [⟨c, r⟩] })
    | .access f =>
      let r := f (m c.addr)
      (fun a => if a = c.addr then r.1 else m a, { t with now := some (c, r.2) })

/-- Thread `i` makes its next step.
No counterpart in /repo: threads and their interleaving. -/
def step {I : AImpl w} (g : ASys I) (i : Nat) : ASys I :=
  match g.threads[i]? with
  | none => g
  | some t => let r := stepThread g.mem t; { mem := r.1, threads := g.threads.set i r.2 }

/-- Run a schedule.
No counterpart in /repo: threads and their interleaving. -/
def run {I : AImpl w} (g : ASys I) (sched : List Nat) : ASys I := sched.foldl step g

/-- The operations of thread `i` that have returned.
No counterpart in /repo: threads and their interleaving. -/
def results {I : AImpl w} (g : ASys I) (i : Nat) : List (ADone w) := ((g.threads[i]?).map AThread.done).getD []

/-- All threads have finished their programs.
No counterpart in /repo: threads and their interleaving. -/
def Finished {I : AImpl w} (g : ASys I) : Prop := ∀ t ∈ g.threads, t.todo = [] ∧ t.now = none

end ASys

/-! ## memory orders -/

/-- `compare_exchange_strong` with one memory order: the two orders it calls the other overload with.
impl/posix_device_atomic_ref.ipp:82-95, impl/cuda_device_atomic_ref.ipp:76-90, impl/dummy_device_atomic_ref.ipp:64-78 and
impl/sycl_custom_device_atomic_ref.ipp:102-115. -/
def casOrders (order : MemOrder) : MemOrder × MemOrder :=
  if order = .acqRel then (order, .acquire)
  else if order = .release then (order, .relaxed)
  else (order, order)

/-- The assertion in `compare_exchange_strong` with two memory orders: impl/posix_device_atomic_ref.ipp:102-103,
impl/cuda_device_atomic_ref.ipp:99-100 and impl/sycl_custom_device_atomic_ref.ipp:123-124. -/
def casAssertion (failure : MemOrder) : Bool := failure != .release && failure != .acqRel

end Vecmem
