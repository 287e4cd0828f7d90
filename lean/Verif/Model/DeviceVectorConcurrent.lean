import Verif.Model.DeviceVector

/-!
# Model of concurrent appends to one `vecmem::device_vector`

Every thread runs a program of appending calls on the same vector.  A call is broken into its accesses to shared
memory: the atomic `fetch_add` on the size, then (after the assertion on the index, if enabled) the construction of one
element after the other.  A schedule names the thread that makes the next step.  Memory is sequentially consistent; the
element accesses of different calls are to different cells (proved), so there are no data races to consider.
-/

namespace Vecmem

variable {α : Type}

/-- A call that appends.
Code: `core/include/vecmem/containers/impl/device_vector.ipp`, lines 177-295. -/
inductive ACall (α : Type) where
  | push (a : Arg α)
  | emplace (a : Arg α)
  | bulk (n : Nat)
  | bulkValue (n : Nat) (a : Arg α)
  | bulkImplicit (n : Nat)

namespace ACall

/-- By how much the call increases the size: the arguments of `fetch_add` at impl/device_vector.ipp:186, 206, 227, 249,
272 and 290. -/
def count : ACall α → Nat
  | push _ | emplace _ => 1
  | bulk n | bulkValue n _ | bulkImplicit n => n

/-- How many elements the call constructs.
Code: `core/include/vecmem/containers/impl/device_vector.ipp`, lines 177-295. -/
def writes : ACall α → Nat
  | bulkImplicit _ => 0
  | c => c.count

/-- What the elements are constructed from.
Code: `core/include/vecmem/containers/impl/device_vector.ipp`, lines 177-258. -/
def arg (dflt : α) : ACall α → Arg α
  | push a | emplace a | bulkValue _ a => a
  | bulk _ | bulkImplicit _ => .val dflt

/-- The assertion behind the `fetch_add`: impl/device_vector.ipp:187, 207 (`index < m_capacity`), 228, 250, 273, 291
(`(index + n) <= m_capacity`, in 32 bits). -/
def check (cap index : Nat) : ACall α → Bool
  | push _ | emplace _ => decide (index < cap)
  | bulk n | bulkValue n _ | bulkImplicit n => decide ((index + n) % 2 ^ 32 ≤ cap)

/-- What the call does to the vector without constructing anything.
Code: `core/include/vecmem/containers/impl/device_vector.ipp`, lines 260-295. -/
def implicit (s : DV α) (index : Nat) : ACall α → DV α
  | bulkImplicit n => s.implicit index n
  | _ => s

end ACall

/-- Where a thread is: between calls; between `fetch_add` and the assertion; having constructed `k` elements.
No counterpart in /repo: threads and their interleaving. -/
inductive Phase (α : Type) where
  | idle
  | claimed (c : ACall α) (index : Nat)
  | writing (c : ACall α) (index k : Nat)

/-- A thread: the calls still to be made, the current one, and the finished ones with the index they returned.
No counterpart in /repo: threads and their interleaving. -/
structure Thread (α : Type) where
  todo : List (ACall α)
  phase : Phase α
  done : List (ACall α × Nat)

/-- The shared vector and the threads; `failed` once an assertion has failed or behaviour is undefined.
No counterpart in /repo: threads and their interleaving. -/
structure Conc (α : Type) where
  vec : DV α
  threads : List (Thread α)
  failed : Bool

namespace Conc

/-- The start of the programs.
No counterpart in /repo: threads and their interleaving. -/
def start (s : DV α) (progs : List (List (ACall α))) : Conc α :=
  { vec := s, threads := progs.map fun p => { todo := p, phase := .idle, done := [] }, failed := false }

/-- One step of one thread: the bodies of `push_back`, `emplace_back` and `bulk_append*`,
impl/device_vector.ipp:175-294. -/
def stepThread (s : DV α) (t : Thread α) : Option (DV α × Thread α) :=
  match t.phase with
  | .idle =>
    match t.todo with
    | [] => some (s, t)
    | c :: cs =>
      if !s.hasSize then none
      else
        let r := s.fetchAdd c.count
        some (r.2, { t with todo := cs, phase := .claimed c r.1 })
  | .claimed c index =>
    if s.dbg && !c.check s.cap index then none
    else some (c.implicit s index, { t with phase := .writing c index 0 })
  | .writing c index k =>
    if k < c.writes then
      match s.construct ((index + k) % 2 ^ 32) (c.arg s.dflt) with
      | (.ok (), s) => some (s, { t with phase := .writing c index (k + 1) })
      | _ => none
    else some (s, { t with phase := .idle, done := t.done ++ [(c, index)] })

/-- Thread `i` makes its next step; nothing runs after a failure.
No counterpart in /repo: threads and their interleaving. -/
def step (g : Conc α) (i : Nat) : Conc α :=
  if g.failed then g
  else match g.threads[i]? with
    | none => g
    | some t =>
      match stepThread g.vec t with
      | none => { g with failed := true }
      | some (s, t) => { g with vec := s, threads := g.threads.set i t }

/-- Run a schedule.
No counterpart in /repo: threads and their interleaving. -/
def run (g : Conc α) (sched : List Nat) : Conc α := sched.foldl step g

end Conc
end Vecmem
