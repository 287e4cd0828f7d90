import Verif.Spec.Resource

/-!
# Model of `edm::device` on a view without jagged vectors, used by several threads

As in `Model/DeviceVectorConcurrent`, a call is broken into its accesses to shared memory, a schedule names the thread
that makes the next step, and memory is sequentially consistent.  Values of all types are of one type `α`.
-/

namespace Vecmem

variable {α : Type}

/-- A variable with the memory it points to: edm/details/device_traits.hpp:27-51.  A vector has the value `TYPE{}`, its
capacity, and its cells, which hold a living object or none.  All vectors use the size word of the container. -/
inductive DevVar (α : Type) where
  | scalar (x : α)
  | vector (dflt : α) (cap : Nat) (mem : Nat → Option α)

/-- `edm::device`, edm/device.hpp: `m_capacity`, `m_size` (null or not) with the size word, and `m_data`.  `dbg`: assertions
are enabled. -/
structure DevCont (α : Type) where
  dbg : Bool
  hasSize : Bool
  cap : Nat
  sizeWord : Nat
  vars : List (DevVar α)

/-- `size()`, edm/impl/device.ipp:34-42. -/
def DevCont.size (s : DevCont α) : Nat := if s.hasSize then s.sizeWord else s.cap

/-- `device_capacity_matches`, edm/details/device_traits.hpp:103-126. -/
def DevVar.capacityMatches (cap : Nat) : DevVar α → Bool
  | .scalar _ => true
  | .vector _ c _ => c == cap

/-- `device_capacities_match`, edm/details/device_traits.hpp:128-154. -/
def DevCont.capacitiesMatch (s : DevCont α) : Bool := s.vars.all (·.capacityMatches s.cap)

/-- Change a cell of a vector.
No counterpart in /repo: memory cells. -/
def DevVar.put (i : Nat) (x : α) : DevVar α → DevVar α
  | .scalar y => .scalar y
  | .vector d c m => .vector d c fun j => if j = i then some x else m j

/-- What a thread does: `push_back_default()`, and then it assigns values to variables of `at(index)`, for the index it got.
Code: `core/include/vecmem/edm/impl/device.ipp`, lines 57-86 and 133-147. -/
structure DCall (α : Type) where
  assigns : List (Nat × α)
deriving Repr

/-- Where a thread is: between calls; between `fetch_add` and the assertion; before variable `k` in `construct_default`;
having made `j` assignments.
No counterpart in /repo: threads and their interleaving. -/
inductive DPhase (α : Type) where
  | idle
  | claimed (c : DCall α) (index : Nat)
  | constructing (c : DCall α) (index k : Nat)
  | assigning (c : DCall α) (index j : Nat)

/-- A thread: the calls still to be made, the current one, and the finished ones with the index they returned.
No counterpart in /repo: threads and their interleaving. -/
structure DThread (α : Type) where
  todo : List (DCall α)
  phase : DPhase α
  done : List (DCall α × Nat)

/-- The container and the threads; `failed` once an assertion has failed or behaviour is undefined.
No counterpart in /repo: threads and their interleaving. -/
structure DConc (α : Type) where
  cont : DevCont α
  threads : List (DThread α)
  failed : Bool

namespace DConc

/-- The start of the programs.
No counterpart in /repo: threads and their interleaving. -/
def start (s : DevCont α) (progs : List (List (DCall α))) : DConc α :=
  { cont := s, threads := progs.map fun p => { todo := p, phase := .idle, done := [] }, failed := false }

/-- One step of one thread: `push_back_default`, edm/impl/device.ipp:55-84, with `construct_default` and `construct_vector`
(161-192; `construct` is at impl/device_vector.ipp:511-520), and then `at` (106-115) and assignments. -/
def stepThread (s : DevCont α) (t : DThread α) : Option (DevCont α × DThread α) :=
  match t.phase with
  | .idle =>
    match t.todo with
    | [] => some (s, t)
    | c :: cs =>
      if !s.hasSize then none
      else if s.dbg && !s.capacitiesMatch then none
      else some ({ s with sizeWord := (s.sizeWord + 1) % 2 ^ 32 },
        { t with todo := cs, phase := .claimed c s.sizeWord })
  | .claimed c index =>
    if s.dbg && !(index < s.cap) then none
    else some (s, { t with phase := .constructing c index 0 })
  | .constructing c index k =>
    match s.vars[k]? with
    | none => some (s, { t with phase := .assigning c index 0 })
    | some (.scalar _) => some (s, { t with phase := .constructing c index (k + 1) })
    | some (.vector d cap _) =>
      if s.dbg && !(index < cap) then none
      else some ({ s with vars := s.vars.modify k (·.put index d) },
        { t with phase := .constructing c index (k + 1) })
  | .assigning c index j =>
    match c.assigns[j]? with
    | none => some (s, { t with phase := .idle, done := t.done ++ [(c, index)] })
    | some (k, x) =>
      if s.dbg && !(index < s.size) then none
      else match s.vars[k]? with
        | some (.vector _ _ m) =>
          if m index = none then none
          else some ({ s with vars := s.vars.modify k (·.put index x) },
            { t with phase := .assigning c index (j + 1) })
        | _ => none

/-- Thread `i` makes its next step; nothing runs after a failure.
No counterpart in /repo: threads and their interleaving. -/
def step (g : DConc α) (i : Nat) : DConc α :=
  if g.failed then g
  else match g.threads[i]? with
    | none => g
    | some t =>
      match stepThread g.cont t with
      | none => { g with failed := true }
      | some (s, t) => { g with cont := s, threads := g.threads.set i t }

/-- Run a schedule.
No counterpart in /repo: threads and their interleaving. -/
def run (g : DConc α) (sched : List Nat) : DConc α := sched.foldl step g

end DConc

/-- `get<k>().push_back(x)`, impl/device_vector.ipp:196-213, on a vector of the container, which has the container's size
word; by one thread.  Returns the index. -/
def DevCont.varPushBack (s : DevCont α) (k : Nat) (x : α) : Res Nat × DevCont α :=
  if !s.hasSize then (.ub, s)
  else
    let s' := { s with sizeWord := (s.sizeWord + 1) % 2 ^ 32 }
    match s.vars[k]? with
    | some (.vector _ cap _) =>
      if s.dbg && !(s.sizeWord < cap) then (.ub, s')
      else (.ok s.sizeWord, { s' with vars := s.vars.modify k (·.put s.sizeWord x) })
    | _ => (.ub, s)

end Vecmem
