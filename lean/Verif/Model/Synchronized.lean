import Verif.Spec.Resource

/-!
# Model of `synchronized_memory_resource`

`core/src/memory/synchronized_memory_resource.cpp`: `do_allocate` (lines 45-50) and `do_deallocate`
(lines 52-57) take a `std::lock_guard` on the mutex of the object, call upstream, and release it.

Upstream is not thread safe.  A call of it therefore has an extent in time: it reads upstream's state
when it begins (`enter`) and writes the new state when it ends (`leave`).  If two calls overlapped in
time, an update would be lost.  Copies of the resource (copy constructor, lines 21-23, and assignments)
share upstream but have a mutex of their own: `holder` is indexed by the object.
-/

namespace Vecmem.Sync

variable {σ : Type}

/-- Where a thread is.
Code: `core/src/memory/synchronized_memory_resource.cpp`, lines 45-57. -/
inductive PC (σ : Type) where
  | idle                      -- outside of any call
  | holding                   -- owns the mutex, has not called upstream yet
  | inside (snapshot : σ)     -- executing upstream's code
  | leaving (a : Answer)      -- back from upstream, still owns the mutex
deriving DecidableEq

/-- A thread: its remaining program (calls on numbered objects; the first one is the current one), its
position and the answers it has received.
No counterpart in /repo: threads and their interleaving. -/
structure Thread (σ : Type) where
  prog : List (Nat × Call)
  pc : PC σ
  answers : List Answer

/-- Shared state: upstream, the owner of each object's mutex, the threads.
No counterpart in /repo: threads and their interleaving. -/
structure State (σ : Type) where
  up : σ
  holder : Nat → Option Nat
  threads : Nat → Thread σ

/-- Function update.
No counterpart in /repo: threads and their interleaving. -/
def upd {β : Type} (f : Nat → β) (i : Nat) (v : β) : Nat → β := fun j => if j = i then v else f j

/-- One step of thread `t`; a thread that cannot move (mutex taken, program finished) does nothing.
Code: `core/src/memory/synchronized_memory_resource.cpp`, lines 45-57. -/
def step (upstream : MR σ) (s : State σ) (t : Nat) : State σ :=
  let th := s.threads t
  match th.prog with
  | [] => s
  | (o, c) :: rest =>
    match th.pc with
    | .idle =>
      match s.holder o with
      | none => { s with holder := upd s.holder o (some t),
                         threads := upd s.threads t { th with pc := .holding } }
      | some _ => s
    | .holding => { s with threads := upd s.threads t { th with pc := .inside s.up } }
    | .inside u =>
      let r := upstream.call u c
      { s with up := r.2, threads := upd s.threads t { th with pc := .leaving r.1 } }
    | .leaving a =>
      { s with holder := upd s.holder o none,
               threads := upd s.threads t
                 { prog := rest, pc := .idle, answers := th.answers ++ [a] } }

/-- Run a schedule: any list of thread numbers.
No counterpart in /repo: threads and their interleaving. -/
def exec (upstream : MR σ) (s : State σ) (schedule : List Nat) : State σ :=
  schedule.foldl (step upstream) s

/-- All threads before their first call.
No counterpart in /repo: threads and their interleaving. -/
def start (u : σ) (progs : Nat → List (Nat × Call)) : State σ :=
  ⟨u, fun _ => none, fun t => ⟨progs t, .idle, []⟩⟩

end Vecmem.Sync
