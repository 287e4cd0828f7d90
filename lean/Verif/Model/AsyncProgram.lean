import Verif.Model.AsyncPipeline

/-!
# Model of programs on a stream, of whatever steps

As `Model/AsyncPipeline.lean`, but for any sort of steps: a step is given as the program that the host runs for it (`plan`), which
includes what the host itself writes to memory.
-/

namespace Vecmem

open Prog

/-- The host writes to memory: for each address, a number of bytes and their values.
No counterpart in /repo: the host writes to its own memory. -/
def pokes {β : Type} : List (Nat × Nat × Mem) → Prog β → Prog β
  | [], k => k
  | (a, n, b) :: ws, k => .poke a n b (pokes ws k)

/-- What the host does: a step, whose event is waited for or not; wait for all that was given to the stream; read `n` bytes of
memory.
No counterpart in /repo: programs of users. -/
inductive HostAct (Op : Type) where
  | step (op : Op) (wait : Bool)
  | sync
  | look (a n : Nat)

/-- The program of the host; `a` is what the host has (resources and buffers), and `plan a op` what it has after a step and the
program of the step, which returns an event (0 for one that is complete from the start).  `out` is what the steps so far gave:
whether a step has thrown, and the bytes that the host has read.  In the end everything is waited for.
Code: `cuda/src/utils/cuda/async_copy.cpp`, lines 34-63 (`wait`). -/
def hostStream {A Op : Type} (plan : A → Op → A × Prog Nat) : List (HostAct Op) → A → List (Res (List UInt8)) →
    Prog (List (Res (List UInt8)) × A)
  | [], a, out => sync (.ret (.ok (out, a)))
  | .sync :: ops, a, out => sync (hostStream plan ops a (out ++ [.ok []]))
  | .look p n :: ops, a, out => .load p n fun b => hostStream plan ops a (out ++ [.ok ((List.range n).map b)])
  | .step op w :: ops, a, out =>
    attempt (fun r =>
      match r with
      | .ok e => if w then .wait e (hostStream plan ops (plan a op).1 (out ++ [.ok []]))
        else hostStream plan ops (plan a op).1 (out ++ [.ok []])
      | r => hostStream plan ops (plan a op).1 (out ++ [r.map fun _ => []])) (plan a op).2

/-- What the constructors of jagged buffers and container buffers write: the views of the rows, in the order of
data/vector_view.hpp:134-138, containers/impl/jagged_vector_buffer.ipp:116-129 (`writeViews`). -/
def viewPokes (p : Nat) : List View → List (Nat × Nat × Mem)
  | [] => []
  | v :: vs => (p, 4, fun i => UInt8.ofNat (v.capacity / 256 ^ i)) :: (p + 8, 8, fun i => UInt8.ofNat (v.sizePtr / 256 ^ i)) ::
      (p + 16, 8, fun i => UInt8.ofNat (v.ptr / 256 ^ i)) :: viewPokes (p + viewSize) vs

/-- The elements of a host vector, in its array (`Pipe.putElems`).
No counterpart in /repo: the host writes to its own vectors. -/
def elemPokes (t a : Nat) (l : List Elem) : Nat × Nat × Mem := (a, l.length * t, fun i => (l.getD (i / t) []).getD (i % t) 0)

/-- The elements of several host vectors (`JPipe.putRows`).
No counterpart in /repo: the host writes to its own vectors. -/
def rowPokes (t : Nat) : List Nat → List (List Elem) → List (Nat × Nat × Mem)
  | a :: as, l :: ls => elemPokes t a l :: rowPokes t as ls
  | _, _ => []

end Vecmem
