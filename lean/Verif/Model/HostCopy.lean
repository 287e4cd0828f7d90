import Verif.Model.AsyncCopy

/-!
# Users who wait for every event

The functions of a copy object return events as points of synchronization (core/include/vecmem/utils/abstract_event.hpp:12-33,
core/include/vecmem/utils/copy.hpp:67-69).  Here the user waits for the event of each call before doing anything else.
Between the calls the host may read and write memory.
-/

namespace Vecmem

/-- A step of a user: a call of the copy object, whose event is waited for; reading host accessible memory; writing to host
accessible memory.
No counterpart in /repo: programs of users. -/
inductive HostStep where
  | call (c : CopyCall)
  | read (p n : Nat)
  | write (p n : Nat) (b : Mem)

/-- The program with these steps; it returns what was read.
No counterpart in /repo: programs of users. -/
def hostProg : List HostStep → Prog (List Mem)
  | [] => .ret (.ok [])
  | .call c :: hs => c.prog.bind fun e => .wait e (hostProg hs)
  | .read p n :: hs => .load p n fun b => (hostProg hs).bind fun l => .ret (.ok (b :: l))
  | .write p n b :: hs => .poke p n b (hostProg hs)

end Vecmem
