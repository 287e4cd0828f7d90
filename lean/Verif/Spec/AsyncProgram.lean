import Verif.Model.AsyncProgram
import Verif.Spec.AsyncCopy
import Verif.Spec.Copy

/-!
# What programs on a stream mean, for whatever steps

The same program where every step is complete when it returns, `StreamSys.run`, and what the host must not do while it has not
waited for a step: use memory that the step uses, `StreamSys.Fits`.
-/

namespace Vecmem

/-- A sort of steps: what they do if they are complete when they return, what is in memory, and which memory they need. -/
structure StreamSys (P Op Out : Type) where
  /-- what a step gives, and the state after it -/
  exec : P → Op → Res Out × P
  mem : P → Mem
  /-- the step may be made -/
  May : P → Op → Prop
  /-- the host itself writes the byte -/
  Pokes : P → Op → Nat → Prop
  /-- an operation on the stream uses the byte -/
  Uses : P → Op → Nat → Prop
  /-- the event of the step is one of the stream, and not one that is complete from the start -/
  Works : P → Op → Prop
  /-- the step throws after it has given operations to the stream, so that there is no event to wait for -/
  Leaves : P → Op → Prop

namespace StreamSys

variable {P Op Out : Type}

/-- The host's program if every step is complete when it returns. -/
def run (Y : StreamSys P Op Out) (p : P) : List (HostAct Op) → List (Res (List UInt8)) × P
  | [] => ([], p)
  | .step op _ :: ops =>
    let r := Y.exec p op
    let rs := Y.run r.2 ops
    (r.1.map (fun _ => []) :: rs.1, rs.2)
  | .sync :: ops =>
    let rs := Y.run p ops
    (.ok [] :: rs.1, rs.2)
  | .look a n :: ops =>
    let rs := Y.run p ops
    (.ok (bytesAt (Y.mem p) a n) :: rs.1, rs.2)

/-- What the host may do: every step may be made; and the host does not write to memory, and does not read memory, which is
`busy`: used by a step which has not been waited for, neither by waiting for its event, nor by waiting for that of a later step
whose event is one of the stream, nor by waiting for everything.  A step which throws can only be waited for in the last two ways. -/
def Fits (Y : StreamSys P Op Out) (p : P) (busy : Nat → Prop) : List (HostAct Op) → Prop
  | [] => True
  | .step op w :: ops => Y.May p op ∧ (∀ x, Y.Pokes p op x → ¬ busy x) ∧
      Y.Fits (Y.exec p op).2 (fun x => busy x ∧ ¬ (w = true ∧ Y.Works p op) ∨
        (w = false ∨ Y.Leaves p op) ∧ Y.Uses p op x) ops
  | .sync :: ops => Y.Fits p (fun _ => False) ops
  | .look a n :: ops => (∀ x, a ≤ x → x < a + n → ¬ busy x) ∧ Y.Fits p busy ops

end StreamSys

/-- A run of the host's program on states as the user sees them, where `Step` says what steps may do and give.  The host may read any
memory, and finds whatever it finds. -/
inductive ActRun {S Op Out : Type} (Step : S → Op → Res Out → S → Prop) : S → List (HostAct Op) → List (Res (List UInt8)) → S → Prop
  | nil (s) : ActRun Step s [] [] s
  | step {s op r s' ops rs s''} (w : Bool) (h : Step s op r s') (hs : ActRun Step s' ops rs s'') :
      ActRun Step s (.step op w :: ops) ((r.map fun _ => []) :: rs) s''
  | sync {s ops rs s'} (hs : ActRun Step s ops rs s') : ActRun Step s (.sync :: ops) (.ok [] :: rs) s'
  | look {s ops rs s'} (a n : Nat) (l : List UInt8) (hn : l.length = n) (hs : ActRun Step s ops rs s') :
      ActRun Step s (.look a n :: ops) (.ok l :: rs) s'

end Vecmem
