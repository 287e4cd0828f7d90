import Verif.Model.Streams

/-!
# Specification: wrappers have value semantics (C57)

What a wrapper should refer to, and whether it should keep that alive.  Copies refer to the same stream or queue as the
original; a copy of an owner is an owner; a move passes on ownership; views never own.
-/

namespace Vecmem

/-- What a wrapper refers to. -/
structure WrapRef where
  stream : Stream
  owns : Bool
deriving DecidableEq, Repr

/-- All wrappers, and the number of streams or queues made. -/
structure WrapSpec where
  refs : Nat → Option WrapRef
  next : Nat

namespace WrapSpec

def init : WrapSpec := ⟨fun _ => none, 0⟩

/-- What each operation means. -/
def step (s : WrapSpec) : WrapOp → WrapSpec
  | .create w => ⟨setAt s.refs w (some ⟨.own s.next, true⟩), s.next + 1⟩
  | .view w i => ⟨setAt s.refs w (some ⟨.ext i, false⟩), s.next⟩
  | .viewOf w v => ⟨setAt s.refs w ((s.refs v).map fun r => ⟨r.stream, false⟩), s.next⟩
  | .copy w v => ⟨setAt s.refs w (s.refs v), s.next⟩
  | .assign w v => ⟨setAt s.refs w (s.refs v), s.next⟩
  | .move w v | .moveAssign w v =>
    ⟨setAt (setAt s.refs v ((s.refs v).map fun r => ⟨r.stream, if w = v then r.owns else false⟩)) w (s.refs v), s.next⟩
  | .destroy w => ⟨setAt s.refs w none, s.next⟩

def run (s : WrapSpec) (ops : List WrapOp) : WrapSpec := ops.foldl step s

/-- Some wrapper owns the stream. -/
def Owned (s : WrapSpec) (q : Stream) : Prop := ∃ w, s.refs w = some ⟨q, true⟩

/-- No operation of the program assigns a wrapper that does not own to one that owns. -/
def NoViewToOwner (s : WrapSpec) : List WrapOp → Prop
  | [] => True
  | op :: ops =>
    (match op with
      | .assign w v => ∀ r r', s.refs w = some r → s.refs v = some r' → r.owns = true → r'.owns = true
      | _ => True) ∧ (s.step op).NoViewToOwner ops

end WrapSpec

end Vecmem
