/-!
# Specification: atomic operations (C46, C47)

Values are `w`-bit integers.
-/

namespace Vecmem

/-- The operations of an atomic reference. -/
inductive AOp (w : Nat) where
  | load
  | store (x : BitVec w)
  | exchange (x : BitVec w)
  | compareExchange (expected desired : BitVec w)
  | fetchAdd (x : BitVec w)
  | fetchSub (x : BitVec w)
  | fetchAnd (x : BitVec w)
  | fetchOr (x : BitVec w)
  | fetchXor (x : BitVec w)
deriving DecidableEq, Repr

/-- What an operation returns: nothing; a value; the result of a comparison and the new value of `expected`. -/
inductive ARet (w : Nat) where
  | unit
  | val (x : BitVec w)
  | compared (success : Bool) (expected : BitVec w)
deriving DecidableEq, Repr

/-- What an operation is meant to do to a variable with the value `v`: the new value, and what is returned. -/
def AOp.spec {w : Nat} (v : BitVec w) : AOp w → BitVec w × ARet w
  | .load => (v, .val v)
  | .store x => (x, .unit)
  | .exchange x => (x, .val v)
  | .compareExchange e d => if v = e then (d, .compared true e) else (v, .compared false v)
  | .fetchAdd x => (v + x, .val v)
  | .fetchSub x => (v - x, .val v)
  | .fetchAnd x => (v &&& x, .val v)
  | .fetchOr x => (v ||| x, .val v)
  | .fetchXor x => (v ^^^ x, .val v)

/-- An operation on the variable at an address. -/
structure ACallAt (w : Nat) where
  addr : Nat
  op : AOp w
deriving DecidableEq, Repr

/-- A completed operation of a thread. -/
structure ADone (w : Nat) where
  call : ACallAt w
  ret : ARet w
deriving DecidableEq, Repr

/-- Memory: a variable at every address. -/
abbrev AMem (w : Nat) := Nat → BitVec w

/-- The operations happen one after the other: each sees the memory the one before has left and does what it is meant to
do. -/
inductive OneByOne {w : Nat} : AMem w → List (ADone w) → AMem w → Prop
  | nil (m : AMem w) : OneByOne m [] m
  | snoc {m m' : AMem w} {os : List (ADone w)} (c : ACallAt w) (before : OneByOne m os m') :
      OneByOne m (os ++ [⟨c, (c.op.spec (m' c.addr)).2⟩])
        (fun a => if a = c.addr then (c.op.spec (m' c.addr)).1 else m' a)

/-- The memory orders one can ask for (`memory_order`, memory_order.hpp). -/
inductive MemOrder where
  | relaxed | consume | acquire | release | acqRel | seqCst
deriving DecidableEq, Repr

end Vecmem
