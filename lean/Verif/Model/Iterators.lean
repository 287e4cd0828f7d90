import Verif.Spec.Resource

/-!
# Model of iterators

`reverse_iterator` is a template over any iterator type, and is modelled as a function on iterator types: a type of
iterators is given by its operations.
-/

namespace Vecmem

variable {ι α : Type}

/-- A type `ι` of iterators over elements of type `α`: `++`, `--`, `+ n`, `- n`, `*` and `==`.
No counterpart in /repo: C++ iterators. -/
structure Iter (ι α : Type) where
  inc : ι → ι
  dec : ι → ι
  add : ι → Int → ι
  sub : ι → Int → ι
  deref : ι → Res α
  eq : ι → ι → Bool

/-- Pointers to objects of `size` bytes; `load` says what object is at an address.
No counterpart in /repo: C++ pointers. -/
def ptrIter (size : Nat) (load : Nat → Option α) : Iter Int α where
  inc p := p + size
  dec p := p - size
  add p n := p + size * n
  sub p n := p - size * n
  deref p :=
    match p with
    | .ofNat a => (match load a with | some v => .ok v | none => .ub)
    | .negSucc _ => .ub
  eq p q := p == q

/-- `reverse_iterator` (details/reverse_iterator.hpp): `m_current`. -/
structure Rev (ι : Type) where
  current : ι
deriving DecidableEq, Repr

namespace Rev

variable (I : Iter ι α)

/-- `operator*`, impl/reverse_iterator.ipp:58-64. -/
def deref (r : Rev ι) : Res α := I.deref (I.dec r.current)

/-- `operator++()`, impl/reverse_iterator.ipp:81-87. -/
def inc (r : Rev ι) : Rev ι := ⟨I.dec r.current⟩

/-- `operator++(int)`, impl/reverse_iterator.ipp:89-96: the result, and the iterator afterwards. -/
def postInc (r : Rev ι) : Rev ι × Rev ι := (r, ⟨I.dec r.current⟩)

/-- `operator--()`, impl/reverse_iterator.ipp:98-104. -/
def dec (r : Rev ι) : Rev ι := ⟨I.inc r.current⟩

/-- `operator--(int)`, impl/reverse_iterator.ipp:106-113. -/
def postDec (r : Rev ι) : Rev ι × Rev ι := (r, ⟨I.inc r.current⟩)

/-- `operator+` and `operator+=`, impl/reverse_iterator.ipp:115-128. -/
def add (r : Rev ι) (n : Int) : Rev ι := ⟨I.sub r.current n⟩

/-- `operator-` and `operator-=`, impl/reverse_iterator.ipp:130-143. -/
def sub (r : Rev ι) (n : Int) : Rev ι := ⟨I.add r.current n⟩

/-- `operator[]`, impl/reverse_iterator.ipp:74-79. -/
def index (r : Rev ι) (n : Int) : Res α := (r.add I n).deref I

/-- `operator==`, impl/reverse_iterator.ipp:160-165. -/
def eq (r s : Rev ι) : Bool := I.eq r.current s.current

/-- `operator!=`, impl/reverse_iterator.ipp:167-172. -/
def ne (r s : Rev ι) : Bool := !(r.eq I s)

end Rev

/-- The iterator type `reverse_iterator<Iterator>`.
Code: `core/include/vecmem/containers/impl/reverse_iterator.ipp`, lines 20-172. -/
def Iter.rev (I : Iter ι α) : Iter (Rev ι) α where
  inc := Rev.inc I
  dec := Rev.dec I
  add := Rev.add I
  sub := Rev.sub I
  deref := Rev.deref I
  eq := Rev.eq I

/-- The loop `for (; it != last; ++it) use(*it);` of a client, cut off after `fuel` rounds (which counts as undefined):
the elements used.
No counterpart in /repo: programs of users. -/
def Iter.walk (I : Iter ι α) (last : ι) : Nat → ι → Res (List α)
  | 0, it => if I.eq it last then .ok [] else .ub
  | fuel + 1, it =>
    if I.eq it last then .ok []
    else match I.deref it with
      | .ok v => (I.walk last fuel (I.inc it)).map (v :: ·)
      | e => e.map fun _ => []

end Vecmem
