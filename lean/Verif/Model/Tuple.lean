import Verif.Spec.Resource

/-!
# Model of `vecmem::tuple`

core/include/vecmem/utils/tuple.hpp and core/include/vecmem/utils/impl/tuple.ipp.

The memory is a list of objects, which are referred to by their number; an object whose life is over has no value.  All
objects have the same (trivially copyable) type, so that copying and moving them is the same, and so that the types of
the elements of a tuple differ only in being a value, a reference or a reference to a constant.
-/

namespace Vecmem

/-- The objects.
No counterpart in /repo: memory. -/
abbrev Objs (α : Type) := List (Option α)

/-- The type of an element of a tuple: `T`, `T&` or `const T&`.
No counterpart in /repo: C++ types. -/
inductive ElemTy where
  | val
  | ref
  | cref
deriving DecidableEq, Repr

/-- What an expression is: an lvalue, an lvalue of a constant, or an rvalue.
No counterpart in /repo: C++ value categories. -/
inductive ValueCat where
  | lvalue
  | constLvalue
  | rvalue
deriving DecidableEq, Repr

/-- An argument: the object that it denotes.
No counterpart in /repo: C++ expressions. -/
structure TupArg where
  obj : Nat
  cat : ValueCat
deriving DecidableEq, Repr

/-- `std::is_constructible<T, U&&>`, for the three sorts of `T`.
Code: used in `core/include/vecmem/utils/tuple.hpp`, lines 74-75 and 90-91. -/
def ElemTy.constructible : ElemTy → ValueCat → Bool
  | .val, _ => true
  | .ref, c => c == .lvalue
  | .cref, _ => true

/-- `tuple<...>`, tuple.hpp:24-34 and 50-101: the head, and the tail.  Of an element the tuple holds an object of its own, or
a reference to some object. -/
inductive Tup where
  | nil
  | cons (type : ElemTy) (obj : Nat) (tail : Tup)
deriving DecidableEq, Repr

/-- The types of the elements.
No counterpart in /repo: C++ types. -/
def Tup.types : Tup → List ElemTy
  | .nil => []
  | .cons t _ rest => t :: rest.types

/-- The initialisation of one element, `m_head(...)` in tuple.hpp:62, 78 and 94: the object of the element.  Copying an
object whose life is over is undefined. -/
def initElem {α : Type} (m : Objs α) (t : ElemTy) (a : TupArg) : Res (Nat × Objs α) :=
  match t with
  | .val =>
    match m[a.obj]? with
    | some (some v) => .ok (m.length, m ++ [some v])
    | _ => .ub
  | _ => .ok (a.obj, m)

namespace Tup

variable {α : Type}

/-- The condition of the main constructor, tuple.hpp:71-76. -/
def accepts : List ElemTy → List TupArg → Bool
  | [], [] => true
  | t :: ts, a :: as => t.constructible a.cat && accepts ts as
  | _, _ => false

/-- The body of the main constructor, tuple.hpp:77-78. -/
def init : Objs α → List ElemTy → List TupArg → Res (Tup × Objs α)
  | m, t :: ts, a :: as =>
    match initElem m t a with
    | .ok (o, m) => (init m ts as).map fun r => (.cons t o r.1, r.2)
    | e => e.map fun _ => (.nil, m)
  | m, _, _ => .ok (.nil, m)

/-- The main constructor, `tuple(U&&, Us&&...)`, tuple.hpp:69-78; `none`: there is no such constructor. -/
def make (m : Objs α) (ts : List ElemTy) (as : List TupArg) : Option (Res (Tup × Objs α)) :=
  if accepts ts as then some (init m ts as) else none

/-- The elements of a `const` tuple as arguments: references are not affected by the constness of the tuple.
Code: `core/include/vecmem/utils/tuple.hpp`, lines 61-62. -/
def constArgs : Tup → List TupArg
  | .nil => []
  | .cons .ref o rest => ⟨o, .lvalue⟩ :: rest.constArgs
  | .cons _ o rest => ⟨o, .constLvalue⟩ :: rest.constArgs

/-- The elements of a tuple that is moved from, as arguments.
Code: `core/include/vecmem/utils/tuple.hpp`, line 93. -/
def movedArgs : Tup → List TupArg
  | .nil => []
  | .cons .val o rest => ⟨o, .rvalue⟩ :: rest.movedArgs
  | .cons .ref o rest => ⟨o, .lvalue⟩ :: rest.movedArgs
  | .cons .cref o rest => ⟨o, .constLvalue⟩ :: rest.movedArgs

/-- `tuple(const tuple<U, Us...>&)`, tuple.hpp:59-62, or the implicit copy constructor if the types are the same: element by
element, from the elements of the parent. -/
def convert (m : Objs α) (ts : List ElemTy) (parent : Tup) : Option (Res (Tup × Objs α)) :=
  make m ts parent.constArgs

/-- `m_tail(std::move(tail))`, tuple.hpp:94: the implicit move constructor if the types are the same, or else the converting
constructor. -/
def moveOrConvert (m : Objs α) (ts : List ElemTy) (tail : Tup) : Option (Res (Tup × Objs α)) :=
  if tail.types = ts then some (init m ts tail.movedArgs) else convert m ts tail

/-- The "concatenation" constructor, `tuple(U&&, tuple<Us...>&&)`, tuple.hpp:80-94. -/
def concat (m : Objs α) (ts : List ElemTy) (head : TupArg) (tail : Tup) : Option (Res (Tup × Objs α)) :=
  match ts with
  | [] => none
  | t :: ts =>
    if t.constructible head.cat then
      match initElem m t head with
      | .ok (o, m) => (moveOrConvert m ts tail).map fun r => r.map fun r => (.cons t o r.1, r.2)
      | e => some (e.map fun _ => (.nil, m))
    else none

/-- `get<I>(t)`, tuple.ipp:21-78: the object that the result refers to, and whether it is a reference to a constant.
`isConst`: the tuple is constant; then the result is, too, also for elements that are references (lines 27-30 and 47-49). -/
def get (isConst : Bool) : Tup → Nat → Option (Nat × Bool)
  | .nil, _ => none
  | .cons t o _, 0 => some (o, isConst || t == .cref)
  | .cons _ _ rest, i + 1 => rest.get isConst i

/-- `tie(args...)`, tuple.ipp:80-84: the arguments are lvalues, so the types of the elements are reference types. -/
def tie (m : Objs α) (as : List (Nat × Bool)) : Option (Res (Tup × Objs α)) :=
  make m (as.map fun a => if a.2 then .cref else .ref)
    (as.map fun a => ⟨a.1, if a.2 then .constLvalue else .lvalue⟩)

/-- `make_tuple(args...)`, tuple.ipp:86-90: the types of the elements are value types. -/
def makeTuple (m : Objs α) (as : List TupArg) : Option (Res (Tup × Objs α)) := make m (as.map fun _ => .val) as

/-- The destructor: ends the life of the objects of the elements that are values.
Code: `core/include/vecmem/utils/tuple.hpp`, lines 50-101 (implicit destructor). -/
def destroy (m : Objs α) : Tup → Objs α
  | .nil => m
  | .cons .val o rest => destroy (m.set o none) rest
  | .cons _ _ rest => destroy m rest

/-- `proxy_data_creator<...>::make_impl`, edm/details/proxy_traits.hpp:239-380: the last element alone, the others by
concatenation.  After each concatenation the tuple it was made from is destroyed.  (The arguments are what
`proxy_var_type<...>::make` returns.) -/
def makeProxy (m : Objs α) : List ElemTy → List TupArg → Option (Res (Tup × Objs α))
  | [t], [a] => make m [t] [a]
  | t :: ts, a :: as =>
    match makeProxy m ts as with
    | some (.ok (tail, m)) => (concat m (t :: ts) a tail).map fun r => r.map fun r => (r.1, destroy r.2 tail)
    | e => e
  | _, _ => none

end Tup

end Vecmem
