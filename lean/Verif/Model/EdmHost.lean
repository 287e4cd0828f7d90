import Verif.Spec.Resource

/-!
# Model of `edm::host`

Values of all types are of one type `α`.  A variable knows the value-initialised value of its type.
-/

namespace Vecmem

variable {α β : Type}

/-- A `std::vector`: its elements and its capacity.
No counterpart in /repo: `std::vector`. -/
structure StdVec (β : Type) where
  elems : List β
  capacity : Nat
deriving DecidableEq, Repr

/-- `std::vector::resize`, with libstdc++'s growth.  `alloc` is the outcome of the allocation of memory for this vector, for
each number of elements: an exception then leaves the vector as it was.  (The exceptions of constructors are not
modelled.)
Code: called in `core/include/vecmem/edm/impl/host.ipp`, lines 41-53. -/
def StdVec.resize (alloc : Nat → Res Unit) (d : β) (n : Nat) (v : StdVec β) : Res Unit × StdVec β :=
  let elems := v.elems.take n ++ List.replicate (n - v.elems.length) d
  if n ≤ v.capacity then (.ok (), ⟨elems, v.capacity⟩)
  else
    let c := v.elems.length + max v.elems.length (n - v.elems.length)
    match alloc c with
    | .ok () => (.ok (), ⟨elems, c⟩)
    | e => (e, v)

/-- `std::vector::reserve`.
Code: called in `core/include/vecmem/edm/impl/host.ipp`, lines 55-67. -/
def StdVec.reserve (alloc : Nat → Res Unit) (n : Nat) (v : StdVec β) : Res Unit × StdVec β :=
  if n ≤ v.capacity then (.ok (), v)
  else match alloc n with
    | .ok () => (.ok (), ⟨v.elems, n⟩)
    | e => (e, v)

/-- `host_type<TYPE>::type`, edm/details/host_traits.hpp:26-53.  The variable of a scalar is a vector with one element
(77-83), which only `get` sees (edm/impl/host.ipp:70-96). -/
inductive HostVar (α : Type) where
  | scalar (x : α)
  | vector (d : α) (v : StdVec α)
  | jagged (v : StdVec (List α))
deriving DecidableEq, Repr

/-- `edm::host`: `m_data`.
Code: `core/include/vecmem/edm/host.hpp` (`m_data`). -/
abbrev HostCont (α : Type) := List (HostVar α)

/-- The kinds of variables of a schema, with value-initialised values.
Code: `core/include/vecmem/edm/details/host_traits.hpp`, lines 29-83. -/
inductive HostKind (α : Type) where
  | scalar (d : α)
  | vector (d : α)
  | jagged
deriving DecidableEq, Repr

/-- `host_alloc<TYPE>::make`, edm/details/host_traits.hpp:70-83.  Braces are used: `{&mr}` makes an empty vector if the
type of the elements cannot be made from a `memory_resource*`, which is assumed. (A `vector<void*>` would start with one
element.) -/
def HostKind.make : HostKind α → HostVar α
  | .scalar d => .scalar d
  | .vector d => .vector d ⟨[], 0⟩
  | .jagged => .jagged ⟨[], 0⟩

/-- The constructor, edm/impl/host.ipp:21-25. -/
def HostCont.new (S : List (HostKind α)) : HostCont α := S.map HostKind.make

/-- The size of a variable, if it is a vector, edm/details/host_traits.hpp:99-108. -/
def HostVar.size : HostVar α → Option Nat
  | .scalar _ => none
  | .vector _ v => some v.elems.length
  | .jagged v => some v.elems.length

/-- `get_host_size`, edm/details/host_traits.hpp:93-126, for variables with the sizes `xs`. -/
def getHostSize : List (Option Nat) → Nat → Bool → Res Nat
  | [], _, _ => .ub
  | x :: xs, size, known =>
    let varSize := x.getD size
    let varKnown := x.isSome
    if known ∧ varKnown ∧ varSize ≠ size then .lengthError
    else if xs = [] then
      if !(known || varKnown) then .lengthError else .ok varSize
    else getHostSize xs varSize (known || varKnown)

/-- `size()`, edm/impl/host.ipp:27-39. -/
def HostCont.size (h : HostCont α) : Res Nat := getHostSize (h.map (·.size)) 0 false

/-- One variable in `host_resize`, edm/details/host_traits.hpp:138-145.  `resize_jagged_vector`
(containers/details/resize_jagged_vector.hpp:36-39) adds empty vectors. -/
def HostVar.resize (alloc : Nat → Res Unit) (n : Nat) : HostVar α → Res Unit × HostVar α
  | .scalar x => (.ok (), .scalar x)
  | .vector d v => let r := v.resize alloc d n; (r.1, .vector d r.2)
  | .jagged v => let r := v.resize alloc [] n; (r.1, .jagged r.2)

/-- One variable in `host_reserve`, edm/details/host_traits.hpp:162-166. -/
def HostVar.reserve (alloc : Nat → Res Unit) (n : Nat) : HostVar α → Res Unit × HostVar α
  | .scalar x => (.ok (), .scalar x)
  | .vector d v => let r := v.reserve alloc n; (r.1, .vector d r.2)
  | .jagged v => let r := v.reserve alloc n; (r.1, .jagged r.2)

/-- Call `f` for one variable after the other, until there is an exception: the recursion of `host_resize` and
`host_reserve`, edm/details/host_traits.hpp:146-149 and 167-170. -/
def forVars (f : Nat → HostVar α → Res Unit × HostVar α) : Nat → HostCont α → Res Unit × HostCont α
  | _, [] => (.ok (), [])
  | k, v :: vs =>
    match f k v with
    | (.ok (), v') => let r := forVars f (k + 1) vs; (r.1, v' :: r.2)
    | (e, v') => (e, v' :: vs)

/-- `resize`, edm/impl/host.ipp:41-53; `alloc k` says what the allocations of variable `k` do. -/
def HostCont.resize (alloc : Nat → Nat → Res Unit) (n : Nat) (h : HostCont α) : Res Unit × HostCont α :=
  forVars (fun k => HostVar.resize (alloc k) n) 0 h

/-- `reserve`, edm/impl/host.ipp:55-67. -/
def HostCont.reserve (alloc : Nat → Nat → Res Unit) (n : Nat) (h : HostCont α) : Res Unit × HostCont α :=
  forVars (fun k => HostVar.reserve (alloc k) n) 0 h

/-- A reference that a proxy holds: to the scalar of a variable, to an element of a vector, or to an inner vector.
Code: `core/include/vecmem/edm/details/proxy_traits.hpp`. -/
inductive HostRef where
  | scalar (var : Nat)
  | elem (var index : Nat)
  | row (var index : Nat)
deriving DecidableEq, Repr

/-- `proxy_var_type<...>::make`, edm/details/proxy_traits.hpp:63-66, 82-85, 100-103, 120-123, 190-194 and 213-217: the
vectors are accessed with `at`. -/
def HostVar.ref (k i : Nat) : HostVar α → Res HostRef
  | .scalar _ => .ok (.scalar k)
  | .vector _ v => if i < v.elems.length then .ok (.elem k i) else .outOfRange
  | .jagged v => if i < v.elems.length then .ok (.row k i) else .outOfRange

/-- `proxy_data_creator<...>::make_impl`, edm/details/proxy_traits.hpp:239-380.  (The order of evaluation does not
matter.) -/
def refs (i : Nat) : Nat → HostCont α → Res (List HostRef)
  | _, [] => .ok []
  | k, v :: vs =>
    match v.ref k i with
    | .ok r => (refs i (k + 1) vs).map (r :: ·)
    | e => e.map fun _ => []

/-- `operator[]`, edm/impl/host.ipp:127-141: a proxy, that is, a list of references. -/
def HostCont.proxy (i : Nat) (h : HostCont α) : Res (List HostRef) := refs i 0 h

/-- `at`, edm/impl/host.ipp:98-124. -/
def HostCont.at (i : Nat) (h : HostCont α) : Res (List HostRef) :=
  match h.size with
  | .ok n => if i ≥ n then .outOfRange else h.proxy i
  | e => e.map fun _ => []

/-- The value a reference refers to.
No counterpart in /repo: C++ references. -/
inductive HostVal (α : Type) where
  | one (x : α)
  | row (xs : List α)
deriving DecidableEq, Repr

/-- Read through a reference.
No counterpart in /repo: C++ references. -/
def HostRef.read (h : HostCont α) : HostRef → Option (HostVal α)
  | .scalar k => match h[k]? with
    | some (.scalar x) => some (.one x)
    | _ => none
  | .elem k i => match h[k]? with
    | some (.vector _ v) => v.elems[i]?.map .one
    | _ => none
  | .row k i => match h[k]? with
    | some (.jagged v) => v.elems[i]?.map .row
    | _ => none

/-- Assign through a reference.
No counterpart in /repo: C++ references. -/
def HostRef.write (h : HostCont α) : HostRef → HostVal α → HostCont α
  | .scalar k, .one x => h.modify k fun y => match y with
    | .scalar _ => .scalar x
    | y => y
  | .elem k i, .one x => h.modify k fun y => match y with
    | .vector d v => .vector d { v with elems := v.elems.set i x }
    | y => y
  | .row k i, .row xs => h.modify k fun y => match y with
    | .jagged v => .jagged { v with elems := v.elems.set i xs }
    | y => y
  | _, _ => h

end Vecmem
