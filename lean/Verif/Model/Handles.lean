import Verif.Spec.World

/-!
# Model of movable memory resources

The memory resources of core/include/vecmem/memory own their implementation through a `std::unique_ptr` (`m_impl`) and
can be moved, core/src/memory/details/memory_resource_impl.hpp:19-38.  Resources that are built over them refer to the
object, not to its implementation.
-/

namespace Vecmem

/-- What a resource object holds: nothing (it has been moved from), or an implementation. Before its construction and
after its destruction there is no object.
Code: `core/include/vecmem/memory/pool_memory_resource.hpp` (`m_impl`), and the other headers there. -/
inductive Handle where
  | noObject
  | movedFrom
  | holds (impl : Nat)
deriving DecidableEq

/-- The objects, by the number of their place in memory.
No counterpart in /repo: programs of users. -/
abbrev Handles : Type := Nat → Handle

/-- A resource that does not exist.
No counterpart in /repo: calls that are undefined. -/
def noMR {S : Type} : MR S where
  allocate s _ _ := (.ub, s)
  deallocate s _ _ _ := (.ub, s)

/-- A resource that has been moved from: `do_allocate` and `do_deallocate` with a null `m_impl`,
core/src/memory/details/memory_resource_impl.hpp:23-38. -/
def movedMR {S : Type} : MR S where
  allocate s n _ := if n = 0 then (.ok 0, s) else (.ub, s)
  deallocate s p _ _ := if p = 0 then (.ok (), s) else (.ub, s)

/-- Implementation number `k`: its kind, and the objects (or base resources) that its upstream references refer to.
Code: the constructors in `core/src/memory/pool_memory_resource.cpp`, and the other files there. -/
structure HDecl (β : Type) : Type 1 where
  kind : Kind
  up : kind.ι → β ⊕ Nat

/-- The state of all implementations.
No counterpart in /repo: programs of users. -/
abbrev HWorld (σ : Type) {β : Type} (d : Nat → HDecl β) : Type := WState σ (fun k => (d k).kind.τ)

/-- All objects and implementations.
No counterpart in /repo: programs of users. -/
structure HState (σ : Type) {β : Type} (d : Nat → HDecl β) where
  w : HWorld σ d
  o : Handles

section

variable {β σ : Type} (bases : β → MR σ) (d : Nat → HDecl β)

/-- Calls to implementation `k`, whose upstream calls go through the objects its references refer to.  `n` bounds the
depth of calls.
Code: `core/src/memory/details/memory_resource_impl.hpp`. -/
def implMR (o : Handles) : (n k : Nat) → MR (HWorld σ d)
  | 0, _ => noMR
  | n + 1, k => onSlot k ((d k).kind.mr fun i =>
    match (d k).up i with
    | .inl b => onBase (bases b)
    | .inr h =>
      match o h with
      | .noObject => noMR
      | .movedFrom => movedMR
      | .holds j => implMR o n j)

/-- Calls through a reference to a base resource or an object.
Code: `core/src/memory/details/memory_resource_impl.hpp`. -/
def refMR (n : Nat) (o : Handles) : β ⊕ Nat → MR (HWorld σ d)
  | .inl b => onBase (bases b)
  | .inr h =>
    match o h with
    | .noObject => noMR
    | .movedFrom => movedMR
    | .holds j => implMR bases d o n j

/-- Replace an object.
No counterpart in /repo: programs of users. -/
def Handles.put (o : Handles) (h : Nat) (x : Handle) : Handles := fun h' => if h' = h then x else o h'

/-- The destructor of implementation `k`.
Code: the destructors in `core/src/memory/details/pool_memory_resource_impl.cpp`, and the other files there. -/
def destroyImpl (n : Nat) (o : Handles) (k : Nat) (w : HWorld σ d) : Res Unit × HWorld σ d :=
  match w.loc k with
  | none => (.ub, w)
  | some t =>
    let r := (d k).kind.destroy (fun i => refMR bases d n o ((d k).up i)) t w
    (r.1, r.2.set k none)

/-- Delete what an object holds: the destructor of `std::unique_ptr`.
Code: `core/src/memory/details/memory_resource_impl.hpp` (destructors and assignments). -/
def dropHandle (n : Nat) (o : Handles) (x : Handle) (w : HWorld σ d) : Res Unit × HWorld σ d :=
  match x with
  | .noObject => (.ub, w)
  | .movedFrom => (.ok (), w)
  | .holds k => destroyImpl bases d n o k w

/-- A call to the object or base resource that `x` refers to.
No counterpart in /repo: programs of users. -/
def HState.allocate (n : Nat) (s : HState σ d) (x : β ⊕ Nat) (size align : Nat) : Res Nat × HState σ d :=
  let r := (refMR bases d n s.o x).allocate s.w size align
  (r.1, ⟨r.2, s.o⟩)

/-- A call that gives back a block to the object or base resource that `x` refers to.
No counterpart in /repo: programs of users. -/
def HState.deallocate (n : Nat) (s : HState σ d) (x : β ⊕ Nat) (p size align : Nat) : Res Unit × HState σ d :=
  let r := (refMR bases d n s.o x).deallocate s.w p size align
  (r.1, ⟨r.2, s.o⟩)

/-- A constructor from upstreams: make implementation `k` and have the new object `h` own it (for example
core/src/memory/pool_memory_resource.cpp:19-22). -/
def HState.construct (n : Nat) (s : HState σ d) (h k : Nat) : Res Unit × HState σ d :=
  match (d k).kind.create (fun i => refMR bases d n s.o ((d k).up i)) s.w with
  | (.ok t, w') => (.ok (), ⟨w'.set k (some t), s.o.put h (.holds k)⟩)
  | (e, w') => (e.map fun _ => (), ⟨w', s.o⟩)

/-- The move constructor of object `h` from `from_`, core/src/memory/details/memory_resource_impl.hpp:20. -/
def HState.moveConstruct (s : HState σ d) (h from_ : Nat) : Res Unit × HState σ d :=
  match s.o from_ with
  | .noObject => (.ub, s)
  | x => (.ok (), ⟨s.w, (s.o.put from_ .movedFrom).put h x⟩)

/-- Move assignment, core/src/memory/details/memory_resource_impl.hpp:22: `m_impl.reset(rhs.m_impl.release())`, which
deletes what the object held after it has stored the new pointer. -/
def HState.moveAssign (n : Nat) (s : HState σ d) (h from_ : Nat) : Res Unit × HState σ d :=
  match s.o h, s.o from_ with
  | .noObject, _ => (.ub, s)
  | _, .noObject => (.ub, s)
  | old, x =>
    if h = from_ then (.ok (), s)
    else
      let o' := (s.o.put from_ .movedFrom).put h x
      let r := dropHandle bases d n o' old s.w
      (r.1, ⟨r.2, o'⟩)

/-- The destructor of object `h`, core/src/memory/details/memory_resource_impl.hpp:21. -/
def HState.destruct (n : Nat) (s : HState σ d) (h : Nat) : Res Unit × HState σ d :=
  let r := dropHandle bases d n s.o (s.o h) s.w
  (r.1, ⟨r.2, s.o.put h .noObject⟩)

end

end Vecmem
