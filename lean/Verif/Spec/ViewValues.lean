import Verif.Model.ViewValues
import Verif.Spec.Copy

/-!
# What views as values mean (C69)

What a view shows in a memory, and what a user may expect of views that are `const`: memory of which no view for writing has been
made is not written to.
-/

namespace Vecmem

/-- What a view of a vector shows: the room, whether it can be resized, and the elements. -/
structure ShownRow where
  capacity : Nat
  resizable : Bool
  elems : List Elem
deriving DecidableEq

/-- What is behind a pointer, a view of a vector or a view of a jagged vector; of the latter there are rows for the host and for the
device. -/
inductive ShownLeaf where
  | scalar (e : Elem)
  | vector (r : ShownRow)
  | jagged (host dev : List ShownRow)
deriving DecidableEq

/-- What a view shows; that of a container has a capacity, variables, and four blocks of bytes. -/
inductive Shown where
  | leaf (l : ShownLeaf)
  | container (capacity : Nat) (vars : List ShownLeaf) (size payload layout hostLayout : List UInt8)
deriving DecidableEq

/-- What a view of elements of `t` bytes shows in memory `m`. -/
def View.shows (m : Mem) (t : Nat) (v : View) : ShownRow := ⟨v.capacity, v.sizePtr != 0, v.elems m t⟩

@[inherit_doc View.shows]
def LeafView.shows (m : Mem) (t : Nat) : LeafView → ShownLeaf
  | .scalar p => .scalar (bytesAt m p t)
  | .vector v => .vector (v.shows m t)
  | .jagged j =>
    .jagged ((List.range j.size).map fun i => (readView m (j.hostPtr + viewSize * i)).shows m t)
      ((List.range j.size).map fun i => (readView m (j.ptr + viewSize * i)).shows m t)

/-- What a view of type `a` shows in memory `m`. -/
def ViewVal.shows (sz : Nat → Nat) (m : Mem) : ViewType → ViewVal → Option Shown
  | .leaf _ t, .leaf l => some (.leaf (l.shows m (sz t.base)))
  | .edm vars, .edm e =>
    some (.container e.capacity (List.zipWith (fun v l => l.shows m (sz v.2.base)) vars e.vars)
      (bytesAt m e.size.ptr e.size.capacity) (bytesAt m e.payload.ptr e.payload.capacity)
      (bytesAt m e.layout.ptr e.layout.capacity) (bytesAt m e.hostLayout.ptr e.hostLayout.capacity))
  | _, _ => none

namespace ViewVars

/-- What variable `x` shows in memory `m`, nothing if it does not exist. -/
def shows (sz : Nat → Nat) (s : ViewVars) (m : Mem) (x : Nat) : Option Shown := (s.vars.lookup x).bind fun e => e.2.shows sz m e.1

/-- The type of variable `x`. -/
def type (s : ViewVars) (x : Nat) : Option ViewType := (s.vars.lookup x).map (·.1)

end ViewVars

/-- The views in a view, with the types of their elements. -/
def ViewType.leaves : ViewType → List (VarKind × QType)
  | .leaf k t => [(k, t)]
  | .edm vars => vars

/-- A view of type `a` gives access to elements of the same types as one of type `b`, and what is read-only in `b` is read-only
in `a`. -/
def ViewType.NoMoreThan (a b : ViewType) : Prop :=
  a.leaves.length = b.leaves.length ∧
    ∀ (i : Nat) (x y : VarKind × QType), a.leaves[i]? = some x → b.leaves[i]? = some y →
      x.1 = y.1 ∧ x.2.base = y.2.base ∧ (y.2.const = true → x.2.const = true)

/-- The step makes views of views only, and reads and writes through views. -/
def ViewOp.Passes : ViewOp → Prop
  | .init .. | .assign .. | .equal .. | .write .. | .writeSize .. | .writePart .. => True
  | _ => False

/-- A container view that a buffer fills has views of the sorts that its type says. -/
def ViewOp.Typed : ViewOp → Prop
  | .edmFilled _ vars e => e.vars.map LeafView.kind = vars.map (·.1)
  | _ => True

/-- Execute a program whose steps are all accepted and defined. -/
inductive ViewRuns (sz : Nat → Nat) : List ViewOp → ViewVars → ViewVars → Prop
  | nil (s) : ViewRuns sz [] s s
  | cons {op ops s b s' s''} (h : s.exec sz op = .ok b s') (t : ViewRuns sz ops s' s'') : ViewRuns sz (op :: ops) s s''

/-- The byte at `x` belongs to one of the views that are in memory: `slots p b` says that there is a view of elements of type `b`,
`const` or not, at address `p`. -/
def InSlot (slots : Nat → Nat → Prop) (x : Nat) : Prop := ∃ p b, slots p b ∧ p ≤ x ∧ x < p + viewSize

/-- Views in memory have one type, and do not overlap each other, nor the memory `Z`. -/
def SlotsApart (Z : Nat → Prop) (slots : Nat → Nat → Prop) : Prop :=
  (∀ p q b c, slots p b → slots q c → (p = q ∧ b = c) ∨ p + viewSize ≤ q ∨ q + viewSize ≤ p) ∧ ∀ x, Z x → ¬ InSlot slots x

/-- The numbers are values of their C++ types. -/
def View.InRange (v : View) : Prop := v.capacity < 2 ^ 32 ∧ v.sizePtr < 2 ^ 64 ∧ v.ptr < 2 ^ 64

/-- The elements and the size of the vector are neither in the memory `Z` nor where views are. -/
def View.Clear (Z : Nat → Prop) (slots : Nat → Nat → Prop) (t : Nat) (v : View) : Prop := ∀ x, v.Has t x → ¬ Z x ∧ ¬ InSlot slots x

/-- A view of elements of type `b` in the memory `m` does not give access to `Z`. -/
def LeafView.Clear (sz : Nat → Nat) (Z : Nat → Prop) (slots : Nat → Nat → Prop) (m : Mem) (b : Nat) : LeafView → Prop
  | .scalar p => p ≠ 0 → ∀ x, p ≤ x → x < p + sz b → ¬ Z x ∧ ¬ InSlot slots x
  | .vector v => v.Clear Z slots (sz b)
  | .jagged j => ∀ (host : Bool) (i : Nat), i < j.size → slots (j.slot host i) b ∧ (readView m (j.slot host i)).Clear Z slots (sz b)

/-- The view is of the sort that its type says, its numbers are values of their C++ types, and it does not give access to `Z` if it is for
writing. -/
def LeafView.Good (sz : Nat → Nat) (Z : Nat → Prop) (slots : Nat → Nat → Prop) (m : Mem) (k : VarKind × QType) (l : LeafView) : Prop :=
  l.kind = k.1 ∧ (∀ v, l = .vector v → v.InRange) ∧ (k.2.const = false → l.Clear sz Z slots m k.2.base)

@[inherit_doc LeafView.Good]
def EdmRef.Good (sz : Nat → Nat) (Z : Nat → Prop) (slots : Nat → Nat → Prop) (m : Mem) (vars : List (VarKind × QType)) (e : EdmRef) : Prop :=
  e.vars.length = vars.length ∧ (∀ (i : Nat) (k : VarKind × QType) (l : LeafView), vars[i]? = some k → e.vars[i]? = some l → l.Good sz Z slots m k) ∧
    (vars.any (·.2.const) = false → ∀ p x, (e.part p).HasPayload 1 x → ¬ Z x ∧ ¬ InSlot slots x)

/-- What the user may do: the views that they make are good; rows are not replaced through views for reading. -/
def ViewOp.Fits (sz : Nat → Nat) (Z : Nat → Prop) (slots : Nat → Nat → Prop) (s : ViewVars) : ViewOp → Prop
  | .vecFixed _ t size ptr => (LeafView.vector ⟨size, 0, ptr⟩).Good sz Z slots s.mem (.vector, t)
  | .vecResizable _ t capacity size ptr => (LeafView.vector ⟨capacity, size, ptr⟩).Good sz Z slots s.mem (.vector, t)
  | .jag _ t size ptr hostPtr => (LeafView.jagged (.make size ptr hostPtr)).Good sz Z slots s.mem (.jagged, t)
  | .edm _ vars _ size => vars.any (·.2.const) = false → ∀ x, size.HasPayload 1 x → ¬ Z x ∧ ¬ InSlot slots x
  | .edmFilled _ vars e => e.Good sz Z slots s.mem vars
  | .setRow x _ _ _ => ∀ t, s.type x = some (.leaf .jagged t) → t.const = false
  | _ => True

/-- The states that programs reach, from memory `m0`. -/
inductive ViewReach (sz : Nat → Nat) (Z : Nat → Prop) (slots : Nat → Nat → Prop) (m0 : Mem) : ViewVars → Prop
  | init : ViewReach sz Z slots m0 ⟨m0, []⟩
  | step {s op b s'} (h : ViewReach sz Z slots m0 s) (hf : op.Fits sz Z slots s) (he : s.exec sz op = .ok b s') :
      ViewReach sz Z slots m0 s'

end Vecmem
