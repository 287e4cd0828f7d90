import Verif.Model.Jagged
import Verif.Spec.DeviceVector

/-!
# Jagged vectors as lists of lists (C35)
-/

namespace Vecmem

variable {α : Type}

/-- The vector is not resizable, and has these elements. -/
def DV.HoldsFixed (s : DV α) (l : List α) : Prop :=
  s.hasSize = false ∧ s.cap = l.length ∧ s.cap < 2 ^ 32 ∧ ∀ i, i < l.length → s.mem i = l[i]?

/-- The vector holds the list, whether or not it is resizable. -/
def DV.HoldsAny (s : DV α) (l : List α) : Prop := s.HoldsFixed l ∨ s.Holds l s.mem

/-- Operations that are possible on vectors that are not resizable. -/
def DVOp.keepsSize : DVOp α → Bool
  | .at_ _ | .index _ | .write _ _ _ | .front | .back | .size | .empty | .capacity | .iterate | .iterateBack => true
  | _ => false

/-- The views do not share memory. -/
def View.Apart (size : Nat) (v w : View) : Prop :=
  (v.ptr + size * v.capacity ≤ w.ptr ∨ w.ptr + size * w.capacity ≤ v.ptr ∨ v.capacity = 0 ∨ w.capacity = 0) ∧
    (v.sizePtr ≠ 0 → v.sizePtr ≠ w.sizePtr)

/-- The jagged device vector made from the view `j` holds the list of lists. -/
structure JHolds (k : JKind α) (m : JMem α) (j : JView) (rows : List (List α)) : Prop where
  elemSize : 0 < k.size
  size : j.size = rows.length
  word : rows.length < 2 ^ 64
  row : ∀ (i : Nat) (l : List α), rows[i]? = some l → ∃ v, m.views (j.ptr + viewSize * i) = some v ∧ (m.row k v).HoldsAny l
  apart : ∀ (i i' : Nat) (v w : View), i < rows.length → i' < rows.length → i ≠ i' →
    m.views (j.ptr + viewSize * i) = some v → m.views (j.ptr + viewSize * i') = some w → v.Apart k.size w

/-- The position that an access means. -/
def JView.Access.pos (n : Nat) : JView.Access → Nat
  | .at_ i | .index i => i
  | .front => 0
  | .back => n - 1

/-- Row `i` of the view is resizable. -/
def JView.Resizable (m : JMem α) (j : JView) (i : Nat) : Prop :=
  ∃ v, m.views (j.ptr + viewSize * i) = some v ∧ v.sizePtr ≠ 0

/-- A run of operations on the rows of a list of lists; `cap i` is the capacity of row `i`. -/
inductive RowsRun (dflt : α) (cap : Nat → Nat) :
    List (List α) → List (JView.Access × DVOp α) → List (Res (Ret α)) → List (List α) → Prop
  | nil (rows) : RowsRun dflt cap rows [] [] rows
  | cons {rows x op l r l' ops rs rows'} (hl : rows[x.pos rows.length]? = some l)
      (h : VecStep dflt (cap (x.pos rows.length)) l op r l')
      (hs : RowsRun dflt cap (rows.set (x.pos rows.length) l') ops rs rows') :
      RowsRun dflt cap rows ((x, op) :: ops) (.ok r :: rs) rows'

/-- Every operation of the program is on an existing row and given arguments that it allows; only resizable rows are
resized. -/
def RowsFit (triv : Bool) (dflt : α) (cap : Nat → Nat) (res : Nat → Prop) :
    List (List α) → List (JView.Access × DVOp α) → Prop
  | _, [] => True
  | rows, (x, op) :: ops => x.pos rows.length < rows.length ∧
      ∀ l, rows[x.pos rows.length]? = some l → op.Fits triv (cap (x.pos rows.length)) l ∧
        (op.keepsSize = true ∨ res (x.pos rows.length)) ∧
        ∀ r l', VecStep dflt (cap (x.pos rows.length)) l op r l' →
          RowsFit triv dflt cap res (rows.set (x.pos rows.length) l') ops

/-- The vectors of the host vector of vectors: each has these elements in memory, they do not overlap, and their sizes
can be represented in 32 bits. -/
structure HostHolds (k : JKind α) (m : JMem α) (vs : List HostVec) (rows : List (List α)) : Prop where
  length : vs.length = rows.length
  elems : ∀ (i : Nat) (v : HostVec) (l : List α), vs[i]? = some v → rows[i]? = some l →
    v.size = l.length ∧ ∀ q, q < l.length → m.cells (v.data + k.size * q) = l[q]?
  apart : ∀ (i i' : Nat) (v w : HostVec), i ≠ i' → vs[i]? = some v → vs[i']? = some w →
    v.data + k.size * v.size ≤ w.data ∨ w.data + k.size * w.size ≤ v.data ∨ v.size = 0 ∨ w.size = 0

end Vecmem
