import Verif.Model.EdmCopy
import Verif.Spec.Copy

/-!
# What copying containers means (C40, C44)

A variable is a list of rows: a jagged vector has as many as it has inner vectors, a vector is one row, and a scalar is a
row of fixed size with one element.
-/

namespace Vecmem

def VarView.kind : VarView → VarKind
  | .scalar _ => .scalar
  | .vector _ => .vector
  | .jagged _ => .jagged

def VarView.rows : VarView → List View
  | .scalar p => [⟨1, 0, p⟩]
  | .vector v => [v]
  | .jagged j => j.views

/-- The byte at `a` belongs to the elements of the variable. -/
def VarView.HasPayload (t : Nat) (x : VarView) (a : Nat) : Prop := ∃ v ∈ x.rows, v.HasPayload t a

/-- The byte at `a` belongs to a size word of the variable. -/
def VarView.HasWord (x : VarView) (a : Nat) : Prop := ∃ v ∈ x.rows, v.HasWord a

/-- The byte at `a` belongs to the variable. -/
def VarView.Has (t : Nat) (x : VarView) (a : Nat) : Prop := x.HasPayload t a ∨ x.HasWord a

/-- The variables `xs` are those of a container with the schema `S` that may be set up: every one may be set up, and shares
no memory with the other ones, except that all vectors have the same size word (or none).  The vectors have the same
capacity. -/
structure VarsPlaced (S : Schema) (xs : List VarView) : Prop where
  count : xs.length = S.length
  each : ∀ (i : Nat) (v : Var) (x : VarView), S[i]? = some v → xs[i]? = some x →
    x.kind = v.kind ∧ 0 < v.type.size ∧ JagPlaced v.type.size x.rows
  apart : ∀ (i j : Nat) (v w : Var) (x y : VarView), i ≠ j → S[i]? = some v → S[j]? = some w → xs[i]? = some x →
    xs[j]? = some y → ∀ a, ¬ (x.HasPayload v.type.size a ∧ y.Has w.type.size a)
  words : ∀ (i j : Nat) (x y : VarView), i ≠ j → xs[i]? = some x → xs[j]? = some y → x.kind = .jagged →
    ∀ a, ¬ (x.HasWord a ∧ y.HasWord a)
  vectors : ∀ (i j : Nat) (v w : View), xs[i]? = some (.vector v) → xs[j]? = some (.vector w) →
    v.sizePtr = w.sizePtr ∧ v.capacity = w.capacity

/-- The variables may be used: also, no row is larger than its capacity. -/
structure VarsValid (m : Mem) (S : Schema) (xs : List VarView) : Prop extends VarsPlaced S xs where
  sizes : ∀ x ∈ xs, ∀ v ∈ x.rows, v.len m ≤ v.capacity

/-- The byte at `a` belongs to one of the variables. -/
def VarsHave (S : Schema) (xs : List VarView) (a : Nat) : Prop :=
  ∃ (i : Nat) (v : Var) (x : VarView), S[i]? = some v ∧ xs[i]? = some x ∧ x.Has v.type.size a

/-- There is nothing to copy: an empty vector, or a jagged vector without rows. -/
def VarView.Nothing (m : Mem) : VarView → Prop
  | .scalar _ => False
  | .vector v => v.len m = 0
  | .jagged j => j.views = []

/-- There is room for the contents of `x` in `y`: it has as many rows, of sufficient capacity. -/
def VarView.CanHold (m : Mem) (x y : VarView) : Prop :=
  (x.rows = [] ∨ x.rows.length = y.rows.length) ∧
  ∀ (k : Nat) (v w : View), x.rows[k]? = some v → y.rows[k]? = some w → v.len m ≤ w.capacity

/-- After a copy of memory `m` into `m'` the variable `y` holds the contents of `x`. -/
def VarView.Holds (m m' : Mem) (t : Nat) (x y : VarView) : Prop :=
  ∀ (k : Nat) (v w : View), x.rows[k]? = some v → y.rows[k]? = some w → v.HoldsRow m m' t w

end Vecmem
