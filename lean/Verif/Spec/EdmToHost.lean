import Verif.Spec.EdmCopy

/-!
# What copying a container to a host container means (C44)
-/

namespace Vecmem

/-- The current sizes of the rows of all variables. -/
def rowSizes (m : Mem) (xs : List VarView) : List (List Nat) := xs.map fun x => x.rows.map (·.len m)

/-- The arrays of a host container, as rows of fixed size: those with the given sizes at the given addresses. -/
def hostArrays (sizes addrs : List (List Nat)) : List (List View) :=
  List.zipWith (List.zipWith fun n p => ⟨n, 0, p⟩) sizes addrs

/-- The arrays `rows` are as those of `std::vector`s are: in the address space, and without common memory. -/
structure HostPlaced (S : Schema) (rows : List (List View)) : Prop where
  each : ∀ (i : Nat) (v : Var) (rs : List View), S[i]? = some v → rows[i]? = some rs →
    rs.Pairwise (View.Separate v.type.size) ∧
    ∀ r ∈ rs, r.capacity ≠ 0 → r.ptr ≠ 0 ∧ r.ptr + r.capacity * v.type.size ≤ 2 ^ 64
  apart : ∀ (i j : Nat) (v w : Var) (rs qs : List View), i ≠ j → S[i]? = some v → S[j]? = some w → rows[i]? = some rs →
    rows[j]? = some qs → ∀ a, ¬ (JagHas v.type.size rs a ∧ JagHas w.type.size qs a)

/-- The byte at `a` belongs to one of the arrays. -/
def ArraysHave (S : Schema) (rows : List (List View)) (a : Nat) : Prop :=
  ∃ (i : Nat) (v : Var) (rs : List View), S[i]? = some v ∧ rows[i]? = some rs ∧ JagHas v.type.size rs a

/-- How many elements a vector has, and how many inner vectors a jagged vector has. -/
def VarView.outer (m : Mem) : VarView → Option Nat
  | .scalar _ => none
  | .vector v => some (v.len m)
  | .jagged j => some j.views.length

/-- All vectors of a container are of the same size. -/
def SameSize (m : Mem) (xs : List VarView) : Prop := ∃ n, ∀ x ∈ xs, ∀ k, x.outer m = some k → k = n

/-- In a container without jagged vectors all vectors use the size word of the container, if it has one, and have its
capacity. -/
def OneSize (S : Schema) (e : EdmView) : Prop :=
  S.hasJagged = false → (e.size.ptr ≠ 0 → e.size.capacity = 4) ∧
    ∀ v, VarView.vector v ∈ e.vars → v.sizePtr = e.size.ptr ∧ v.capacity = e.capacity

/-- The sizes of the arrays of a host container of `n` elements: one element for a scalar, `n` for a vector, `n` inner vectors
of any sizes for a jagged vector.  (Sizes that fit into 32 bits.) -/
structure HostSizes (S : Schema) (n : Nat) (sizes : List (List Nat)) : Prop where
  count : sizes.length = S.length
  small : n < 2 ^ 32
  each : ∀ (i : Nat) (v : Var) (ns : List Nat), S[i]? = some v → sizes[i]? = some ns →
    (v.kind = .scalar → ns = [1]) ∧ (v.kind = .vector → ns = [n]) ∧
    (v.kind = .jagged → ns.length = n ∧ ∀ k ∈ ns, k < 2 ^ 32)

/-- There is room for arrays of these sizes in the variables `xs`: for each array there is a row, which is as large as the array
if its size is fixed, and otherwise not smaller. -/
def FitInto (sizes : List (List Nat)) (xs : List VarView) : Prop :=
  ∀ (i : Nat) (ns : List Nat) (x : VarView), sizes[i]? = some ns → xs[i]? = some x → x.rows.length = ns.length ∧
    ∀ (k n : Nat) (r : View), ns[k]? = some n → x.rows[k]? = some r → n ≤ r.capacity ∧ (r.sizePtr = 0 → n = r.capacity)

end Vecmem
