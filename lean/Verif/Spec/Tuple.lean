import Verif.Model.Tuple

/-!
# Specification: tuples
-/

namespace Vecmem

/-- The tuple `t` has been made with elements of types `ts` from the objects `srcs`; `m` and `m'` are the objects before and
after.  An element that is a value is a new object, which has the value of its source and is shared with no other element.  An
element that is a reference is its source.  Nothing else has changed. -/
structure Tup.Built {α : Type} (m m' : Objs α) (ts : List ElemTy) (srcs : List Nat) (t : Tup) : Prop where
  size : ∀ c i, (t.get c i).isSome = true ↔ i < ts.length
  others : ∀ o < m.length, m'[o]? = m[o]?
  value : ∀ (c : Bool) (i s : Nat), ts[i]? = some .val → srcs[i]? = some s →
    ∃ o, t.get c i = some (o, c) ∧ m.length ≤ o ∧ m'[o]? = m[s]?
  reference : ∀ (c : Bool) (i s : Nat), ts[i]? = some .ref → srcs[i]? = some s → t.get c i = some (s, c)
  constReference : ∀ (c : Bool) (i s : Nat), ts[i]? = some .cref → srcs[i]? = some s → t.get c i = some (s, true)
  distinct : ∀ (c : Bool) (i j o : Nat) (k l : Bool), ts[i]? = some .val → i ≠ j → t.get c i = some (o, k) →
    t.get c j ≠ some (o, l)

/-- The object exists, and its life is not over. -/
def Alive {α : Type} (m : Objs α) (o : Nat) : Prop := ∃ v, m[o]? = some (some v)

/-- What `get<I>(t) = v` does. -/
def Tup.assign {α : Type} (m : Objs α) (t : Tup) (i : Nat) (v : α) : Option (Objs α) :=
  match t.get false i with
  | some (o, false) => some (m.set o (some v))
  | _ => none

/-- What `get<I>(t)` reads. -/
def Tup.read {α : Type} (m : Objs α) (t : Tup) (i : Nat) : Option α :=
  match t.get true i with
  | some (o, _) => (m[o]?).join
  | none => none

end Vecmem
