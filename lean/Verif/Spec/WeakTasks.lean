import Verif.Spec.WeakVector
import Verif.Model.WeakVector
import Mathlib.Data.List.Forall2

/-!
# Specification: programs that append to a vector (C76)
-/

namespace Vecmem

variable {w : Nat}

/-- The variables of a vector are different ones, and the capacity is a value of the type of the size. -/
structure WVec.Valid (w : Nat) (V : WVec) : Prop where
  cells : ∀ v i v' i', V.cell v i = V.cell v' i' → v = v' ∧ i = i'
  size : ∀ v i, V.cell v i ≠ V.size
  cap : V.cap < 2 ^ w

/-- The variable belongs to the vector. -/
def WVec.Owns (V : WVec) (a : Nat) : Prop := a = V.size ∨ ∃ v i, a = V.cell v i

/-- The program changes the vector by appending only, and a call stores within what it has claimed.  It may read the size and the elements, and may do anything to
other variables. -/
def WTask.Polite (V : WVec) : WTask w → Prop
  | .done => True
  | .access a c next => (V.Owns a → c = .read ∨ ∃ o, c = .atomic .load o) ∧ ∀ r, (next r).Polite V
  | .append c next => (c.count < 2 ^ w ∧ (c.single = true → c.count = 1) ∧ ∀ st ∈ c.stores, st.2.1 < c.count) ∧ ∀ i, (next i).Polite V

/-- The program makes no accesses with memory orders that they must not have. -/
def WTask.Allowed (I : WCall w → Option (WCode w)) : WTask w → Prop
  | .done => True
  | .access _ c next => (I c).isSome ∧ ∀ r, (next r).Allowed I
  | .append _ next => ∀ i, (next i).Allowed I

/-- The access is the store that is given: to which variable of the container, at which place from `v` on, which value. -/
def WVec.IsStore (V : WVec) (v : Nat) (st : Nat × Nat × BitVec w) (e : WEvent w) : Prop :=
  e.addr = V.cell st.1 (v + st.2.1) ∧ e.call = .write st.2.2 ∧ e.wrote.map (·.2) = some st.2.2

/-- The accesses are those of the whole program: each call that appends has claimed as many places as it asks for, has stored at them what it was to store, and
has returned the first of them. -/
inductive WTask.Ran (V : WVec) : WTask w → List (WEvent w) → Prop
  | done : Ran V .done []
  | access {a : Nat} {c : WCall w} {next : Option (BitVec w) → WTask w} {e : WEvent w} {l : List (WEvent w)}
      (_ : e.addr = a) (_ : e.call = c) (_ : Ran V (next (e.read.map (·.2))) l) : Ran V (.access a c next) (e :: l)
  | append {c : WAppend w} {next : Nat → WTask w} {e : WEvent w} {v : Nat} {stores l : List (WEvent w)}
      (_ : e.Claims V.size v c.count) (_ : List.Forall₂ (V.IsStore v) c.stores stores) (_ : Ran V (next v) l) :
      Ran V (.append c next) (e :: (stores ++ l))

/-- The program that calls `push_back` with the values, one after the other. -/
def WTask.pushAll : List (BitVec w) → WTask w
  | [] => .done
  | x :: l => .append (.push x) fun _ => pushAll l

/-- The value that a call leaves in variable `v` of the container, `j` places behind the first of the new ones: that of its last store there. -/
def WAppend.leaves (c : WAppend w) (v j : Nat) : Option (BitVec w) :=
  (c.stores.reverse.find? fun st => st.1 == v && st.2.1 == j).map (·.2.2)

/-- As `Ran`, and where `final` tells the values in the end: the calls of the program have left their values at the places that they have claimed, and what they do not
store is as it was. -/
inductive WTask.Left (V : WVec) (m : AMem w) (final : Nat → BitVec w → Prop) : WTask w → List (WEvent w) → Prop
  | done : Left V m final .done []
  | access {a : Nat} {c : WCall w} {next : Option (BitVec w) → WTask w} {e : WEvent w} {l : List (WEvent w)}
      (_ : e.addr = a) (_ : e.call = c) (_ : Left V m final (next (e.read.map (·.2))) l) : Left V m final (.access a c next) (e :: l)
  | append {c : WAppend w} {next : Nat → WTask w} {e : WEvent w} {v : Nat} {stores l : List (WEvent w)}
      (_ : e.Claims V.size v c.count) (_ : List.Forall₂ (V.IsStore v) c.stores stores)
      (_ : ∀ u j, j < c.count → final (V.cell u (v + j)) ((c.leaves u j).getD (m (V.cell u (v + j))))) (_ : Left V m final (next v) l) :
      Left V m final (.append c next) (e :: (stores ++ l))

/-- The accesses of thread `i`. -/
def WTrace.of (tr : WTrace w) (i : Nat) : List (WEvent w) := tr.filter fun e => decide (e.thread = i)

end Vecmem
