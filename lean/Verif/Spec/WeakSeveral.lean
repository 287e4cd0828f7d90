import Verif.Model.WeakSeveral
import Verif.Spec.WeakKernel

/-!
# Specification: appends to several vectors at once (C78)
-/

namespace Vecmem

variable {α : Type} {w : Nat}

/-- The vectors have no variables in common. -/
def Apart (V : Nat → WVec) : Prop := ∀ j k, j ≠ k → ∀ a, (V j).Owns a → ¬ (V k).Owns a

/-- The program changes the vectors by appending only, and a call stores within what it has claimed.  It may read the sizes and the elements, and may do anything to
other variables. -/
def MTask.Polite (V : Nat → WVec) : MTask w → Prop
  | .done => True
  | .access a c next => (∀ k, (V k).Owns a → c = .read ∨ ∃ o, c = .atomic .load o) ∧ ∀ r, (next r).Polite V
  | .append _ c next => (c.count < 2 ^ w ∧ (c.single = true → c.count = 1) ∧ ∀ st ∈ c.stores, st.2.1 < c.count) ∧ ∀ i, (next i).Polite V

/-- The program makes no accesses with memory orders that they must not have. -/
def MTask.Allowed (I : WCall w → Option (WCode w)) : MTask w → Prop
  | .done => True
  | .access _ c next => (I c).isSome ∧ ∀ r, (next r).Allowed I
  | .append _ _ next => ∀ i, (next i).Allowed I

/-- The accesses are those of the whole program: each call that appends has claimed as many places of its vector as it asks for, has stored at them what it was to store, and
has returned the first of them.  Where `final` tells the values in the end: the calls have left their values at the places that they have claimed, and what they do not
store is as it was. -/
inductive MTask.Left (V : Nat → WVec) (m : AMem w) (final : Nat → BitVec w → Prop) : MTask w → List (WEvent w) → Prop
  | done : Left V m final .done []
  | access {a : Nat} {c : WCall w} {next : Option (BitVec w) → MTask w} {e : WEvent w} {l : List (WEvent w)}
      (_ : e.addr = a) (_ : e.call = c) (_ : Left V m final (next (e.read.map (·.2))) l) : Left V m final (.access a c next) (e :: l)
  | append {k : Nat} {c : WAppend w} {next : Nat → MTask w} {e : WEvent w} {v : Nat} {stores l : List (WEvent w)}
      (_ : e.Claims (V k).size v c.count) (_ : List.Forall₂ ((V k).IsStore v) c.stores stores)
      (_ : ∀ u j, j < c.count → final ((V k).cell u (v + j)) ((c.leaves u j).getD (m ((V k).cell u (v + j))))) (_ : Left V m final (next v) l) :
      Left V m final (.append k c next) (e :: (stores ++ l))

/-- The calls on vector `k`. -/
def callsOn (k : Nat) (cs : List (Nat × ACall α)) : List (ACall α) := (cs.filter fun x => decide (x.1 = k)).map (·.2)

end Vecmem
