import Verif.Model.Iterators

/-!
# What iterating means (C34)
-/

namespace Vecmem

variable {ι α : Type}

/-- The iterators `pos 0, …, pos n` are those of a range of random access iterators over the elements of the list `l` of
length `n`: `pos 0` is the first one, `pos n` the one past the end, and the operations are what the positions suggest. -/
structure Iter.Range (I : Iter ι α) (pos : Nat → ι) (l : List α) : Prop where
  inc : ∀ i, i < l.length → I.inc (pos i) = pos (i + 1)
  dec : ∀ i, i < l.length → I.dec (pos (i + 1)) = pos i
  add : ∀ (i j : Nat) (n : Int), i ≤ l.length → j ≤ l.length → (j : Int) = i + n → I.add (pos i) n = pos j
  sub : ∀ (i j : Nat) (n : Int), i ≤ l.length → j ≤ l.length → (j : Int) = i - n → I.sub (pos i) n = pos j
  deref : ∀ i, (hi : i < l.length) → I.deref (pos i) = .ok l[i]
  eq : ∀ i j, i ≤ l.length → j ≤ l.length → I.eq (pos i) (pos j) = decide (i = j)

end Vecmem
