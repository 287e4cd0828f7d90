import Verif.Model.DeviceVector

/-!
# What a bounded vector is (C29)

A bounded vector is a list.  `VecStep dflt cap l op r l'`: operation `op` on the list `l`, with room for `cap`
elements, may return `r` and leave `l'`.  Only the operations that add elements without initializing them have a
choice (of the new elements).
-/

namespace Vecmem

variable {α : Type}

/-- The value of an argument, which may be a reference to an element. -/
def Arg.value (l : List α) : Arg α → Option α
  | .val v => some v
  | .elem k => l[k]?

/-- Operations on lists. -/
inductive VecStep (dflt : α) (cap : Nat) (l : List α) : DVOp α → Ret α → List α → Prop
  | push {a v} (hv : a.value l = some v) : VecStep dflt cap l (.push a) (.num l.length) (l ++ [v])
  | emplace {a v} (hv : a.value l = some v) : VecStep dflt cap l (.emplace a) (.num l.length) (l ++ [v])
  | bulk (n) : VecStep dflt cap l (.bulk n) (.num l.length) (l ++ List.replicate n dflt)
  | bulkValue {a v} (n) (hv : a.value l = some v) :
      VecStep dflt cap l (.bulkValue n a) (.num l.length) (l ++ List.replicate n v)
  | bulkImplicit (n) (new : List α) (hn : new.length = n) :
      VecStep dflt cap l (.bulkImplicit n) (.num l.length) (l ++ new)
  | pop : VecStep dflt cap l .pop (.num (l.length - 1)) l.dropLast
  | clear : VecStep dflt cap l .clear .unit []
  | resize (n) : VecStep dflt cap l (.resize n) .unit (l.take n ++ List.replicate (n - l.length) dflt)
  | resizeValue {a v} (n) (hv : a.value l = some v) :
      VecStep dflt cap l (.resizeValue n a) .unit (l.take n ++ List.replicate (n - l.length) v)
  | resizeImplicit (n) (new : List α) (hn : new.length = n - l.length) :
      VecStep dflt cap l (.resizeImplicit n) .unit (l.take n ++ new)
  | assign {a v} (n) (hv : a.value l = some v) : VecStep dflt cap l (.assign n a) .unit (List.replicate n v)
  | at_ {v} (i) (hv : l[i]? = some v) : VecStep dflt cap l (.at_ i) (.val v) l
  | index {v} (i) (hv : l[i]? = some v) : VecStep dflt cap l (.index i) (.val v) l
  | write (c i v) : VecStep dflt cap l (.write c i v) .unit (l.set i v)
  | front {v} (hv : l.head? = some v) : VecStep dflt cap l .front (.val v) l
  | back {v} (hv : l.getLast? = some v) : VecStep dflt cap l .back (.val v) l
  | size : VecStep dflt cap l .size (.num l.length) l
  | empty : VecStep dflt cap l .empty (.bool l.isEmpty) l
  | capacity : VecStep dflt cap l .capacity (.num cap) l
  | iterate : VecStep dflt cap l .iterate (.vals l) l
  | iterateBack : VecStep dflt cap l .iterateBack (.vals l.reverse) l

/-- A run of operations on lists. -/
inductive VecRun (dflt : α) (cap : Nat) : List α → List (DVOp α) → List (Res (Ret α)) → List α → Prop
  | nil (l) : VecRun dflt cap l [] [] l
  | cons {l op r l' ops rs l''} (h : VecStep dflt cap l op r l') (hs : VecRun dflt cap l' ops rs l'') :
      VecRun dflt cap l (op :: ops) (.ok r :: rs) l''

/-- The arguments are as the operation requires: the result fits into the capacity, indices are in range, an argument
that refers to an element refers to one that exists; `assign` may not be given a reference to an own element whose
destructor does something; elements are only left uninitialized if their destructor does nothing. -/
def DVOp.Fits (triv : Bool) (cap : Nat) (l : List α) : DVOp α → Prop
  | .push a | .emplace a => (a.value l).isSome ∧ l.length + 1 ≤ cap
  | .bulk n => l.length + n ≤ cap
  | .bulkValue n a => (a.value l).isSome ∧ l.length + n ≤ cap
  | .bulkImplicit n => triv = true ∧ l.length + n ≤ cap
  | .pop => l ≠ []
  | .clear => True
  | .resize n => n ≤ cap
  | .resizeValue n a => (a.value l).isSome ∧ n ≤ cap
  | .resizeImplicit n => triv = true ∧ n ≤ cap
  | .assign n a => (a.value l).isSome ∧ n ≤ cap ∧ (triv = true ∨ ∃ v, a = .val v)
  | .at_ i | .index i | .write _ i _ => i < l.length
  | .front | .back => l ≠ []
  | .size | .empty | .capacity | .iterate | .iterateBack => True

/-- Every operation of the program is given arguments it allows, on every list the operations before may leave. -/
def FitsAll (triv : Bool) (dflt : α) (cap : Nat) : List α → List (DVOp α) → Prop
  | _, [] => True
  | l, op :: ops => op.Fits triv cap l ∧ ∀ r l', VecStep dflt cap l op r l' → FitsAll triv dflt cap l' ops

/-- The resizable vector `s` holds the list `l`: its size is the number of elements, which are alive in its first cells;
no other of its cells holds an object that would have to be destroyed; and the memory outside is `foreign`. -/
structure DV.Holds (s : DV α) (l : List α) (foreign : Nat → Option α) : Prop where
  resizable : s.hasSize = true
  size : s.sizeWord = l.length
  fits : l.length ≤ s.cap
  word : s.cap < 2 ^ 32
  elems : ∀ i, i < l.length → s.mem i = l[i]?
  raw : s.trivialDtor = false → ∀ i, l.length ≤ i → i < s.cap → s.mem i = none
  outside : ∀ i, s.cap ≤ i → s.mem i = foreign i

/-- The parameters of a vector that no operation changes. -/
def DV.SameKind (s t : DV α) : Prop :=
  t.dbg = s.dbg ∧ t.trivialDtor = s.trivialDtor ∧ t.dflt = s.dflt ∧ t.junk = s.junk ∧ t.cap = s.cap ∧
    t.hasSize = s.hasSize

end Vecmem
