import Verif.Model.StaticVector
import Verif.Spec.DeviceVector

/-!
# What bounded vectors are (C32, C33)

The same operations on lists.  `none` means that the operation is not covered: the result would not fit into the
capacity or an index is out of range.  With `all = false` the operations marked with ✗ are not covered either; these are
the ones for which `static_vector` does not do what the list does.
-/

namespace Vecmem

variable {α : Type}

/-- The argument is not a reference to the element at `m` or behind. -/
def Arg.before (m : Nat) : Arg α → Bool
  | .val _ => true
  | .elem k => decide (k < m)

/-- Operations on one list. -/
def SVOp.spec (all triv : Bool) (dflt : α) (cap : Nat) (l : List α) : SVOp α → Option (Ret α × List α)
  -- ✗ a reference to an own element, unless the type is trivial
  | .assign n a =>
    if n ≤ cap ∧ (all = true ∨ triv = true ∨ a.before 0 = true) then (a.value l).map fun v => (.unit, List.replicate n v) else none
  | .assignRange vs => if vs.length ≤ cap then some (.unit, vs) else none
  -- ✗ a reference to an element behind the position (or at it, unless the type is trivial)
  | .insert i a | .emplace i a =>
    if l.length + 1 ≤ cap ∧ i ≤ l.length ∧ (all = true ∨ a.before (if triv then i + 1 else i) = true) then
      (a.value l).map fun v => (.num i, l.take i ++ v :: l.drop i)
    else none
  -- ✗ a reference to an element behind the new ones (or behind the position, unless the type is trivial)
  | .insertCount i n a =>
    if l.length + n ≤ cap ∧ i ≤ l.length ∧ (all = true ∨ a.before (if triv then i + n else i) = true) then
      (a.value l).map fun v => (.num i, l.take i ++ List.replicate n v ++ l.drop i)
    else none
  | .insertRange i vs =>
    if l.length + vs.length ≤ cap ∧ i ≤ l.length then some (.num i, l.take i ++ vs ++ l.drop i) else none
  | .emplaceBack a => if l.length + 1 ≤ cap then (a.value l).map fun v => (.num l.length, l ++ [v]) else none
  | .push a => if l.length + 1 ≤ cap then (a.value l).map fun v => (.unit, l ++ [v]) else none
  | .erase i => if i < l.length then some (.num i, l.eraseIdx i) else none
  | .eraseRange i j => if i ≤ j ∧ j ≤ l.length then some (.num i, l.take i ++ l.drop j) else none
  | .pop => if l ≠ [] then some (.unit, l.dropLast) else none
  | .clear => some (.unit, [])
  | .resize n => if n ≤ cap then some (.unit, l.take n ++ List.replicate (n - l.length) dflt) else none
  | .resizeValue n a =>
    if n ≤ cap then (a.value l).map fun v => (.unit, l.take n ++ List.replicate (n - l.length) v) else none
  | .reserve n => if n ≤ cap then some (.unit, l) else none
  | .at_ i | .index i => (l[i]?).map fun v => (.val v, l)
  | .write _ i v => if i < l.length then some (.unit, l.set i v) else none
  | .front => l.head?.map fun v => (.val v, l)
  | .back => l.getLast?.map fun v => (.val v, l)
  | .size => some (.num l.length, l)
  | .empty => some (.bool l.isEmpty, l)
  | .capacity => some (.num cap, l)
  | .iterate => some (.vals l, l)
  | .iterateBack => some (.vals l.reverse, l)

/-- Operations on several lists. -/
def SWOp.spec (all triv : Bool) (dflt : α) (cap : Nat) (ls : List (Option (List α))) :
    SWOp α → Option (Ret α × List (Option (List α)))
  | .new i =>
    match ls[i]? with
    | some none => some (.unit, ls.set i (some []))
    | _ => none
  -- ✗ unless the type is trivial (or the vector empty)
  | .newFill i n v =>
    match ls[i]? with
    | some none =>
      if n ≤ cap ∧ (all = true ∨ triv = true ∨ n = 0) then some (.unit, ls.set i (some (List.replicate n v))) else none
    | _ => none
  | .newRange i vs =>
    match ls[i]? with
    | some none => if vs.length ≤ cap then some (.unit, ls.set i (some vs)) else none
    | _ => none
  | .newCopy i j =>
    match ls[i]?, ls[j]? with
    | some none, some (some l) => some (.unit, ls.set i (some l))
    | _, _ => none
  -- ✗ unless the type is trivial (or both vectors are empty)
  | .copyAssign i j =>
    match ls[i]?, ls[j]? with
    | some (some k), some (some l) =>
      if all = true ∨ triv = true ∨ (k = [] ∧ l = []) then some (.unit, ls.set i (some l)) else none
    | _, _ => none
  | .destroy i =>
    match ls[i]? with
    | some (some _) => some (.unit, ls.set i none)
    | _ => none
  | .op i o =>
    match ls[i]? with
    | some (some l) => (o.spec all triv dflt cap l).map fun r => (r.1, ls.set i (some r.2))
    | _ => none

/-- A program on several lists: the results and the final lists. -/
def specRun (all triv : Bool) (dflt : α) (cap : Nat) (ls : List (Option (List α))) :
    List (SWOp α) → Option (List (Ret α) × List (Option (List α)))
  | [] => some ([], ls)
  | op :: ops =>
    match op.spec all triv dflt cap ls with
    | none => none
    | some (r, ls) => (specRun all triv dflt cap ls ops).map fun x => (r :: x.1, x.2)

/-- The vector holds the elements of the list (with the numbers of the objects). -/
def SVData.Holds (cap : Nat) (d : SVData α) (os : List (Nat × α)) : Prop :=
  d.size = os.length ∧ os.length ≤ cap ∧ ∀ i, i < os.length → d.mem i = os[i]?

/-- Slot by slot: there is a vector where there is a list, holding its elements. -/
def SlotHolds (cap : Nat) : Option (SVData α) → Option (List (Nat × α)) → Prop
  | none, none => True
  | some d, some os => d.Holds cap os
  | _, _ => False

/-- The world holds these objects: slot by slot, and — if the type is not trivial — the objects alive (constructed and
not yet destroyed) are exactly the elements of the vectors, each once. -/
structure SVWorld.Holds (w : SVWorld α) (oss : List (Option (List (Nat × α)))) : Prop where
  length : w.vecs.length = oss.length
  slots : ∀ (i : Nat) (d : Option (SVData α)) os, w.vecs[i]? = some d → oss[i]? = some os → SlotHolds w.cap d os
  alive : w.trivial = false → w.alive.Perm (oss.flatMap fun o => (o.getD []).map (·.1))
  nodup : w.trivial = false → w.alive.Nodup
  fresh : w.trivial = false → ∀ id ∈ w.alive, id < w.next

/-- The values of the objects. -/
def values (oss : List (Option (List (Nat × α)))) : List (Option (List α)) := oss.map (Option.map (List.map (·.2)))

/-- No vector yet. -/
def SVWorld.init (dbg triv : Bool) (dflt : α) (cap slots : Nat) : SVWorld α :=
  { dbg, trivial := triv, dflt, cap, next := 0, alive := [], vecs := List.replicate slots none }

end Vecmem
