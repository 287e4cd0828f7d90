import Verif.Model.HostData
import Verif.Spec.BufferMoves

/-!
# What programs with data objects of host containers mean (C72)

The user's view: a data object says where the elements of each variable are.  `DataOp.after` says what a step does to this, and
`DataOp.Returns` what it may return.
-/

namespace Vecmem

variable {α σ : Type}

/-- Where a variable is: the address of a scalar; the view of a vector; or the views of the inner vectors of a jagged vector. -/
inductive ColDesc where
  | scalar (ptr : Nat)
  | vector (view : View)
  | jagged (rows : List View)
deriving DecidableEq, Repr

/-- What a data object says, and the resource that its arrays of views are from. -/
structure DataDesc where
  res : Nat
  capacity : Nat
  cols : List ColDesc
deriving DecidableEq, Repr

/-- Where a variable of a host container is. -/
def HostCol.desc : HostCol → ColDesc
  | .scalar p => .scalar p
  | .vector v => .vector ⟨v.size % 2 ^ 32, 0, v.data⟩
  | .jagged rows => .jagged (rows.map fun v => ⟨v.size % 2 ^ 32, 0, v.data⟩)

/-- What the constructor with a size sets: `n` empty inner vectors. -/
def ColKind.desc (n : Nat) : ColKind → ColDesc
  | .scalar => .scalar 0
  | .vector => .vector ⟨0, 0, 0⟩
  | .jagged => .jagged (List.replicate n ⟨0, 0, 0⟩)

/-- A view, with the memory it points to, says that the variable is there. -/
def DataRef.Shows (m : JMem α) : DataRef → ColDesc → Prop
  | .scalar p, .scalar p' => p = p'
  | .vector v, .vector v' => v = v'
  | .jagged j, .jagged rows => j.size = rows.length ∧ ∀ i v, rows[i]? = some v → m.views (j.ptr + viewSize * i) = some v
  | _, _ => False

/-- A data object, with the memory it points to, says this. -/
structure DataVar.Shows (m : JMem α) (v : DataVar) (d : DataDesc) : Prop where
  capacity : v.capacity = d.capacity
  length : v.cols.length = d.cols.length
  cols : ∀ (k : Nat) (r : DataRef) (o : Owner) (c : ColDesc), v.cols[k]? = some (r, o) → d.cols[k]? = some c → r.Shows m c

/-- The memory that is needed to say this: one array of views for every jagged vector that is not empty. -/
def DataDesc.bytes (d : DataDesc) : List Nat := d.cols.filterMap fun c => match c with
  | .jagged rows => if rows = [] then none else some (rows.length * viewSize)
  | _ => none

/-- The variables that exist, and what they say.  A variable that exists and says nothing was default-constructed, or has been moved
from. -/
structure DataStore where
  vals : Nat → Option DataDesc
  vars : Nat → Bool

namespace DataStore

/-- Variable `x` gets the value `d`. -/
def put (S : DataStore) (x : Nat) (d : Option DataDesc) : DataStore :=
  ⟨fun i => if i = x then d else S.vals i, fun i => i == x || S.vars i⟩

/-- Variable `x` ceases to exist. -/
def drop (S : DataStore) (x : Nat) : DataStore := ⟨fun i => if i = x then none else S.vals i, fun i => i != x && S.vars i⟩

/-- Moving from `y` to `x`. -/
def move (S : DataStore) (x y : Nat) : DataStore := if x = y then S else (S.put y none).put x (S.vals y)

end DataStore

/-- The sizes of the vectors of a container. -/
def hostSizesOf (cols : List HostCol) : List Nat := cols.filterMap fun c => match c with
  | .scalar _ => none
  | .vector v => some v.size
  | .jagged rows => some rows.length

/-- What a step that has succeeded does. The capacity of the object for a container is its size; with scalars only it is
indeterminate. -/
def DataOp.after (S : DataStore) : DataOp → DataStore
  | .empty x _ _ => S.put x none
  | .make x res n kinds => S.put x (some ⟨res, n % 2 ^ 32, kinds.map (ColKind.desc (n % 2 ^ 32))⟩)
  | .getHost x res junk cols => S.put x (some ⟨res, match hostSizesOf cols with | [] => junk | n :: _ => n % 2 ^ 32, cols.map HostCol.desc⟩)
  | .getJag x res rows => S.put x (some ⟨res, rows.length, [(HostCol.jagged rows).desc]⟩)
  | .move x y | .assign x y => S.move x y
  | .destroy x => S.drop x
  | .alloc .. | .free .. | .write .. => S

/-- What a step may return: those that allocate may throw `bad_alloc`; and `get_data` of a container throws `length_error` if, and only if, its
vectors differ in size. -/
def DataOp.Returns : DataOp → Res Unit → Prop
  | .make .., r | .getJag .., r | .alloc .., r => r = .ok () ∨ r = .badAlloc
  | .getHost _ _ _ cols, r =>
    if ∃ n ∈ hostSizesOf cols, ∃ n' ∈ hostSizesOf cols, n ≠ n' then r = .lengthError else r = .ok () ∨ r = .badAlloc
  | _, r => r = .ok ()

/-- The memory that the variables own, with the resource it is given back to. -/
def Datas.owned (s : Datas α σ) : List (Nat × Blk) := s.vars.flatMap fun e => e.2.owners.flatMap Owner.blocks

/-- What the user may do: variables are constructed once, and used and destroyed while they exist; arrays of views are not too
large for the resources; something else gives back what it has got, and does not write to the memory of the data
objects. -/
def DataOp.Fits (R : Limits) (s : Datas α σ) (S : DataStore) : DataOp → Prop
  | .empty x _ _ => S.vars x = false
  | .make x _ n kinds => S.vars x = false ∧ (.jagged ∈ kinds → IsReq R (n % 2 ^ 32 * viewSize) maxAlign)
  | .getHost x _ _ cols => S.vars x = false ∧ ∀ rows, .jagged rows ∈ cols → IsReq R (rows.length * viewSize) maxAlign
  | .getJag x _ rows => S.vars x = false ∧ IsReq R (rows.length * viewSize) maxAlign
  | .move x y => S.vars x = false ∧ S.vars y = true
  | .assign x y => S.vars x = true ∧ S.vars y = true
  | .destroy x => S.vars x = true
  | .alloc _ n a => IsReq R n a ∧ 0 < n
  | .free res b => (res, b) ∈ s.other
  | .write a _ => ∀ e ∈ s.owned, a + viewSize ≤ e.2.addr ∨ e.2.addr + e.2.size ≤ a

/-- All states that programs can reach, started with any contents of memory, and what the data objects should say then. -/
inductive DataReach (R : Limits) (ups : Nat → MR σ) (u0 : σ) : Datas α σ → DataStore → Prop
  | init (m : JMem α) : DataReach R ups u0 ⟨u0, m, [], []⟩ ⟨fun _ => none, fun _ => false⟩
  | ok {s S op} (h : DataReach R ups u0 s S) (hf : op.Fits R s S) (hr : (s.exec ups op).1 = .ok ()) :
      DataReach R ups u0 (s.exec ups op).2 (op.after S)
  | throw {s S op} (h : DataReach R ups u0 s S) (hf : op.Fits R s S) (hr : (s.exec ups op).1 ≠ .ok ()) :
      DataReach R ups u0 (s.exec ups op).2 S

end Vecmem
