import Verif.Model.AsyncCopy

/-!
# What asynchronous copies must not do (C41)
-/

namespace Vecmem

/-- The operation reads the byte at address `x`. -/
def COp.Reads (op : COp) (x : Nat) : Prop :=
  match op with
  | .copy n src _ => src ≤ x ∧ x < src + n
  | .memset .. => False
  | .fetch _ _ n src => src ≤ x ∧ x < src + n
  | .store .. => False
  | .kernel reads writes _ => reads x = true ∨ writes x = true

/-- The operation writes the byte at address `x`. -/
def COp.Writes (op : COp) (x : Nat) : Prop :=
  match op with
  | .copy n _ dst => dst ≤ x ∧ x < dst + n
  | .memset n dst _ => dst ≤ x ∧ x < dst + n
  | .fetch .. => False
  | .store _ _ n dst => dst ≤ x ∧ x < dst + n
  | .kernel _ writes _ => writes x = true

/-- The operation uses the variable `i`. -/
def COp.Uses (op : COp) (i : Nat) : Prop :=
  match op with
  | .fetch j .. => j = i
  | .store j .. => j = i
  | _ => False

/-- The operation writes to the variable `i`. -/
def COp.Sets (op : COp) (i : Nat) : Prop :=
  match op with
  | .fetch j .. => j = i
  | _ => False

/-- The host is about to use something which an operation uses that may be executed at any time: to read a variable it
writes to, to end the life of a variable it uses (or of none), to read memory it writes to, or to write memory it uses. -/
def Race {β : Type} (c : AConf β) : Prop :=
  match c.prog with
  | .read i _ => ∃ op ∈ c.queue, op.Sets i
  | .drop _ => ∃ op ∈ c.queue, op.Uses (c.st.locals.length - 1)
  | .load p n _ => ∃ op ∈ c.queue, ∃ x, (p ≤ x ∧ x < p + n) ∧ op.Writes x
  | .poke p n _ _ => ∃ op ∈ c.queue, ∃ x, (p ≤ x ∧ x < p + n) ∧ (op.Reads x ∨ op.Writes x)
  | _ => False

/-- Undefined behaviour: the oldest operation on the stream cannot be executed, or the host reads a variable that does not
exist, or its program ends with undefined behaviour (such as a failing assertion). -/
def Undefined {β : Type} (c : AConf β) : Prop :=
  (∃ op q, c.queue = op :: q ∧ op.exec c.st = none) ∨
  match c.prog with
  | .read i _ => c.st.locals[i]? = none
  | .ret .ub => True
  | _ => False

end Vecmem
