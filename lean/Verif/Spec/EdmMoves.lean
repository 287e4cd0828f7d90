import Verif.Model.EdmMoves
import Verif.Spec.BufferMoves
import Verif.Spec.EdmPipeline

/-!
# What programs with container variables and moves mean (C70)

The user's view: a variable holds a table, or nothing that may be used.  A move takes the table from one variable to another.
`EdmVarStep c S op r S'` says what a step may do and return.
-/

namespace Vecmem

/-- The variables that exist, and the buffers in them.  A variable that exists but has no buffer in `bufs` was default-constructed, or has
been moved from. -/
structure EdmVarStore where
  bufs : EStore
  vars : Nat → Bool

namespace EdmVarStore

/-- Variable `x` gets the buffer `b`. -/
def put (S : EdmVarStore) (x : Nat) (b : Option EBuf) : EdmVarStore := ⟨S.bufs.put x b, fun i => i == x || S.vars i⟩

/-- Variable `x` ceases to exist. -/
def drop (S : EdmVarStore) (x : Nat) : EdmVarStore := ⟨S.bufs.put x none, fun i => i != x && S.vars i⟩

/-- Moving from `y` to `x`. -/
def move (S : EdmVarStore) (x y : Nat) : EdmVarStore := if x = y then S else (S.put y none).put x (S.bufs y)

end EdmVarStore

/-- The step neither makes nor destroys buffers. -/
def EdmOp.OnlyUses : EdmOp → Prop
  | .create .. | .destroy _ => False
  | _ => True

/-- What a step may do. -/
inductive EdmVarStep (c : EdmVarCfg) (S : EdmVarStore) : EdmVarOp → Res EdmOut → EdmVarStore → Prop
  /-- What uses of buffers do: see `EdmStep`. -/
  | use (op) {r B} (h : EdmStep c.cfg S.bufs op r B) : EdmVarStep c S (.use op) r { S with bufs := B }
  | empty (x view) : EdmVarStep c S (.empty x view) (.ok .unit) (S.put x none)
  /-- The variable exists if the constructor has not thrown. -/
  | create (x res host caps r) {B} (h : EdmStep (c.cfg 0 host) S.bufs (.create x caps r) (.ok .unit) B) :
      EdmVarStep c S (.create x res host caps r) (.ok .unit) (S.put x (B x))
  | createFail (x res host caps r) : EdmVarStep c S (.create x res host caps r) .badAlloc S
  | move (x y) : EdmVarStep c S (.move x y) (.ok .unit) (S.move x y)
  | assign (x y) : EdmVarStep c S (.assign x y) (.ok .unit) (S.move x y)
  | destroy (x) : EdmVarStep c S (.destroy x) (.ok .unit) (S.drop x)

/-- What the user may do: variables are constructed once, and used and destroyed while they exist; moves are between variables of
one type (anything that exists may be moved from, destroyed and assigned to); other uses are of variables that hold a
buffer, and as in `EdmOp.Fits`. -/
def EdmVarOp.Fits (c : EdmVarCfg) (R : Limits) (G : Nat) (outside : Nat → Nat → Prop) (S : EdmVarStore) : EdmVarOp → Prop
  | .use op => op.OnlyUses ∧ op.Fits c.cfg R G outside S.bufs
  | .empty x _ => S.vars x = false
  | .create x _ _ caps r => S.vars x = false ∧ (EdmOp.create x caps r).Fits c.cfg R G outside S.bufs
  | .move x y => S.vars x = false ∧ S.vars y = true ∧ c.schema x = c.schema y
  | .assign x y => S.vars x = true ∧ S.vars y = true ∧ c.schema x = c.schema y
  | .destroy x => S.vars x = true

/-- A configuration that may be used: see `EdmCfg.Wf`. -/
def EdmVarCfg.Wf (c : EdmVarCfg) : Prop := c.cfg.Wf

/-- Which buffers have known elements, and which have been set up for kernels: this goes with the buffer. -/
def EdmVarOp.ready (q : EReady) : EdmVarOp → EReady
  | .use op => op.ready q
  | .create x _ _ caps r => (EdmOp.create x caps r).ready q
  | .move x y | .assign x y => ⟨fun i => if i = x then q.known y else q.known i, fun i => if i = x then q.dev y else q.dev i⟩
  | .empty .. | .destroy _ => q

namespace EdmVars

variable {σ : Type}

/-- What is in the variables: the elements that the bytes in memory are, if the variable has memory.  Kernels may use a buffer with
jagged vectors if it has no memory of its own for the host, or has been set up. -/
def store (c : EdmVarCfg) (s : EdmVars σ) (q : EReady) : EdmVarStore :=
  { bufs := fun x => (s.vars.lookup x).bind fun v =>
      if v.mem.mem.ptr = 0 then none
      else some ⟨v.caps, v.resizable, if !v.resizable || q.known x then some (tableOf s.mem (c.schema x) v.view.vars) else none,
        !((c.schema x).hasJagged && v.hostMem.mem.ptr != 0) || q.dev x⟩
    vars := fun x => (s.vars.lookup x).isSome }

/-- The memory that the variables own, with the resource it is given back to. -/
def owned (s : EdmVars σ) : List (Nat × Blk) := s.vars.flatMap fun e => e.2.owners.flatMap Owner.blocks

/-- The bytes at the addresses from `a` to `a + n` are not in the memory of any variable. -/
def Outside (s : EdmVars σ) (a n : Nat) : Prop := ∀ e ∈ s.owned, a + n ≤ e.2.addr ∨ e.2.addr + e.2.size ≤ a

end EdmVars

/-- All states that programs can reach, started with any contents of memory. -/
inductive EdmVarReach {σ : Type} (c : EdmVarCfg) (R : Limits) (G : Nat) (ups : Nat → MR σ) (u0 : σ) : EdmVars σ → EReady → Prop
  | init (m : Mem) : EdmVarReach c R G ups u0 ⟨u0, m, []⟩ ⟨fun _ => false, fun _ => false⟩
  | step {s q op} (h : EdmVarReach c R G ups u0 s q) (hf : op.Fits c R G s.Outside (s.store c q)) :
      EdmVarReach c R G ups u0 (s.exec c ups op).2 (op.ready q)

end Vecmem
