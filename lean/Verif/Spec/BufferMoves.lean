import Verif.Model.BufferMoves
import Verif.Spec.JagPipeline

/-!
# What programs with variables and moves mean (C68)

The user's view: a variable holds a buffer, which is a list of elements or of rows, or it has been moved from.  A move takes the
list from one variable to another.  `VarStep c S op r S'` says what a step may do and return.
-/

namespace Vecmem

/-- The variables that exist, and the buffers in them.  A variable that exists but has no buffer in `bufs` has been moved from. -/
structure VarStore where
  bufs : JStore
  vecs : Nat → Bool
  jags : Nat → Bool

namespace VarStore

/-- Variable `x` gets the buffer `b`. -/
def putVec (S : VarStore) (x : Nat) (b : Option VBuf) : VarStore :=
  { S with bufs := { S.bufs with vec := S.bufs.vec.put x b }, vecs := fun i => i == x || S.vecs i }
@[inherit_doc putVec]
def putJag (S : VarStore) (x : Nat) (b : Option JBuf) : VarStore :=
  { S with bufs := S.bufs.put x b, jags := fun i => i == x || S.jags i }

/-- Variable `x` ceases to exist. -/
def dropVec (S : VarStore) (x : Nat) : VarStore :=
  { S with bufs := { S.bufs with vec := S.bufs.vec.put x none }, vecs := fun i => i != x && S.vecs i }
@[inherit_doc dropVec]
def dropJag (S : VarStore) (x : Nat) : VarStore :=
  { S with bufs := S.bufs.put x none, jags := fun i => i != x && S.jags i }

end VarStore

/-- What is left of a buffer after it has been moved from: nothing that may be used, unless it was empty and has no capacity. -/
def VBuf.left (b : VBuf) : Option VBuf := if b.cap = 0 then some b else none
@[inherit_doc VBuf.left]
def JBuf.left (b : JBuf) : Option JBuf := if b.caps = [] then some b else none

/-- Moving from `y` to `x`. -/
def VarStore.moveVec (S : VarStore) (x y : Nat) : VarStore :=
  if x = y then S else (S.putVec y ((S.bufs.vec y).bind VBuf.left)).putVec x (S.bufs.vec y)
@[inherit_doc VarStore.moveVec]
def VarStore.moveJag (S : VarStore) (x y : Nat) : VarStore :=
  if x = y then S else (S.putJag y ((S.bufs.jag y).bind JBuf.left)).putJag x (S.bufs.jag y)

/-- The step neither makes nor destroys buffers. -/
def JagOp.OnlyUses : JagOp → Prop
  | .vec (.create ..) | .vec (.destroy _) | .create .. | .destroy _ => False
  | _ => True

/-- What a step may do. -/
inductive VarStep (c : VarCfg) (S : VarStore) : VarOp → Res JagOut → VarStore → Prop
  /-- What uses of buffers do: see `JagStep`. -/
  | use (op) {r B} (h : JagStep c.cfg S.bufs op r B) : VarStep c S (.use op) r { S with bufs := B }
  | vecEmpty (x) : VarStep c S (.vecEmpty x) (.ok (.vec .unit)) (S.putVec x (some ⟨0, false, some []⟩))
  /-- The variable exists if the constructor has not thrown. -/
  | vecCreate (x res cap r) {B} (h : JagStep c.cfg S.bufs (.vec (.create x cap r)) (.ok (.vec .unit)) B) :
      VarStep c S (.vecCreate x res cap r) (.ok (.vec .unit)) (S.putVec x (B.vec x))
  | vecCreateFail (x res cap r) (h : JagStep c.cfg S.bufs (.vec (.create x cap r)) .badAlloc S.bufs) :
      VarStep c S (.vecCreate x res cap r) .badAlloc S
  | vecMove (x y) : VarStep c S (.vecMove x y) (.ok (.vec .unit)) (S.moveVec x y)
  | vecAssign (x y) : VarStep c S (.vecAssign x y) (.ok (.vec .unit)) (S.moveVec x y)
  | vecDestroy (x) : VarStep c S (.vecDestroy x) (.ok (.vec .unit)) (S.dropVec x)
  | jagEmpty (x) : VarStep c S (.jagEmpty x) (.ok (.vec .unit)) (S.putJag x (some ⟨[], false, some [], true⟩))
  | jagCreate (x res host caps r) {B} (h : JagStep (c.cfg 0 host) S.bufs (.create x caps r) (.ok (.vec .unit)) B) :
      VarStep c S (.jagCreate x res host caps r) (.ok (.vec .unit)) (S.putJag x (B.jag x))
  | jagCreateFail (x res host caps r) (h : JagStep (c.cfg 0 host) S.bufs (.create x caps r) .badAlloc S.bufs) :
      VarStep c S (.jagCreate x res host caps r) .badAlloc S
  | jagMove (x y) : VarStep c S (.jagMove x y) (.ok (.vec .unit)) (S.moveJag x y)
  | jagAssign (x y) : VarStep c S (.jagAssign x y) (.ok (.vec .unit)) (S.moveJag x y)
  | jagDestroy (x) : VarStep c S (.jagDestroy x) (.ok (.vec .unit)) (S.dropJag x)

/-- What the user may do: variables are constructed once, and used and destroyed while they exist; moves are between variables of
one type (anything that exists may be moved from, destroyed and assigned to); other uses are of variables that hold a
buffer, and as in `JagOp.Fits`. -/
def VarOp.Fits (c : VarCfg) (R : Limits) (outside : Nat → Nat → Prop) (S : VarStore) : VarOp → Prop
  | .use op => op.OnlyUses ∧ op.Fits c.cfg R outside S.bufs
  | .vecEmpty x => S.vecs x = false
  | .vecCreate x _ cap r => S.vecs x = false ∧ (JagOp.vec (.create x cap r)).Fits c.cfg R outside S.bufs
  | .vecMove x y => S.vecs x = false ∧ S.vecs y = true ∧ c.vecTy x = c.vecTy y
  | .vecAssign x y => S.vecs x = true ∧ S.vecs y = true ∧ c.vecTy x = c.vecTy y
  | .vecDestroy x => S.vecs x = true
  | .jagEmpty x => S.jags x = false
  | .jagCreate x _ _ caps r => S.jags x = false ∧ (JagOp.create x caps r).Fits c.cfg R outside S.bufs
  | .jagMove x y => S.jags x = false ∧ S.jags y = true ∧ c.jagTy x = c.jagTy y
  | .jagAssign x y => S.jags x = true ∧ S.jags y = true ∧ c.jagTy x = c.jagTy y
  | .jagDestroy x => S.jags x = true

/-- A configuration that may be used: types are possible types, and value-initialised elements are elements. -/
def VarCfg.Wf (c : VarCfg) : Prop :=
  (∀ x, (c.vecTy x).Wf ∧ (c.vecDflt x).length = (c.vecTy x).size) ∧ ∀ x, (c.jagTy x).Wf ∧ (c.jagDflt x).length = (c.jagTy x).size

/-- Which buffers are set up after a step: this goes with the buffer. -/
def VarOp.ready (q : JReady) : VarOp → JReady
  | .use op => op.ready q
  | .vecEmpty x => { q with vec := fun i => i == x || q.vec i }
  | .vecCreate x _ cap r => (JagOp.vec (.create x cap r)).ready q
  | .vecMove x y | .vecAssign x y => { q with vec := fun i => if i = x then q.vec y else q.vec i }
  | .jagCreate x _ _ caps r => (JagOp.create x caps r).ready q
  | .jagMove x y | .jagAssign x y => { q with jag := fun i => if i = x then q.jag y else q.jag i }
  | .vecDestroy _ | .jagEmpty _ | .jagDestroy _ => q

/-- The buffer has its memory: it has not been moved from (or has never needed any). -/
def VecVar.holds (v : VecVar) : Bool := v.view.capacity == 0 || v.own.mem.ptr != 0
@[inherit_doc VecVar.holds]
def JagVar.holds (v : JagVar) : Bool := v.views.isEmpty || v.outerHost.mem.ptr != 0

/-- The block that a pointer owns, with the resource that it is given back to. -/
def Owner.blocks (o : Owner) : List (Nat × Blk) := if o.mem.ptr = 0 then [] else [(o.res, ⟨o.mem.ptr, o.mem.size, maxAlign⟩)]

namespace Vars

variable {σ : Type}

/-- What is in the variables: the elements that the bytes in memory are.  Kernels may use a jagged buffer if it has no array of views
of its own for the device, or has been set up. -/
def store (c : VarCfg) (s : Vars σ) (q : JReady) : VarStore :=
  { bufs :=
      { vec := fun x => (s.vecs.lookup x).bind fun v =>
          if v.holds then
            some ⟨v.view.capacity, v.view.sizePtr != 0, if q.vec x then some (v.view.elems s.mem (c.vecTy x).size) else none⟩
          else none
        jag := fun x => (s.jags.lookup x).bind fun v =>
          if v.holds then
            let r := v.views.any fun w => w.sizePtr != 0
            some ⟨v.views.map (·.capacity), r, if !r || q.jag x then some (v.views.map fun w => w.elems s.mem (c.jagTy x).size) else none,
              v.outer.mem.ptr == 0 || q.jag x⟩
          else none }
    vecs := fun x => (s.vecs.lookup x).isSome
    jags := fun x => (s.jags.lookup x).isSome }

/-- The memory that the variables own, with the resource it is given back to. -/
def owned (s : Vars σ) : List (Nat × Blk) :=
  s.vecs.flatMap (fun e => e.2.own.blocks) ++ s.jags.flatMap fun e => e.2.owners.flatMap Owner.blocks

/-- The bytes at the addresses from `a` to `a + n` are not in the memory of any variable. -/
def Outside (s : Vars σ) (a n : Nat) : Prop := ∀ e ∈ s.owned, a + n ≤ e.2.addr ∨ e.2.addr + e.2.size ≤ a

end Vars

/-- All states that programs can reach, started with any contents of memory. -/
inductive VarReach {σ : Type} (c : VarCfg) (R : Limits) (ups : Nat → MR σ) (u0 : σ) : Vars σ → JReady → Prop
  | init (m : Mem) : VarReach c R ups u0 ⟨u0, m, [], []⟩ ⟨fun _ => false, fun _ => false⟩
  | step {s q op} (h : VarReach c R ups u0 s q) (hf : op.Fits c R s.Outside (s.store c q)) :
      VarReach c R ups u0 (s.exec c ups op).2 (op.ready q)

end Vecmem
