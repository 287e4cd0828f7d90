import Verif.Spec.WeakKernel
import Verif.Spec.Pipeline
import Verif.Model.WeakKernel

/-!
# Specification: programs whose kernels run on weak memory (C77)
-/

namespace Vecmem

/-- The variables of `V` have, as told by `val`, the values of the bytes of the vector with the view `v` in memory `mem`. -/
structure View.InVars (v : View) (t : Nat) (V : WVec) (val : Nat → BitVec 32 → Prop) (mem : Mem) : Prop where
  cap : V.cap = v.capacity
  size : ∃ y, val V.size y ∧ y.toNat = readLE mem v.sizePtr 4
  bytes : ∀ i u, i < v.capacity → u < t → val (V.cell u i) (BitVec.ofNat 32 (mem (v.ptr + i * t + u)).toNat)

/-- A kernel whose threads append to the vector with the view `v`, of elements of `t` bytes, turns memory `mem` into `mem'`: the bytes of the vector are made variables of the weak memory; the threads run to
their ends; the bytes then have the values that the variables have in the end.  The calls have returned `rets`. -/
def WeakKernel (I : WImpl 32) (dbg : Bool) (dflt : Elem) (t : Nat) (v : View) (progs : List (List (ACall Elem))) (mem mem' : Mem)
    (rets : List (List (ACall Elem × Nat))) : Prop :=
  ∃ (V : WVec) (m : AMem 32) (s : WRun 32), V.Valid 32 ∧ V.dbg = dbg ∧ v.InVars t V (fun a x => x = m a) mem ∧
    WRun.Reach I m (fun i => (WTask.calls byteWords dflt (progs[i]?.getD [])).code V) s ∧ (∀ i, s.prog i = .done) ∧
    v.InVars t V (s.sys.trace.Final m) mem' ∧ (∀ x, ¬ v.Has t x → mem' x = mem x) ∧
    rets.map (·.map (·.1)) = progs ∧ ∀ i, Returned V.size (rets[i]?.getD []) (WTrace.claims V.size (s.sys.trace.of i))

/-- A kernel does not append references into the vector that it appends to. -/
def PipeOp.Plain : PipeOp → Prop
  | .kernel _ _ f _ => ∀ ls, ∀ q ∈ f ls, ∀ x ∈ q, x.Valid true []
  | _ => True

/-- The step is a kernel that appends. -/
def PipeOp.IsKernel : PipeOp → Prop
  | .kernel .. => True
  | _ => False

/-- A step of a program, in which kernels that append run on weak memory. -/
inductive WPipeStep {σ : Type} (I : WImpl 32) (c : PipeCfg) (ups : Nat → MR σ) (p : Pipe σ) : PipeOp → Res PipeOut → Pipe σ → Prop
  | kernel {ins k f sched b ls mem' rets} (_ : p.bufs.lookup k = some b) (_ : p.reads c ins = .ok ls)
      (_ : WeakKernel I c.dbg (c.dflt k) (c.ty k).size b.view (f ls) p.mem mem' rets) :
      WPipeStep I c ups p (.kernel ins k f sched) (.ok (.claims rets)) { p with mem := mem' }
  | other {op} (_ : ¬ op.IsKernel) : WPipeStep I c ups p op (p.exec c ups op).1 (p.exec c ups op).2

/-- All states that such programs can reach, started with any contents of memory. -/
inductive WPipeReach {σ : Type} (I : WImpl 32) (c : PipeCfg) (R : Limits) (ups : Nat → MR σ) (u0 : σ) : Pipe σ → (Nat → Bool) → Prop
  | init (m : Mem) : WPipeReach I c R ups u0 ⟨u0, m, []⟩ fun _ => false
  | step {p ready op r p'} (h : WPipeReach I c R ups u0 p ready) (hf : op.Fits c R p.Outside (p.store c ready)) (hp : op.Plain)
      (hs : WPipeStep I c ups p op r p') : WPipeReach I c R ups u0 p' (op.ready ready)

end Vecmem
