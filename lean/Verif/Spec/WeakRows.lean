import Verif.Spec.WeakSeveral
import Verif.Spec.WeakPipeline
import Verif.Spec.JagPipeline

/-!
# Specification: programs with jagged buffers whose kernels run on weak memory (C79)
-/

namespace Vecmem

/-- A kernel whose threads append to the vectors with the views `vs`, of elements of `t` bytes, turns memory `mem` into `mem'`: the bytes of the vectors are made variables of the weak
memory; the threads run to their ends; the bytes then have the values that the variables have in the end.  The calls have returned `rets`, which
also has the number of the vector that they were called on. -/
def RowsKernel (I : WImpl 32) (dbg : Bool) (dflt : Elem) (t : Nat) (vs : List View) (progs : List (List (Nat × ACall Elem))) (mem mem' : Mem)
    (rets : List (List (Nat × ACall Elem × Nat))) : Prop :=
  ∃ (V : Nat → WVec) (m : AMem 32) (s : WRun 32), (∀ k, (V k).Valid 32 ∧ (V k).dbg = dbg) ∧ Apart V ∧
    (∀ (k : Nat) (v : View), vs[k]? = some v → v.InVars t (V k) (fun a x => x = m a) mem) ∧
    WRun.Reach I m (fun i => (MTask.calls (fun _ => byteWords) (fun _ => dflt) (progs[i]?.getD [])).code V) s ∧ (∀ i, s.prog i = .done) ∧
    (∀ (k : Nat) (v : View), vs[k]? = some v → v.InVars t (V k) (s.sys.trace.Final m) mem') ∧ (∀ x, (∀ v ∈ vs, ¬ v.Has t x) → mem' x = mem x) ∧
    rets.map (·.map fun x => (x.1, x.2.1)) = progs ∧
    ∀ i k, k < vs.length → Returned (V k).size (((rets[i]?.getD []).filter fun x => decide (x.1 = k)).map (·.2)) (WTrace.claims (V k).size (s.sys.trace.of i))

/-- A kernel does not append references into the vectors that it appends to. -/
def JagOp.Plain : JagOp → Prop
  | .vec op => op.Plain
  | .kernel _ _ _ f _ => ∀ ls js, ∀ q ∈ f ls js, ∀ x ∈ q, x.2.Valid true []
  | .vecKernel _ _ _ f _ => ∀ ls js, ∀ q ∈ f ls js, ∀ x ∈ q, x.Valid true []
  | _ => True

/-- The step is a kernel that appends. -/
def JagOp.IsKernel : JagOp → Prop
  | .vec op => op.IsKernel
  | .kernel .. => True
  | .vecKernel .. => True
  | _ => False

/-- A step of a program, in which kernels that append run on weak memory. -/
inductive WJagStep {σ : Type} (I : WImpl 32) (c : JagCfg) (ups : Nat → MR σ) (p : JPipe σ) : JagOp → Res JagOut → JPipe σ → Prop
  | vec {op r v} (_ : op.IsKernel) (_ : WPipeStep I c.vec ups p.vec op r v) : WJagStep I c ups p (.vec op) (r.map .vec) { p with vec := v }
  | kernel {ins jins k f sched b ls js mem' rets} (_ : p.jags.lookup k = some b) (_ : p.vec.reads c.vec ins = .ok ls) (_ : p.reads c jins = .ok js)
      (_ : RowsKernel I c.vec.dbg (c.dflt k) (c.ty k).size (b.deviceRows p.vec.mem) (f ls js) p.vec.mem mem' rets) :
      WJagStep I c ups p (.kernel ins jins k f sched) (.ok (.claims rets)) { p with vec := { p.vec with mem := mem' } }
  | vecKernel {ins jins k f sched js r v} (_ : p.reads c jins = .ok js) (_ : WPipeStep I c.vec ups p.vec (.kernel ins k (fun ls => f ls js) sched) r v) :
      WJagStep I c ups p (.vecKernel ins jins k f sched) (r.map .vec) { p with vec := v }
  | other {op} (_ : ¬ op.IsKernel) : WJagStep I c ups p op (p.exec c ups op).1 (p.exec c ups op).2

/-- All states that such programs can reach, started with any contents of memory. -/
inductive WJagReach {σ : Type} (I : WImpl 32) (c : JagCfg) (R : Limits) (ups : Nat → MR σ) (u0 : σ) : JPipe σ → JReady → Prop
  | init (m : Mem) : WJagReach I c R ups u0 ⟨⟨u0, m, []⟩, []⟩ ⟨fun _ => false, fun _ => false⟩
  | step {p q op r p'} (h : WJagReach I c R ups u0 p q) (hf : op.Fits c R (p.Outside c) (p.store c q)) (hp : op.Plain)
      (hs : WJagStep I c ups p op r p') : WJagReach I c R ups u0 p' (op.ready q)

end Vecmem
