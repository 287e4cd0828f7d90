import Verif.Spec.WeakAccess
import Verif.Spec.WeakContainer
import Verif.Spec.WeakRows
import Verif.Spec.EdmPipeline
import Verif.Model.WeakContainer

/-!
# Specification: programs with container buffers whose kernels run on weak memory (C81)
-/

namespace Vecmem

/-- The variables of `V` have, as told by `val`, the values of the bytes of the container with the view `e` in memory `mem`: of its size, and of the elements of its vectors. -/
structure EdmView.InVars (S : Schema) (e : EdmView) (V : WVec) (val : Nat → BitVec 32 → Prop) (mem : Mem) : Prop where
  cap : V.cap = e.capacity
  size : ∃ y, val V.size y ∧ y.toNat = readLE mem e.size.ptr 4
  bytes : ∀ (k : Nat) (v : Var) (x : View), S[k]? = some v → e.vars[k]? = some (.vector x) →
    ∀ i u, i < x.capacity → u < v.type.size → val (V.cell (Nat.pair k u) i) (BitVec.ofNat 32 (mem (x.ptr + i * v.type.size + u)).toNat)

/-- The byte at `a` belongs to the size or to a vector of the container. -/
def EdmView.HasByte (S : Schema) (e : EdmView) (a : Nat) : Prop :=
  (e.size.ptr ≤ a ∧ a < e.size.ptr + 4) ∨
  ∃ (k : Nat) (v : Var) (x : View), S[k]? = some v ∧ e.vars[k]? = some (.vector x) ∧ x.HasPayload v.type.size a

/-- A kernel whose threads append to the container with the view `e` (of a schema without jagged vectors) turns memory `mem` into `mem'`: the bytes of the container are made variables of the weak
memory; the threads run to their ends; the bytes then have the values that the variables have in the end.  The calls have returned `rets`. -/
def ContainerKernel (I : WImpl 32) (dbg : Bool) (dflt : Nat → Elem) (S : Schema) (e : EdmView) (progs : List (List (DCall Elem))) (mem mem' : Mem)
    (rets : List (List (DCall Elem × Nat))) : Prop :=
  ∃ (V : WVec) (m : AMem 32) (s : WRun 32), V.Valid 32 ∧ V.dbg = dbg ∧ e.InVars S V (fun a x => x = m a) mem ∧
    WRun.Reach I m (fun i => (WTask.records byteWords (e.device dbg dflt S mem).newElement (progs[i]?.getD [])).code V) s ∧ (∀ i, s.prog i = .done) ∧
    e.InVars S V (s.sys.trace.Final m) mem' ∧ (∀ a, ¬ e.HasByte S a → mem' a = mem a) ∧
    rets.map (·.map (·.1)) = progs ∧ ∀ i, ReturnedRecords V.size (rets[i]?.getD []) (WTrace.claims V.size (s.sys.trace.of i))

/-- A kernel does not append references into the rows that it appends to. -/
def EdmOp.Plain : EdmOp → Prop
  | .rows _ _ _ f _ => ∀ ts, ∀ q ∈ f ts, ∀ x ∈ q, x.2.Valid true []
  | _ => True

/-- The step is a kernel of several threads. -/
def EdmOp.IsKernel : EdmOp → Prop
  | .append .. => True
  | .rows .. => True
  | .kernel .. => True
  | _ => False

/-- A step of a program, in which kernels of several threads run on weak memory. -/
inductive WEdmStep {σ : Type} (I : WImpl 32) (c : EdmCfg) (ups : Nat → MR σ) (p : EPipe σ) : EdmOp → Res EdmOut → EPipe σ → Prop
  | append {ins k f sched b ts mem' rets} (_ : p.bufs.lookup k = some b) (_ : p.reads c ins = .ok ts)
      (_ : ContainerKernel I c.dbg (c.dflt k) (c.schema k) b.buf.view (f ts) p.mem mem' rets) :
      WEdmStep I c ups p (.append ins k f sched) (.ok (.calls rets)) { p with mem := mem' }
  | rows {ins k v f sched b ts ty x mem' rets} (_ : p.bufs.lookup k = some b) (_ : p.reads c ins = .ok ts) (_ : (c.schema k)[v]? = some ty)
      (_ : b.buf.view.vars[v]? = some x) (_ : RowsKernel I c.dbg (c.dflt k v) ty.type.size (x.deviceRows p.mem) (f ts) p.mem mem' rets) :
      WEdmStep I c ups p (.rows ins k v f sched) (.ok (.claims rets)) { p with mem := mem' }
  | kernel {ins k f sched b ts mem'} (_ : p.bufs.lookup k = some b) (_ : p.reads c ins = .ok ts)
      (_ : AccessKernel I (b.buf.view.locate (c.schema k) p.mem) (f ts) p.mem mem') :
      WEdmStep I c ups p (.kernel ins k f sched) (.ok .unit) { p with mem := mem' }
  | other {op} (_ : ¬ op.IsKernel) : WEdmStep I c ups p op (p.exec c ups op).1 (p.exec c ups op).2

/-- All states that such programs can reach, started with any contents of memory. -/
inductive WEdmReach {σ : Type} (I : WImpl 32) (c : EdmCfg) (R : Limits) (G : Nat) (ups : Nat → MR σ) (u0 : σ) : EPipe σ → EReady → Prop
  | init (m : Mem) : WEdmReach I c R G ups u0 ⟨u0, m, []⟩ ⟨fun _ => false, fun _ => false⟩
  | step {p q op r p'} (h : WEdmReach I c R G ups u0 p q) (hf : op.Fits c R G (p.Outside c) (p.store c q)) (hp : op.Plain)
      (hs : WEdmStep I c ups p op r p') : WEdmReach I c R G ups u0 p' (op.ready q)

end Vecmem
