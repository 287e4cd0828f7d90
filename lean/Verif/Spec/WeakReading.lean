import Verif.Model.WeakReading
import Verif.Spec.WeakContainers

/-!
# Specification: kernels that read their inputs on weak memory (C82)
-/

namespace Vecmem

namespace RTask

variable {γ : Type}

/-- The calls that a thread makes if the inputs are the tables `ts`. -/
def calls (ts : List Table) : RTask γ → List γ
  | .done => []
  | .load k c next =>
    match (ts[k]?).bind (·.cell c) with
    | some x => (next x).calls ts
    | none => []
  | .call x next => x :: next.calls ts

/-- A thread loads elements that there are, if the inputs are the tables `ts`. -/
def Valid (ts : List Table) : RTask γ → Prop
  | .done => True
  | .load k c next => ∃ x, (ts[k]?).bind (·.cell c) = some x ∧ (next x).Valid ts
  | .call _ next => next.Valid ts

end RTask

/-- The bytes of all elements of the inputs, as given by `locs`, are variables, and none of those in `own`: that at address `a` is variable `B a`. -/
def InputVars (locs : Nat → Cell → Option (Nat × Nat)) (mem : Mem) (B : Nat → Nat) (m : AMem 32) (own : Nat → Prop) : Prop :=
  ∀ k c t a, locs k c = some (t, a) → ∀ u, u < t → m (B (a + u)) = BitVec.ofNat 32 (mem (a + u)).toNat ∧ ¬ own (B (a + u))

/-- A kernel whose threads read elements of inputs, and append to the container with the view `e`, depending on what they have read, turns memory `mem` into `mem'`: compare
`ContainerKernel`; the bytes of the inputs are variables of the weak memory, too.  The calls of thread `i`, one after the other, have returned the `i`-th list of `idx`. -/
def ReadingKernel (I : WImpl 32) (dbg : Bool) (dflt : Nat → Elem) (S : Schema) (e : EdmView) (locs : Nat → Cell → Option (Nat × Nat)) (progs : List (RTask (DCall Elem)))
    (mem mem' : Mem) (idx : List (List Nat)) : Prop :=
  ∃ (V : WVec) (B : Nat → Nat) (m : AMem 32) (s : WRun 32), V.Valid 32 ∧ V.dbg = dbg ∧ e.InVars S V (fun a x => x = m a) mem ∧ InputVars locs mem B m V.Owns ∧
    WRun.Reach I m (fun i => (progs[i]?.getD .done).code locs B fun c k => (c.weak byteWords (e.device dbg dflt S mem).newElement).code V k) s ∧ (∀ i, s.prog i = .done) ∧
    e.InVars S V (s.sys.trace.Final m) mem' ∧ (∀ a, ¬ e.HasByte S a → mem' a = mem a) ∧ idx.length = progs.length ∧
    ∀ i, List.Forall₂ (fun r e => e.Claims V.size r 1) (idx[i]?.getD []) (WTrace.claims V.size (s.sys.trace.of i))

/-- The same for a kernel whose threads append to the vectors with the views `vs`, of elements of `t` bytes: compare `RowsKernel`.  The calls of thread `i` on vector `k`, one after the other, have
returned `idx i k`. -/
def ReadingRows (I : WImpl 32) (dbg : Bool) (dflt : Elem) (t : Nat) (vs : List View) (locs : Nat → Cell → Option (Nat × Nat)) (progs : List (RTask (Nat × ACall Elem)))
    (mem mem' : Mem) (idx : Nat → Nat → List Nat) : Prop :=
  ∃ (V : Nat → WVec) (B : Nat → Nat) (m : AMem 32) (s : WRun 32), (∀ k, (V k).Valid 32 ∧ (V k).dbg = dbg) ∧ Apart V ∧
    (∀ (k : Nat) (v : View), vs[k]? = some v → v.InVars t (V k) (fun a x => x = m a) mem) ∧ InputVars locs mem B m (fun a => ∃ k, (V k).Owns a) ∧
    WRun.Reach I m (fun i => (progs[i]?.getD .done).code locs B fun x k => (x.2.weak byteWords dflt).code (V x.1) k) s ∧ (∀ i, s.prog i = .done) ∧
    (∀ (k : Nat) (v : View), vs[k]? = some v → v.InVars t (V k) (s.sys.trace.Final m) mem') ∧ (∀ x, (∀ v ∈ vs, ¬ v.Has t x) → mem' x = mem x) ∧
    ∀ i k, k < vs.length → List.Forall₂ (fun r e => ∃ n, e.Claims (V k).size r n) (idx i k) (WTrace.claims (V k).size (s.sys.trace.of i))

/-- Where the elements of the input containers with the numbers `ins` are. -/
def EPipe.locs {σ : Type} (p : EPipe σ) (c : EdmCfg) (ins : List Nat) (i : Nat) (d : Cell) : Option (Nat × Nat) :=
  match ins[i]? with
  | some k => match p.bufs.lookup k with
    | some b => b.buf.view.locate (c.schema k) p.mem d
    | none => none
  | none => none

/-- The thread that is given the elements of the inputs, which are the tables `ts`.  A thread that loads an element of an input that is not there is one that loads an element that is
not there: one of variable `n`, where `n` is the number of variables. -/
def IProg.known (n : Nat) (ts : List Table) : IProg → KProg
  | .done => .done
  | .input k c next =>
    match (ts[k]?).bind (·.cell c) with
    | some x => (next x).known n ts
    | none => .load ⟨n, 0, 0⟩ fun _ => .done
  | .load c next => .load c fun x => (next x).known n ts
  | .store c x next => .store c x (next.known n ts)

/-- The accesses of all threads. -/
def inputCode (loc : Cell → Option (Nat × Nat)) (locs : Nat → Cell → Option (Nat × Nat)) (ps : List IProg) (i : Nat) : WProg 32 := (ps[i]?.getD .done).code loc locs

/-- A kernel whose threads load elements of inputs, and load and store elements of a container, turns memory `mem` into `mem'`: compare `AccessKernel`. -/
def InputKernel (I : WImpl 32) (loc : Cell → Option (Nat × Nat)) (locs : Nat → Cell → Option (Nat × Nat)) (ps : List IProg) (mem mem' : Mem) : Prop :=
  ∃ s : WRun 32, WRun.Reach I (byteVars mem) (inputCode loc locs ps) s ∧ (∀ i, s.prog i = .done) ∧ ∀ a, s.sys.trace.Final (byteVars mem) a (byteVars mem' a)

/-- A step of a program: one as in C81, or a kernel whose threads read elements of the containers `ins` on weak memory, and append to the container `k`, or to the rows of variable `v` of it, or load and store elements of it. -/
inductive ROp where
  | plain (op : EdmOp)
  | append (ins : List Nat) (k : Nat) (progs : List (RTask (DCall Elem)))
  | rows (ins : List Nat) (k v : Nat) (progs : List (RTask (Nat × ACall Elem)))
  | kernel (ins : List Nat) (k : Nat) (progs : List IProg)

/-- The step whose threads are given the elements of the inputs before they start. -/
def ROp.given (c : EdmCfg) : ROp → EdmOp
  | .plain op => op
  | .append ins k progs => .append ins k (fun ts => progs.map (·.calls ts)) []
  | .rows ins k v progs => .rows ins k v (fun ts => progs.map (·.calls ts)) []
  | .kernel ins k progs => .kernel ins k (fun ts => progs.map (·.known (c.schema k).length ts)) []

/-- Threads read elements that there are.  (For kernels that load and store, this is part of `EdmOp.Fits`.) -/
def ROp.Reads (S : EStore) : ROp → Prop
  | .plain _ => True
  | .append ins _ progs => ∃ ts, S.HasAll ins ts ∧ ∀ t ∈ progs, t.Valid ts
  | .rows ins _ _ progs => ∃ ts, S.HasAll ins ts ∧ ∀ t ∈ progs, t.Valid ts
  | .kernel .. => True

/-- What a step returns: for kernels, what the calls of each thread have returned, one after the other, for each of `n` rows if they append to rows. -/
inductive ROut where
  | plain (r : Res EdmOut)
  | indices (idx : List (List Nat))
  | rows (n : Nat) (idx : Nat → Nat → List Nat)

/-- The same results, with the calls that have returned them. -/
def ROut.Of : ROut → Res EdmOut → Prop
  | .plain r, r' => r = r'
  | .indices idx, r' => ∃ rets, r' = .ok (.calls rets) ∧ rets.map (·.map (·.2)) = idx
  | .rows n idx, r' => ∃ rets, r' = .ok (.claims rets) ∧ (∀ l ∈ rets, ∀ x ∈ l, x.1 < n) ∧
      ∀ i k, k < n → ((rets[i]?.getD []).filter fun x => decide (x.1 = k)).map (·.2.2) = idx i k

/-- A step of a program, in which kernels run on weak memory. -/
inductive RStep {σ : Type} (I : WImpl 32) (c : EdmCfg) (ups : Nat → MR σ) (p : EPipe σ) : ROp → ROut → EPipe σ → Prop
  | plain {op r p'} (_ : WEdmStep I c ups p op r p') : RStep I c ups p (.plain op) (.plain r) p'
  | append {ins k progs b mem' idx} (_ : p.bufs.lookup k = some b)
      (_ : ReadingKernel I c.dbg (c.dflt k) (c.schema k) b.buf.view (p.locs c ins) progs p.mem mem' idx) :
      RStep I c ups p (.append ins k progs) (.indices idx) { p with mem := mem' }
  | rows {ins k v progs b ty x mem' idx} (_ : p.bufs.lookup k = some b) (_ : (c.schema k)[v]? = some ty) (_ : b.buf.view.vars[v]? = some x)
      (_ : ReadingRows I c.dbg (c.dflt k v) ty.type.size (x.deviceRows p.mem) (p.locs c ins) progs p.mem mem' idx) :
      RStep I c ups p (.rows ins k v progs) (.rows (x.deviceRows p.mem).length idx) { p with mem := mem' }
  | kernel {ins k progs b mem'} (_ : p.bufs.lookup k = some b) (_ : InputKernel I (b.buf.view.locate (c.schema k) p.mem) (p.locs c ins) progs p.mem mem') :
      RStep I c ups p (.kernel ins k progs) (.plain (.ok .unit)) { p with mem := mem' }

/-- All states that such programs can reach, started with any contents of memory. -/
inductive RReach {σ : Type} (I : WImpl 32) (c : EdmCfg) (R : Limits) (G : Nat) (ups : Nat → MR σ) (u0 : σ) : EPipe σ → EReady → Prop
  | init (m : Mem) : RReach I c R G ups u0 ⟨u0, m, []⟩ ⟨fun _ => false, fun _ => false⟩
  | step {p q op out p'} (h : RReach I c R G ups u0 p q) (hf : (op.given c).Fits c R G (p.Outside c) (p.store c q)) (hr : op.Reads (p.store c q)) (hp : (op.given c).Plain)
      (hs : RStep I c ups p op out p') : RReach I c R G ups u0 p' ((op.given c).ready q)

end Vecmem
