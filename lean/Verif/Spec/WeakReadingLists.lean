import Verif.Model.WeakReadingLists
import Verif.Spec.WeakReading
import Verif.Spec.WeakRows

/-!
# Specification: programs with vector buffers and jagged buffers whose kernels read their inputs on weak memory (C83)
-/

namespace Vecmem

/-- The inputs of a kernel, as tables with one variable: the vectors, which have one row, and then the jagged vectors. -/
def listTables (ls : List (List Elem)) (js : List (List (List Elem))) : List Table := ls.map (fun l => [[l]]) ++ js.map fun rows => [rows]

/-- A kernel whose threads read elements of inputs, and append to the vector with the view `v`, of elements of `t` bytes, depending on what they have read, turns memory `mem` into `mem'`:
compare `WeakKernel` and `ReadingKernel`.  The calls of thread `i`, one after the other, have returned the `i`-th list of `idx`. -/
def ReadingVector (I : WImpl 32) (dbg : Bool) (dflt : Elem) (t : Nat) (v : View) (locs : Nat → Cell → Option (Nat × Nat)) (progs : List (RTask (ACall Elem)))
    (mem mem' : Mem) (idx : List (List Nat)) : Prop :=
  ∃ (V : WVec) (B : Nat → Nat) (m : AMem 32) (s : WRun 32), V.Valid 32 ∧ V.dbg = dbg ∧ v.InVars t V (fun a x => x = m a) mem ∧ InputVars locs mem B m V.Owns ∧
    WRun.Reach I m (fun i => (progs[i]?.getD .done).code locs B fun x k => (x.weak byteWords dflt).code V k) s ∧ (∀ i, s.prog i = .done) ∧
    v.InVars t V (s.sys.trace.Final m) mem' ∧ (∀ x, ¬ v.Has t x → mem' x = mem x) ∧ idx.length = progs.length ∧
    ∀ i, List.Forall₂ (fun r e => ∃ n, e.Claims V.size r n) (idx[i]?.getD []) (WTrace.claims V.size (s.sys.trace.of i))

/-- A step of a program: one as in C79, or a kernel whose threads read elements of the vector buffers `ins` and the jagged buffers `jins` on weak memory, and append to the vector buffer `k`, or
to rows of the jagged buffer `k`. -/
inductive JROp where
  | plain (op : JagOp)
  | append (ins jins : List Nat) (k : Nat) (progs : List (RTask (ACall Elem)))
  | rows (ins jins : List Nat) (k : Nat) (progs : List (RTask (Nat × ACall Elem)))

/-- The step whose threads are given the elements of the inputs before they start. -/
def JROp.given : JROp → JagOp
  | .plain op => op
  | .append ins jins k progs => .vecKernel ins jins k (fun ls js => progs.map fun t => t.calls (listTables ls js)) []
  | .rows ins jins k progs => .kernel ins jins k (fun ls js => progs.map fun t => t.calls (listTables ls js)) []

/-- Threads read elements that there are. -/
def JROp.Reads (S : JStore) : JROp → Prop
  | .plain _ => True
  | .append ins jins _ progs => ∃ ls js, S.vec.HasAll ins ls ∧ S.HasAll jins js ∧ ∀ t ∈ progs, t.Valid (listTables ls js)
  | .rows ins jins _ progs => ∃ ls js, S.vec.HasAll ins ls ∧ S.HasAll jins js ∧ ∀ t ∈ progs, t.Valid (listTables ls js)

/-- What a step returns: for kernels, what the calls of each thread have returned, one after the other, for each of `n` rows if they append to rows. -/
inductive JROut where
  | plain (r : Res JagOut)
  | indices (idx : List (List Nat))
  | rows (n : Nat) (idx : Nat → Nat → List Nat)

/-- The same results, with the calls that have returned them. -/
def JROut.Of : JROut → Res JagOut → Prop
  | .plain r, r' => r = r'
  | .indices idx, r' => ∃ rets, r' = .ok (.vec (.claims rets)) ∧ rets.map (·.map (·.2)) = idx
  | .rows n idx, r' => ∃ rets, r' = .ok (.claims rets) ∧ (∀ l ∈ rets, ∀ x ∈ l, x.1 < n) ∧
      ∀ i k, k < n → ((rets[i]?.getD []).filter fun x => decide (x.1 = k)).map (·.2.2) = idx i k

/-- A step of a program, in which kernels run on weak memory. -/
inductive JRStep {σ : Type} (I : WImpl 32) (c : JagCfg) (ups : Nat → MR σ) (p : JPipe σ) : JROp → JROut → JPipe σ → Prop
  | plain {op r p'} (_ : WJagStep I c ups p op r p') : JRStep I c ups p (.plain op) (.plain r) p'
  | append {ins jins k progs b mem' idx} (_ : p.vec.bufs.lookup k = some b)
      (_ : ReadingVector I c.vec.dbg (c.vec.dflt k) (c.vec.ty k).size b.view (p.locs c ins jins) progs p.vec.mem mem' idx) :
      JRStep I c ups p (.append ins jins k progs) (.indices idx) { p with vec := { p.vec with mem := mem' } }
  | rows {ins jins k progs b mem' idx} (_ : p.jags.lookup k = some b)
      (_ : ReadingRows I c.vec.dbg (c.dflt k) (c.ty k).size (b.deviceRows p.vec.mem) (p.locs c ins jins) progs p.vec.mem mem' idx) :
      JRStep I c ups p (.rows ins jins k progs) (.rows (b.deviceRows p.vec.mem).length idx) { p with vec := { p.vec with mem := mem' } }

/-- All states that such programs can reach, started with any contents of memory. -/
inductive JRReach {σ : Type} (I : WImpl 32) (c : JagCfg) (R : Limits) (ups : Nat → MR σ) (u0 : σ) : JPipe σ → JReady → Prop
  | init (m : Mem) : JRReach I c R ups u0 ⟨⟨u0, m, []⟩, []⟩ ⟨fun _ => false, fun _ => false⟩
  | step {p q op out p'} (h : JRReach I c R ups u0 p q) (hf : op.given.Fits c R (p.Outside c) (p.store c q)) (hr : op.Reads (p.store c q)) (hp : op.given.Plain)
      (hs : JRStep I c ups p op out p') : JRReach I c R ups u0 p' (op.given.ready q)

end Vecmem
