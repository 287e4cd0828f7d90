import Verif.Spec.WeakAccessLists
import Verif.Spec.WeakCounters
import Verif.Model.WeakCounting

/-!
# Specification: programs with vector buffers and jagged buffers whose kernels change elements with atomic operations on weak memory (C87)
-/

namespace Vecmem

/-- The four bytes of a number, the lowest ones first. -/
def wordBytes (x : BitVec 32) : Elem := [UInt8.ofNat x.toNat, UInt8.ofNat (x.toNat / 256), UInt8.ofNat (x.toNat / 65536), UInt8.ofNat (x.toNat / 16777216)]

/-- The operations that the threads make, those of the first thread first, if the inputs are the tables `ts`: with the numbers of the elements that they are made on. -/
def countCalls (ts : List Table) (progs : List (RTask CountCall)) : List (Nat × AOp 32) := (progs.flatMap (·.calls ts)).map fun x => (x.index, x.op)

/-- Threads that load elements of inputs that there are, and change elements of a vector of `n` elements that there are, each element with operations of one kind. -/
def CountThreads (ts : List Table) (n : Nat) (progs : List (RTask CountCall)) : Prop :=
  (∀ t ∈ progs, t.Valid ts) ∧ ∃ kind : Nat → AKind, ∀ t ∈ progs, ∀ x ∈ t.calls ts, x.index < n ∧ x.op.IsOf (kind x.index)

/-- Each element, a number of four bytes, becomes what the operations on it make of it, one after the other. -/
def Counted (us : List (Nat × AOp 32)) (l l' : List Elem) : Prop :=
  l'.length = l.length ∧ ∀ i x, l[i]? = some (wordBytes x) → l'[i]? = some (wordBytes (combined i us x))

/-- A kernel whose threads read elements of inputs, and change elements of the vector with the view `v`, of four bytes, with atomic operations, turns memory `mem` into `mem'`.  Element `i` is variable `C i` of the
weak memory; the bytes of the inputs are variables, too. -/
def CountKernel (I : WImpl 32) (v : View) (locs : Nat → Cell → Option (Nat × Nat)) (progs : List (RTask CountCall)) (mem mem' : Mem) : Prop :=
  ∃ (C B : Nat → Nat) (m : AMem 32) (s : WRun 32), (∀ i j, C i = C j → i = j) ∧ InputVars locs mem B m (fun a => ∃ i, C i = a) ∧
    (∀ i, i < v.len mem → (m (C i)).toNat = readLE mem (v.ptr + i * 4) 4) ∧
    WRun.Reach I m (fun i => (progs[i]?.getD .done).code locs B (CountCall.code C (v.len mem))) s ∧ (∀ i, s.prog i = .done) ∧
    (∀ i, i < v.len mem → ∃ y, s.sys.trace.Final m (C i) y ∧ y.toNat = readLE mem' (v.ptr + i * 4) 4) ∧
    ∀ a, ¬ (v.ptr ≤ a ∧ a < v.ptr + v.len mem * 4) → mem' a = mem a

/-- A step of a program: one as in C85, or a kernel whose threads load elements of the vector buffers `ins` and the jagged buffers `jins`, and change elements of the vector buffer `k` with atomic operations, all
on weak memory. -/
inductive JCOp where
  | plain (op : JAOp)
  | count (ins jins : List Nat) (k : Nat) (progs : List (RTask CountCall))

/-- What the user may do.  The buffer with the counters is not one of the inputs: in `CountKernel`, its elements are other variables than theirs. -/
def JCOp.Fits (c : JagCfg) (R : Limits) (outside : Nat → Nat → Prop) (S : JStore) : JCOp → Prop
  | .plain op => op.Fits c R outside S
  | .count ins jins k progs => k ∉ ins ∧ (c.vec.ty k).size = 4 ∧ ∃ ls js cap r l, S.vec.HasAll ins ls ∧ S.HasAll jins js ∧ S.vec.Has k cap r l ∧ CountThreads (listTables ls js) l.length progs

/-- Which buffers are set up after a step. -/
def JCOp.ready (q : JReady) : JCOp → JReady
  | .plain op => op.ready q
  | .count .. => q

/-- A step of a program, in which kernels run on weak memory. -/
inductive JCStep {σ : Type} (I : WImpl 32) (c : JagCfg) (ups : Nat → MR σ) (p : JPipe σ) : JCOp → JROut → JPipe σ → Prop
  | plain {op out p'} (_ : JAStep I c ups p op out p') : JCStep I c ups p (.plain op) out p'
  | count {ins jins k progs b mem'} (_ : p.vec.bufs.lookup k = some b) (_ : CountKernel I b.view (p.locs c ins jins) progs p.vec.mem mem') :
      JCStep I c ups p (.count ins jins k progs) (.plain (.ok (.vec .unit))) { p with vec := { p.vec with mem := mem' } }

/-- What a step may do to lists of elements and lists of rows, and what it may return. -/
inductive JCMeans (c : JagCfg) (S : JStore) : JCOp → JROut → JStore → Prop
  | plain {op out S'} (h : JAMeans c S op out S') : JCMeans c S (.plain op) out S'
  | count {ins jins k progs ls js cap r l l'} (hi : S.vec.HasAll ins ls) (hj : S.HasAll jins js) (h : S.vec.Has k cap r l)
      (hr : Counted (countCalls (listTables ls js) progs) l l') :
      JCMeans c S (.count ins jins k progs) (.plain (.ok (.vec .unit))) { S with vec := S.vec.put k (some ⟨cap, r, some l'⟩) }

/-- All states that such programs can reach, started with any contents of memory. -/
inductive JCReach {σ : Type} (I : WImpl 32) (c : JagCfg) (R : Limits) (ups : Nat → MR σ) (u0 : σ) : JPipe σ → JReady → Prop
  | init (m : Mem) : JCReach I c R ups u0 ⟨⟨u0, m, []⟩, []⟩ ⟨fun _ => false, fun _ => false⟩
  | step {p q op out p'} (h : JCReach I c R ups u0 p q) (hf : op.Fits c R (p.Outside c) (p.store c q)) (hs : JCStep I c ups p op out p') :
      JCReach I c R ups u0 p' (op.ready q)

end Vecmem
