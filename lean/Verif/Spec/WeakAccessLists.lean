import Verif.Spec.WeakReadingLists

/-!
# Specification: programs with vector buffers and jagged buffers whose kernels load and store elements on weak memory (C85)
-/

namespace Vecmem

/-- Threads that load elements of inputs, which are the tables `ts`, and load and store elements of `rows`, of `t` bytes: when run alone, each thread loads and stores only elements that there are, and stores
elements of the right size; no thread stores an element that another one loads or stores. -/
def RowThreads (t : CType) (ts : List Table) (progs : List IProg) (rows : List (List Elem)) : Prop :=
  (∀ p ∈ progs, (p.known 1 ts).Valid [⟨.jagged, t⟩] [rows]) ∧ NoRaces [rows] (progs.map (·.known 1 ts))

/-- The rows are changed as by the threads one after the other. -/
def RowsChanged (ts : List Table) (progs : List IProg) (rows rows' : List (List Elem)) : Prop := (progs.map (·.known 1 ts)).foldl (fun t p => p.run t) [rows] = [rows']

/-- A step of a program: one as in C83, or a kernel whose threads load elements of the vector buffers `ins` and the jagged buffers `jins`, and load and store elements of the vector buffer `k`, or of
rows of the jagged buffer `k`, all on weak memory. -/
inductive JAOp where
  | plain (op : JROp)
  | access (ins jins : List Nat) (k : Nat) (progs : List IProg)
  | rowAccess (ins jins : List Nat) (k : Nat) (progs : List IProg)

/-- What the user may do. -/
def JAOp.Fits (c : JagCfg) (R : Limits) (outside : Nat → Nat → Prop) (S : JStore) : JAOp → Prop
  | .plain op => op.given.Fits c R outside S ∧ op.Reads S ∧ op.given.Plain
  | .access ins jins k progs => k ∉ ins ∧ ∃ ls js cap r l, S.vec.HasAll ins ls ∧ S.HasAll jins js ∧ S.vec.Has k cap r l ∧ RowThreads (c.vec.ty k) (listTables ls js) progs [l]
  | .rowAccess ins jins k progs => k ∉ jins ∧ ∃ ls js caps r rows, S.vec.HasAll ins ls ∧ S.HasAll jins js ∧ S.Has k caps r true rows ∧
      RowThreads (c.ty k) (listTables ls js) progs rows

/-- Which buffers are set up after a step. -/
def JAOp.ready (q : JReady) : JAOp → JReady
  | .plain op => op.given.ready q
  | _ => q

/-- A step of a program, in which kernels run on weak memory. -/
inductive JAStep {σ : Type} (I : WImpl 32) (c : JagCfg) (ups : Nat → MR σ) (p : JPipe σ) : JAOp → JROut → JPipe σ → Prop
  | plain {op out p'} (_ : JRStep I c ups p op out p') : JAStep I c ups p (.plain op) out p'
  | access {ins jins k progs b mem'} (_ : p.vec.bufs.lookup k = some b)
      (_ : InputKernel I (locateRow [b.view] (c.vec.ty k).size p.vec.mem) (p.locs c ins jins) progs p.vec.mem mem') :
      JAStep I c ups p (.access ins jins k progs) (.plain (.ok (.vec .unit))) { p with vec := { p.vec with mem := mem' } }
  | rowAccess {ins jins k progs b mem'} (_ : p.jags.lookup k = some b)
      (_ : InputKernel I (locateRow (b.deviceRows p.vec.mem) (c.ty k).size p.vec.mem) (p.locs c ins jins) progs p.vec.mem mem') :
      JAStep I c ups p (.rowAccess ins jins k progs) (.plain (.ok (.vec .unit))) { p with vec := { p.vec with mem := mem' } }

/-- What a step may do to lists of elements and lists of rows, and what it may return; compare `JagStep`. -/
inductive JAMeans (c : JagCfg) (S : JStore) : JAOp → JROut → JStore → Prop
  | plain {op out r S'} (ho : out.Of r) (h : JagStep c S op.given r S') : JAMeans c S (.plain op) out S'
  | access {ins jins k progs ls js cap r l l'} (hi : S.vec.HasAll ins ls) (hj : S.HasAll jins js) (h : S.vec.Has k cap r l)
      (hr : RowsChanged (listTables ls js) progs [l] [l']) :
      JAMeans c S (.access ins jins k progs) (.plain (.ok (.vec .unit))) { S with vec := S.vec.put k (some ⟨cap, r, some l'⟩) }
  | rowAccess {ins jins k progs ls js caps r rows rows'} (hi : S.vec.HasAll ins ls) (hj : S.HasAll jins js) (h : S.Has k caps r true rows)
      (hr : RowsChanged (listTables ls js) progs rows rows') :
      JAMeans c S (.rowAccess ins jins k progs) (.plain (.ok (.vec .unit))) (S.put k (some ⟨caps, r, some rows', true⟩))

/-- All states that such programs can reach, started with any contents of memory. -/
inductive JAReach {σ : Type} (I : WImpl 32) (c : JagCfg) (R : Limits) (ups : Nat → MR σ) (u0 : σ) : JPipe σ → JReady → Prop
  | init (m : Mem) : JAReach I c R ups u0 ⟨⟨u0, m, []⟩, []⟩ ⟨fun _ => false, fun _ => false⟩
  | step {p q op out p'} (h : JAReach I c R ups u0 p q) (hf : op.Fits c R (p.Outside c) (p.store c q)) (hs : JAStep I c ups p op out p') :
      JAReach I c R ups u0 p' (op.ready q)

end Vecmem
