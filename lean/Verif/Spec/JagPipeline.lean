import Verif.Model.JagPipeline
import Verif.Spec.Pipeline

/-!
# What programs with vector buffers and jagged buffers mean (C62)

The user's view: a vector buffer is a list of elements, and a jagged buffer is a list of rows, each of which is a list of
elements with a capacity.  `JagStep c S op r S'` says what a step may do to the lists and what it may return.
-/

namespace Vecmem

/-- What the user knows about a jagged buffer: the capacities of its rows, whether these are resizable, and the rows — unless
they are resizable and the buffer has not been set up (`none`).  `onDevice` says that kernels may use it. -/
structure JBuf where
  caps : List Nat
  resizable : Bool
  rows : Option (List (List Elem))
  onDevice : Bool

/-- All buffers that exist. -/
structure JStore where
  vec : Store
  jag : Nat → Option JBuf

namespace JStore

/-- Change one jagged buffer. -/
def put (S : JStore) (k : Nat) (b : Option JBuf) : JStore := { S with jag := fun i => if i = k then b else S.jag i }

/-- The rows of a jagged buffer that exists and has been set up. -/
def Has (S : JStore) (k : Nat) (caps : List Nat) (resizable dev : Bool) (rows : List (List Elem)) : Prop :=
  S.jag k = some ⟨caps, resizable, some rows, dev⟩

/-- The rows of several jagged buffers that kernels may use. -/
def HasAll (S : JStore) : List Nat → List (List (List Elem)) → Prop
  | [], [] => True
  | k :: ks, l :: ls => (∃ caps r, S.Has k caps r true l) ∧ S.HasAll ks ls
  | _, _ => False

end JStore

/-- Each row fits into its capacity. -/
def RowsFitIn (caps : List Nat) (rows : List (List Elem)) : Prop :=
  rows.length = caps.length ∧ ∀ (i : Nat) (l : List Elem) (cap : Nat), rows[i]? = some l → caps[i]? = some cap → l.length ≤ cap

/-- The rows of the target of a copy: exactly the copied ones, if they are resizable; otherwise the copied elements are the first
ones of each row, and nothing is known about the others. -/
def RowsCopied (t : Nat) (caps : List Nat) (resizable : Bool) (new rows : List (List Elem)) : Prop :=
  if resizable then rows = new
  else rows.map List.length = caps ∧ (∀ l ∈ rows, ∀ e ∈ l, e.length = t) ∧
    ∀ (i : Nat) (l l' : List Elem), new[i]? = some l → rows[i]? = some l' → l <+: l'

/-- The effect of a copy of the rows `new` into buffer `k`, and its result. -/
inductive JagCopyStep (c : JagCfg) (S : JStore) (k : Nat) (new : List (List Elem)) : Res JagOut → JStore → Prop
  | fits {caps r d old rows} (h : S.Has k caps r d old) (hn : RowsFitIn caps new) (hr : RowsCopied (c.ty k).size caps r new rows) :
      JagCopyStep c S k new (.ok (.vec .unit)) (S.put k (some ⟨caps, r, some rows, d⟩))
  /-- If there are no rows to copy, nothing is copied, and nothing thrown, even if the target has rows (`c38_copy_unequal`). -/
  | nothing {caps r d old} (h : S.Has k caps r d old) (hn : new = []) : JagCopyStep c S k new (.ok (.vec .unit)) S
  | refused {caps r d old} (h : S.Has k caps r d old) (h0 : new ≠ []) (hn : ¬ RowsFitIn caps new) :
      JagCopyStep c S k new .lengthError S

/-- Operations on rows, one after the other; compare `VecRun`. -/
inductive JagRun (dflt : Elem) (caps : List Nat) : List (List Elem) → List (Nat × DVOp Elem) → List (Res (Ret Elem)) →
    List (List Elem) → Prop
  | nil (rows) : JagRun dflt caps rows [] [] rows
  | cons {rows i cap l op r l' ops rs rows'} (hi : rows[i]? = some l) (hc : caps[i]? = some cap) (h : VecStep dflt cap l op r l')
      (hs : JagRun dflt caps (rows.set i l') ops rs rows') : JagRun dflt caps rows ((i, op) :: ops) (.ok r :: rs) rows'

/-- Every operation may be used when it is used; compare `FitsAll`. -/
def JagFitsAll (dflt : Elem) (caps : List Nat) : List (List Elem) → List (Nat × DVOp Elem) → Prop
  | _, [] => True
  | rows, (i, op) :: ops => ∃ l cap, rows[i]? = some l ∧ caps[i]? = some cap ∧ op.Fits true cap l ∧
      ∀ r l', VecStep dflt cap l op r l' → JagFitsAll dflt caps (rows.set i l') ops

/-- What a step may do. -/
inductive JagStep (c : JagCfg) (S : JStore) : JagOp → Res JagOut → JStore → Prop
  /-- A step on vector buffers does what it does in programs without jagged buffers, and has no effect on these. -/
  | vec (op) {r V} (h : PipeStep c.vec S.vec op r V) : JagStep c S (.vec op) (r.map .vec) { S with vec := V }
  /-- Creation may fail, unless no memory is needed. -/
  | createFail (k caps r) (h : caps ≠ []) : JagStep c S (.create k caps r) .badAlloc S
  /-- Rows of fixed size have elements from the start, but nobody knows which.  Kernels may use the buffer from the start
  if its views are not in a separate array. -/
  | createFixed (k caps r) (h : r = false ∨ caps = []) (rows : List (List Elem)) (hl : rows.map List.length = caps)
      (ht : ∀ l ∈ rows, ∀ e ∈ l, e.length = (c.ty k).size) :
      JagStep c S (.create k caps r) (.ok (.vec .unit)) (S.put k (some ⟨caps, false, some rows, caps.isEmpty || !c.hasHost k⟩))
  | createResizable (k caps) (h : caps ≠ []) :
      JagStep c S (.create k caps true) (.ok (.vec .unit)) (S.put k (some ⟨caps, true, none, !c.hasHost k⟩))
  | destroy (k) : JagStep c S (.destroy k) (.ok (.vec .unit)) (S.put k none)
  | setup (k caps rows d) (h : S.jag k = some ⟨caps, true, rows, d⟩) :
      JagStep c S (.setup k) (.ok (.vec .unit)) (S.put k (some ⟨caps, true, some (caps.map fun _ => []), true⟩))
  | setupFixed (k caps rows d) (h : S.jag k = some ⟨caps, false, rows, d⟩) :
      JagStep c S (.setup k) (.ok (.vec .unit)) (S.put k (some ⟨caps, false, rows, true⟩))
  | memset (k caps r rows d value) (h : S.jag k = some ⟨caps, r, rows, d⟩) :
      JagStep c S (.memset k value) (.ok (.vec .unit))
        (S.put k (some ⟨caps, r, rows.map fun l => l.map fun x => x.map fun _ => List.replicate (c.ty k).size value, d⟩))
  | copy (i j) {caps r d rows res S'} (h : S.Has i caps r d rows) (hc : JagCopyStep c S j rows res S') :
      JagStep c S (.copy i j) res S'
  | upload (ats rows k) {res S'} (hc : JagCopyStep c S k rows res S') : JagStep c S (.upload ats rows k) res S'
  | download (k ats) {caps r d rows} (h : S.Has k caps r d rows) : JagStep c S (.download k ats) (.ok (.rows rows)) S
  /-- All calls of the threads, on all rows, were made one after the other, in some order in which every thread's calls are in
  program order; each call has returned the index it returns in this order.  `order` has the thread, the row, the call and
  the index. -/
  | kernel (ins jins k f sched) {ls js caps rows} (hi : S.vec.HasAll ins ls) (hj : S.HasAll jins js)
      (h : S.Has k caps true true rows) (order : List (Nat × Nat × ACall Elem × Nat))
      (results : List (List (Nat × ACall Elem × Nat))) (rows' : List (List Elem))
      (ho : ∀ i, (order.filter (·.1 = i)).map (·.2) = results.getD i [])
      (hp : results.map (·.map fun x => (x.1, x.2.1)) = f ls js)
      (hr : JagRun (c.dflt k) caps rows (order.map fun x => (x.2.1, x.2.2.1.toOp)) (order.map fun x => .ok (.num x.2.2.2)) rows') :
      JagStep c S (.kernel ins jins k f sched) (.ok (.claims results)) (S.put k (some ⟨caps, true, some rows', true⟩))
  | single (ins jins k f) {ls js caps r rows rows' rs} (hi : S.vec.HasAll ins ls) (hj : S.HasAll jins js)
      (h : S.Has k caps r true rows) (hr : JagRun (c.dflt k) caps rows (f ls js) rs rows') :
      JagStep c S (.single ins jins k f) (.ok (.rets rs)) (S.put k (some ⟨caps, r, some rows', true⟩))
  | vecKernel (ins jins k f sched) {js r V} (hj : S.HasAll jins js)
      (h : PipeStep c.vec S.vec (.kernel ins k (fun ls => f ls js) sched) r V) :
      JagStep c S (.vecKernel ins jins k f sched) (r.map .vec) { S with vec := V }
  | vecSingle (ins jins k f) {js r V} (hj : S.HasAll jins js) (h : PipeStep c.vec S.vec (.single ins k fun ls => f ls js) r V) :
      JagStep c S (.vecSingle ins jins k f) (r.map .vec) { S with vec := V }

/-- The calls of the programs that are on row `i`. -/
def onRow (progs : List (List (Nat × ACall Elem))) (i : Nat) : List (List (ACall Elem)) :=
  progs.map fun p => (p.filter (·.1 = i)).map (·.2)

/-- The arrays of host vectors with these elements: they are in the address space and outside of all buffers, and share no
memory. -/
def HostArrays (outside : Nat → Nat → Prop) (t : Nat) (ats : List Nat) (rows : List (List Elem)) : Prop :=
  ats.length = rows.length ∧
  (∀ (i a : Nat) (l : List Elem), ats[i]? = some a → rows[i]? = some l → outside a (l.length * t) ∧
    (l ≠ [] → a ≠ 0 ∧ a + l.length * t ≤ 2 ^ 64)) ∧
  ∀ (i j a b : Nat) (l l' : List Elem), i < j → ats[i]? = some a → ats[j]? = some b → rows[i]? = some l → rows[j]? = some l' →
    a + l.length * t ≤ b ∨ b + l'.length * t ≤ a

/-- What the user may do; compare `PipeOp.Fits`.  `memset` needs a row (`c40_memset_empty_jagged`). -/
def JagOp.Fits (c : JagCfg) (R : Limits) (outside : Nat → Nat → Prop) (S : JStore) : JagOp → Prop
  | .vec op => op.Fits c.vec R outside S.vec
  | .create k caps _ => S.jag k = none ∧ (∀ cap ∈ caps, cap < 2 ^ 32) ∧ IsReq R (caps.length * viewSize) maxAlign ∧
      IsReq R (neededBytes (max 4 (c.ty k).align) [(.uint, caps.length), (c.ty k, caps.sum)]) maxAlign
  | .destroy k | .setup k => ∃ b, S.jag k = some b
  | .memset k _ => ∃ b, S.jag k = some b ∧ b.caps ≠ []
  | .copy i j => i ≠ j ∧ (c.ty i).size = (c.ty j).size ∧ ∃ caps r d rows caps' r' d' rows', S.Has i caps r d rows ∧
      S.Has j caps' r' d' rows'
  | .upload ats rows k => HostArrays outside (c.ty k).size ats rows ∧ rows.length * 4 < 2 ^ 64 ∧ (∀ l ∈ rows, l.length < 2 ^ 32 ∧
      ∀ e ∈ l, e.length = (c.ty k).size) ∧ ∃ caps r d rows', S.Has k caps r d rows'
  | .download k ats => ∃ caps r d rows, S.Has k caps r d rows ∧ HostArrays outside (c.ty k).size ats rows
  | .kernel ins jins k f _ => k ∉ jins ∧ ∃ ls js caps rows, S.vec.HasAll ins ls ∧ S.HasAll jins js ∧ S.Has k caps true true rows ∧
      (∀ p ∈ f ls js, ∀ x ∈ p, ∃ l, rows[x.1]? = some l ∧ x.2.Valid true l ∧ x.2.Sized (c.ty k).size) ∧
      ∀ (i : Nat) (l : List Elem) (cap : Nat), rows[i]? = some l → caps[i]? = some cap →
        l.length + totalCount (onRow (f ls js) i) ≤ cap
  | .single ins jins k f => k ∉ jins ∧ ∃ ls js caps r rows, S.vec.HasAll ins ls ∧ S.HasAll jins js ∧ S.Has k caps r true rows ∧
      JagFitsAll (c.dflt k) caps rows (f ls js) ∧ (∀ x ∈ f ls js, x.2.Sized (c.ty k).size) ∧
      (r = false → ∀ x ∈ f ls js, x.2.ForFixed)
  | .vecKernel ins jins k f sched => ∃ js, S.HasAll jins js ∧
      (PipeOp.kernel ins k (fun ls => f ls js) sched).Fits c.vec R outside S.vec
  | .vecSingle ins jins k f => ∃ js, S.HasAll jins js ∧ (PipeOp.single ins k fun ls => f ls js).Fits c.vec R outside S.vec

/-- A configuration that may be used: types are possible types, and value-initialised elements are elements. -/
def JagCfg.Wf (c : JagCfg) : Prop := c.vec.Wf ∧ ∀ k, (c.ty k).Wf ∧ (c.dflt k).length = (c.ty k).size

/-- Which vector buffers have been set up (or did not have to be), and which jagged buffers have been set up. -/
structure JReady where
  vec : Nat → Bool
  jag : Nat → Bool

/-- Which buffers are set up after a step. -/
def JagOp.ready (q : JReady) : JagOp → JReady
  | .vec op => { q with vec := op.ready q.vec }
  | .create k _ _ => { q with jag := fun i => i != k && q.jag i }
  | .setup k => { q with jag := fun i => i == k || q.jag i }
  | _ => q

namespace JPipe

variable {σ : Type}

/-- What is in the buffers: the elements that the bytes in memory are. -/
def store (c : JagCfg) (p : JPipe σ) (q : JReady) : JStore :=
  { vec := p.vec.store c.vec q.vec
    jag := fun k => (p.jags.lookup k).map fun b =>
      let r := b.views.any fun v => v.sizePtr != 0
      ⟨b.views.map (·.capacity), r, if !r || q.jag k then some (b.views.map fun v => v.elems p.vec.mem (c.ty k).size) else none,
        b.views.isEmpty || !c.hasHost k || q.jag k⟩ }

/-- The memory that the jagged buffers own, with the resource it is from. -/
def owned (c : JagCfg) (p : JPipe σ) : List (Nat × Blk) :=
  p.jags.flatMap fun e => (e.2.owned (c.hasHost e.1)).map fun x => (c.source e.1 x.1, x.2)

/-- The bytes at the addresses from `a` to `a + n` are not in the memory of any buffer. -/
def Outside (c : JagCfg) (p : JPipe σ) (a n : Nat) : Prop :=
  p.vec.Outside a n ∧ ∀ e ∈ p.owned c, a + n ≤ e.2.addr ∨ e.2.addr + e.2.size ≤ a

end JPipe

/-- All states that programs can reach, started with any contents of memory. -/
inductive JagReach {σ : Type} (c : JagCfg) (R : Limits) (ups : Nat → MR σ) (u0 : σ) : JPipe σ → JReady → Prop
  | init (m : Mem) : JagReach c R ups u0 ⟨⟨u0, m, []⟩, []⟩ ⟨fun _ => false, fun _ => false⟩
  | step {p q op} (h : JagReach c R ups u0 p q) (hf : op.Fits c R (p.Outside c) (p.store c q)) :
      JagReach c R ups u0 (p.exec c ups op).2 (op.ready q)

end Vecmem
