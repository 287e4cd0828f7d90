import Verif.Model.EdmPipeline
import Verif.Spec.JagPipeline
import Verif.Spec.EdmBuffer
import Verif.Spec.EdmToHost
import Verif.Spec.EdmDevice

/-!
# What programs with container buffers mean (C65)

The user's view: a container buffer is a table, which has a list of rows for each variable; a vector has one row, and a scalar one
row of one element.  `EdmStep c S op r S'` says what a step may do to the tables and what it may return.
-/

namespace Vecmem

/-- What the user knows about a container buffer: the capacities it was made with, whether it is resizable, and its elements —
unless it is resizable and has not been set up (`none`).  `onDevice` says that kernels may use it. -/
structure EBuf where
  caps : List Nat
  resizable : Bool
  table : Option Table
  onDevice : Bool
deriving DecidableEq

/-- All container buffers that exist. -/
abbrev EStore := Nat → Option EBuf

namespace EStore

/-- Change one buffer. -/
def put (S : EStore) (k : Nat) (b : Option EBuf) : EStore := fun i => if i = k then b else S i

/-- The elements of a buffer that exists and has been set up. -/
def Has (S : EStore) (k : Nat) (caps : List Nat) (resizable dev : Bool) (t : Table) : Prop :=
  S k = some ⟨caps, resizable, some t, dev⟩

/-- The elements of several buffers that kernels may use. -/
def HasAll (S : EStore) : List Nat → List Table → Prop
  | [], [] => True
  | k :: ks, t :: ts => (∃ caps r, S.Has k caps r true t) ∧ S.HasAll ks ts
  | _, _ => False

end EStore

/-- The capacities of the rows of a variable, in a container with the capacities `caps`. -/
def Var.rowCaps (v : Var) (caps : List Nat) : List Nat :=
  match v.kind with
  | .scalar => [1]
  | .vector => [caps.length]
  | .jagged => caps

/-- The rows of the variable have a size of their own: they begin empty and grow.  In a resizable container with a jagged vector
these are the jagged vectors, and otherwise the vectors. -/
def Schema.grows (S : Schema) (resizable : Bool) (v : Var) : Bool :=
  resizable && (v.kind == .jagged || v.kind == .vector && !S.hasJagged)

/-- Rows that are as long as they can be, of elements of `t` bytes. -/
def RowsFull (t : Nat) (caps : List Nat) (rows : List (List Elem)) : Prop :=
  rows.map List.length = caps ∧ ∀ l ∈ rows, ∀ e ∈ l, e.length = t

/-- Every variable of the table `t` is related to that of the table `t'`. -/
def TableRel (S : Schema) (P : Var → List (List Elem) → List (List Elem) → Prop) (t t' : Table) : Prop :=
  t.length = S.length ∧ t'.length = S.length ∧ ∀ (i : Nat) (v : Var) (rows rows' : List (List Elem)), S[i]? = some v →
    t[i]? = some rows → t'[i]? = some rows' → P v rows rows'

/-- Every variable of the table has the property. -/
def TableHas (S : Schema) (P : Var → List (List Elem) → Prop) (t : Table) : Prop :=
  t.length = S.length ∧ ∀ (i : Nat) (v : Var) (rows : List (List Elem)), S[i]? = some v → t[i]? = some rows → P v rows

/-- The effect of `setup`: what can grow becomes empty, and nothing else changes.  If the elements were not known, then what cannot
grow has elements, but nobody knows which. -/
def SetUp (S : Schema) (caps : List Nat) (r : Bool) : Option Table → Table → Prop
  | some t, t' => TableRel S (fun v rows rows' => rows' = if S.grows r v then (v.rowCaps caps).map fun _ => [] else rows) t t'
  | none, t' => TableHas S (fun v rows => if S.grows r v then rows = (v.rowCaps caps).map fun _ => []
      else RowsFull v.type.size (v.rowCaps caps) rows) t'

/-- The table of the target of a copy of all of `new`, in terms of `RowsCopied`. -/
def TableReplaced (S : Schema) (caps : List Nat) (r : Bool) (new t' : Table) : Prop :=
  TableRel S (fun v rows rows' => RowsCopied v.type.size (v.rowCaps caps) (S.grows r v) rows rows') new t'

/-- There is nothing to copy: an empty vector, or a jagged vector without rows. -/
def NothingIn (v : Var) (rows : List (List Elem)) : Prop := v.kind = .vector ∧ rows = [[]] ∨ v.kind = .jagged ∧ rows = []

/-- The table of a target that had the table `old`, after the first `n` variables of `new` have been copied to it, one after the other.
Of a variable with nothing to copy the target keeps what it had, and the same is so of all variables from `n` on. -/
def TableCopied (S : Schema) (caps : List Nat) (r : Bool) (n : Nat) (new old t' : Table) : Prop :=
  new.length = S.length ∧ t'.length = S.length ∧ ∀ (i : Nat) (v : Var) (rows rows' : List (List Elem)), S[i]? = some v →
    new[i]? = some rows → t'[i]? = some rows' →
    (i < n → ¬ NothingIn v rows → RowsCopied v.type.size (v.rowCaps caps) (S.grows r v) rows rows') ∧
    (n ≤ i ∨ NothingIn v rows → old[i]? = some rows')

/-- The first `n` variables of the table can be copied to a container with these capacities. -/
def FirstFit (S : Schema) (caps : List Nat) (n : Nat) (new : Table) : Prop :=
  ∀ (i : Nat) (v : Var) (rows : List (List Elem)), i < n → S[i]? = some v → new[i]? = some rows →
    NothingIn v rows ∨ RowsFitIn (v.rowCaps caps) rows

/-- The variable `n` of the table cannot be copied to a container with these capacities. -/
def Misfit (S : Schema) (caps : List Nat) (n : Nat) (new : Table) : Prop :=
  ∃ (v : Var) (rows : List (List Elem)), S[n]? = some v ∧ new[n]? = some rows ∧ ¬ NothingIn v rows ∧ ¬ RowsFitIn (v.rowCaps caps) rows

/-- The number of bytes of all elements of a container that has no room left. -/
def Schema.payloadBytes (S : Schema) (caps : List Nat) : Nat := (S.map fun v => (v.rowCaps caps).sum * v.type.size).sum

/-- At most this many bytes are between the arrays of a container. -/
def Schema.padding (S : Schema) : Nat := (S.map fun v => v.type.align - 1).sum

/-- The arrays of containers with these capacities never need the same number of bytes. -/
def SizesDiffer (S : Schema) (caps caps' : List Nat) : Prop :=
  S.payloadBytes caps + S.padding < S.payloadBytes caps' ∨ S.payloadBytes caps' + S.padding < S.payloadBytes caps

/-- All bytes of all elements of the table are `value`. -/
def Table.fill (S : Schema) (value : UInt8) (t : Table) : Table :=
  List.zipWith (fun (v : Var) (rows : List (List Elem)) => rows.map fun l => l.map fun _ => List.replicate v.type.size value) S t

/-- All vectors have `n` elements. -/
def VectorsHave (S : Schema) (n : Nat) (t : Table) : Prop :=
  ∀ (i : Nat) (v : Var) (rows : List (List Elem)), S[i]? = some v → v.kind = .vector → t[i]? = some rows → ∃ l, rows = [l] ∧ l.length = n

/-- The table after elements with these assignments have been appended: each vector has got, for each of them, the value that was last
assigned to its variable, or else its default. -/
def Appended (S : Schema) (dflt : Nat → Elem) (calls : List (DCall Elem)) (t t' : Table) : Prop :=
  t'.length = t.length ∧ ∀ (i : Nat) (v : Var) (rows rows' : List (List Elem)), S[i]? = some v → t[i]? = some rows → t'[i]? = some rows' →
    rows' = if v.kind = .vector then rows.map fun l => l ++ calls.map fun c => lastAssigned (dflt i) i c.assigns else rows

/-! ## Programs of threads -/

/-- The element of a table. -/
def Table.cell (t : Table) (c : Cell) : Option Elem :=
  match t[c.var]? with
  | some rows => match rows[c.row]? with
    | some l => l[c.index]?
    | none => none
  | none => none

/-- The table with a new element. -/
def Table.setCell (t : Table) (c : Cell) (x : Elem) : Table :=
  t.modify c.var fun rows => rows.modify c.row fun l => l.set c.index x

/-- The table after all of a thread's accesses. -/
def KProg.run : KProg → Table → Table
  | .done, t => t
  | .load c next, t => (next ((t.cell c).getD [])).run t
  | .store c x next, t => next.run (t.setCell c x)

/-- The elements that a thread loads (`false`) and stores (`true`) when it runs alone. -/
def KProg.accesses : KProg → Table → List (Bool × Cell)
  | .done, _ => []
  | .load c next, t => (false, c) :: (next ((t.cell c).getD [])).accesses t
  | .store c x next, t => (true, c) :: next.accesses (t.setCell c x)

/-- When the thread runs alone, it accesses only elements that exist, and stores elements of the right size. -/
def KProg.Valid (S : Schema) : KProg → Table → Prop
  | .done, _ => True
  | .load c next, t => ∃ x, t.cell c = some x ∧ (next x).Valid S t
  | .store c x next, t => (t.cell c).isSome ∧ (∃ v, S[c.var]? = some v ∧ x.length = v.type.size) ∧ next.Valid S (t.setCell c x)

/-- No thread stores an element that another one loads or stores. -/
def NoRaces (t : Table) (ps : List KProg) : Prop :=
  ∀ (i j : Nat) (p q : KProg), i ≠ j → ps[i]? = some p → ps[j]? = some q → ∀ c b, (true, c) ∈ p.accesses t → (b, c) ∉ q.accesses t

/-! ## Steps -/

/-- What a step may do. -/
inductive EdmStep (c : EdmCfg) (S : EStore) : EdmOp → Res EdmOut → EStore → Prop
  | createFail (k caps r) : EdmStep c S (.create k caps r) .badAlloc S
  /-- A container of fixed size has elements from the start, but nobody knows which.  Kernels may use the buffer from the start
  unless it has jagged vectors and their views are in a separate array. -/
  | createFixed (k caps) (t : Table) (ht : TableHas (c.schema k) (fun v rows => RowsFull v.type.size (v.rowCaps caps) rows) t) :
      EdmStep c S (.create k caps false) (.ok .unit)
        (S.put k (some ⟨caps, false, some t, !((c.schema k).hasJagged && c.hasHost k)⟩))
  | createResizable (k caps) : EdmStep c S (.create k caps true) (.ok .unit)
        (S.put k (some ⟨caps, true, none, !((c.schema k).hasJagged && c.hasHost k)⟩))
  | destroy (k) : EdmStep c S (.destroy k) (.ok .unit) (S.put k none)
  | setup (k) {caps r t d t'} (h : S k = some ⟨caps, r, t, d⟩) (ht : SetUp (c.schema k) caps r t t') :
      EdmStep c S (.setup k) (.ok .unit) (S.put k (some ⟨caps, r, some t', true⟩))
  | memset (k value) {caps r t d} (h : S k = some ⟨caps, r, t, d⟩) :
      EdmStep c S (.memset k value) (.ok .unit) (S.put k (some ⟨caps, r, t.map (Table.fill (c.schema k) value), d⟩))
  /-- A copy as one block, which is possible only between containers of the same capacities. -/
  | copyBlock (i j) {caps r d t r' old d' t'} (h : S.Has i caps r d t) (hj : S j = some ⟨caps, r', old, d'⟩)
      (ht : TableReplaced (c.schema j) caps r' t t') :
      EdmStep c S (.copy i j) (.ok .unit) (S.put j (some ⟨caps, r', some t', d'⟩))
  | copy (i j) {caps r d t caps' r' old d' t'} (h : S.Has i caps r d t) (hj : S.Has j caps' r' d' old)
      (hn : FirstFit (c.schema j) caps' (c.schema j).length t) (ht : TableCopied (c.schema j) caps' r' (c.schema j).length t old t') :
      EdmStep c S (.copy i j) (.ok .unit) (S.put j (some ⟨caps', r', some t', d'⟩))
  /-- If the variable `n` does not fit, then those before it have been copied. -/
  | copyRefused (i j) (n : Nat) {caps r d t caps' r' old d' t'} (h : S.Has i caps r d t) (hj : S.Has j caps' r' d' old)
      (hn : FirstFit (c.schema j) caps' n t) (hm : Misfit (c.schema j) caps' n t) (ht : TableCopied (c.schema j) caps' r' n t old t') :
      EdmStep c S (.copy i j) .lengthError (S.put j (some ⟨caps', r', some t', d'⟩))
  | upload (ats t k) {caps r old d t'} (h : S.Has k caps r d old) (hn : FirstFit (c.schema k) caps (c.schema k).length t)
      (ht : TableCopied (c.schema k) caps r (c.schema k).length t old t') :
      EdmStep c S (.upload ats t k) (.ok .unit) (S.put k (some ⟨caps, r, some t', d⟩))
  | uploadRefused (ats t k) (n : Nat) {caps r old d t'} (h : S.Has k caps r d old) (hn : FirstFit (c.schema k) caps n t)
      (hm : Misfit (c.schema k) caps n t) (ht : TableCopied (c.schema k) caps r n t old t') :
      EdmStep c S (.upload ats t k) .lengthError (S.put k (some ⟨caps, r, some t', d⟩))
  | download (k ats) {caps r d t} (h : S.Has k caps r d t) : EdmStep c S (.download k ats) (.ok (.table t)) S
  /-- All calls of the threads were made one after the other, in some order in which every thread's calls are in program order, and each
  has returned the index of its new element.  `order` has the thread, the call and the index. -/
  | append (ins k f sched) {ts caps r t} (hi : S.HasAll ins ts) (h : S.Has k caps r true t) (n : Nat)
      (hn : VectorsHave (c.schema k) n t) (order : List (Nat × DCall Elem × Nat)) (results : List (List (DCall Elem × Nat)))
      (t' : Table) (ho : ∀ i, (order.filter (·.1 = i)).map (·.2) = results.getD i [])
      (hp : results.map (·.map (·.1)) = f ts) (hx : order.map (·.2.2) = List.range' n order.length)
      (ht : Appended (c.schema k) (c.dflt k) (order.map (·.2.1)) t t') :
      EdmStep c S (.append ins k f sched) (.ok (.calls results)) (S.put k (some ⟨caps, r, some t', true⟩))
  /-- As `JagStep.kernel`, for the rows of the variable `v`. -/
  | rows (ins k v f sched) {ts caps r t ty rows} (hi : S.HasAll ins ts) (h : S.Has k caps r true t)
      (hv : (c.schema k)[v]? = some ty) (hr : t[v]? = some rows) (order : List (Nat × Nat × ACall Elem × Nat))
      (results : List (List (Nat × ACall Elem × Nat))) (rows' : List (List Elem))
      (ho : ∀ i, (order.filter (·.1 = i)).map (·.2) = results.getD i [])
      (hp : results.map (·.map fun x => (x.1, x.2.1)) = f ts)
      (hr : JagRun (c.dflt k v) (ty.rowCaps caps) rows (order.map fun x => (x.2.1, x.2.2.1.toOp))
        (order.map fun x => .ok (.num x.2.2.2)) rows') :
      EdmStep c S (.rows ins k v f sched) (.ok (.claims results)) (S.put k (some ⟨caps, r, some (t.set v rows'), true⟩))
  /-- As if the threads ran one after the other. -/
  | kernel (ins k f sched) {ts caps r t} (hi : S.HasAll ins ts) (h : S.Has k caps r true t) :
      EdmStep c S (.kernel ins k f sched) (.ok .unit) (S.put k (some ⟨caps, r, some ((f ts).foldl (fun t p => p.run t) t), true⟩))
  | single (ins k v f) {ts caps r t ty rows rows' rs} (hi : S.HasAll ins ts) (h : S.Has k caps r true t)
      (hv : (c.schema k)[v]? = some ty) (hr : t[v]? = some rows)
      (hs : JagRun (c.dflt k v) (ty.rowCaps caps) rows (f ts) rs rows') :
      EdmStep c S (.single ins k v f) (.ok (.rets rs)) (S.put k (some ⟨caps, r, some (t.set v rows'), true⟩))

/-- The arrays of a host container with these elements: in the address space, without common memory (`HostPlaced`), and outside of
all buffers. -/
structure HostTable (outside : Nat → Nat → Prop) (S : Schema) (ats : List (List Nat)) (t : Table) : Prop where
  shape : ats.map List.length = t.map List.length
  placed : HostPlaced S (hostArrays (t.map fun (rows : List (List Elem)) => rows.map List.length) ats)
  outside : ∀ (i : Nat) (v : Var) (rs : List View), S[i]? = some v →
    (hostArrays (t.map fun (rows : List (List Elem)) => rows.map List.length) ats)[i]? = some rs →
    ∀ r ∈ rs, outside r.ptr (r.capacity * v.type.size)

/-- The container has room for an element of some variable. -/
def RoomForOne (S : Schema) (caps : List Nat) : Prop := ∃ v ∈ S, (v.rowCaps caps).sum ≠ 0

/-- What the user may do.

`setup` has no effect on a resizable container without capacity (`c40_no_capacity`), `memset` on a container without capacity changes
nothing or throws.  A copy to a buffer that was not set up is possible only if it is made as one block: from a buffer of the same
capacities and kind, and all alignments at most `G`, which is what the resources guarantee.  Copies between buffers of different capacities
must not be made as one block, which would be wrong (`c44_inner_capacities`); whether they are depends only on the number of bytes. -/
def EdmOp.Fits (c : EdmCfg) (R : Limits) (G : Nat) (outside : Nat → Nat → Prop) (S : EStore) : EdmOp → Prop
  | .create k caps _ => S k = none ∧ (c.schema k).Ok caps ∧ IsReq R ((c.schema k).room caps c.align) maxAlign ∧
      (c.schema k).room caps c.align < 2 ^ 32
  | .destroy k => ∃ b, S k = some b
  | .setup k => ∃ b, S k = some b ∧ (b.caps = [] → b.resizable = false)
  | .memset k _ => ∃ b, S k = some b ∧ b.caps ≠ []
  | .copy i j => i ≠ j ∧ c.schema i = c.schema j ∧ ∃ caps caps' r r' d d' t old, S.Has i caps r d t ∧
      S j = some ⟨caps', r', old, d'⟩ ∧ ((old.isSome = true ∧ (caps = caps' ∨ SizesDiffer (c.schema j) caps caps')) ∨
        (caps = caps' ∧ r = r' ∧ RoomForOne (c.schema j) caps ∧ 16 ≤ G ∧ ∀ v ∈ c.schema j, v.type.align ≤ 16))
  | .upload ats t k => HostTable outside (c.schema k) ats t ∧
      (∃ n, HostSizes (c.schema k) n (t.map fun (rows : List (List Elem)) => rows.map List.length)) ∧
      TableHas (c.schema k) (fun v rows => ∀ l ∈ rows, ∀ e ∈ l, e.length = v.type.size) t ∧
      ∃ caps r d old, S.Has k caps r d old
  | .download k ats => ∃ caps r d t, S.Has k caps r d t ∧ HostTable outside (c.schema k) ats t
  | .append ins k f _ => k ∉ ins ∧ (c.schema k).hasJagged = false ∧ ∃ ts caps t n, S.HasAll ins ts ∧ S.Has k caps true true t ∧
      VectorsHave (c.schema k) n t ∧ n + callCount (f ts) ≤ caps.length ∧
      ∀ p ∈ f ts, ∀ x ∈ p, ∀ a ∈ x.assigns, ∃ v, (c.schema k)[a.1]? = some v ∧ v.kind = .vector ∧ a.2.length = v.type.size
  | .rows ins k v f _ => k ∉ ins ∧ ∃ ts caps t ty rows, S.HasAll ins ts ∧ S.Has k caps true true t ∧
      (c.schema k)[v]? = some ty ∧ ty.kind = .jagged ∧ t[v]? = some rows ∧
      (∀ p ∈ f ts, ∀ x ∈ p, ∃ l, rows[x.1]? = some l ∧ x.2.Valid true l ∧ x.2.Sized ty.type.size) ∧
      ∀ (i : Nat) (l : List Elem) (cap : Nat), rows[i]? = some l → caps[i]? = some cap →
        l.length + totalCount (onRow (f ts) i) ≤ cap
  | .kernel ins k f _ => k ∉ ins ∧ ∃ ts caps r t, S.HasAll ins ts ∧ S.Has k caps r true t ∧
      (∀ p ∈ f ts, p.Valid (c.schema k) t) ∧ NoRaces t (f ts)
  | .single ins k v f => k ∉ ins ∧ ∃ ts caps r t ty rows, S.HasAll ins ts ∧ S.Has k caps r true t ∧
      (c.schema k)[v]? = some ty ∧ t[v]? = some rows ∧ JagFitsAll (c.dflt k v) (ty.rowCaps caps) rows (f ts) ∧
      (∀ x ∈ f ts, x.2.Sized ty.type.size) ∧ (¬ (r = true ∧ ty.kind = .jagged) → ∀ x ∈ f ts, x.2.ForFixed)

/-- A configuration that may be used: types are possible types, no alignment is above the bound, value-initialised elements are elements,
and no schema has only scalars. -/
def EdmCfg.Wf (c : EdmCfg) : Prop :=
  8 ≤ c.align ∧ ∀ k, (∃ v ∈ c.schema k, v.kind ≠ .scalar) ∧ ∀ (i : Nat) (v : Var), (c.schema k)[i]? = some v →
    v.type.Wf ∧ v.type.align ≤ c.align ∧ (c.dflt k i).length = v.type.size

/-- Which buffers have known elements, and which have been set up for kernels. -/
structure EReady where
  known : Nat → Bool
  dev : Nat → Bool

/-- Which buffers are so after a step. -/
def EdmOp.ready (q : EReady) : EdmOp → EReady
  | .create k _ _ => ⟨fun i => i != k && q.known i, fun i => i != k && q.dev i⟩
  | .setup k => ⟨fun i => i == k || q.known i, fun i => i == k || q.dev i⟩
  | .copy _ j => { q with known := fun i => i == j || q.known i }
  | _ => q

/-- The elements of all variables. -/
def tableOf (m : Mem) (S : Schema) (xs : List VarView) : Table :=
  List.zipWith (fun (v : Var) (x : VarView) => x.rows.map fun r => r.elems m v.type.size) S xs

namespace EPipe

variable {σ : Type}

/-- What is in the buffers: the elements that the bytes in memory are. -/
def store (c : EdmCfg) (p : EPipe σ) (q : EReady) : EStore := fun k => (p.bufs.lookup k).map fun b =>
  ⟨b.caps, b.resizable, if !b.resizable || q.known k then some (tableOf p.mem (c.schema k) b.buf.view.vars) else none,
    !((c.schema k).hasJagged && c.hasHost k) || q.dev k⟩

/-- The memory that the buffers own, with the resource it is from. -/
def owned (c : EdmCfg) (p : EPipe σ) : List (Nat × Blk) :=
  p.bufs.flatMap fun e => e.2.buf.owned.map fun x => (c.source e.1 x.1, x.2)

/-- The bytes at the addresses from `a` to `a + n` are not in the memory of any buffer. -/
def Outside (c : EdmCfg) (p : EPipe σ) (a n : Nat) : Prop := ∀ e ∈ p.owned c, a + n ≤ e.2.addr ∨ e.2.addr + e.2.size ≤ a

end EPipe

/-- All states that programs can reach, started with any contents of memory. -/
inductive EdmReach {σ : Type} (c : EdmCfg) (R : Limits) (G : Nat) (ups : Nat → MR σ) (u0 : σ) : EPipe σ → EReady → Prop
  | init (m : Mem) : EdmReach c R G ups u0 ⟨u0, m, []⟩ ⟨fun _ => false, fun _ => false⟩
  | step {p q op} (h : EdmReach c R G ups u0 p q) (hf : op.Fits c R G (p.Outside c) (p.store c q)) :
      EdmReach c R G ups u0 (p.exec c ups op).2 (op.ready q)

end Vecmem
