import Verif.Model.Pipeline
import Verif.Spec.DeviceVectorConcurrent
import Verif.Spec.Family

/-!
# What programs with buffers, copies and kernels mean (C59)

The user's view: every buffer is a list of elements with a capacity.  `PipeStep c S op r S'` says what a step may do to the
lists and what it may return; memory, addresses, size words and schedules do not occur in it.
-/

namespace Vecmem

/-- What the user knows about a buffer: its capacity, whether it is resizable, and its elements — unless it is resizable and has
not been set up (`none`). -/
structure VBuf where
  cap : Nat
  resizable : Bool
  vals : Option (List Elem)

/-- All buffers that exist. -/
abbrev Store := Nat → Option VBuf

/-- Change one buffer. -/
def Store.put (S : Store) (k : Nat) (b : Option VBuf) : Store := fun i => if i = k then b else S i

/-- The elements of a buffer that exists and has been set up. -/
def Store.Has (S : Store) (k cap : Nat) (resizable : Bool) (l : List Elem) : Prop := S k = some ⟨cap, resizable, some l⟩

/-- The elements of several buffers. -/
def Store.HasAll (S : Store) : List Nat → List (List Elem) → Prop
  | [], [] => True
  | k :: ks, l :: ls => (∃ cap r, S.Has k cap r l) ∧ S.HasAll ks ls
  | _, _ => False

/-- The elements of the target of a copy: exactly the copied ones, if it is resizable; otherwise these replace the first ones.
If there are no elements to copy, the target keeps those it has, even if it is resizable: it is not made empty (`c37_empty`,
`c37_false`). -/
def copied (resizable : Bool) (new old : List Elem) : List Elem :=
  if new = [] then old else if resizable then new else new ++ old.drop new.length

/-- The effect of a copy of the elements `new` into buffer `k`, and its result. -/
inductive CopyStep (S : Store) (k : Nat) (new : List Elem) : Res PipeOut → Store → Prop
  | fits {cap r old} (h : S.Has k cap r old) (hn : new.length ≤ cap) :
      CopyStep S k new (.ok .unit) (S.put k (some ⟨cap, r, some (copied r new old)⟩))
  | tooLong {cap r old} (h : S.Has k cap r old) (hn : cap < new.length) : CopyStep S k new .lengthError S

/-- What a step may do. -/
inductive PipeStep (c : PipeCfg) (S : Store) : PipeOp → Res PipeOut → Store → Prop
  /-- Creation may fail, unless no memory is needed. -/
  | createFail (k cap r) (h : cap ≠ 0) : PipeStep c S (.create k cap r) .badAlloc S
  /-- A buffer of fixed size has elements from the start, but nobody knows which. -/
  | createFixed (k cap r) (h : r = false ∨ cap = 0) (l : List Elem) (hl : l.length = cap)
      (ht : ∀ e ∈ l, e.length = (c.ty k).size) :
      PipeStep c S (.create k cap r) (.ok .unit) (S.put k (some ⟨cap, false, some l⟩))
  | createResizable (k cap) (h : cap ≠ 0) :
      PipeStep c S (.create k cap true) (.ok .unit) (S.put k (some ⟨cap, true, none⟩))
  | destroy (k) : PipeStep c S (.destroy k) (.ok .unit) (S.put k none)
  | setup (k cap vals) (h : S k = some ⟨cap, true, vals⟩) :
      PipeStep c S (.setup k) (.ok .unit) (S.put k (some ⟨cap, true, some []⟩))
  | setupFixed (k cap vals) (h : S k = some ⟨cap, false, vals⟩) : PipeStep c S (.setup k) (.ok .unit) S
  | memset (k cap r vals value) (h : S k = some ⟨cap, r, vals⟩) :
      PipeStep c S (.memset k value) (.ok .unit)
        (S.put k (some ⟨cap, r, vals.map fun l => l.map fun _ => List.replicate (c.ty k).size value⟩))
  | copy (i j) {cap r l res S'} (h : S.Has i cap r l) (hc : CopyStep S j l res S') : PipeStep c S (.copy i j) res S'
  | upload (at_ l k) {res S'} (hc : CopyStep S k l res S') : PipeStep c S (.upload at_ l k) res S'
  | download (k at_) {cap r l} (h : S.Has k cap r l) : PipeStep c S (.download k at_) (.ok (.vals l)) S
  /-- All calls of the threads were made one after the other, in some order in which every thread's calls are in program order;
  each call has returned the index it returns in this order. -/
  | kernel (ins k f sched) {ls cap l} (hi : S.HasAll ins ls) (h : S.Has k cap true l)
      (order : List (Nat × ACall Elem × Nat)) (results : List (List (ACall Elem × Nat))) (l' : List Elem)
      (ho : ∀ i, (order.filter (·.1 = i)).map (·.2) = results.getD i [])
      (hp : results.map (·.map (·.1)) = f ls)
      (hr : VecRun (c.dflt k) cap l (order.map (·.2.1.toOp)) (order.map fun x => .ok (.num x.2.2)) l') :
      PipeStep c S (.kernel ins k f sched) (.ok (.claims results)) (S.put k (some ⟨cap, true, some l'⟩))
  | single (ins k f) {ls cap r l l' rs} (hi : S.HasAll ins ls) (h : S.Has k cap r l)
      (hr : VecRun (c.dflt k) cap l (f ls) rs l') :
      PipeStep c S (.single ins k f) (.ok (.rets rs)) (S.put k (some ⟨cap, r, some l'⟩))

/-- The value of an argument, if it is not a reference into the vector, is an element of `t` bytes. -/
def Arg.Sized (t : Nat) : Arg Elem → Prop
  | .val v => v.length = t
  | .elem _ => True

/-- The values given to a call are elements of `t` bytes. -/
def ACall.Sized (t : Nat) : ACall Elem → Prop
  | .push a | .emplace a | .bulkValue _ a => a.Sized t
  | .bulk _ | .bulkImplicit _ => True

/-- The values given to an operation are elements of `t` bytes. -/
def DVOp.Sized (t : Nat) : DVOp Elem → Prop
  | .push a | .emplace a | .bulkValue _ a | .resizeValue _ a | .assign _ a => a.Sized t
  | .write _ _ v => v.length = t
  | _ => True

/-- Operations that a vector that is not resizable has. -/
def DVOp.ForFixed : DVOp Elem → Prop
  | .at_ _ | .index _ | .write _ _ _ | .front | .back | .size | .empty | .capacity | .iterate | .iterateBack => True
  | _ => False

/-- What the user may do: nothing is used that does not exist or has not been set up; copies are between different buffers of one
element type; kernels stay within the capacity.  `outside a n` says that the `n` bytes at address `a` belong to no buffer, which
is so for the array of a host vector.  `R` are the limits of the resources. -/
def PipeOp.Fits (c : PipeCfg) (R : Limits) (outside : Nat → Nat → Prop) (S : Store) : PipeOp → Prop
  | .create k cap r => S k = none ∧ cap < 2 ^ 32 ∧
      IsReq R (neededBytes (max 4 (c.ty k).align) [(.uint, if r then 1 else 0), (c.ty k, cap)]) maxAlign
  | .destroy k | .setup k | .memset k _ => ∃ b, S k = some b
  | .copy i j => i ≠ j ∧ (c.ty i).size = (c.ty j).size ∧ ∃ cap r l cap' r' l', S.Has i cap r l ∧ S.Has j cap' r' l'
  | .upload at_ l k => l.length < 2 ^ 32 ∧ (l ≠ [] → at_ ≠ 0 ∧ at_ + l.length * (c.ty k).size ≤ 2 ^ 64) ∧
      outside at_ (l.length * (c.ty k).size) ∧ (∀ e ∈ l, e.length = (c.ty k).size) ∧
      ∃ cap r l', S.Has k cap r l'
  | .download k at_ => ∃ cap r l, S.Has k cap r l ∧ outside at_ (l.length * (c.ty k).size)
  | .kernel ins k f _ => k ∉ ins ∧ ∃ ls cap l, S.HasAll ins ls ∧ S.Has k cap true l ∧
      l.length + totalCount (f ls) ≤ cap ∧ ∀ p ∈ f ls, ∀ x ∈ p, x.Valid true l ∧ x.Sized (c.ty k).size
  | .single ins k f => k ∉ ins ∧ ∃ ls cap r l, S.HasAll ins ls ∧ S.Has k cap r l ∧
      FitsAll true (c.dflt k) cap l (f ls) ∧ (∀ op ∈ f ls, op.Sized (c.ty k).size) ∧
      (r = false → ∀ op ∈ f ls, op.ForFixed)

/-- A configuration that may be used: types are possible types, and value-initialised elements are elements. -/
def PipeCfg.Wf (c : PipeCfg) : Prop := ∀ k, (c.ty k).Wf ∧ (c.dflt k).length = (c.ty k).size

namespace Pipe

variable {σ : Type}

/-- What is in the buffers: the elements that the bytes in memory are.  `ready k` says that buffer `k` has been set up, or
did not have to be. -/
def store (c : PipeCfg) (p : Pipe σ) (ready : Nat → Bool) : Store := fun k =>
  (p.bufs.lookup k).map fun b =>
    ⟨b.view.capacity, b.view.sizePtr != 0, if ready k then some (b.view.elems p.mem (c.ty k).size) else none⟩

/-- The bytes at the addresses from `a` to `a + n` are not in the memory of any buffer. -/
def Outside (p : Pipe σ) (a n : Nat) : Prop :=
  ∀ e ∈ p.bufs, e.2.mem.ptr ≠ 0 → a + n ≤ e.2.mem.ptr ∨ e.2.mem.ptr + e.2.mem.size ≤ a

/-- The memory that the buffers own, with the resource it is from. -/
def owned (c : PipeCfg) (p : Pipe σ) : List (Nat × Blk) :=
  (p.bufs.filter fun e => e.2.mem.ptr != 0).map fun e => (c.res e.1, ⟨e.2.mem.ptr, e.2.mem.size, maxAlign⟩)

end Pipe

/-- Which buffers are set up after a step. -/
def PipeOp.ready (ready : Nat → Bool) : PipeOp → Nat → Bool
  | .create k cap r => fun i => if i = k then !(r && cap != 0) else ready i
  | .setup k => fun i => i = k || ready i
  | _ => ready

/-- All states that programs can reach, started with any contents of memory. -/
inductive PipeReach {σ : Type} (c : PipeCfg) (R : Limits) (ups : Nat → MR σ) (u0 : σ) : Pipe σ → (Nat → Bool) → Prop
  | init (m : Mem) : PipeReach c R ups u0 ⟨u0, m, []⟩ fun _ => false
  | step {p ready op} (h : PipeReach c R ups u0 p ready) (hf : op.Fits c R p.Outside (p.store c ready)) :
      PipeReach c R ups u0 (p.exec c ups op).2 (op.ready ready)

end Vecmem
