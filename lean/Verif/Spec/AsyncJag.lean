import Verif.Model.AsyncJag
import Verif.Spec.AsyncProgram
import Verif.Spec.AsyncPipeline
import Verif.Spec.JagPipeline

/-!
# What programs with vector buffers and jagged buffers, copies and kernels on a stream mean (C67)

The steps are those of C62; here is which memory they need.
-/

namespace Vecmem

variable {σ : Type}

namespace JPipe

/-- The byte at `x` is in a row of the jagged buffer `k`, or in the size word of one. -/
def Rows (c : JagCfg) (p : JPipe σ) (k x : Nat) : Prop := ∃ b, p.jags.lookup k = some b ∧ JagHas (c.ty k).size b.views x

/-- The byte at `x` is in the array of views of the jagged buffer `k` which kernels use. -/
def Views (p : JPipe σ) (k x : Nat) : Prop := ∃ b, p.jags.lookup k = some b ∧ b.ptr ≤ x ∧ x < b.ptr + b.views.length * viewSize

/-- The byte at `x` is in the host accessible array of views of the jagged buffer `k`. -/
def HostViews (p : JPipe σ) (k x : Nat) : Prop :=
  ∃ b, p.jags.lookup k = some b ∧ b.hostPtr ≤ x ∧ x < b.hostPtr + b.views.length * viewSize

/-- What a kernel reads of vector buffers and jagged buffers. -/
def Inputs (c : JagCfg) (p : JPipe σ) (ins jins : List Nat) (x : Nat) : Prop :=
  (∃ i ∈ ins, p.vec.Bytes c.vec i x) ∨ ∃ i ∈ jins, p.Rows c i x ∨ p.Views i x

end JPipe

/-- The byte at `x` is in the array of one of several host vectors. -/
def InRows (t : Nat) (ats : List Nat) (rows : List (List Elem)) (x : Nat) : Prop :=
  ∃ (r a : Nat) (l : List Elem), ats[r]? = some a ∧ rows[r]? = some l ∧ a ≤ x ∧ x < a + l.length * t

/-- The host itself writes: the elements of its vectors before it copies them, and, in the constructor of a jagged buffer, the views of
the rows. -/
def JagOp.Pokes (c : JagCfg) (ups : Nat → MR σ) (p : JPipe σ) (x : Nat) : JagOp → Prop
  | .vec (.upload at_ l k) => at_ ≤ x ∧ x < at_ + l.length * (c.vec.ty k).size
  | .create k caps r => (p.exec c ups (.create k caps r)).2.HostViews k x
  | .upload ats rows k => InRows (c.ty k).size ats rows x
  | _ => False

/-- The memory that the stream uses for a step: that of the buffers, and the arrays of host vectors. -/
def JagOp.Uses (c : JagCfg) (p : JPipe σ) (q : JReady) (x : Nat) : JagOp → Prop
  | .vec op => op.Uses c.vec p.vec x
  | .create .. => False
  | .destroy _ => False
  | .setup k => p.Rows c k x ∨ p.Views k x ∨ p.HostViews k x
  | .memset k _ => p.Rows c k x
  | .copy i j => p.Rows c i x ∨ p.Rows c j x
  | .upload ats rows k => InRows (c.ty k).size ats rows x ∨ p.Rows c k x
  | .download k ats => p.Rows c k x ∨ ∃ caps r d rows, (p.store c q).Has k caps r d rows ∧ InRows (c.ty k).size ats rows x
  | .kernel ins jins k _ _ => p.Inputs c ins jins x ∨ p.Views k x ∨ p.Rows c k x
  | .single ins jins k _ => p.Inputs c ins jins x ∨ p.Views k x ∨ p.Rows c k x
  | .vecKernel ins jins k _ _ => p.Inputs c ins jins x ∨ p.vec.Bytes c.vec k x
  | .vecSingle ins jins k _ => p.Inputs c ins jins x ∨ p.vec.Bytes c.vec k x

/-- The step has something to do, so that its event is one of the stream, and not one that is complete from the start: a copy of no
rows, for example, has not. -/
def JagOp.Works (S : JStore) : JagOp → Prop
  | .vec op => op.Works S.vec
  | .create .. => False
  | .destroy _ => False
  | .setup k => ∃ b, S.jag k = some b ∧ b.caps ≠ []
  | .memset k _ => ∃ b, S.jag k = some b ∧ ∃ cap ∈ b.caps, cap ≠ 0
  | .copy i j => ∃ caps r d rows caps' r' d' rows', S.Has i caps r d rows ∧ S.Has j caps' r' d' rows' ∧ rows ≠ [] ∧ RowsFitIn caps' rows
  | .upload _ rows k => ∃ caps r d rows', S.Has k caps r d rows' ∧ rows ≠ [] ∧ RowsFitIn caps rows
  | .download k _ => ∃ caps r d rows, S.Has k caps r d rows ∧ rows ≠ []
  | .kernel .. => True
  | .single .. => True
  | .vecKernel .. => True
  | .vecSingle .. => True

/-- Programs with vector buffers and jagged buffers: the state is that of `JPipe.exec`, and which buffers have been set up. -/
def jagSys (c : JagCfg) (R : Limits) (ups : Nat → MR σ) : StreamSys (JPipe σ × JReady) JagOp JagOut where
  exec s op := ((s.1.exec c ups op).1, (s.1.exec c ups op).2, op.ready s.2)
  mem s := s.1.vec.mem
  May s op := op.Fits c R (s.1.Outside c) (s.1.store c s.2)
  Pokes s op x := op.Pokes c ups s.1 x
  Uses s op x := op.Uses c s.1 s.2 x
  Works s op := op.Works (s.1.store c s.2)
  Leaves _ _ := False

end Vecmem
