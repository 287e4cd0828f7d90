import Verif.Model.AsyncEdm
import Verif.Spec.AsyncProgram
import Verif.Spec.EdmPipeline

/-!
# What programs with container buffers, copies and kernels on a stream mean (C66)

The steps are those of C65; here is which memory they need.
-/

namespace Vecmem

variable {σ : Type}

/-- The byte at `x` is in the memory that the container buffer `k` has from its resource. -/
def EPipe.Bytes (p : EPipe σ) (k x : Nat) : Prop :=
  ∃ b, p.bufs.lookup k = some b ∧ b.buf.mem.ptr ≤ x ∧ x < b.buf.mem.ptr + b.buf.mem.size

/-- The byte at `x` is in the memory that the container buffer `k` has from the host accessible resource. -/
def EPipe.HostBytes (p : EPipe σ) (k x : Nat) : Prop :=
  ∃ b, p.bufs.lookup k = some b ∧ b.buf.hostMem.ptr ≤ x ∧ x < b.buf.hostMem.ptr + b.buf.hostMem.size

/-- The byte at `x` is in the array where the container buffer `k` has the views of the rows of a jagged vector for the host. -/
def EPipe.Views (p : EPipe σ) (k x : Nat) : Prop :=
  ∃ b j, p.bufs.lookup k = some b ∧ .jagged j ∈ b.buf.view.vars ∧ j.hostPtr ≤ x ∧ x < j.hostPtr + j.views.length * viewSize

/-- The byte at `x` is in an array of a host container with the elements `t`. -/
def InArrays (S : Schema) (ats : List (List Nat)) (t : Table) (x : Nat) : Prop :=
  ∃ (i : Nat) (v : Var) (as : List Nat) (rows : List (List Elem)) (r a : Nat) (l : List Elem), S[i]? = some v ∧ ats[i]? = some as ∧
    t[i]? = some rows ∧ as[r]? = some a ∧ rows[r]? = some l ∧ a ≤ x ∧ x < a + l.length * v.type.size

/-- The host itself writes: the elements of its container before it copies them, and, in the constructor of a buffer, the views of
the rows of jagged vectors. -/
def EdmOp.Pokes (c : EdmCfg) (ups : Nat → MR σ) (p : EPipe σ) (x : Nat) : EdmOp → Prop
  | .create k caps r => (p.exec c ups (.create k caps r)).2.Views k x
  | .upload ats t k => InArrays (c.schema k) ats t x
  | _ => False

/-- The memory that the stream uses for a step: that of the buffers, and the arrays of a host container.  Only `setup` uses the host
accessible memory of a buffer. -/
def EdmOp.Uses (c : EdmCfg) (p : EPipe σ) (q : EReady) (x : Nat) : EdmOp → Prop
  | .create .. => False
  | .destroy _ => False
  | .setup k => p.Bytes k x ∨ p.HostBytes k x
  | .memset k _ => p.Bytes k x
  | .copy i j => p.Bytes i x ∨ p.Bytes j x
  | .upload ats t k => InArrays (c.schema k) ats t x ∨ p.Bytes k x
  | .download k ats => p.Bytes k x ∨ ∃ caps r d t, (p.store c q).Has k caps r d t ∧ InArrays (c.schema k) ats t x
  | .append ins k _ _ => (∃ i ∈ ins, p.Bytes i x) ∨ p.Bytes k x
  | .rows ins k _ _ _ => (∃ i ∈ ins, p.Bytes i x) ∨ p.Bytes k x
  | .kernel ins k _ _ => (∃ i ∈ ins, p.Bytes i x) ∨ p.Bytes k x
  | .single ins k _ _ => (∃ i ∈ ins, p.Bytes i x) ∨ p.Bytes k x

/-- The event of the step is one of the stream: always, except for constructors and destructors, for the `setup` of a container
without capacity, and for a copy between containers without room for anything. -/
def EdmOp.Works (c : EdmCfg) (S : EStore) : EdmOp → Prop
  | .create .. => False
  | .destroy _ => False
  | .setup k => ∃ b, S k = some b ∧ b.caps ≠ []
  | .copy i _ => ∃ b, S i = some b ∧ RoomForOne (c.schema i) b.caps
  | _ => True

/-- Programs with container buffers: the state is that of `EPipe.exec`, and which buffers have known elements and may be used by
kernels.  A copy which throws because a variable does not fit has no event, and has given the copies of the variables before
to the stream. -/
def edmSys (c : EdmCfg) (R : Limits) (G : Nat) (ups : Nat → MR σ) : StreamSys (EPipe σ × EReady) EdmOp EdmOut where
  exec s op := ((s.1.exec c ups op).1, (s.1.exec c ups op).2, op.ready s.2)
  mem s := s.1.mem
  May s op := op.Fits c R G (s.1.Outside c) (s.1.store c s.2)
  Pokes s op x := op.Pokes c ups s.1 x
  Uses s op x := op.Uses c s.1 s.2 x
  Works s op := op.Works c (s.1.store c s.2) ∧ (s.1.exec c ups op).1 ≠ .lengthError
  Leaves s op := (s.1.exec c ups op).1 = .lengthError

end Vecmem
