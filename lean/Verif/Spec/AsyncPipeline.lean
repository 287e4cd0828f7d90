import Verif.Model.AsyncPipeline
import Verif.Spec.Pipeline
import Verif.Spec.AsyncCopy

/-!
# What programs with buffers, copies and kernels on a stream mean (C64)

The same program where every step is made when it is called, `syncRun`, and what the host must not do while it has not waited
for a step: use memory that the step uses.
-/

namespace Vecmem

variable {σ : Type}

/-- The host's program if every step is complete when it returns. -/
def syncRun (c : PipeCfg) (ups : Nat → MR σ) (p : Pipe σ) : List StreamOp → List (Res (List UInt8)) × Pipe σ
  | [] => ([], p)
  | .step op _ :: ops =>
    let r := p.exec c ups op
    let rs := syncRun c ups r.2 ops
    (r.1.map (fun _ => []) :: rs.1, rs.2)
  | .sync :: ops =>
    let rs := syncRun c ups p ops
    (.ok [] :: rs.1, rs.2)
  | .look a n :: ops =>
    let rs := syncRun c ups p ops
    (.ok (bytesAt p.mem a n) :: rs.1, rs.2)

/-- The byte at `x` is one of the buffer `k`. -/
def Pipe.Bytes (c : PipeCfg) (p : Pipe σ) (k x : Nat) : Prop := ∃ b, p.bufs.lookup k = some b ∧ b.view.Has (c.ty k).size x

/-- The byte at `x` is one of the array of a host vector that a step copies from or to. -/
def PipeOp.Array (c : PipeCfg) (p : Pipe σ) (x : Nat) : PipeOp → Prop
  | .upload at_ l k => at_ ≤ x ∧ x < at_ + l.length * (c.ty k).size
  | .download k at_ => ∃ b, p.bufs.lookup k = some b ∧ at_ ≤ x ∧ x < at_ + b.view.len p.mem * (c.ty k).size
  | _ => False

/-- The memory that the stream uses for a step: that of the buffers, and the array of the host vector. -/
def PipeOp.Uses (c : PipeCfg) (p : Pipe σ) (x : Nat) (op : PipeOp) : Prop :=
  op.Array c p x ∨
  match op with
  | .create .. => False
  | .destroy _ => False
  | .setup k => p.Bytes c k x
  | .memset k _ => p.Bytes c k x
  | .copy i j => p.Bytes c i x ∨ p.Bytes c j x
  | .upload _ _ k => p.Bytes c k x
  | .download k _ => p.Bytes c k x
  | .kernel ins k _ _ => (∃ i ∈ ins, p.Bytes c i x) ∨ p.Bytes c k x
  | .single ins k _ => (∃ i ∈ ins, p.Bytes c i x) ∨ p.Bytes c k x

/-- The step has something to do, so that its event is one of the stream, and not one that is complete from the start
(`c41_wait_false`): a copy of no elements, for example, has not. -/
def PipeOp.Works (S : Store) : PipeOp → Prop
  | .create .. => False
  | .destroy _ => False
  | .setup k => ∃ cap vals, S k = some ⟨cap, true, vals⟩ ∧ cap ≠ 0
  | .memset k _ => ∃ cap r vals, S k = some ⟨cap, r, vals⟩ ∧ cap ≠ 0
  | .copy i j => ∃ cap r l cap' r' l', S.Has i cap r l ∧ S.Has j cap' r' l' ∧ l ≠ [] ∧ l.length ≤ cap'
  | .upload _ l k => ∃ cap r l', S.Has k cap r l' ∧ l ≠ [] ∧ l.length ≤ cap
  | .download .. => True
  | .kernel .. => True
  | .single .. => True

/-- What the host may do: every step may be made, as in C59; and the host does not write to the array of a vector, and does
not read memory, which is `busy`: used by a step which has not been waited for, neither by waiting for its event, nor by
waiting for that of a later step which has something to do, nor by waiting for everything. -/
def streamFits (c : PipeCfg) (R : Limits) (ups : Nat → MR σ) (p : Pipe σ) (ready : Nat → Bool) (busy : Nat → Prop) : List StreamOp → Prop
  | [] => True
  | .step op w :: ops => op.Fits c R p.Outside (p.store c ready) ∧
      ((∃ at_ l k, op = .upload at_ l k) → ∀ x, op.Array c p x → ¬ busy x) ∧
      streamFits c R ups (p.exec c ups op).2 (op.ready ready)
        (fun x => busy x ∧ ¬ (w = true ∧ op.Works (p.store c ready)) ∨ w = false ∧ op.Uses c p x) ops
  | .sync :: ops => streamFits c R ups p ready (fun _ => False) ops
  | .look a n :: ops => (∀ x, a ≤ x → x < a + n → ¬ busy x) ∧ streamFits c R ups p ready busy ops

end Vecmem
