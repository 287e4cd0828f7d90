import Verif.Model.Synchronized

/-!
# Specification: threads that share memory through a synchronized resource

What correct threads do, whatever the schedule: each asks for memory, and frees blocks which threads hold — blocks that it
was given itself, or that another thread was given and handed over to it.  A block is held from the return of the call
that allocated it to the beginning of the call that frees it.
-/

namespace Vecmem.Sync

variable {σ : Type}

/-- Thread `t`, between calls, begins the call `c` of the synchronized resource `o`. -/
def issue (s : State σ) (t o : Nat) (c : Call) : State σ :=
  { s with threads := upd s.threads t { s.threads t with prog := [(o, c)] } }

/-- Thread `t` is between calls. -/
def Between (s : State σ) (t : Nat) : Prop := (s.threads t).prog = [] ∧ (s.threads t).pc = .idle

/-- The block that thread `t` gets if its next step is the return from a successful allocation. -/
def gained (s : State σ) (t : Nat) : List Blk :=
  match (s.threads t).prog, (s.threads t).pc with
  | (_, .alloc n a) :: _, .leaving (.alloc (.ok p)) => if n = 0 then [] else [⟨p, n, a⟩]
  | _, _ => []

/-- `Threads R up u0 o s L`: correct threads that use the synchronized resource `o`, over the upstream resource `up` that
was in state `u0`, can be in state `s`, and hold the blocks `L`.  Threads take their steps in any order. -/
inductive Threads (R : Limits) (up : MR σ) (u0 : σ) (o : Nat) : State σ → List Blk → Prop
  | init : Threads R up u0 o (start u0 fun _ => []) []
  | request {s L} (t n a : Nat) : Threads R up u0 o s L → Between s t → IsReq R n a →
      Threads R up u0 o (issue s t o (.alloc n a)) L
  | release {s L b} (t : Nat) : Threads R up u0 o s (b :: L) → Between s t →
      Threads R up u0 o (issue s t o (.free b.addr b.size b.align)) L
  | releaseNull {s L} (t n a : Nat) : Threads R up u0 o s L → Between s t →
      Threads R up u0 o (issue s t o (.free 0 n a)) L
  | step {s L} (t : Nat) : Threads R up u0 o s L → Threads R up u0 o (step up s t) (gained s t ++ L)
  | perm {s L L'} : Threads R up u0 o s L → L.Perm L' → Threads R up u0 o s L'

/-- What a correct call may answer: memory or `bad_alloc`; a block is always taken back. -/
def Answer.Fine : Answer → Prop
  | .alloc (.ok _) => True
  | .alloc .badAlloc => True
  | .free (.ok ()) => True
  | _ => False

end Vecmem.Sync
