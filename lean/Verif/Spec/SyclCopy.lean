import Verif.Model.HostCopy
import Verif.Spec.AsyncCopy
import Verif.Spec.Copy

/-!
# What copies on a queue that is not in order must not do (C41)
-/

namespace Vecmem

/-- Two operations that may be executed in any order, or at the same time: neither writes what the other one reads or
writes. -/
structure COp.Independent (a b : COp) : Prop where
  left : ∀ x, a.Writes x → ¬ (b.Reads x ∨ b.Writes x)
  right : ∀ x, b.Writes x → ¬ (a.Reads x ∨ a.Writes x)
  leftVar : ∀ i, a.Sets i → ¬ b.Uses i
  rightVar : ∀ i, b.Sets i → ¬ a.Uses i

/-- The host is about to use something which an operation uses that may be executed at any time, or two operations that may
be executed at the same time use the same thing. -/
def SRace {β : Type} (c : SConf β) : Prop :=
  Race ⟨c.prog, c.st, c.pending.map (·.2)⟩ ∨ ¬ c.pending.Pairwise fun a b => a.2.Independent b.2

/-- Undefined behaviour: one of the operations cannot be executed, or the host reads a variable that does not exist, or its
program ends with undefined behaviour (such as a failing assertion). -/
def SUndefined {β : Type} (c : SConf β) : Prop :=
  (∃ e ∈ c.pending, e.2.exec c.st = none) ∨
  match c.prog with
  | .read i _ => c.st.locals[i]? = none
  | .ret .ub => True
  | _ => False

/-- What the vectors given to a call must be like, when the memory is `m`, so that the operations of this call do not get
into each other's way.  Nothing is needed for vectors, for which a call has no two operations at the same time.  The vectors
of jagged vectors must not share memory, with each other or with the other argument; and the size words of a jagged
vector that is set up must not be in its own description. -/
def CopyCall.Apart (m : Mem) : CopyCall → Prop
  | .setupJag j => j.views.length * viewSize < 2 ^ 64 ∧ (∃ t, JagPlaced t j.views) ∧ ∀ v ∈ j.views, ∀ x, v.HasWord x →
      ¬ (j.hostPtr ≤ x ∧ x < j.hostPtr + j.views.length * viewSize) ∧ ¬ (j.ptr ≤ x ∧ x < j.ptr + j.views.length * viewSize)
  | .memsetJag t j _ => JagPlaced t j.views
  | .copyJag _ t src dst => 0 < t ∧ JagValid m t src.views ∧ JagValid m t dst.views ∧
      ∀ x, ¬ (JagHas t src.views x ∧ JagHas t dst.views x)
  | .toStdJag _ t src resize => 0 < t ∧ JagValid m t src.views ∧
      ∃ rows, rows = List.zipWith (fun (v : View) p => (⟨v.len m, 0, p⟩ : View)) src.views (resize (src.views.map (·.len m))) ∧
        JagPlaced t rows ∧ ∀ x, ¬ (JagHas t src.views x ∧ JagHas t rows x)
  | _ => True

/-- Every call's vectors are like that, in the memory as it is after the steps before (with synchronous copies). -/
def StepsApart (hs : List HostStep) (m : Mem) : Prop :=
  ∀ pre c post m', hs = pre ++ .call c :: post → (hostProg pre).result m = (.ok (), m') → c.Apart m'

end Vecmem
