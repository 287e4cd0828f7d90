import Verif.Spec.Conventions
import Verif.Model.Wrappers
import Verif.Model.Pool
import Verif.Model.BinaryPage
import Verif.Model.Arena
import Verif.Model.Host

/-!
# C21 — zero-byte requests and null deallocations
-/

namespace Vecmem.Props

open Vecmem

variable {σ ι π : Type}

/-- Resources for which the two kinds of calls are no-ops follow the conventions. -/
theorem conventional_of {m : MR σ} (h1 : ∀ s a, m.allocate s 0 a = (.ok 0, s))
    (h2 : ∀ s n a, m.deallocate s 0 n a = (.ok (), s)) : Conventional m := by
  intro s calls
  induction calls generalizing s with
  | nil => rfl
  | cons c cs ih =>
    cases c with
    | alloc n a =>
      by_cases hn : n = 0
      · subst hn
        simp only [MR.run, MR.call, h1, List.filter_cons, Call.isTrivial, beq_self_eq_true, Bool.not_true,
          Bool.false_eq_true, if_false, if_true, weave, Call.trivialAnswer]
        rw [ih s]; rfl
      · have hb : (n == 0) = false := by simpa using hn
        simp only [MR.run, MR.call, List.filter_cons, Call.isTrivial, hb,
          Bool.not_false, if_true, weave, Bool.false_eq_true, if_false]
        rw [ih (m.allocate s n a).2]; rfl
    | free p n a =>
      by_cases hn : p = 0
      · subst hn
        simp only [MR.run, MR.call, h2, List.filter_cons, Call.isTrivial, beq_self_eq_true, Bool.not_true,
          Bool.false_eq_true, if_false, if_true, weave, Call.trivialAnswer]
        rw [ih s]; rfl
      · have hb : (p == 0) = false := by simpa using hn
        simp only [MR.run, MR.call, List.filter_cons, Call.isTrivial, hb,
          Bool.not_false, if_true, weave, Bool.false_eq_true, if_false]
        rw [ih (m.deallocate s p n a).2]; rfl

theorem conventional_pimpl (impl : MR σ) : Conventional (pimpl impl) :=
  conventional_of (fun _ _ => by simp [pimpl]) (fun _ _ _ => by simp [pimpl])

/-- **C21** (partial: false of the terminal resource, see `c21_terminal_throws`).  Whatever the upstreams,
options, predicates, decisions and hooks, these resources follow the conventions. -/
theorem c21_conventions_partial (up : MR σ) (ups : ι → MR σ) (order : List ι)
    (opts : PoolOpts) (dbg : Bool)
    (pred : π → Nat → Nat → Bool × π) (decision : π → Nat → Nat → ι × π) (c : CLib σ) :
    Conventional (Contig.mr (σ := σ)) ∧
    Conventional (Pool.mr dbg opts up) ∧
    Conventional (BinPage.mr dbg up) ∧
    Conventional (Arena.mr up) ∧
    Conventional (identityMR up) ∧
    Conventional (conditionalMR pred up) ∧
    Conventional (choiceMR decision ups) ∧
    Conventional (coalescingMR order ups) ∧
    Conventional (debugMR up) ∧
    Conventional (instrumentingMR up) ∧
    Conventional (hostMallocMR c) ∧
    Conventional (hostAlignedMR c) := by
  refine ⟨conventional_pimpl _, conventional_pimpl _, conventional_pimpl _, conventional_pimpl _, ?_,
    conventional_pimpl _, conventional_pimpl _, conventional_pimpl _, conventional_pimpl _,
    conventional_pimpl _, ?_, ?_⟩
  · exact conventional_of (fun _ _ => by simp [identityMR]) (fun _ _ _ => by simp [identityMR])
  · exact conventional_of (fun _ _ => by simp [hostMallocMR]) (fun _ _ _ => by simp [hostMallocMR])
  · exact conventional_of (fun _ _ => by simp [hostAlignedMR]) (fun _ _ _ => by simp [hostAlignedMR])

/-- The terminal resource throws even for zero bytes. -/
theorem c21_terminal_throws (s : σ) :
    (terminalMR.allocate s 0 16).1 = .badAlloc ∧ ¬ Conventional (terminalMR (σ := σ)) := by
  refine ⟨rfl, ?_⟩
  intro h
  have := congrArg Prod.fst (h s [.alloc 0 16])
  simp [MR.run, MR.call, terminalMR, weave, Call.isTrivial, Call.trivialAnswer] at this

end Vecmem.Props
