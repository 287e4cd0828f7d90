import Mathlib.Tactic.ByContra
import Mathlib.Tactic.Push
import Mathlib.Tactic.SplitIfs
import Mathlib.Tactic.Use
import Mathlib.Tactic.Tauto
import Mathlib.Tactic.Set
import Mathlib.Tactic.Have
import Mathlib.Tactic.Lift
import Mathlib.Tactic.IntervalCases
import Mathlib.Tactic.Ring
import Mathlib.Tactic.Linarith
import Mathlib.Tactic.Tauto
/-! Tactics used by the proofs. -/
