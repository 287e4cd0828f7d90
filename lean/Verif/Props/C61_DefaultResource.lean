import Verif.Model.DefaultResource
import Verif.Lemmas.Tactics
import Mathlib.Data.List.Perm.Basic

/-!
# C61 — the default memory resource
-/

namespace Vecmem.Props

open Vecmem Default

/-- What a call installs, if it installs something. -/
def installs (nd : Nat) : Op → List Nat
  | .get => []
  | .set 0 => [nd]
  | .set p => [p]

/-- What `set_default_resource` calls returned. -/
def replaced : List (Nat × Op × Nat) → List Nat
  | [] => []
  | (_, .set _, r) :: l => r :: replaced l
  | (_, .get, _) :: l => replaced l

/-- **C61.**  Threads call `get_default_resource` and `set_default_resource` in any interleaving, `nd` being
`new_delete_resource()`.  Each call, a `get` or a `set`, returns what was installed last before it (by whichever thread; null
installs `nd`, which is also what there is at first). -/
theorem c61_latest (nd : Nat) (before after : List (Nat × Op)) (t : Nat) (op : Op) :
    (run nd none (before ++ (t, op) :: after)).1[before.length]? =
      some (t, op, (nd :: before.flatMap fun c => installs nd c.2).getLast (by simp)) := by
  have gen : ∀ (before : List (Nat × Op)) (s : Option Nat),
      (run nd s (before ++ (t, op) :: after)).1[before.length]? =
        some (t, op, (current nd s :: before.flatMap fun c => installs nd c.2).getLast (by simp)) := by
    intro before
    induction before with
    | nil => intro s; cases op <;> simp [run, call]
    | cons c cs ih =>
      intro s
      obtain ⟨t', op'⟩ := c
      simp only [List.cons_append, run, List.length_cons, List.getElem?_cons_succ, List.flatMap_cons]
      rw [ih]
      match op' with
      | .get => simp [call, installs, current]
      | .set 0 => simp [call, installs, current]
      | .set (p + 1) => simp [call, installs, current]
  exact gen before none

/-- Nothing is lost and nothing is returned twice: what the `set` calls returned, together with what is installed in the
end, is what there was at first together with what was installed — however the threads race.  So if every thread puts back
what it replaced, each resource gets its place back exactly once. -/
theorem c61_exchange (nd : Nat) (calls : List (Nat × Op)) :
    let r := run nd none calls
    (current nd r.2 :: replaced r.1).Perm (nd :: calls.flatMap fun c => installs nd c.2) := by
  have gen : ∀ (calls : List (Nat × Op)) (s : Option Nat),
      (current nd (run nd s calls).2 :: replaced (run nd s calls).1).Perm
        (current nd s :: calls.flatMap fun c => installs nd c.2) := by
    intro calls
    induction calls with
    | nil => intro s; simp [run, replaced]
    | cons c cs ih =>
      intro s
      obtain ⟨t, op⟩ := c
      simp only [run, List.flatMap_cons]
      have h := ih (call nd s op).2
      match op with
      | .get => simpa [call, replaced, installs, current] using h
      | .set 0 =>
        simp only [call, replaced, installs, if_true, List.singleton_append] at h ⊢
        exact (List.Perm.swap _ _ _).trans (h.cons _)
      | .set (p + 1) =>
        simp only [call, replaced, installs, List.singleton_append, Nat.succ_ne_zero, if_false] at h ⊢
        exact (List.Perm.swap _ _ _).trans (h.cons _)
  exact gen calls none

/-- No call ever returns null, if no null object is a resource. -/
theorem c61_not_null (nd : Nat) (hnd : nd ≠ 0) (calls : List (Nat × Op)) :
    ∀ e ∈ (run nd none calls).1, e.2.2 ≠ 0 := by
  have gen : ∀ (calls : List (Nat × Op)) (s : Option Nat), current nd s ≠ 0 → ∀ e ∈ (run nd s calls).1, e.2.2 ≠ 0 := by
    intro calls
    induction calls with
    | nil => intro s _; simp [run]
    | cons c cs ih =>
      intro s hs e he
      obtain ⟨t, op⟩ := c
      simp only [run, List.mem_cons] at he
      have h2 : current nd (call nd s op).2 ≠ 0 := by
        cases op with
        | get => exact hs
        | set p => by_cases hp : p = 0 <;> simp [call, current, hp, hnd]
      rcases he with rfl | he
      · cases op <;> simpa [call] using hs
      · exact ih _ h2 e he
  exact gen calls none hnd

/-- Putting back what `set_default_resource` returned undoes it, whatever has been installed in between, and whatever was
(or was not yet) installed before. -/
theorem c61_restore (nd : Nat) (hnd : nd ≠ 0) (before between : List (Nat × Op)) (t p : Nat) :
    let old := (call nd (run nd none before).2 (.set p)).1
    current nd (run nd none (before ++ (t, .set p) :: between ++ [(t, .set old)])).2 =
      current nd (run nd none before).2 := by
  have app : ∀ (xs ys : List (Nat × Op)) (s : Option Nat), (run nd s (xs ++ ys)).2 = (run nd (run nd s xs).2 ys).2 := by
    intro xs
    induction xs with
    | nil => intro ys s; rfl
    | cons c cs ih => intro ys s; simp [run, ih]
  have hne : current nd (run nd none before).2 ≠ 0 := by
    have gen : ∀ (calls : List (Nat × Op)) (s : Option Nat), current nd s ≠ 0 → current nd (run nd s calls).2 ≠ 0 := by
      intro calls
      induction calls with
      | nil => intro s hs; exact hs
      | cons c cs ih =>
        intro s hs
        obtain ⟨t, op⟩ := c
        simp only [run]
        apply ih
        cases op with
        | get => exact hs
        | set p => by_cases hp : p = 0 <;> simp [call, current, hp, hnd]
    exact gen before none hnd
  have hold : (call nd (run nd none before).2 (.set p)).1 = current nd (run nd none before).2 := rfl
  show current nd (run nd none (before ++ (t, Op.set p) :: between ++ [(t, .set (call nd (run nd none before).2 (.set p)).1)])).2 = _
  rw [app, hold]
  simp only [run, call, if_neg hne]
  rfl

/-- Two threads install their resources at 500 and 600 while a third looks: the first gets the initial resource, the
second what the first installed; null then brings the initial one back. -/
example : run 100 none [(0, .set 500), (2, .get), (1, .set 600), (2, .get), (0, .set 0), (1, .get)] =
    ([(0, .set 500, 100), (2, .get, 500), (1, .set 600, 500), (2, .get, 600), (0, .set 0, 600), (1, .get, 100)],
      some 100) := by decide

end Vecmem.Props
