import Verif.Model.EdmDevice

/-!
# Vocabulary for concurrent use of device containers (C45)
-/

namespace Vecmem

variable {α : Type}

/-- A resizable container with `n` elements, in which the vectors have the capacity of the container. -/
structure DevCont.Ready (s : DevCont α) (n : Nat) : Prop where
  resizable : s.hasSize = true
  size : s.sizeWord = n
  caps : ∀ (k : Nat) (d : α) (c : Nat) (m : Nat → Option α), s.vars[k]? = some (.vector d c m) → c = s.cap
  cap32 : s.cap < 2 ^ 32

/-- The assignments of the program are to vectors. -/
def DCall.Valid (s : DevCont α) (c : DCall α) : Prop :=
  ∀ a ∈ c.assigns, ∃ d cap m, s.vars[a.1]? = some (.vector d cap m)

/-- The number of calls. -/
def callCount (progs : List (List (DCall α))) : Nat := (progs.map List.length).sum

/-- All threads have finished their programs. -/
def DConc.Finished (g : DConc α) : Prop := ∀ t ∈ g.threads, t.todo = [] ∧ t.phase = .idle

/-- The calls of thread `i` that have returned, with the index each returned. -/
def DConc.results (g : DConc α) (i : Nat) : List (DCall α × Nat) := ((g.threads[i]?).map DThread.done).getD []

/-- The indices that calls have returned. -/
def DConc.indices (g : DConc α) : List Nat := g.threads.flatMap fun t => t.done.map (·.2)

/-- The last value that assignments give to variable `k`; `d` if there is none. -/
def lastAssigned (d : α) (k : Nat) : List (Nat × α) → α
  | [] => d
  | (j, x) :: as => lastAssigned (if j = k then x else d) k as

/-- The variable and element that a thread writes with its next step. -/
def DThread.target (s : DevCont α) (t : DThread α) : Option (Nat × Nat) :=
  match t.phase with
  | .constructing _ index k => match s.vars[k]? with
    | some (.vector _ _ _) => some (k, index)
    | _ => none
  | .assigning c index j => (c.assigns[j]?).map fun a => (a.1, index)
  | _ => none

/-- The number of steps a thread needs until it has finished its program. -/
def DThread.left (s : DevCont α) (t : DThread α) : Nat :=
  (t.todo.map fun c => s.vars.length + c.assigns.length + 4).sum +
    match t.phase with
    | .idle => 0
    | .claimed c _ => s.vars.length + c.assigns.length + 3
    | .constructing c _ k => (s.vars.length - k) + c.assigns.length + 2
    | .assigning c _ j => (c.assigns.length - j) + 1

end Vecmem
