import Verif.Spec.AsyncCopy
import Verif.Props.C41_AsyncCopy

/-! # Lemmas: executions to compute with, where the stream does nothing until the host waits for it -/

namespace Vecmem

variable {β : Type}

/-- The host's next step; if it has to wait, one of the stream. -/
def lazyNext (c : AConf β) : AConf β :=
  match c.prog with
  | .ret _ => c
  | .issue op k => ⟨k, c.st, c.queue ++ [op]⟩
  | .event k => ⟨k (c.st.done + c.queue.length), c.st, c.queue⟩
  | .wait e k =>
    if e ≤ c.st.done then ⟨k, c.st, c.queue⟩
    else
      match c.queue with
      | [] => c
      | op :: q =>
        match op.exec c.st with
        | some t => ⟨c.prog, t, q⟩
        | none => c
  | .new l k => ⟨k c.st.locals.length, { c.st with locals := c.st.locals ++ [l] }, c.queue⟩
  | .read i k =>
    match c.st.locals[i]? with
    | some l => ⟨k l.bytes, c.st, c.queue⟩
    | none => c
  | .drop k => ⟨k, { c.st with locals := c.st.locals.dropLast }, c.queue⟩
  | .load p n k => ⟨k (fun i => if i < n then c.st.mem (p + i) else 0), c.st, c.queue⟩
  | .poke p n b k => ⟨k, { c.st with mem := memPut c.st.mem p n b 0 }, c.queue⟩

theorem lazyNext_steps (c : AConf β) : lazyNext c = c ∨ AStep c (lazyNext c) := by
  obtain ⟨prog, st, q⟩ := c
  cases prog with
  | ret => exact .inl rfl
  | issue => exact .inr .issue
  | event => exact .inr .event
  | wait e k =>
    simp only [lazyNext]
    split
    · next h => exact .inr (.wait h)
    · cases q with
      | nil => exact .inl rfl
      | cons op q =>
        simp only
        cases h : op.exec st with
        | none => exact .inl rfl
        | some t => exact .inr (.device h)
  | new => exact .inr .new
  | read i k =>
    simp only [lazyNext]
    cases h : st.locals[i]? with
    | none => exact .inl rfl
    | some l => exact .inr (.read h)
  | drop => exact .inr .drop
  | load => exact .inr .load
  | poke => exact .inr .poke

/-- A number of steps. -/
def lazyRun : Nat → AConf β → AConf β
  | 0, c => c
  | n + 1, c => lazyNext (lazyRun n c)

theorem lazyRun_steps (c : AConf β) : ∀ n, ASteps c (lazyRun n c) := by
  intro n
  induction n with
  | zero => exact .refl
  | succ n ih =>
    rcases lazyNext_steps (lazyRun n c) with h | h
    · rw [lazyRun, h]; exact ih
    · exact .step ih h

/-- The operation uses the byte at `x`: `COp.Reads` or `COp.Writes`. -/
def COp.touches (x : Nat) : COp → Bool
  | .copy n src dst => (src ≤ x && x < src + n) || (dst ≤ x && x < dst + n)
  | .memset n dst _ => dst ≤ x && x < dst + n
  | .fetch _ _ n src => src ≤ x && x < src + n
  | .store _ _ n dst => dst ≤ x && x < dst + n
  | .kernel reads writes _ => reads x || writes x

/-- The host is about to write the byte at `x`, which an operation uses. -/
def pokeRace (c : AConf β) (x : Nat) : Bool :=
  match c.prog with
  | .poke p n _ _ => p ≤ x && x < p + n && c.queue.any (COp.touches x)
  | _ => false

theorem race_of_poke {c : AConf β} (x : Nat) (h : pokeRace c x = true) : Race c := by
  obtain ⟨prog, st, q⟩ := c
  cases prog with
  | poke p n b k =>
    simp only [pokeRace, Bool.and_eq_true, decide_eq_true_eq, List.any_eq_true] at h
    obtain ⟨⟨h1, h2⟩, op, h3, h4⟩ := h
    refine ⟨op, h3, x, ⟨h1, h2⟩, ?_⟩
    cases op <;> simp [COp.touches, COp.Reads, COp.Writes] at h4 ⊢ <;> omega
  | _ => cases h

/-- The operation writes the byte at `x`. -/
def COp.sets (x : Nat) : COp → Bool
  | .copy n _ dst => dst ≤ x && x < dst + n
  | .memset n dst _ => dst ≤ x && x < dst + n
  | .fetch .. => false
  | .store _ _ n dst => dst ≤ x && x < dst + n
  | .kernel _ writes _ => writes x

/-- The host is about to read the byte at `x`, which an operation writes. -/
def loadRace (c : AConf β) (x : Nat) : Bool :=
  match c.prog with
  | .load p n _ => p ≤ x && x < p + n && c.queue.any (COp.sets x)
  | _ => false

theorem race_of_load {c : AConf β} (x : Nat) (h : loadRace c x = true) : Race c := by
  obtain ⟨prog, st, q⟩ := c
  cases prog with
  | load p n k =>
    simp only [loadRace, Bool.and_eq_true, decide_eq_true_eq, List.any_eq_true] at h
    obtain ⟨⟨h1, h2⟩, op, h3, h4⟩ := h
    refine ⟨op, h3, x, ⟨h1, h2⟩, ?_⟩
    cases op <;> simp [COp.sets, COp.Writes] at h4 ⊢ <;> omega
  | _ => cases h

end Vecmem
