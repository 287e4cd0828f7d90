import Verif.Spec.AsyncCopy
import Verif.Lemmas.CopyProg

/-! # Lemmas about asynchronous copies -/

namespace Vecmem

open Prog

variable {β γ : Type}

/-- All variables used are among the first `n`. -/
def Slotted (P : List COp) (n : Nat) : Prop := ∀ op ∈ P, ∀ i, op.Uses i → i < n

/-- The program, run synchronously in state `s`, does nothing undefined and has an outcome with `Q`; and if the operations
`P` before it may not have been executed yet, the host never uses anything that is in use. -/
def Safe : Prog β → (Res β → DState → List COp → Prop) → DState → List COp → Prop
  | .ret r, Q, s, P => r ≠ .ub ∧ Q r s P
  | .issue op k, Q, s, P => ∃ t, op.exec s = some t ∧ Safe k Q t (P ++ [op])
  | .event k, Q, s, P => Safe (k s.done) Q s P
  | .wait e k, Q, s, P => e ≤ s.done ∧ Safe k Q s (P.drop (P.length - (s.done - e)))
  | .new l k, Q, s, P => Slotted P s.locals.length ∧ Safe (k s.locals.length) Q { s with locals := s.locals ++ [l] } P
  | .read i k, Q, s, P => ∃ l, s.locals[i]? = some l ∧ (∀ op ∈ P, ¬ op.Sets i) ∧ Safe (k l.bytes) Q s P
  | .drop k, Q, s, P => Slotted P (s.locals.length - 1) ∧ Safe k Q { s with locals := s.locals.dropLast } P
  | .load p n k, Q, s, P => (∀ op ∈ P, ∀ x, p ≤ x ∧ x < p + n → ¬ op.Writes x) ∧
      Safe (k (fun i => if i < n then s.mem (p + i) else 0)) Q s P
  | .poke p n b k, Q, s, P => (∀ op ∈ P, ∀ x, p ≤ x ∧ x < p + n → ¬ (op.Reads x ∨ op.Writes x)) ∧
      Safe k Q { s with mem := memPut s.mem p n b 0 } P

/-- Execute operations one after the other. -/
def execAll : List COp → DState → Option DState
  | [], s => some s
  | op :: q, s => (op.exec s).bind (execAll q)

theorem execAll_append (q q' : List COp) (s : DState) : execAll (q ++ q') s = (execAll q s).bind (execAll q') := by
  induction q generalizing s with
  | nil => rfl
  | cons op q ih =>
    simp only [List.cons_append, execAll]
    cases op.exec s with
    | none => rfl
    | some t => exact ih t

/-! ## one operation and the host's actions -/

theorem exec_done {op : COp} {s t : DState} (h : op.exec s = some t) :
    t.done = s.done + 1 ∧ t.locals.length = s.locals.length := by
  cases op with
  | copy n src dst =>
    simp only [COp.exec] at h
    split at h
    · simp at h
    · simp only [Option.some.injEq] at h; subst h; exact ⟨rfl, rfl⟩
  | memset n dst v => simp only [COp.exec, Option.some.injEq] at h; subst h; exact ⟨rfl, rfl⟩
  | fetch i off n src =>
    simp only [COp.exec] at h
    split at h
    · split at h
      · simp only [Option.some.injEq] at h; subst h; exact ⟨rfl, by simp⟩
      · simp at h
    · simp at h
  | store i off n dst =>
    simp only [COp.exec] at h
    split at h
    · split at h
      · simp only [Option.some.injEq] at h; subst h; exact ⟨rfl, rfl⟩
      · simp at h
    · simp at h
  | kernel rd wr f =>
    simp only [COp.exec] at h
    cases hf : f (kernelMem s.mem rd wr) with
    | none => rw [hf] at h; simp at h
    | some m =>
      rw [hf] at h
      simp only [Option.map_some, Option.some.injEq] at h
      subst h
      exact ⟨rfl, rfl⟩

theorem exec_uses {op : COp} {s t : DState} (h : op.exec s = some t) {i : Nat} (hu : op.Uses i) : i < s.locals.length := by
  cases op with
  | copy => exact hu.elim
  | memset => exact hu.elim
  | fetch j off n src =>
    cases hu
    simp only [COp.exec] at h
    split at h
    · rename_i l hl
      exact (List.getElem?_eq_some_iff.1 hl).1
    · simp at h
  | store j off n src =>
    cases hu
    simp only [COp.exec] at h
    split at h
    · rename_i l hl
      exact (List.getElem?_eq_some_iff.1 hl).1
    · simp at h
  | kernel => exact hu.elim

theorem exec_new {op : COp} {s : DState} {l : Local} (h : ∀ i, op.Uses i → i < s.locals.length) :
    op.exec { s with locals := s.locals ++ [l] } = (op.exec s).map fun t => { t with locals := t.locals ++ [l] } := by
  cases op with
  | copy n src dst =>
    simp only [COp.exec]
    split <;> rfl
  | memset n dst v => rfl
  | fetch i off n src =>
    have hi := h i rfl
    simp only [COp.exec, List.getElem?_append_left hi]
    cases hx : s.locals[i]? with
    | none => rfl
    | some k =>
      simp only
      split
      · simp only [Option.map_some, List.set_append_left _ _ hi]
      · rfl
  | store i off n dst =>
    have hi := h i rfl
    simp only [COp.exec, List.getElem?_append_left hi]
    cases hx : s.locals[i]? with
    | none => rfl
    | some k => simp only; split <;> rfl
  | kernel rd wr f =>
    simp only [COp.exec]
    cases f (kernelMem s.mem rd wr) <;> rfl

theorem dropLast_get? {α : Type} {l : List α} {i : Nat} (h : i < l.length - 1) : l.dropLast[i]? = l[i]? := by
  rw [List.getElem?_dropLast]
  simp [h]

theorem dropLast_set' {α : Type} {l : List α} {i : Nat} {a : α} (h : i < l.length - 1) :
    (l.set i a).dropLast = l.dropLast.set i a := by
  apply List.ext_getElem?
  intro j
  simp only [List.getElem?_dropLast, List.getElem?_set, List.length_set, List.length_dropLast]
  by_cases hij : i = j
  · subst hij
    simp [h]
    omega
  · simp [hij]

theorem exec_drop {op : COp} {s : DState} (h : ∀ i, op.Uses i → i < s.locals.length - 1) :
    op.exec { s with locals := s.locals.dropLast } = (op.exec s).map fun t => { t with locals := t.locals.dropLast } := by
  cases op with
  | copy n src dst =>
    simp only [COp.exec]
    split <;> rfl
  | memset n dst v => rfl
  | fetch i off n src =>
    have hi := h i rfl
    simp only [COp.exec, dropLast_get? hi]
    cases hx : s.locals[i]? with
    | none => rfl
    | some k =>
      simp only
      split
      · simp only [Option.map_some, dropLast_set' hi]
      · rfl
  | store i off n dst =>
    have hi := h i rfl
    simp only [COp.exec, dropLast_get? hi]
    cases hx : s.locals[i]? with
    | none => rfl
    | some k => simp only; split <;> rfl
  | kernel rd wr f =>
    simp only [COp.exec]
    cases f (kernelMem s.mem rd wr) <;> rfl

theorem exec_locals {op : COp} {s t : DState} (h : op.exec s = some t) {i : Nat} (hi : ¬ op.Sets i) :
    t.locals[i]? = s.locals[i]? := by
  cases op with
  | copy n src dst =>
    simp only [COp.exec] at h
    split at h
    · simp at h
    · simp only [Option.some.injEq] at h; subst h; rfl
  | memset n dst v => simp only [COp.exec, Option.some.injEq] at h; subst h; rfl
  | fetch j off n src =>
    simp only [COp.exec] at h
    split at h
    · split at h
      · simp only [Option.some.injEq] at h
        subst h
        exact List.getElem?_set_ne hi
      · simp at h
    · simp at h
  | store j off n dst =>
    simp only [COp.exec] at h
    split at h
    · split at h
      · simp only [Option.some.injEq] at h; subst h; rfl
      · simp at h
    · simp at h
  | kernel rd wr f =>
    simp only [COp.exec] at h
    cases hf : f (kernelMem s.mem rd wr) with
    | none => rw [hf] at h; simp at h
    | some m =>
      rw [hf] at h
      simp only [Option.map_some, Option.some.injEq] at h
      subst h
      rfl

theorem exec_mem {op : COp} {s t : DState} (h : op.exec s = some t) {x : Nat} (hx : ¬ op.Writes x) : t.mem x = s.mem x := by
  cases op with
  | copy n src dst =>
    simp only [COp.exec] at h
    split at h
    · simp at h
    · simp only [Option.some.injEq] at h
      subst h
      simp only [memCopy]
      exact if_neg hx
  | memset n dst v =>
    simp only [COp.exec, Option.some.injEq] at h
    subst h
    simp only [memFill]
    exact if_neg hx
  | fetch j off n src =>
    simp only [COp.exec] at h
    split at h
    · split at h
      · simp only [Option.some.injEq] at h; subst h; rfl
      · simp at h
    · simp at h
  | store j off n dst =>
    simp only [COp.exec] at h
    split at h
    · split at h
      · simp only [Option.some.injEq] at h
        subst h
        simp only [memPut]
        exact if_neg hx
      · simp at h
    · simp at h
  | kernel rd wr f =>
    simp only [COp.exec] at h
    cases hf : f (kernelMem s.mem rd wr) with
    | none => rw [hf] at h; simp at h
    | some m =>
      rw [hf] at h
      simp only [Option.map_some, Option.some.injEq] at h
      subst h
      exact if_neg hx

theorem exec_poke {op : COp} {s : DState} {p n : Nat} {b : Mem}
    (h : ∀ x, p ≤ x ∧ x < p + n → ¬ (op.Reads x ∨ op.Writes x)) :
    op.exec { s with mem := memPut s.mem p n b 0 } =
      (op.exec s).map fun t => { t with mem := memPut t.mem p n b 0 } := by
  cases op with
  | copy k src dst =>
    simp only [COp.exec]
    split
    · rfl
    · simp only [Option.map_some, Option.some.injEq, DState.mk.injEq, and_true]
      funext x
      simp only [memCopy, memPut]
      by_cases h1 : dst ≤ x ∧ x < dst + k
      · rw [if_pos h1, if_pos h1, if_neg, if_neg]
        · exact fun hc => h x hc (.inr h1)
        · intro hc
          exact h _ hc (.inl ⟨by omega, by omega⟩)
      · rw [if_neg h1, if_neg h1]
  | memset k dst v =>
    simp only [COp.exec, Option.map_some, Option.some.injEq, DState.mk.injEq, and_true]
    funext x
    simp only [memFill, memPut]
    by_cases h1 : dst ≤ x ∧ x < dst + k
    · rw [if_pos h1, if_pos h1, if_neg]
      exact fun hc => h x hc (.inr h1)
    · rw [if_neg h1, if_neg h1]
  | fetch i off k src =>
    simp only [COp.exec]
    cases s.locals[i]? with
    | none => rfl
    | some l =>
      simp only
      split
      · simp only [Option.map_some, Option.some.injEq, DState.mk.injEq, and_true, true_and]
        congr 2
        funext x
        simp only [memPut]
        by_cases h1 : off ≤ x ∧ x < off + k
        · rw [if_pos h1, if_pos h1, if_neg]
          exact fun hc => h _ hc (.inl ⟨by omega, by omega⟩)
        · rw [if_neg h1, if_neg h1]
      · rfl
  | store i off k dst =>
    simp only [COp.exec]
    cases s.locals[i]? with
    | none => rfl
    | some l =>
      simp only
      split
      · simp only [Option.map_some, Option.some.injEq, DState.mk.injEq, and_true]
        funext x
        simp only [memPut]
        by_cases h1 : dst ≤ x ∧ x < dst + k
        · rw [if_pos h1, if_pos h1, if_neg]
          exact fun hc => h x hc (.inr h1)
        · rw [if_neg h1, if_neg h1]
      · rfl
  | kernel rd wr f =>
    have hm : kernelMem (memPut s.mem p n b 0) rd wr = kernelMem s.mem rd wr := by
      funext x
      simp only [kernelMem, memPut]
      by_cases h1 : p ≤ x ∧ x < p + n
      · have := h x h1
        simp only [COp.Reads, COp.Writes, not_or, Bool.not_eq_true] at this
        rw [this.1.1, this.1.2]
        rfl
      · rw [if_neg h1]
    simp only [COp.exec, hm]
    cases f (kernelMem s.mem rd wr) with
    | none => rfl
    | some m =>
      simp only [Option.map_some, Option.some.injEq, DState.mk.injEq, and_true]
      funext x
      simp only [memPut]
      by_cases h1 : p ≤ x ∧ x < p + n
      · have := h x h1
        simp only [COp.Reads, COp.Writes, not_or, Bool.not_eq_true] at this
        rw [this.2, if_pos h1, if_pos h1]
        rfl
      · rw [if_neg h1, if_neg h1]

/-! ## pending operations and the host's actions -/

theorem execAll_done {q : List COp} {a s : DState} (h : execAll q a = some s) :
    s.done = a.done + q.length ∧ s.locals.length = a.locals.length := by
  induction q generalizing a with
  | nil => simp only [execAll, Option.some.injEq] at h; subst h; exact ⟨rfl, rfl⟩
  | cons op q ih =>
    simp only [execAll] at h
    cases hx : op.exec a with
    | none => rw [hx] at h; simp at h
    | some t =>
      rw [hx] at h
      obtain ⟨h1, h2⟩ := exec_done hx
      obtain ⟨h3, h4⟩ := ih h
      exact ⟨by simp only [List.length_cons]; omega, by omega⟩

theorem execAll_locals {q : List COp} {a s : DState} (h : execAll q a = some s) {i : Nat} (hi : ∀ op ∈ q, ¬ op.Sets i) :
    s.locals[i]? = a.locals[i]? := by
  induction q generalizing a with
  | nil => simp only [execAll, Option.some.injEq] at h; subst h; rfl
  | cons op q ih =>
    simp only [execAll] at h
    cases hx : op.exec a with
    | none => rw [hx] at h; simp at h
    | some t =>
      rw [hx] at h
      rw [ih h fun o ho => hi o (List.mem_cons_of_mem _ ho), exec_locals hx (hi op (List.mem_cons_self ..))]

theorem execAll_mem {q : List COp} {a s : DState} (h : execAll q a = some s) {x : Nat} (hx : ∀ op ∈ q, ¬ op.Writes x) :
    s.mem x = a.mem x := by
  induction q generalizing a with
  | nil => simp only [execAll, Option.some.injEq] at h; subst h; rfl
  | cons op q ih =>
    simp only [execAll] at h
    cases he : op.exec a with
    | none => rw [he] at h; simp at h
    | some t =>
      rw [he] at h
      rw [ih h fun o ho => hx o (List.mem_cons_of_mem _ ho), exec_mem he (hx op (List.mem_cons_self ..))]

theorem execAll_new {q : List COp} {a s : DState} {l : Local} (h : execAll q a = some s) (hq : Slotted q a.locals.length) :
    execAll q { a with locals := a.locals ++ [l] } = some { s with locals := s.locals ++ [l] } := by
  induction q generalizing a with
  | nil => simp only [execAll, Option.some.injEq] at h; subst h; rfl
  | cons op q ih =>
    simp only [execAll] at h ⊢
    cases hx : op.exec a with
    | none => rw [hx] at h; simp at h
    | some t =>
      rw [hx] at h
      rw [exec_new (hq op (List.mem_cons_self ..)), hx]
      refine ih (a := t) h fun o ho i hi => ?_
      rw [(exec_done hx).2]
      exact hq o (List.mem_cons_of_mem _ ho) i hi

theorem execAll_drop {q : List COp} {a s : DState} (h : execAll q a = some s) (hq : Slotted q (a.locals.length - 1)) :
    execAll q { a with locals := a.locals.dropLast } = some { s with locals := s.locals.dropLast } := by
  induction q generalizing a with
  | nil => simp only [execAll, Option.some.injEq] at h; subst h; rfl
  | cons op q ih =>
    simp only [execAll] at h ⊢
    cases hx : op.exec a with
    | none => rw [hx] at h; simp at h
    | some t =>
      rw [hx] at h
      rw [exec_drop (hq op (List.mem_cons_self ..)), hx]
      refine ih (a := t) h fun o ho i hi => ?_
      rw [(exec_done hx).2]
      exact hq o (List.mem_cons_of_mem _ ho) i hi

theorem execAll_poke {q : List COp} {a s : DState} {p n : Nat} {b : Mem} (h : execAll q a = some s)
    (hq : ∀ op ∈ q, ∀ x, p ≤ x ∧ x < p + n → ¬ (op.Reads x ∨ op.Writes x)) :
    execAll q { a with mem := memPut a.mem p n b 0 } = some { s with mem := memPut s.mem p n b 0 } := by
  induction q generalizing a with
  | nil => simp only [execAll, Option.some.injEq] at h; subst h; rfl
  | cons op q ih =>
    simp only [execAll] at h ⊢
    cases hx : op.exec a with
    | none => rw [hx] at h; simp at h
    | some t =>
      rw [hx] at h
      rw [exec_poke (hq op (List.mem_cons_self ..)), hx]
      exact ih (a := t) h fun o ho => hq o (List.mem_cons_of_mem _ ho)

/-! ## the invariant -/

/-- The state `s` is the one after the pending operations; these are among the last of `P`. -/
structure AInv (Q : Res β → DState → List COp → Prop) (c : AConf β) (s : DState) (P : List COp) : Prop where
  safe : Safe c.prog Q s P
  suffix : c.queue <:+ P
  exec : execAll c.queue c.st = some s

theorem suffix_drop {α : Type} {q P : List α} (h : q <:+ P) {k : Nat} (hk : q.length ≤ k) : q <:+ P.drop (P.length - k) := by
  obtain ⟨r, rfl⟩ := h
  rw [List.length_append, List.drop_append_of_le_length (by omega)]
  exact List.suffix_append _ _

theorem suffix_snoc {α : Type} {q P : List α} (h : q <:+ P) (a : α) : q ++ [a] <:+ P ++ [a] := by
  obtain ⟨r, rfl⟩ := h
  exact ⟨r, by simp⟩

/-- Every step keeps the invariant, for the same synchronous run. -/
theorem AInv.step {Q : Res β → DState → List COp → Prop} {c d : AConf β} {s : DState} {P : List COp} (h : AInv Q c s P)
    (hs : AStep c d) : ∃ s' P', AInv Q d s' P' ∧ d.prog.run s' = c.prog.run s := by
  obtain ⟨h1, h2, h3⟩ := h
  cases hs with
  | @device p a t op q he =>
    simp only [execAll, he] at h3
    exact ⟨s, P, ⟨h1, (List.suffix_cons op q).trans h2, h3⟩, rfl⟩
  | @issue op k a q =>
    obtain ⟨t, ht, hk⟩ := h1
    refine ⟨t, P ++ [op], ⟨hk, suffix_snoc h2 op, ?_⟩, ?_⟩
    · simp only at h3 ⊢
      rw [execAll_append, h3]
      simp [execAll, ht]
    · simp only [run, ht]
  | @event k a q =>
    have hd := (execAll_done h3).1
    refine ⟨s, P, ⟨?_, h2, h3⟩, ?_⟩
    · show Safe (k (a.done + q.length)) Q s P
      have : Safe (k s.done) Q s P := h1
      rw [hd] at this
      exact this
    · show (k (a.done + q.length)).run s = (k s.done).run s
      rw [hd]
  | @wait e k a q he =>
    obtain ⟨hle, hk⟩ := h1
    have hd := (execAll_done h3).1
    exact ⟨s, _, ⟨hk, suffix_drop h2 (by simp only at hd ⊢; omega), h3⟩, rfl⟩
  | @new l k a q =>
    obtain ⟨hs, hk⟩ := h1
    have hl := (execAll_done h3).2
    simp only at hl
    refine ⟨{ s with locals := s.locals ++ [l] }, P, ⟨?_, h2, ?_⟩, ?_⟩
    · show Safe (k a.locals.length) Q _ P
      rw [← hl]
      exact hk
    · refine execAll_new h3 fun op ho => ?_
      rw [← hl]
      exact hs op (h2.subset ho)
    · show (k a.locals.length).run _ = (k s.locals.length).run _
      rw [hl]
  | @read i k a q l hl =>
    obtain ⟨l', hl', hr, hk⟩ := h1
    have := execAll_locals h3 (i := i) fun op ho => hr op (h2.subset ho)
    simp only at this
    rw [hl, hl'] at this
    cases this
    exact ⟨s, P, ⟨hk, h2, h3⟩, by simp only [run, hl']⟩
  | @drop k a q =>
    obtain ⟨hs, hk⟩ := h1
    have hl := (execAll_done h3).2
    simp only at hl
    refine ⟨{ s with locals := s.locals.dropLast }, P, ⟨hk, h2, ?_⟩, rfl⟩
    refine execAll_drop h3 fun op ho => ?_
    rw [← hl]
    exact hs op (h2.subset ho)
  | @load p n k a q =>
    obtain ⟨hs, hk⟩ := h1
    have : (fun i => if i < n then s.mem (p + i) else 0) = fun i => if i < n then a.mem (p + i) else 0 := by
      funext i
      split
      · exact execAll_mem h3 fun op ho => hs op (h2.subset ho) _ ⟨by omega, by omega⟩
      · rfl
    refine ⟨s, P, ⟨?_, h2, h3⟩, ?_⟩
    · show Safe (k _) Q s P
      rw [← this]
      exact hk
    · show (k _).run s = (k _).run s
      rw [this]
  | @poke p n b k a q =>
    obtain ⟨hs, hk⟩ := h1
    exact ⟨{ s with mem := memPut s.mem p n b 0 }, P, ⟨hk, h2, execAll_poke h3 fun op ho => hs op (h2.subset ho)⟩, rfl⟩

theorem AInv.steps {Q : Res β → DState → List COp → Prop} {c d : AConf β} {s : DState} {P : List COp} (h : AInv Q c s P)
    (hs : ASteps c d) : ∃ s' P', AInv Q d s' P' ∧ d.prog.run s' = c.prog.run s := by
  induction hs with
  | refl => exact ⟨s, P, h, rfl⟩
  | step _ h2 ih =>
    obtain ⟨s', P', h3, h4⟩ := ih
    obtain ⟨s'', P'', h5, h6⟩ := h3.step h2
    exact ⟨s'', P'', h5, h6.trans h4⟩

/-- Nothing undefined, no race, and no deadlock. -/
theorem AInv.fine {Q : Res β → DState → List COp → Prop} {c : AConf β} {s : DState} {P : List COp} (h : AInv Q c s P) :
    ¬ Race c ∧ ¬ Undefined c ∧ ((∃ r, c.prog = .ret r) ∧ c.queue = [] ∨ ∃ d, AStep c d) := by
  obtain ⟨h1, h2, h3⟩ := h
  obtain ⟨p, a, q⟩ := c
  simp only at h1 h2 h3
  have hl := execAll_done h3
  refine ⟨?_, ?_, ?_⟩
  · cases p with
    | read i k =>
      rintro ⟨op, ho, hr⟩
      obtain ⟨_, _, hs, _⟩ := h1
      exact hs op (h2.subset ho) hr
    | drop k =>
      rintro ⟨op, ho, hr⟩
      have := h1.1 op (h2.subset ho) _ hr
      simp only at this
      omega
    | load p n k =>
      rintro ⟨op, ho, x, hx, hr⟩
      exact h1.1 op (h2.subset ho) x hx hr
    | poke p n b k =>
      rintro ⟨op, ho, x, hx, hr⟩
      exact h1.1 op (h2.subset ho) x hx hr
    | _ => exact fun h => h
  · rintro (⟨op, q', he, hn⟩ | hu)
    · simp only at he hn
      subst he
      simp [execAll, hn] at h3
    · cases p with
      | read i k =>
        obtain ⟨l, hl', hs, _⟩ := h1
        have := execAll_locals h3 (i := i) fun op ho => hs op (h2.subset ho)
        simp only at hu
        rw [hu, hl'] at this
        simp at this
      | ret r =>
        cases r with
        | ub => exact h1.1 rfl
        | _ => exact hu
      | _ => exact hu
  · cases q with
    | cons op q =>
      right
      simp only [execAll] at h3
      cases hx : op.exec a with
      | none => rw [hx] at h3; simp at h3
      | some t => exact ⟨_, .device hx⟩
    | nil =>
      simp only [execAll, Option.some.injEq] at h3
      subst h3
      cases p with
      | ret r => exact .inl ⟨⟨r, rfl⟩, rfl⟩
      | issue op k => exact .inr ⟨_, .issue⟩
      | event k => exact .inr ⟨_, .event⟩
      | wait e k => exact .inr ⟨_, .wait h1.1⟩
      | new l k => exact .inr ⟨_, .new⟩
      | read i k =>
        obtain ⟨l, hl', _⟩ := h1
        exact .inr ⟨_, .read hl'⟩
      | drop k => exact .inr ⟨_, .drop⟩
      | load p n k => exact .inr ⟨_, .load⟩
      | poke p n b k => exact .inr ⟨_, .poke⟩

/-- There is no infinite sequence of steps. -/
theorem acc_conf (p : Prog β) : ∀ (s : DState) (q : List COp), Acc (fun d c : AConf β => AStep c d) ⟨p, s, q⟩ := by
  have main : ∀ (p : Prog β), (∀ d : AConf β, ∀ s q, AStep ⟨p, s, q⟩ d → (∃ t q', d = ⟨p, t, q'⟩ ∧ q'.length < q.length) ∨
      Acc (fun d c : AConf β => AStep c d) d) → ∀ (s : DState) (q : List COp),
      Acc (fun d c : AConf β => AStep c d) ⟨p, s, q⟩ := by
    intro p hp s q
    induction hn : q.length using Nat.strongRecOn generalizing s q with
    | ind n ih =>
      constructor
      intro d hd
      rcases hp d s q hd with ⟨t, q', rfl, hlt⟩ | h
      · exact ih q'.length (by omega) t q' rfl
      · exact h
  induction p with
  | ret r =>
    apply main
    intro d s q h
    cases h with
    | device he => exact .inl ⟨_, _, rfl, by simp⟩
  | issue op k ih =>
    apply main
    intro d s q h
    cases h with
    | device he => exact .inl ⟨_, _, rfl, by simp⟩
    | issue => exact .inr (ih _ _)
  | event k ih =>
    apply main
    intro d s q h
    cases h with
    | device he => exact .inl ⟨_, _, rfl, by simp⟩
    | event => exact .inr (ih _ _ _)
  | wait e k ih =>
    apply main
    intro d s q h
    cases h with
    | device he => exact .inl ⟨_, _, rfl, by simp⟩
    | wait => exact .inr (ih _ _)
  | new l k ih =>
    apply main
    intro d s q h
    cases h with
    | device he => exact .inl ⟨_, _, rfl, by simp⟩
    | new => exact .inr (ih _ _ _)
  | read i k ih =>
    apply main
    intro d s q h
    cases h with
    | device he => exact .inl ⟨_, _, rfl, by simp⟩
    | read => exact .inr (ih _ _ _)
  | drop k ih =>
    apply main
    intro d s q h
    cases h with
    | device he => exact .inl ⟨_, _, rfl, by simp⟩
    | drop => exact .inr (ih _ _)
  | load p n k ih =>
    apply main
    intro d s q h
    cases h with
    | device he => exact .inl ⟨_, _, rfl, by simp⟩
    | load => exact .inr (ih _ _ _)
  | poke p n b k ih =>
    apply main
    intro d s q h
    cases h with
    | device he => exact .inl ⟨_, _, rfl, by simp⟩
    | poke => exact .inr (ih _ _)

end Vecmem
