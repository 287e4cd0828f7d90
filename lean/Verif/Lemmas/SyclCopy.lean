import Verif.Spec.SyclCopy
import Verif.Lemmas.AsyncCopySafe
import Verif.Lemmas.CopyJagged

/-! # Lemmas about copies on a queue that is not in order -/

namespace Vecmem

open Prog

variable {β γ : Type}

/-! ## independent operations may be swapped -/

/-- An operation does the same in states which agree on what it uses. -/
theorem exec_agree {op : COp} {s s' r : DState} (h : op.exec s = some s') (hm : ∀ x, op.Reads x → r.mem x = s.mem x)
    (hl : ∀ i, op.Uses i → r.locals[i]? = s.locals[i]?) :
    ∃ r', op.exec r = some r' ∧ (∀ x, op.Writes x → r'.mem x = s'.mem x) ∧
      ∀ i, op.Sets i → r'.locals[i]? = s'.locals[i]? := by
  cases op with
  | copy n src dst =>
    simp only [COp.exec] at h ⊢
    split at h
    · simp at h
    · rename_i ho
      rw [if_neg ho]
      simp only [Option.some.injEq] at h
      subst h
      refine ⟨_, rfl, fun x hx => ?_, fun i hi => hi.elim⟩
      simp only [COp.Writes] at hx
      simp only [memCopy]
      rw [if_pos hx, if_pos hx]
      exact hm _ ⟨by omega, by omega⟩
  | memset n dst v =>
    simp only [COp.exec, Option.some.injEq] at h ⊢
    subst h
    refine ⟨_, rfl, fun x hx => ?_, fun i hi => hi.elim⟩
    simp only [COp.Writes] at hx
    simp only [memFill]
    rw [if_pos hx, if_pos hx]
  | fetch j off n src =>
    simp only [COp.exec] at h ⊢
    rw [hl j rfl]
    cases hx : s.locals[j]? with
    | none => rw [hx] at h; simp at h
    | some l =>
      rw [hx] at h
      simp only at h ⊢
      split at h
      · rename_i ho
        rw [if_pos ho]
        simp only [Option.some.injEq] at h
        subst h
        refine ⟨_, rfl, fun x hx => hx.elim, fun i hi => ?_⟩
        cases hi
        have h1 := (List.getElem?_eq_some_iff.1 hx).1
        have h2 := (List.getElem?_eq_some_iff.1 ((hl j rfl).trans hx)).1
        rw [List.getElem?_set_self h2, List.getElem?_set_self h1]
        congr 2
        funext x
        simp only [memPut]
        split
        · exact hm _ ⟨by omega, by omega⟩
        · rfl
      · simp at h
  | store j off n dst =>
    simp only [COp.exec] at h ⊢
    rw [hl j rfl]
    cases hx : s.locals[j]? with
    | none => rw [hx] at h; simp at h
    | some l =>
      rw [hx] at h
      simp only at h ⊢
      split at h
      · rename_i ho
        rw [if_pos ho]
        simp only [Option.some.injEq] at h
        subst h
        refine ⟨_, rfl, fun x hx => ?_, fun i hi => hi.elim⟩
        simp only [COp.Writes] at hx
        simp only [memPut]
        rw [if_pos hx, if_pos hx]
      · simp at h
  | kernel rd wr f =>
    have hk : kernelMem r.mem rd wr = kernelMem s.mem rd wr := by
      funext x
      simp only [kernelMem]
      by_cases h1 : rd x = true ∨ wr x = true
      · rw [hm x h1]
      · rw [if_neg, if_neg] <;> simpa using h1
    simp only [COp.exec, hk] at h ⊢
    cases hf : f (kernelMem s.mem rd wr) with
    | none => rw [hf] at h; simp at h
    | some m =>
      rw [hf] at h
      simp only [Option.map_some, Option.some.injEq] at h ⊢
      subst h
      refine ⟨_, rfl, fun x hx => ?_, fun i hi => hi.elim⟩
      simp only [COp.Writes] at hx
      simp only [hx, if_true]

theorem sets_uses {op : COp} {i : Nat} (h : op.Sets i) : op.Uses i := by
  cases op with
  | fetch => exact h
  | _ => exact h.elim

theorem exec_swap {a b : COp} (hi : a.Independent b) {s t u : DState} (h1 : a.exec s = some t) (h2 : b.exec t = some u) :
    ∃ t', b.exec s = some t' ∧ a.exec t' = some u := by
  obtain ⟨t', e1, e2, e3⟩ := exec_agree (r := s) h2
    (fun x hx => (exec_mem h1 fun hw => hi.left x hw (.inl hx)).symm)
    (fun i hu => (exec_locals h1 fun hs => hi.leftVar i hs hu).symm)
  obtain ⟨u', f1, f2, f3⟩ := exec_agree (r := t') h1
    (fun x hx => exec_mem e1 fun hw => hi.right x hw (.inl hx))
    (fun i hu => exec_locals e1 fun hs => hi.rightVar i hs hu)
  refine ⟨t', e1, f1.trans (congrArg some ?_)⟩
  obtain ⟨um, ul, ud⟩ := u
  obtain ⟨um', ul', ud'⟩ := u'
  simp only [DState.mk.injEq]
  refine ⟨?_, ?_, ?_⟩
  · funext x
    by_cases hb : b.Writes x
    · have g1 := e2 x hb
      have g2 := exec_mem f1 (x := x) fun ha => hi.left x ha (.inr hb)
      simp only at g1 g2
      rw [g2, g1]
    · by_cases ha : a.Writes x
      · have g1 := f2 x ha
        have g2 := exec_mem h2 hb
        simp only at g1 g2
        rw [g1, g2]
      · have g1 := exec_mem h2 hb
        have g2 := exec_mem h1 ha
        have g3 := exec_mem e1 hb
        have g4 := exec_mem f1 ha
        simp only at g1 g2 g3 g4
        rw [g4, g3, g1, g2]
  · apply List.ext_getElem?
    intro i
    by_cases hb : b.Sets i
    · have g1 := e3 i hb
      have g2 := exec_locals f1 (i := i) fun ha => hi.leftVar i ha (sets_uses hb)
      simp only at g1 g2
      rw [g2, g1]
    · by_cases ha : a.Sets i
      · have g1 := f3 i ha
        have g2 := exec_locals h2 hb
        simp only at g1 g2
        rw [g1, g2]
      · have g1 := exec_locals h2 hb
        have g2 := exec_locals h1 ha
        have g3 := exec_locals e1 hb
        have g4 := exec_locals f1 ha
        simp only at g1 g2 g3 g4
        rw [g4, g3, g1, g2]
  · have g1 := (exec_done h1).1
    have g2 := (exec_done h2).1
    have g3 := (exec_done e1).1
    have g4 := (exec_done f1).1
    simp only at g1 g2 g3 g4
    omega

/-- Any of independent operations may be executed first. -/
theorem execAll_front {q q' : List COp} {op : COp} {a s : DState} (hi : ∀ o ∈ q, o.Independent op)
    (h : execAll (q ++ op :: q') a = some s) : ∃ t, op.exec a = some t ∧ execAll (q ++ q') t = some s := by
  induction q generalizing a with
  | nil =>
    simp only [List.nil_append, execAll] at h ⊢
    cases hx : op.exec a with
    | none => rw [hx] at h; simp at h
    | some t => rw [hx] at h; exact ⟨t, rfl, h⟩
  | cons o q ih =>
    simp only [List.cons_append, execAll] at h ⊢
    cases hx : o.exec a with
    | none => rw [hx] at h; simp at h
    | some b =>
      rw [hx] at h
      obtain ⟨t, h1, h2⟩ := ih (fun o ho => hi o (List.mem_cons_of_mem _ ho)) h
      obtain ⟨b', h3, h4⟩ := exec_swap (hi o (List.mem_cons_self ..)) hx h1
      exact ⟨b', h3, by rw [h4]; exact h2⟩

/-! ## safe programs -/

/-- The operations that may be pending with their numbers, the number of operations, those collected for the next event,
and the events. -/
structure SBook where
  pend : List (Nat × COp)
  issued : Nat
  coll : List Nat
  events : List (List Nat)

/-- What may be pending after waiting for an event. -/
def SBook.after (B : SBook) (e : Nat) : SBook :=
  { B with pend := B.pend.filter fun x => decide (e = 0 ∨ x.1 ∉ B.events.getD (e - 1) []) }

/-- The program, run in state `s`, does nothing undefined and has an outcome with `Q`; the operations that may be pending at
the same time are independent, and the host never uses anything that is in use. -/
def SSafe : Prog β → (Res β → DState → SBook → Prop) → DState → SBook → Prop
  | .ret r, Q, s, B => r ≠ .ub ∧ Q r s B
  | .issue op k, Q, s, B => ∃ t, op.exec s = some t ∧ (∀ x ∈ B.pend, x.2.Independent op) ∧
      SSafe k Q t ⟨B.pend ++ [(B.issued, op)], B.issued + 1, B.coll ++ [B.issued], B.events⟩
  | .event k, Q, s, B => SSafe (k (B.events.length + 1)) Q s ⟨B.pend, B.issued, [], B.events ++ [B.coll]⟩
  | .wait e k, Q, s, B => SSafe k Q s (B.after e)
  | .new l k, Q, s, B => Slotted (B.pend.map (·.2)) s.locals.length ∧
      SSafe (k s.locals.length) Q { s with locals := s.locals ++ [l] } B
  | .read i k, Q, s, B => ∃ l, s.locals[i]? = some l ∧ (∀ x ∈ B.pend, ¬ x.2.Sets i) ∧ SSafe (k l.bytes) Q s B
  | .drop k, Q, s, B => Slotted (B.pend.map (·.2)) (s.locals.length - 1) ∧
      SSafe k Q { s with locals := s.locals.dropLast } B
  | .load p n k, Q, s, B => (∀ o ∈ B.pend, ∀ x, p ≤ x ∧ x < p + n → ¬ o.2.Writes x) ∧
      SSafe (k (fun i => if i < n then s.mem (p + i) else 0)) Q s B
  | .poke p n b k, Q, s, B => (∀ o ∈ B.pend, ∀ x, p ≤ x ∧ x < p + n → ¬ (o.2.Reads x ∨ o.2.Writes x)) ∧
      SSafe k Q { s with mem := memPut s.mem p n b 0 } B

/-- The state `s` is the one after the pending operations, in the order they were issued in. -/
structure SInv (Q : Res β → DState → SBook → Prop) (c : SConf β) (s : DState) (B : SBook) : Prop where
  safe : SSafe c.prog Q s B
  sub : List.Sublist c.pending B.pend
  exec : execAll (c.pending.map (·.2)) c.st = some s
  apart : B.pend.Pairwise fun a b => a.2.Independent b.2
  issued : c.issued = B.issued
  coll : c.collected = B.coll
  events : c.events = B.events

theorem SInv.step {Q : Res β → DState → SBook → Prop} {c d : SConf β} {s : DState} {B : SBook} (h : SInv Q c s B)
    (hs : SStep c d) : ∃ s' B', SInv Q d s' B' := by
  obtain ⟨h1, h2, h3, h4, h5, h6, h7⟩ := h
  have hmem : ∀ op ∈ c.pending.map (·.2), ∃ x ∈ B.pend, x.2 = op := by
    intro op ho
    obtain ⟨x, hx, rfl⟩ := List.mem_map.1 ho
    exact ⟨x, h2.subset hx, rfl⟩
  have hslot : ∀ {n}, Slotted (B.pend.map (·.2)) n → Slotted (c.pending.map (·.2)) n := by
    intro n hn op ho
    obtain ⟨x, hx, rfl⟩ := hmem op ho
    exact hn _ (List.mem_map.2 ⟨x, hx, rfl⟩)
  obtain ⟨pend, issued, coll, events⟩ := B
  cases hs with
  | @device p a t q i op q' n l ev he =>
    simp only [List.map_append, List.map_cons] at h3
    have hap := h4.sublist h2
    have hfront : ∀ o ∈ q.map (·.2), o.Independent op := by
      intro o ho
      obtain ⟨x, hx, rfl⟩ := List.mem_map.1 ho
      exact (List.pairwise_append.1 hap).2.2 x hx (i, op) (List.mem_cons_self ..)
    obtain ⟨t', g1, g2⟩ := execAll_front hfront h3
    rw [he] at g1
    cases g1
    refine ⟨s, ⟨pend, issued, coll, events⟩, h1, ?_, by simpa using g2, h4, h5, h6, h7⟩
    exact (List.Sublist.append (List.Sublist.refl q) (List.sublist_cons_self ..)).trans h2
  | @issue op k a q n l ev =>
    simp only at h5 h6 h7
    subst h5 h6 h7
    obtain ⟨t, ht, hi, hk⟩ := h1
    refine ⟨t, _, hk, h2.append (List.Sublist.refl _), ?_, ?_, rfl, rfl, rfl⟩
    · simp only [List.map_append, List.map_cons, List.map_nil] at h3 ⊢
      rw [execAll_append, h3]
      simp [execAll, ht]
    · rw [List.pairwise_append]
      refine ⟨h4, by simp, ?_⟩
      intro x hx y hy
      rw [List.mem_singleton.1 hy]
      exact hi x hx
  | @event k a q n l ev =>
    simp only at h5 h6 h7
    subst h5 h6 h7
    exact ⟨s, _, h1, h2, h3, h4, rfl, rfl, rfl⟩
  | @wait e k a q n l ev he =>
    simp only at h5 h6 h7
    subst h5 h6 h7
    refine ⟨s, _, h1, ?_, h3, h4.sublist List.filter_sublist, rfl, rfl, rfl⟩
    have hf : q.filter (fun x => decide (e = 0 ∨ x.1 ∉ ev.getD (e - 1) [])) = q := by
      rw [List.filter_eq_self]
      intro x hx
      simpa using he x hx
    have := h2.filter (fun x => decide (e = 0 ∨ x.1 ∉ ev.getD (e - 1) []))
    simp only [hf] at this
    exact this
  | @new x k a q n l ev =>
    obtain ⟨hs, hk⟩ := h1
    have hl := (execAll_done h3).2
    simp only at hl
    refine ⟨{ s with locals := s.locals ++ [x] }, _, ?_, h2, ?_, h4, h5, h6, h7⟩
    · show SSafe (k a.locals.length) Q _ _
      rw [← hl]
      exact hk
    · refine execAll_new h3 ?_
      rw [← hl]
      exact hslot hs
  | @read i k a q x n l ev hx =>
    obtain ⟨l', hl', hr, hk⟩ := h1
    have := execAll_locals h3 (i := i) fun op ho => by
      obtain ⟨y, hy, rfl⟩ := hmem op ho
      exact hr y hy
    simp only at this
    rw [hx, hl'] at this
    cases this
    exact ⟨s, _, hk, h2, h3, h4, h5, h6, h7⟩
  | @drop k a q n l ev =>
    obtain ⟨hs, hk⟩ := h1
    have hl := (execAll_done h3).2
    simp only at hl
    refine ⟨{ s with locals := s.locals.dropLast }, _, hk, h2, ?_, h4, h5, h6, h7⟩
    refine execAll_drop h3 ?_
    rw [← hl]
    exact hslot hs
  | @load p c k a q n l ev =>
    obtain ⟨hs, hk⟩ := h1
    have : (fun i => if i < c then s.mem (p + i) else 0) = fun i => if i < c then a.mem (p + i) else 0 := by
      funext i
      split
      · refine execAll_mem h3 fun op ho => ?_
        obtain ⟨y, hy, rfl⟩ := hmem op ho
        exact hs y hy _ ⟨by omega, by omega⟩
      · rfl
    refine ⟨s, _, ?_, h2, h3, h4, h5, h6, h7⟩
    show SSafe (k _) Q s _
    rw [← this]
    exact hk
  | @poke p c b k a q n l ev =>
    obtain ⟨hs, hk⟩ := h1
    refine ⟨{ s with mem := memPut s.mem p c b 0 }, _, hk, h2, ?_, h4, h5, h6, h7⟩
    refine execAll_poke h3 fun op ho => ?_
    obtain ⟨y, hy, rfl⟩ := hmem op ho
    exact hs y hy

theorem SInv.steps {Q : Res β → DState → SBook → Prop} {c d : SConf β} {s : DState} {B : SBook} (h : SInv Q c s B)
    (hs : SSteps c d) : ∃ s' B', SInv Q d s' B' := by
  induction hs generalizing s B with
  | refl => exact ⟨s, B, h⟩
  | step h1 _ ih =>
    obtain ⟨s', B', h3⟩ := h.step h1
    exact ih h3

/-- Nothing undefined, no race, and no deadlock. -/
theorem SInv.fine {Q : Res β → DState → SBook → Prop} {c : SConf β} {s : DState} {B : SBook} (h : SInv Q c s B) :
    ¬ SRace c ∧ ¬ SUndefined c ∧ ((∃ r, c.prog = .ret r) ∧ c.pending = [] ∨ ∃ d, SStep c d) := by
  obtain ⟨h1, h2, h3, h4, h5, h6, h7⟩ := h
  obtain ⟨p, a, q, n, l, ev⟩ := c
  simp only at h1 h2 h3
  have hl := execAll_done h3
  have hmem : ∀ op ∈ q.map (·.2), ∃ x ∈ B.pend, x.2 = op := by
    intro op ho
    obtain ⟨x, hx, rfl⟩ := List.mem_map.1 ho
    exact ⟨x, h2.subset hx, rfl⟩
  have hap := h4.sublist h2
  have hexec : ∀ e ∈ q, ∃ q1 q2 t, q = q1 ++ e :: q2 ∧ e.2.exec a = some t := by
    intro e he
    obtain ⟨q1, q2, rfl⟩ := List.append_of_mem he
    simp only [List.map_append, List.map_cons] at h3
    obtain ⟨t', g1, -⟩ := execAll_front (fun o ho => by
      obtain ⟨x, hx, rfl⟩ := List.mem_map.1 ho
      exact (List.pairwise_append.1 hap).2.2 x hx e (List.mem_cons_self ..)) h3
    exact ⟨q1, q2, t', rfl, g1⟩
  refine ⟨?_, ?_, ?_⟩
  · rintro (hr | hr)
    · cases p with
      | read i k =>
        obtain ⟨op, ho, hr⟩ := hr
        obtain ⟨x, hx, rfl⟩ := hmem op ho
        obtain ⟨_, _, hs, _⟩ := h1
        exact hs x hx hr
      | drop k =>
        obtain ⟨op, ho, hr⟩ := hr
        obtain ⟨x, hx, rfl⟩ := hmem op ho
        have := h1.1 _ (List.mem_map.2 ⟨x, hx, rfl⟩) _ hr
        simp only at this
        omega
      | load p n k =>
        obtain ⟨op, ho, y, hy, hr⟩ := hr
        obtain ⟨x, hx, rfl⟩ := hmem op ho
        exact h1.1 x hx y hy hr
      | poke p n b k =>
        obtain ⟨op, ho, y, hy, hr⟩ := hr
        obtain ⟨x, hx, rfl⟩ := hmem op ho
        exact h1.1 x hx y hy hr
      | _ => exact hr
    · exact hr hap
  · rintro (⟨e, he, hn⟩ | hu)
    · obtain ⟨_, _, t, -, ht⟩ := hexec e he
      simp only at hn
      rw [hn] at ht
      cases ht
    · cases p with
      | read i k =>
        obtain ⟨l, hl', hs, _⟩ := h1
        have := execAll_locals h3 (i := i) fun op ho => by
          obtain ⟨x, hx, rfl⟩ := hmem op ho
          exact hs x hx
        simp only at hu
        rw [hu, hl'] at this
        simp at this
      | ret r =>
        cases r with
        | ub => exact h1.1 rfl
        | _ => exact hu
      | _ => exact hu
  · cases q with
    | cons e q =>
      right
      obtain ⟨q1, q2, t, he, ht⟩ := hexec e (List.mem_cons_self ..)
      rw [he]
      exact ⟨_, .device ht⟩
    | nil =>
      simp only [List.map_nil, execAll, Option.some.injEq] at h3
      subst h3
      cases p with
      | ret r => exact .inl ⟨⟨r, rfl⟩, rfl⟩
      | issue op k => exact .inr ⟨_, .issue⟩
      | event k => exact .inr ⟨_, .event⟩
      | wait e k => exact .inr ⟨_, .wait (by simp)⟩
      | new l k => exact .inr ⟨_, .new⟩
      | read i k =>
        obtain ⟨l, hl', _⟩ := h1
        exact .inr ⟨_, .read hl'⟩
      | drop k => exact .inr ⟨_, .drop⟩
      | load p n k => exact .inr ⟨_, .load⟩
      | poke p n b k => exact .inr ⟨_, .poke⟩

/-- There is no infinite sequence of steps. -/
theorem acc_sconf (p : Prog β) : ∀ (s : DState) (q : List (Nat × COp)) (n : Nat) (l : List Nat) (ev : List (List Nat)),
    Acc (fun d c : SConf β => SStep c d) ⟨p, s, q, n, l, ev⟩ := by
  have main : ∀ (p : Prog β), (∀ d : SConf β, ∀ s q n l ev, SStep ⟨p, s, q, n, l, ev⟩ d →
      (∃ t q', d = ⟨p, t, q', n, l, ev⟩ ∧ q'.length < q.length) ∨
      Acc (fun d c : SConf β => SStep c d) d) → ∀ (s : DState) (q : List (Nat × COp)) (n : Nat) (l : List Nat)
      (ev : List (List Nat)), Acc (fun d c : SConf β => SStep c d) ⟨p, s, q, n, l, ev⟩ := by
    intro p hp s q n l ev
    induction hn : q.length using Nat.strongRecOn generalizing s q with
    | ind k ih =>
      constructor
      intro d hd
      rcases hp d s q n l ev hd with ⟨t, q', rfl, hlt⟩ | h
      · exact ih q'.length (by omega) t q' rfl
      · exact h
  have hdev : ∀ {p : Prog β} {t : DState} {q q' : List (Nat × COp)} {e : Nat × COp} {n : Nat} {l : List Nat}
      {ev : List (List Nat)}, ∃ t' q'', (⟨p, t, q ++ q', n, l, ev⟩ : SConf β) = ⟨p, t', q'', n, l, ev⟩ ∧
        q''.length < (q ++ e :: q').length := by
    intro p t q q' e n l ev
    exact ⟨t, q ++ q', rfl, by simp⟩
  induction p with
  | ret r =>
    apply main
    intro d s q n l ev h
    cases h with
    | device he => exact .inl hdev
  | issue op k ih =>
    apply main
    intro d s q n l ev h
    cases h with
    | device he => exact .inl hdev
    | issue => exact .inr (ih ..)
  | event k ih =>
    apply main
    intro d s q n l ev h
    cases h with
    | device he => exact .inl hdev
    | event => exact .inr (ih ..)
  | wait e k ih =>
    apply main
    intro d s q n l ev h
    cases h with
    | device he => exact .inl hdev
    | wait => exact .inr (ih ..)
  | new l k ih =>
    apply main
    intro d s q n l ev h
    cases h with
    | device he => exact .inl hdev
    | new => exact .inr (ih ..)
  | read i k ih =>
    apply main
    intro d s q n l ev h
    cases h with
    | device he => exact .inl hdev
    | read => exact .inr (ih ..)
  | drop k ih =>
    apply main
    intro d s q n l ev h
    cases h with
    | device he => exact .inl hdev
    | drop => exact .inr (ih ..)
  | load p n k ih =>
    apply main
    intro d s q n l ev h
    cases h with
    | device he => exact .inl hdev
    | load => exact .inr (ih ..)
  | poke p n b k ih =>
    apply main
    intro d s q n l ev h
    cases h with
    | device he => exact .inl hdev
    | poke => exact .inr (ih ..)

/-! ## parts of programs -/

theorem SSafe.mono {Q Q' : Res β → DState → SBook → Prop} {p : Prog β} {s : DState} {B : SBook}
    (h : SSafe p Q s B) (hq : ∀ r s' B', Q r s' B' → Q' r s' B') : SSafe p Q' s B := by
  induction p generalizing s B with
  | ret r => exact ⟨h.1, hq _ _ _ h.2⟩
  | issue op k ih => obtain ⟨t, h1, h2, h3⟩ := h; exact ⟨t, h1, h2, ih h3⟩
  | event k ih => exact ih _ h
  | wait e k ih => exact ih (B := B.after e) h
  | new l k ih => exact ⟨h.1, ih _ h.2⟩
  | read i k ih => obtain ⟨l, h1, h2, h3⟩ := h; exact ⟨l, h1, h2, ih _ h3⟩
  | drop k ih => exact ⟨h.1, ih h.2⟩
  | load p n k ih => exact ⟨h.1, ih _ h.2⟩
  | poke p n b k ih => exact ⟨h.1, ih h.2⟩

theorem SSafe.bind {Q : Res γ → DState → SBook → Prop} {p : Prog β} {f : β → Prog γ} {s : DState} {B : SBook}
    (h : SSafe p (fun r s' B' => match r with
      | .ok b => SSafe (f b) Q s' B'
      | .badAlloc => Q .badAlloc s' B'
      | .logicError => Q .logicError s' B'
      | .lengthError => Q .lengthError s' B'
      | .invalidArgument => Q .invalidArgument s' B'
      | .outOfRange => Q .outOfRange s' B'
      | .runtimeError => Q .runtimeError s' B'
      | .ub => True) s B) : SSafe (p.bind f) Q s B := by
  induction p generalizing s B with
  | ret r =>
    cases r with
    | ok b => exact h.2
    | ub => exact absurd rfl h.1
    | _ => exact ⟨by simp, h.2⟩
  | issue op k ih => obtain ⟨t, h1, h2, h3⟩ := h; exact ⟨t, h1, h2, ih h3⟩
  | event k ih => exact ih _ h
  | wait e k ih => exact ih (B := B.after e) h
  | new l k ih => exact ⟨h.1, ih _ h.2⟩
  | read i k ih => obtain ⟨l, h1, h2, h3⟩ := h; exact ⟨l, h1, h2, ih _ h3⟩
  | drop k ih => exact ⟨h.1, ih h.2⟩
  | load p n k ih => exact ⟨h.1, ih _ h.2⟩
  | poke p n b k ih => exact ⟨h.1, ih h.2⟩

theorem SSafe.thenDrop {Q : Res β → DState → SBook → Prop} {p : Prog β} {s : DState} {B : SBook}
    (h : SSafe p (fun r s' B' => Slotted (B'.pend.map (·.2)) (s'.locals.length - 1) ∧
      Q r { s' with locals := s'.locals.dropLast } B') s B) : SSafe p.thenDrop Q s B := by
  induction p generalizing s B with
  | ret r => exact ⟨h.2.1, h.1, h.2.2⟩
  | issue op k ih => obtain ⟨t, h1, h2, h3⟩ := h; exact ⟨t, h1, h2, ih h3⟩
  | event k ih => exact ih _ h
  | wait e k ih => exact ih (B := B.after e) h
  | new l k ih => exact ⟨h.1, ih _ h.2⟩
  | read i k ih => obtain ⟨l, h1, h2, h3⟩ := h; exact ⟨l, h1, h2, ih _ h3⟩
  | drop k ih => exact ⟨h.1, ih h.2⟩
  | load p n k ih => exact ⟨h.1, ih _ h.2⟩
  | poke p n b k ih => exact ⟨h.1, ih h.2⟩

end Vecmem
