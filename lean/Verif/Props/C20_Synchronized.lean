import Verif.Model.Synchronized
import Verif.Lemmas.Resource
import Verif.Lemmas.Tactics
import Verif.Props.C01_C02_Contiguous

/-!
# C20 — the synchronized resource
-/

namespace Vecmem.Props

open Vecmem Sync

variable {σ : Type}

/-- Thread `t` is executing upstream's code. -/
def IsInside (s : State σ) (t : Nat) : Prop := ∃ u, (s.threads t).pc = .inside u

/-- The answer thread `t` has got from upstream but not yet returned. -/
def pendingAnswer (s : State σ) (t : Nat) : List Answer :=
  match (s.threads t).pc with
  | .leaving a => [a]
  | _ => []

/-- The calls of thread `t` that have not yet taken effect. -/
def callsToDo (s : State σ) (t : Nat) : List Call :=
  match (s.threads t).pc with
  | .leaving _ => ((s.threads t).prog.drop 1).map (·.2)
  | _ => (s.threads t).prog.map (·.2)

/-- The entries of a history `H` (thread, call) that belong to thread `t`, with their answers. -/
def ofThread (t : Nat) (H : List (Nat × Call)) (as : List Answer) : List (Call × Answer) :=
  ((H.zip as).filter (fun e => e.1.1 = t)).map (fun e => (e.1.2, e.2))

private theorem run_append (m : MR σ) (s : σ) (xs ys : List Call) :
    m.run s (xs ++ ys) =
      ((m.run s xs).1 ++ (m.run (m.run s xs).2 ys).1, (m.run (m.run s xs).2 ys).2) := by
  induction xs generalizing s with
  | nil => simp [MR.run]
  | cons c xs ih => simp [MR.run, ih]

private theorem run_length (m : MR σ) (s : σ) (xs : List Call) :
    (m.run s xs).1.length = xs.length := by
  induction xs generalizing s with
  | nil => simp [MR.run]
  | cons c xs ih => simp [MR.run, ih]

private theorem upd_same {β : Type} (f : Nat → β) (i : Nat) (v : β) : upd f i v i = v := by
  simp [upd]

private theorem upd_ne {β : Type} (f : Nat → β) {i j : Nat} (v : β) (h : j ≠ i) :
    upd f i v j = f j := by simp [upd, h]

/-- The invariant. -/
private structure Inv (up : MR σ) (u0 : σ) (o : Nat) (progs : Nat → List Call) (s : State σ)
    (H : List (Nat × Call)) : Prop where
  obj : ∀ t, ∀ x ∈ (s.threads t).prog, x.1 = o
  excl : ∀ t, (s.threads t).pc ≠ .idle → s.holder o = some t
  busy : ∀ t, (s.threads t).pc ≠ .idle → (s.threads t).prog ≠ []
  snap : ∀ t u, (s.threads t).pc = .inside u → u = s.up
  state : (up.run u0 (H.map (·.2))).2 = s.up
  hist : ∀ t, (ofThread t H (up.run u0 (H.map (·.2))).1).map (·.1) ++ callsToDo s t = progs t
  answ : ∀ t, (ofThread t H (up.run u0 (H.map (·.2))).1).map (·.2) =
    (s.threads t).answers ++ pendingAnswer s t

private theorem inv_step {up : MR σ} {u0 : σ} {o : Nat} {progs : Nat → List Call} {s : State σ}
    {H : List (Nat × Call)} (h : Inv up u0 o progs s H) (t : Nat) :
    ∃ H', Inv up u0 o progs (step up s t) H' := by
  cases hprog : (s.threads t).prog with
  | nil => exact ⟨H, by simpa [step, hprog] using h⟩
  | cons x rest =>
    obtain ⟨o', c⟩ := x
    have ho : o' = o := h.obj t (o', c) (by simp [hprog])
    subst ho
    cases hpc : (s.threads t).pc with
    | idle =>
      cases hh : s.holder o' with
      | some j => exact ⟨H, by simpa [step, hprog, hpc, hh] using h⟩
      | none =>
        have hst : step up s t = { s with
            holder := upd s.holder o' (some t),
            threads := upd s.threads t { s.threads t with pc := .holding } } := by
          simp [step, hprog, hpc, hh]
        rw [hst]
        have hidle : ∀ j, (s.threads j).pc = .idle := by
          intro j; by_contra hc; have := h.excl j hc; rw [hh] at this; simp at this
        refine ⟨H, ⟨?_, ?_, ?_, ?_, h.state, ?_, ?_⟩⟩
        · intro j x hx
          by_cases hj : j = t
          · subst hj; simp only [upd_same] at hx; exact h.obj j x hx
          · simp only [upd_ne _ _ hj] at hx; exact h.obj j x hx
        · intro j hj'
          by_cases hj : j = t
          · subst hj; exact upd_same _ _ _
          · simp only [upd_ne _ _ hj] at hj'; exact absurd (hidle j) hj'
        · intro j hj'
          by_cases hj : j = t
          · subst hj; simp [upd_same, hprog]
          · simp only [upd_ne _ _ hj] at hj'; exact absurd (hidle j) hj'
        · intro j u hu
          by_cases hj : j = t
          · subst hj; simp [upd_same] at hu
          · simp [upd_ne _ _ hj, hidle j] at hu
        · intro j
          rw [← h.hist j]
          by_cases hj : j = t
          · subst hj; simp [callsToDo, upd_same, hpc]
          · simp [callsToDo, upd_ne _ _ hj]
        · intro j
          rw [h.answ j]
          by_cases hj : j = t
          · subst hj; simp [pendingAnswer, upd_same, hpc]
          · simp [pendingAnswer, upd_ne _ _ hj]
    | holding =>
      have hst : step up s t = { s with
          threads := upd s.threads t { s.threads t with pc := .inside s.up } } := by
        simp [step, hprog, hpc]
      rw [hst]
      have hown := h.excl t (by rw [hpc]; simp)
      have hidle : ∀ j, j ≠ t → (s.threads j).pc = .idle := by
        intro j hj; by_contra hc; have := h.excl j hc; rw [hown] at this
        exact hj (Option.some.inj this).symm
      refine ⟨H, ⟨?_, ?_, ?_, ?_, h.state, ?_, ?_⟩⟩
      · intro j x hx
        by_cases hj : j = t
        · subst hj; simp only [upd_same] at hx; exact h.obj j x hx
        · simp only [upd_ne _ _ hj] at hx; exact h.obj j x hx
      · intro j hj'
        by_cases hj : j = t
        · subst hj; exact hown
        · simp only [upd_ne _ _ hj] at hj'; exact absurd (hidle j hj) hj'
      · intro j hj'
        by_cases hj : j = t
        · subst hj; simp [upd_same, hprog]
        · simp only [upd_ne _ _ hj] at hj'; exact absurd (hidle j hj) hj'
      · intro j u hu
        by_cases hj : j = t
        · subst hj; simp only [upd_same, PC.inside.injEq] at hu; exact hu.symm
        · simp [upd_ne _ _ hj, hidle j hj] at hu
      · intro j
        rw [← h.hist j]
        by_cases hj : j = t
        · subst hj; simp [callsToDo, upd_same, hpc]
        · simp [callsToDo, upd_ne _ _ hj]
      · intro j
        rw [h.answ j]
        by_cases hj : j = t
        · subst hj; simp [pendingAnswer, upd_same, hpc]
        · simp [pendingAnswer, upd_ne _ _ hj]
    | inside u =>
      have hst : step up s t = { s with
          up := (up.call u c).2,
          threads := upd s.threads t { s.threads t with pc := .leaving (up.call u c).1 } } := by
        simp [step, hprog, hpc]
      rw [hst]
      have hown := h.excl t (by rw [hpc]; simp)
      have hidle : ∀ j, j ≠ t → (s.threads j).pc = .idle := by
        intro j hj; by_contra hc; have := h.excl j hc; rw [hown] at this
        exact hj (Option.some.inj this).symm
      have hu : u = s.up := h.snap t u hpc
      subst hu
      have hrun : up.run u0 ((H ++ [(t, c)]).map (·.2)) =
          ((up.run u0 (H.map (·.2))).1 ++ [(up.call s.up c).1], (up.call s.up c).2) := by
        rw [List.map_append, run_append]
        simp [MR.run, h.state]
      have hlen : (up.run u0 (H.map (·.2))).1.length = H.length := by
        rw [run_length]; simp
      have hof : ∀ j, ofThread j (H ++ [(t, c)]) (up.run u0 ((H ++ [(t, c)]).map (·.2))).1 =
          ofThread j H (up.run u0 (H.map (·.2))).1 ++
            (if t = j then [(c, (up.call s.up c).1)] else []) := by
        intro j
        rw [hrun]
        simp only [ofThread]
        rw [List.zip_append hlen.symm]
        by_cases hj : t = j <;> simp [hj]
      refine ⟨H ++ [(t, c)], ⟨?_, ?_, ?_, ?_, by rw [hrun], ?_, ?_⟩⟩
      · intro j x hx
        by_cases hj : j = t
        · subst hj; simp only [upd_same] at hx; exact h.obj j x hx
        · simp only [upd_ne _ _ hj] at hx; exact h.obj j x hx
      · intro j hj'
        by_cases hj : j = t
        · subst hj; exact hown
        · simp only [upd_ne _ _ hj] at hj'; exact absurd (hidle j hj) hj'
      · intro j hj'
        by_cases hj : j = t
        · subst hj; simp [upd_same, hprog]
        · simp only [upd_ne _ _ hj] at hj'; exact absurd (hidle j hj) hj'
      · intro j u hu
        by_cases hj : j = t
        · subst hj; simp [upd_same] at hu
        · simp [upd_ne _ _ hj, hidle j hj] at hu
      · intro j
        rw [← h.hist j, hof]
        by_cases hj : j = t
        · subst hj; simp [callsToDo, upd_same, hpc, hprog]
        · simp [callsToDo, upd_ne _ _ hj, Ne.symm hj]
      · intro j
        rw [hof]
        by_cases hj : j = t
        · subst hj
          simp only [if_true, List.map_append, h.answ, pendingAnswer, upd_same, hpc]
          simp
        · simp [pendingAnswer, upd_ne _ _ hj, Ne.symm hj, h.answ]
    | leaving a =>
      have hst : step up s t = { s with
          holder := upd s.holder o' none,
          threads := upd s.threads t
            { prog := rest, pc := .idle, answers := (s.threads t).answers ++ [a] } } := by
        simp [step, hprog, hpc]
      rw [hst]
      have hown := h.excl t (by rw [hpc]; simp)
      have hidle : ∀ j, j ≠ t → (s.threads j).pc = .idle := by
        intro j hj; by_contra hc; have := h.excl j hc; rw [hown] at this
        exact hj (Option.some.inj this).symm
      refine ⟨H, ⟨?_, ?_, ?_, ?_, h.state, ?_, ?_⟩⟩
      · intro j x hx
        by_cases hj : j = t
        · subst hj; simp only [upd_same] at hx; exact h.obj j x (by rw [hprog]; exact List.mem_cons_of_mem _ hx)
        · simp only [upd_ne _ _ hj] at hx; exact h.obj j x hx
      · intro j hj'
        by_cases hj : j = t
        · subst hj; simp [upd_same] at hj'
        · simp only [upd_ne _ _ hj] at hj'; exact absurd (hidle j hj) hj'
      · intro j hj'
        by_cases hj : j = t
        · subst hj; simp [upd_same] at hj'
        · simp only [upd_ne _ _ hj] at hj'; exact absurd (hidle j hj) hj'
      · intro j u hu
        by_cases hj : j = t
        · subst hj; simp [upd_same] at hu
        · simp [upd_ne _ _ hj, hidle j hj] at hu
      · intro j
        rw [← h.hist j]
        by_cases hj : j = t
        · subst hj; simp [callsToDo, upd_same, hpc, hprog]
        · simp [callsToDo, upd_ne _ _ hj]
      · intro j
        rw [h.answ j]
        by_cases hj : j = t
        · subst hj; simp [pendingAnswer, upd_same, hpc]
        · simp [pendingAnswer, upd_ne _ _ hj]

/-- **C20.**  Any number of threads with any programs call *one* synchronized resource over any
upstream.  After every schedule:
* at most one thread is inside upstream;
* there is one sequential history `H` of upstream calls which explains everything: it puts upstream in
  its present state; restricted to each thread it is, in order, what of that thread's program has taken
  effect; and each thread has received (or is about to receive) exactly the answers `H` gives its calls. -/
theorem c20_synchronized (up : MR σ) (u0 : σ) (o : Nat) (progs : Nat → List Call)
    (schedule : List Nat) :
    let s := exec up (start u0 (fun t => (progs t).map (fun c => (o, c)))) schedule
    (∀ t t', IsInside s t → IsInside s t' → t = t') ∧
    ∃ H : List (Nat × Call),
      let r := up.run u0 (H.map (·.2))
      r.2 = s.up ∧
      ∀ t, (ofThread t H r.1).map (·.1) ++ callsToDo s t = progs t ∧
        (ofThread t H r.1).map (·.2) = (s.threads t).answers ++ pendingAnswer s t := by
  intro s
  have hI : ∃ H, Inv up u0 o progs s H := by
    have gen : ∀ (sched : List Nat) (s : State σ), (∃ H, Inv up u0 o progs s H) →
        ∃ H, Inv up u0 o progs (exec up s sched) H := by
      intro sched
      induction sched with
      | nil => intro s h; exact h
      | cons t ts ih => rintro s ⟨H, h⟩; exact ih _ (inv_step h t)
    apply gen
    refine ⟨[], ⟨?_, ?_, ?_, ?_, rfl, ?_, ?_⟩⟩ <;>
      simp +contextual [start, ofThread, callsToDo, pendingAnswer]
  obtain ⟨H, h⟩ := hI
  refine ⟨?_, H, h.state, fun t => ⟨h.hist t, h.answ t⟩⟩
  rintro t t' ⟨u, hu⟩ ⟨u', hu'⟩
  have h1 := h.excl t (by rw [hu]; simp)
  have h2 := h.excl t' (by rw [hu']; simp)
  rw [h1] at h2
  exact Option.some.inj h2

/-- Once a thread has finished its program, `H` contains all of its calls and it has all its answers. -/
theorem c20_finished (s : State σ) (t : Nat) (h : (s.threads t).prog = []) (hi : (s.threads t).pc = .idle) :
    callsToDo s t = [] ∧ pendingAnswer s t = [] := by
  simp [callsToDo, pendingAnswer, h, hi]

/-- Two threads allocating 8 bytes each from the demo upstream, in an interleaved schedule (the second
thread is blocked at first): the blocks are different. -/
example :
    let s := exec demoBase (start demoInit
      (fun t => if t < 2 then [(7, .alloc 8 8)] else [])) [0, 1, 0, 1, 0, 1, 0, 1, 1, 1, 1]
    (s.threads 0).answers = [.alloc (.ok 4096)] ∧ (s.threads 1).answers = [.alloc (.ok 4104)] := by
  decide +kernel

/-- Copies of a synchronized resource do *not* synchronise with each other, although they share
upstream: two threads using two copies (objects 0 and 1) can be inside upstream together, and may be
given the same memory. -/
theorem c20_copies_race :
    let s := exec demoBase (start demoInit
      (fun t => if t < 2 then [(t, .alloc 8 8)] else [])) [0, 1, 0, 1, 0, 1, 0, 1]
    (s.threads 0).answers = [.alloc (.ok 4096)] ∧ (s.threads 1).answers = [.alloc (.ok 4096)] := by
  decide +kernel

end Vecmem.Props
