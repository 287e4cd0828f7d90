import Verif.Lemmas.EdmDevice
import Mathlib.Data.List.Induction

/-! # Lemmas for C81: threads that append to a container one after the other, in any order of the calls -/

namespace Vecmem

variable {α : Type}

/-- A step of a thread within a call. -/
theorem stepThread_busy {s s' : DevCont α} {t t' : DThread α} {c : DCall α} {x : Nat} (hn : t.now = [(c, x)]) (h : DConc.stepThread s t = some (s', t')) :
    s'.sizeWord = s.sizeWord ∧ s'.vars.length = s.vars.length ∧ t'.todo = t.todo ∧
    (t' = ⟨t.todo, .idle, t.done ++ [(c, x)]⟩ ∨ (t'.now = [(c, x)] ∧ t'.done = t.done ∧ t'.left s' < t.left s)) := by
  obtain ⟨todo, phase, done⟩ := t
  cases phase with
  | idle => cases hn
  | claimed c' i =>
    cases hn
    simp only [DConc.stepThread] at h
    split at h
    · cases h
    · cases h
      refine ⟨rfl, rfl, rfl, .inr ⟨rfl, rfl, ?_⟩⟩
      simp only [DThread.left]
      omega
  | constructing c' i k =>
    cases hn
    simp only [DConc.stepThread] at h
    cases hk : s.vars[k]? with
    | none =>
      rw [hk] at h
      cases h
      refine ⟨rfl, rfl, rfl, .inr ⟨rfl, rfl, ?_⟩⟩
      simp only [DThread.left]
      omega
    | some v =>
      have hlt := (List.getElem?_eq_some_iff.1 hk).1
      rw [hk] at h
      cases v with
      | scalar y =>
        cases h
        refine ⟨rfl, rfl, rfl, .inr ⟨rfl, rfl, ?_⟩⟩
        simp only [DThread.left]
        omega
      | vector d cp f =>
        dsimp only at h
        split at h
        · cases h
        · cases h
          refine ⟨rfl, by simp, rfl, .inr ⟨rfl, rfl, ?_⟩⟩
          simp only [DThread.left, List.length_modify]
          omega
  | assigning c' i j =>
    cases hn
    simp only [DConc.stepThread] at h
    cases hj : c.assigns[j]? with
    | none =>
      rw [hj] at h
      cases h
      exact ⟨rfl, rfl, rfl, .inl rfl⟩
    | some a =>
      have hlt := (List.getElem?_eq_some_iff.1 hj).1
      rw [hj] at h
      dsimp only at h
      split at h
      · cases h
      · split at h
        · split at h
          · cases h
          · cases h
            refine ⟨rfl, by simp, rfl, .inr ⟨rfl, rfl, ?_⟩⟩
            simp only [DThread.left, List.length_modify]
            omega
        · cases h

variable {s0 : DevCont α} {n : Nat} {progs : List (List (DCall α))} {g : DConc α}

theorem PInv.step_some (hr : s0.Ready n) (hfit : n + callCount progs ≤ s0.cap) (hargs : ∀ p ∈ progs, ∀ c ∈ p, c.Valid s0) (h : PInv s0 n progs g) {i : Nat}
    {t : DThread α} (ht : g.threads[i]? = some t) :
    ∃ s' t', DConc.stepThread g.cont t = some (s', t') ∧ g.step i = { g with cont := s', threads := g.threads.set i t' } := by
  have h1 := (h.step hr hfit hargs i).ok
  have h2 : g.step i = match DConc.stepThread g.cont t with
      | none => { g with failed := true }
      | some (s, t) => { g with cont := s, threads := g.threads.set i t } := by
    unfold DConc.step
    rw [if_neg (by simp [h.ok]), ht]
    dsimp only
    cases DConc.stepThread g.cont t <;> rfl
  cases hs : DConc.stepThread g.cont t with
  | none => rw [h2, hs] at h1; cases h1
  | some r => exact ⟨r.1, r.2, rfl, by rw [h2, hs]⟩

/-- A thread comes to the end of its call. -/
theorem PInv.finish (hr : s0.Ready n) (hfit : n + callCount progs ≤ s0.cap) (hargs : ∀ p ∈ progs, ∀ c ∈ p, c.Valid s0) {i : Nat} {c : DCall α} {x : Nat} :
    ∀ (l : Nat) {g : DConc α} {t : DThread α}, PInv s0 n progs g → g.threads[i]? = some t → t.now = [(c, x)] → t.left g.cont = l →
    ∃ sched, PInv s0 n progs (g.run sched) ∧ (g.run sched).threads = g.threads.set i ⟨t.todo, .idle, t.done ++ [(c, x)]⟩ ∧ (g.run sched).cont.sizeWord = g.cont.sizeWord := by
  intro l
  induction l using Nat.strongRecOn with
  | ind l ih =>
    intro g t h ht hn hl
    obtain ⟨s', t', h1, h2⟩ := h.step_some hr hfit hargs ht
    obtain ⟨b1, b2, b3, b4⟩ := stepThread_busy hn h1
    have hinv := h.step hr hfit hargs i
    rcases b4 with rfl | ⟨b4, b5, b6⟩
    · refine ⟨[i], hinv, ?_, ?_⟩
      · show (g.step i).threads = _
        rw [h2]
      · show (g.step i).cont.sizeWord = _
        rw [h2]
        exact b1
    · have ht' : (g.step i).threads[i]? = some t' := by
        rw [h2]
        simp [(List.getElem?_eq_some_iff.1 ht).1]
      obtain ⟨sched, e1, e2, e3⟩ := ih (t'.left (g.step i).cont) (by rw [h2]; exact hl ▸ b6) hinv ht' b4 rfl
      refine ⟨i :: sched, e1, ?_, ?_⟩
      · show ((g.step i).run sched).threads = _
        rw [e2, b3, b5, h2]
        simp
      · show ((g.step i).run sched).cont.sizeWord = _
        rw [e3, h2]
        exact b1

/-- A thread makes a call. -/
theorem PInv.call (hr : s0.Ready n) (hfit : n + callCount progs ≤ s0.cap) (hargs : ∀ p ∈ progs, ∀ c ∈ p, c.Valid s0) {i : Nat} {c : DCall α} {cs : List (DCall α)}
    {done : List (DCall α × Nat)} (h : PInv s0 n progs g) (ht : g.threads[i]? = some ⟨c :: cs, .idle, done⟩) :
    ∃ sched, PInv s0 n progs (g.run sched) ∧ (g.run sched).threads = g.threads.set i ⟨cs, .idle, done ++ [(c, g.cont.sizeWord)]⟩ ∧
      (g.run sched).cont.sizeWord = g.cont.sizeWord + 1 := by
  obtain ⟨s', t', h1, h2⟩ := h.step_some hr hfit hargs ht
  have hinv := h.step hr hfit hargs i
  have hroom : g.cont.sizeWord + 1 < 2 ^ 32 := by
    have h3 := h.room
    have h4 : 1 ≤ (g.threads.map fun t => t.todo.length).sum := by
      have := sum_map_set (fun t : DThread α => t.todo.length) (t' := ⟨[], .idle, done⟩) ht
      simp at this
      omega
    have := hr.cap32
    omega
  simp only [DConc.stepThread] at h1
  split at h1
  · cases h1
  · split at h1
    · cases h1
    · cases h1
      have ht' : (g.step i).threads[i]? = some ⟨cs, .claimed c g.cont.sizeWord, done⟩ := by
        rw [h2]
        simp [(List.getElem?_eq_some_iff.1 ht).1]
      obtain ⟨sched, e1, e2, e3⟩ := PInv.finish hr hfit hargs _ hinv ht' rfl rfl
      refine ⟨i :: sched, e1, ?_, ?_⟩
      · show ((g.step i).run sched).threads = _
        rw [e2, h2]
        simp
      · show ((g.step i).run sched).cont.sizeWord = _
        rw [e3, h2]
        exact Nat.mod_eq_of_lt hroom

/-- The calls can be made one after the other in any order that keeps the order of each thread. -/
theorem DConc.exists_ordered (hr : s0.Ready n) (hfit : n + callCount progs ≤ s0.cap) (hargs : ∀ p ∈ progs, ∀ c ∈ p, c.Valid s0) (O : List (Nat × DCall α × Nat))
    (hidx : ∀ (j : Nat) (x : Nat × DCall α × Nat), O[j]? = some x → x.2.2 = n + j)
    (hO : ∀ i, ∃ rest, progs[i]?.getD [] = ((O.filter fun x => decide (x.1 = i)).map (·.2.1)) ++ rest) :
    ∃ sched, PInv s0 n progs ((DConc.start s0 progs).run sched) ∧ ((DConc.start s0 progs).run sched).cont.sizeWord = n + O.length ∧
      ∀ (i : Nat) (t : DThread α), ((DConc.start s0 progs).run sched).threads[i]? = some t → t.phase = .idle ∧ t.done = (O.filter fun x => decide (x.1 = i)).map (·.2) := by
  induction O using List.reverseRecOn with
  | nil =>
    refine ⟨[], PInv.start hr progs, hr.size, ?_⟩
    intro i t ht
    simp only [DConc.run, List.foldl_nil, DConc.start, List.getElem?_map, Option.map_eq_some_iff] at ht
    obtain ⟨p, -, rfl⟩ := ht
    exact ⟨rfl, rfl⟩
  | append_singleton O y ih =>
    obtain ⟨sched, h1, h2, h3⟩ := ih (fun j x hx => hidx j x (by
        rw [List.getElem?_append_left (List.getElem?_eq_some_iff.1 hx).1]; exact hx)) (by
      intro i
      obtain ⟨rest, hrest⟩ := hO i
      refine ⟨(([y].filter fun x => decide (x.1 = i)).map (·.2.1)) ++ rest, ?_⟩
      rw [hrest, List.filter_append, List.map_append, List.append_assoc])
    generalize hg : (DConc.start s0 progs).run sched = g at h1 h2 h3
    obtain ⟨i, c, x⟩ := y
    have hx : x = n + O.length := hidx O.length (i, c, x) (by simp)
    obtain ⟨rest, hrest⟩ := hO i
    rw [List.filter_append, List.map_append] at hrest
    have hi : i < g.threads.length := by
      rw [h1.len]
      by_contra hc
      rw [List.getElem?_eq_none (by omega)] at hrest
      simp at hrest
    have ht := List.getElem?_eq_getElem hi
    obtain ⟨p1, p2⟩ := h3 i _ ht
    have hp := h1.prog i _ ht
    generalize g.threads[i] = t at ht p1 p2 hp
    obtain ⟨todo, phase, done⟩ := t
    cases p1
    cases p2
    rw [hrest] at hp
    simp only [DThread.calls, DThread.now, List.append_nil, List.map_map] at hp
    have htodo : todo = c :: rest := by
      simp only [List.append_assoc] at hp
      have := List.append_cancel_left hp
      simpa using this.symm
    rw [htodo] at ht
    obtain ⟨sched', e1, e2, e3⟩ := h1.call hr hfit hargs ht
    have hrun : (DConc.start s0 progs).run (sched ++ sched') = g.run sched' := by
      rw [← hg]
      simp [DConc.run, List.foldl_append]
    refine ⟨sched ++ sched', hrun ▸ e1, ?_, ?_⟩
    · rw [hrun, e3, h2, List.length_append]
      rfl
    · intro j t' ht'
      rw [hrun, e2] at ht'
      by_cases hij : i = j
      · subst hij
        rw [List.getElem?_set_self hi] at ht'
        cases ht'
        refine ⟨rfl, ?_⟩
        rw [List.filter_append, List.map_append, h2, ← hx]
        simp
      · rw [List.getElem?_set_ne hij] at ht'
        obtain ⟨q1, q2⟩ := h3 j t' ht'
        refine ⟨q1, ?_⟩
        rw [q2, List.filter_append]
        simp [hij]

end Vecmem
