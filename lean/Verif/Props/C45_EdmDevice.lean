import Verif.Lemmas.EdmDevice

/-!
# C45: concurrent `push_back_default`
-/

namespace Vecmem.Props

open Vecmem

variable {α : Type}

/-- C45: threads call `push_back_default` on one container, which has room for all calls, and after each call may assign to
variables of the new element; in any order.  No assertion fails.  When all threads are done, the indices the calls have
returned are exactly those of the new elements, each once; the size has grown by the number of calls; in every vector, each new
element has its default value, or the value last assigned to it, and all other memory is as it was; scalars are
unchanged. -/
theorem c45_push_back_default (s : DevCont α) (n : Nat) (h : s.Ready n) (progs : List (List (DCall α)))
    (hfit : n + callCount progs ≤ s.cap) (hargs : ∀ p ∈ progs, ∀ c ∈ p, c.Valid s) (sched : List Nat) :
    ((DConc.start s progs).run sched).failed = false ∧
    (((DConc.start s progs).run sched).Finished →
      ((DConc.start s progs).run sched).indices.Perm (List.range' n (callCount progs)) ∧
      ((DConc.start s progs).run sched).cont.size = n + callCount progs ∧
      (∀ i, (((DConc.start s progs).run sched).results i).map (·.1) = (progs[i]?).getD []) ∧
      (∀ i, ((((DConc.start s progs).run sched).results i).map (·.2)).Pairwise (· < ·)) ∧
      (∀ (k : Nat) (x : α), s.vars[k]? = some (.scalar x) →
        ((DConc.start s progs).run sched).cont.vars[k]? = some (.scalar x)) ∧
      (∀ (k : Nat) (d : α) (c : Nat) (m0 : Nat → Option α), s.vars[k]? = some (.vector d c m0) →
        ∃ m, ((DConc.start s progs).run sched).cont.vars[k]? = some (.vector d c m) ∧
          (∀ j, j < n ∨ n + callCount progs ≤ j → m j = m0 j) ∧
          ∀ i, ∀ x ∈ ((DConc.start s progs).run sched).results i,
            m x.2 = some (lastAssigned d k x.1.assigns))) := by
  have hi := (PInv.start h progs).run h hfit hargs sched
  generalize (DConc.start s progs).run sched = g at hi ⊢
  refine ⟨hi.ok, fun hfin => ?_⟩
  have hcalls : ∀ t ∈ g.threads, t.calls = t.done := by
    intro t ht
    simp [DThread.calls, DThread.now, (hfin t ht).2]
  have hzero : (g.threads.map fun t => t.todo.length).sum = 0 := by
    rw [List.sum_eq_zero_iff_forall_eq_nat]
    intro x hx
    obtain ⟨t, ht, rfl⟩ := List.mem_map.1 hx
    simp [(hfin t ht).1]
  have hsize : g.cont.sizeWord = n + callCount progs := by
    have := hi.room
    omega
  have hres : ∀ i, ∀ x ∈ g.results i, ∃ t ∈ g.threads, g.threads[i]? = some t ∧ x ∈ t.done := by
    intro i x hx
    unfold DConc.results at hx
    cases e : g.threads[i]? with
    | none => simp [e] at hx
    | some t => exact ⟨t, List.mem_of_getElem? e, rfl, by simpa [e] using hx⟩
  refine ⟨?_, ?_, ?_, ?_, ?_, ?_⟩
  · have e : g.indices = g.threads.flatMap DThread.claims := by
      unfold DConc.indices
      refine List.flatMap_congr ?_
      intro t ht
      simp [DThread.claims, hcalls t ht]
    rw [e]
    have := hi.perm
    rwa [hsize, Nat.add_sub_cancel_left] at this
  · unfold DevCont.size
    rw [hi.hasSize, h.resizable]
    exact hsize
  · intro i
    unfold DConc.results
    cases e : g.threads[i]? with
    | none =>
      have : progs[i]? = none := by
        rw [List.getElem?_eq_none_iff] at *
        rw [← hi.len]
        exact e
      simp [this]
    | some t =>
      rw [hi.prog i t e]
      have ht := List.mem_of_getElem? e
      simp [hcalls t ht, (hfin t ht).1]
  · intro i
    unfold DConc.results
    cases e : g.threads[i]? with
    | none => simp
    | some t =>
      have ht := List.mem_of_getElem? e
      have := hi.sorted t ht
      unfold DThread.claims at this
      rw [hcalls t ht] at this
      simpa using this
  · intro k x hk
    rw [hi.scalars k (fun d c m hc => by rw [hk] at hc; cases hc), hk]
  · intro k d c m0 hk
    obtain ⟨m, h1, h2, h3⟩ := hi.vectors k d c m0 hk
    refine ⟨m, h1, fun j hj => h2 j (by rw [hsize]; exact hj), ?_⟩
    intro i x hx
    obtain ⟨t, ht, _, hd⟩ := hres i x hx
    exact (h3 t ht).done x hd

/-- C45: no two threads write to the same element of a variable, and they write only to new elements inside the
capacity. -/
theorem c45_no_races (s : DevCont α) (n : Nat) (h : s.Ready n) (progs : List (List (DCall α)))
    (hfit : n + callCount progs ≤ s.cap) (hargs : ∀ p ∈ progs, ∀ c ∈ p, c.Valid s) (sched : List Nat) :
    (∀ (i : Nat) (t : DThread α) (p : Nat × Nat), ((DConc.start s progs).run sched).threads[i]? = some t →
      t.target ((DConc.start s progs).run sched).cont = some p → n ≤ p.2 ∧ p.2 < s.cap) ∧
    (∀ (i j : Nat) (t u : DThread α) (p q : Nat × Nat), ((DConc.start s progs).run sched).threads[i]? = some t →
      ((DConc.start s progs).run sched).threads[j]? = some u → i ≠ j →
      t.target ((DConc.start s progs).run sched).cont = some p →
      u.target ((DConc.start s progs).run sched).cont = some q → p ≠ q) := by
  have hi := (PInv.start h progs).run h hfit hargs sched
  generalize (DConc.start s progs).run sched = g at hi ⊢
  have htar : ∀ (t : DThread α) (p : Nat × Nat), t.target g.cont = some p → p.2 ∈ t.claims := by
    intro t p hp
    unfold DThread.target at hp
    cases e : t.phase with
    | idle => rw [e] at hp; cases hp
    | claimed c x => rw [e] at hp; cases hp
    | constructing c x k =>
      rw [e] at hp
      simp only at hp
      split at hp
      · cases hp
        simp [DThread.claims, DThread.calls, DThread.now, e]
      · cases hp
    | assigning c x j =>
      rw [e] at hp
      simp only [Option.map_eq_some_iff] at hp
      obtain ⟨a, _, rfl⟩ := hp
      simp [DThread.claims, DThread.calls, DThread.now, e]
  refine ⟨?_, ?_⟩
  · intro i t p ht hp
    have := hi.bounds (List.mem_of_getElem? ht) (htar t p hp)
    have := hi.room
    omega
  · intro i j t u p q ht hu hij hp hq hpq
    subst hpq
    exact hi.apart ht hu hij (htar t p hp) (htar u p hq)

/-- C45: a thread that has not finished needs a bounded number of further steps, whatever the others do: every step of it
makes this number smaller. -/
theorem c45_progress (s s' : DevCont α) (t t' : DThread α) (h : DConc.stepThread s t = some (s', t'))
    (hunf : ¬ (t.todo = [] ∧ t.phase = .idle)) :
    s'.vars.length = s.vars.length ∧ DThread.left s' t' < DThread.left s t := by
  unfold DConc.stepThread at h
  cases hp : t.phase with
  | idle =>
    rw [hp] at h
    simp only at h
    cases ht : t.todo with
    | nil => exact absurd ⟨ht, hp⟩ hunf
    | cons c cs =>
      rw [ht] at h
      simp only at h
      split at h
      · cases h
      · split at h
        · cases h
        · cases h
          refine ⟨rfl, ?_⟩
          simp only [DThread.left, hp, ht, List.map_cons, List.sum_cons]
          omega
  | claimed c x =>
    rw [hp] at h
    simp only at h
    split at h
    · cases h
    · cases h
      refine ⟨rfl, ?_⟩
      simp only [DThread.left, hp]
      omega
  | constructing c x k =>
    rw [hp] at h
    simp only at h
    split at h
    · cases h
      refine ⟨rfl, ?_⟩
      simp only [DThread.left, hp]
      omega
    · rename_i hk
      cases h
      refine ⟨rfl, ?_⟩
      have := (List.getElem?_eq_some_iff.1 hk).1
      simp only [DThread.left, hp]
      omega
    · rename_i hk
      split at h
      · cases h
      · cases h
        refine ⟨by simp, ?_⟩
        have := (List.getElem?_eq_some_iff.1 hk).1
        simp only [DThread.left, hp, List.length_modify]
        omega
  | assigning c x j =>
    rw [hp] at h
    simp only at h
    split at h
    · cases h
      refine ⟨rfl, ?_⟩
      simp only [DThread.left, hp]
      omega
    · rename_i hj
      split at h
      · cases h
      · split at h
        · split at h
          · cases h
          · cases h
            refine ⟨by simp, ?_⟩
            have := (List.getElem?_eq_some_iff.1 hj).1
            simp only [DThread.left, hp, List.length_modify]
            omega
        · cases h

/-- A container with a scalar and two vectors, one element and room for `cap`. -/
def demoDev (dbg : Bool) (cap : Nat) : DevCont Nat :=
  ⟨dbg, true, cap, 1, [.vector 7 cap fun i => if i = 0 then some 1 else none, .scalar 5,
    .vector 8 cap fun i => if i = 0 then some 2 else none]⟩

/-- Two threads, the first of which makes two calls. -/
def demoProgs : List (List (DCall Nat)) := [[⟨[(0, 11)]⟩, ⟨[]⟩], [⟨[(2, 22), (0, 33)]⟩]]

theorem demoDev_ready (dbg : Bool) : (demoDev dbg 4).Ready 1 := by
  refine ⟨rfl, rfl, ?_, by cases dbg <;> decide⟩
  intro k d c m hk
  match k, hk with
  | 0, hk => cases hk; rfl
  | 1, hk => cases hk
  | 2, hk => cases hk; rfl
  | k + 3, hk => simp [demoDev] at hk

example (dbg : Bool) : (demoDev dbg 4).Ready 1 ∧ 1 + callCount demoProgs ≤ (demoDev dbg 4).cap ∧
    (∀ p ∈ demoProgs, ∀ c ∈ p, c.Valid (demoDev dbg 4)) := by
  refine ⟨demoDev_ready dbg, by cases dbg <;> decide, ?_⟩
  intro p hp c hc a ha
  simp only [demoProgs, List.mem_cons, List.not_mem_nil, or_false] at hp
  rcases hp with rfl | rfl
  · simp only [List.mem_cons, List.not_mem_nil, or_false] at hc
    rcases hc with rfl | rfl
    · simp only [List.mem_cons, List.not_mem_nil, or_false] at ha
      subst ha
      exact ⟨_, _, _, rfl⟩
    · simp at ha
  · simp only [List.mem_cons, List.not_mem_nil, or_false] at hc
    subst hc
    simp only [List.mem_cons, List.not_mem_nil, or_false] at ha
    rcases ha with rfl | rfl
    · exact ⟨_, _, _, rfl⟩
    · exact ⟨_, _, _, rfl⟩

/-- A schedule in which the threads alternate: they finish, and the second one gets the index in the middle. -/
example : let g := (DConc.start (demoDev true 4) demoProgs).run ((List.range 30).map (· % 2))
    (g.threads.map fun t => (t.todo.length, t.done.map (·.2))) = [(0, [1, 3]), (0, [2])] ∧ g.cont.size = 4 := by
  decide +kernel

/-! ## what is not guaranteed -/

/-- If the container is full, then with assertions the call does not return; without them, it returns an index outside,
overwrites memory behind the vectors, and the size is above the capacity. -/
theorem c45_full :
    ((DConc.start (demoDev true 1) [[⟨[]⟩]]).run [0, 0]).failed = true ∧
    (let g := (DConc.start (demoDev false 1) [[⟨[]⟩]]).run (List.replicate 8 0);
      g.failed = false ∧ g.indices = [1] ∧ g.cont.size = 2 ∧ g.cont.cap = 1 ∧
        ∃ d m, g.cont.vars[0]? = some (.vector d 1 m) ∧ m 1 = some 7) := by
  refine ⟨by decide +kernel, by decide +kernel, by decide +kernel, by decide +kernel, by decide +kernel, ?_⟩
  exact ⟨_, _, rfl, rfl⟩

/-- The vectors of a container share one size word: appending to one of them makes all of them longer, and the others have no
object at the new index. -/
theorem c45_push_one_variable :
    let r := (demoDev true 4).varPushBack 0 9
    r.1 = .ok 1 ∧ r.2.size = 2 ∧ ∃ m, r.2.vars[2]? = some (.vector 8 4 m) ∧ m 1 = none :=
  ⟨rfl, rfl, _, rfl, rfl⟩

end Vecmem.Props
