import Verif.Spec.JagPipeline
import Verif.Lemmas.PipelineKernel

/-! # Lemmas for C62: kernels on the rows of jagged vectors -/

namespace Vecmem

/-! ## One vector -/

/-- Once all threads have finished, the claims are a sequential run. -/
theorem CInv.finish {α : Type} {s : DV α} {l : List α} {f : Nat → Option α} {progs : List (List (ACall α))} {g : Conc α}
    {o : List (Claim α)} (h : s.Holds l f) (hfit : l.length + totalCount progs ≤ s.cap)
    (hargs : ∀ p ∈ progs, ∀ c ∈ p, c.Valid s.trivialDtor l) (hi : CInv s l f progs g o) (hfin : g.Finished) :
    ∃ l', VecRun s.dflt s.cap l (o.map (·.2.1.toOp)) (o.map fun x => .ok (.num x.2.2)) l' ∧ g.vec.Holds l' f := by
  have hcalls : ∀ (i : Nat) (t : Thread α), g.threads[i]? = some t → t.calls = t.done ∧ t.todo = [] := by
    intro i t ht
    obtain ⟨h1, h2⟩ := hfin t (List.mem_of_getElem? ht)
    simp [Thread.calls, h1, h2]
  have hmem : ∀ x ∈ o, ∃ t : Thread α, g.threads[x.1]? = some t ∧ x.2 ∈ t.done := by
    intro x hx
    have hlt : x.1 < g.threads.length := hi.len ▸ hi.ids x hx
    refine ⟨g.threads[x.1], List.getElem?_eq_getElem hlt, ?_⟩
    have h1 := List.getElem?_eq_getElem hlt
    rw [← (hcalls x.1 _ h1).1, ← hi.own x.1 _ h1]
    exact List.mem_map.2 ⟨x, List.mem_filter.2 ⟨hx, by simp⟩, rfl⟩
  have hclaim : claimed o = totalCount progs := by
    have hz : (g.threads.map fun t => (t.todo.map ACall.count).sum).sum = 0 := by
      rw [List.sum_eq_zero_iff_forall_eq_nat]
      intro n hn
      obtain ⟨t, ht, rfl⟩ := List.mem_map.1 hn
      rw [(hfin t ht).1]
      rfl
    have := hi.room
    omega
  obtain ⟨ext, h1, h2, h3⟩ := Chain.vecRun (dflt := s.dflt) (cap := s.cap) (l := l) (triv := s.trivialDtor)
    (mem := g.vec.mem) (o := o) (ext := []) (by simpa using hi.chain)
    (by
      intro x hx
      obtain ⟨t, ht, hd⟩ := hmem x hx
      have hp := hi.prog x.1 t ht
      refine hargs _ (List.mem_of_getElem? hp) _ (List.mem_append_left _ ?_)
      rw [(hcalls x.1 t ht).1]
      exact List.mem_map.2 ⟨x.2, hd, rfl⟩)
    (by
      intro x hx j hj
      obtain ⟨t, ht, hd⟩ := hmem x hx
      refine hi.doneOk x.1 t ht x.2.1 x.2.2 hd j ?_
      have := x.2.1.writes_le
      omega)
    (by simpa using hi.old)
  rw [List.append_nil] at h1 h2
  obtain ⟨k1, k2, k3, k4, k5, k6⟩ := hi.kind
  refine ⟨l ++ ext, h1, ?_⟩
  have hsz : (l ++ ext).length = l.length + claimed o := h2
  refine ⟨k6.trans h.resizable, by rw [hi.size, hsz], ?_, ?_, h3, ?_, ?_⟩
  · rw [hsz, k5]; omega
  · rw [k5]; exact h.word
  · intro ht i hi1 hi2
    rw [hsz] at hi1
    rw [k5] at hi2
    rw [k2] at ht
    exact hi.raw ht i hi1 hi2
  · intro i hi1
    rw [k5] at hi1
    exact hi.out i hi1

/-- The call that a thread is in the middle of. -/
def Phase.current {α : Type} : Phase α → List (ACall α × Nat)
  | .idle => []
  | .claimed c i => [(c, i)]
  | .writing c i _ => [(c, i)]

theorem Thread.calls_eq {α : Type} (t : Thread α) : t.calls = t.done ++ t.phase.current := by
  cases t with
  | mk todo phase done => cases phase <;> rfl

/-- What a step does to the calls. -/
theorem stepThread_calls {α : Type} {s s' : DV α} {t u : Thread α} (h : Conc.stepThread s t = some (s', u)) :
    ∃ X, u.calls = t.calls ++ X ∧ t.todo = X.map (·.1) ++ u.todo := by
  unfold Conc.stepThread at h
  split at h
  · rename_i hp
    split at h
    · rename_i hn
      cases h
      exact ⟨[], by simp, by simp⟩
    · rename_i c cs hc
      split at h
      · cases h
      · cases h
        exact ⟨[(c, (s.fetchAdd c.count).1)], by simp [Thread.calls, hp], by simp [hc]⟩
  · rename_i c idx hp
    split at h
    · cases h
    · cases h
      exact ⟨[], by simp [Thread.calls, hp], by simp⟩
  · rename_i c idx k hp
    split at h
    · split at h
      · cases h
        exact ⟨[], by simp [Thread.calls, hp], by simp⟩
      · cases h
    · cases h
      exact ⟨[], by simp [Thread.calls, hp], by simp⟩

/-- More calls to be made later, and more that have been made, do not matter to a step. -/
theorem stepThread_frame {α : Type} (s : DV α) (cs more : List (ACall α)) (ph : Phase α) (d : List (ACall α × Nat))
    (hne : cs ≠ [] ∨ ph ≠ .idle) :
    Conc.stepThread s ⟨cs ++ more, ph, d⟩ =
      (Conc.stepThread s ⟨cs, ph, []⟩).map fun x => (x.1, ⟨x.2.todo ++ more, x.2.phase, d ++ x.2.done⟩) := by
  unfold Conc.stepThread
  cases ph with
  | idle =>
    cases cs with
    | nil => simp at hne
    | cons c cs =>
      simp only [List.cons_append]
      split
      · rfl
      · simp
  | claimed c idx =>
    simp only
    split
    · rfl
    · simp
  | writing c idx k =>
    simp only
    split
    · split <;> simp
    · simp

/-! ## The projection to a row -/

/-- What the thread does on row `r`. -/
def RowThread.proj (t : RowThread) (r : Nat) : Thread Elem :=
  { todo := (t.todo.filter (·.1 = r)).map (·.2), phase := if t.row = r then t.phase else .idle
    done := (t.done.filter (·.1 = r)).map (·.2) }

/-- What happens on row `r`, which is `s`. -/
def RowConc.proj (g : RowConc) (r : Nat) (s : DV Elem) : Conc Elem := ⟨s, g.threads.map fun t => t.proj r, g.failed⟩

/-- The calls of a thread that have claimed their range. -/
def RowThread.calls (t : RowThread) : List (Nat × ACall Elem × Nat) := t.done ++ t.phase.current.map fun x => (t.row, x)

theorem RowThread.next_none {t : RowThread} (h : t.next = none) : t.phase = .idle ∧ t.todo = [] := by
  unfold RowThread.next at h
  split at h
  · rename_i h1 h2; exact ⟨h1, h2⟩
  · cases h
  · cases h

/-- What the next step works on. -/
theorem RowThread.next_some {t : RowThread} {r : Nat} {cs : List (ACall Elem)} {rest : List (Nat × ACall Elem)}
    (h : t.next = some (r, cs, rest)) : t.todo = cs.map (fun c => (r, c)) ++ rest ∧ (cs ≠ [] ∨ t.phase ≠ .idle) ∧
      (t.phase ≠ .idle → t.row = r ∧ cs = []) := by
  unfold RowThread.next at h
  split at h
  · cases h
  · rename_i h1 h2
    cases h
    exact ⟨by simp [h2], .inl (by simp), fun hc => absurd h1 hc⟩
  · rename_i h1 h2
    cases h
    have hne : t.phase ≠ .idle := by
      intro hc
      cases ht : t.todo with
      | nil => exact h1 hc ht
      | cons x l => exact h2 x.1 x.2 l hc ht
    exact ⟨by simp, .inr hne, fun _ => ⟨rfl, rfl⟩⟩

theorem filter_map_row (r r' : Nat) {β : Type} (l : List β) :
    ((l.map fun x => (r, x)).filter (fun y => decide (y.1 = r'))).map (·.2) = if r = r' then l else [] := by
  split
  · rename_i h
    subst h
    rw [List.filter_eq_self.2 (by simp), List.map_map]
    exact List.map_id' _
  · rename_i h
    rw [List.filter_eq_nil_iff.2 (by simp [h])]
    rfl

/-- A step of a thread of the rows. -/
theorem RowConc.stepThread_some {rows : List (DV Elem)} {t : RowThread} {r : Nat} {cs rest} (hn : t.next = some (r, cs, rest))
    {s : DV Elem} (hs : rows[r]? = some s) {s' : DV Elem} {u : Thread Elem}
    (hu : Conc.stepThread s ⟨cs, t.phase, []⟩ = some (s', u)) :
    RowConc.stepThread rows t =
      some (rows.set r s', { todo := rest, row := r, phase := u.phase, done := t.done ++ u.done.map fun x => (r, x) }) := by
  unfold RowConc.stepThread
  simp only [hn, hs, hu]

/-- The step, on its row and on other rows. -/
theorem RowThread.proj_step {t : RowThread} {r : Nat} {cs rest} (hn : t.next = some (r, cs, rest)) {s s' : DV Elem}
    {u : Thread Elem} (hu : Conc.stepThread s ⟨cs, t.phase, []⟩ = some (s', u)) {t' : RowThread}
    (ht : t' = { todo := rest, row := r, phase := u.phase, done := t.done ++ u.done.map fun x => (r, x) }) :
    Conc.stepThread s (t.proj r) = some (s', t'.proj r) ∧ (∀ r', r' ≠ r → t'.proj r' = t.proj r') ∧
    ∃ X : List (ACall Elem × Nat), t'.calls = t.calls ++ X.map (fun x => (r, x)) ∧ (t'.proj r).calls = (t.proj r).calls ++ X ∧
      t.todo = X.map (fun x => (r, x.1)) ++ rest := by
  subst ht
  obtain ⟨h1, h2, h3⟩ := RowThread.next_some hn
  obtain ⟨X, hX1, hX2⟩ := stepThread_calls hu
  simp only at hX2
  have hut : u.todo = [] := by
    unfold Conc.stepThread at hu
    cases hp : t.phase with
    | idle =>
      rw [hp] at hu
      cases cs with
      | nil => simp [hp] at h2
      | cons c cs =>
        obtain ⟨d, hd⟩ : ∃ d, cs = d := ⟨cs, rfl⟩
        have : cs = [] := by
          unfold RowThread.next at hn
          rw [hp] at hn
          cases ht : t.todo with
          | nil => rw [ht] at hn; cases hn
          | cons x l => rw [ht] at hn; cases hn; rfl
        subst this
        simp only at hu
        split at hu
        · cases hu
        · cases hu; rfl
    | claimed c idx =>
      have := (h3 (by rw [hp]; simp)).2
      subst this
      rcases List.append_eq_nil_iff.1 hX2.symm with ⟨-, h⟩
      exact h
    | writing c idx k =>
      have := (h3 (by rw [hp]; simp)).2
      subst this
      rcases List.append_eq_nil_iff.1 hX2.symm with ⟨-, h⟩
      exact h
  have hph : (t.proj r).phase = t.phase := by
    unfold RowThread.proj
    simp only
    split
    · rfl
    · rename_i hne
      by_contra hc
      exact hne (h3 (Ne.symm hc)).1
  have htodo : (t.proj r).todo = cs ++ (rest.filter (·.1 = r)).map (·.2) := by
    unfold RowThread.proj
    simp only
    rw [h1, List.filter_append, List.map_append, filter_map_row, if_pos rfl]
  have hproj : t.proj r = ⟨cs ++ (rest.filter (·.1 = r)).map (·.2), t.phase, (t.done.filter (·.1 = r)).map (·.2)⟩ := by
    rw [← htodo, ← hph]
    rfl
  have hproj' : RowThread.proj { todo := rest, row := r, phase := u.phase, done := t.done ++ u.done.map fun x => (r, x) } r =
      ⟨(rest.filter (·.1 = r)).map (·.2), u.phase, (t.done.filter (·.1 = r)).map (·.2) ++ u.done⟩ := by
    unfold RowThread.proj
    simp only [if_true, List.filter_append, List.map_append, filter_map_row]
  have hcur : (t.phase.current.map fun x => (t.row, x)) = t.phase.current.map fun x => (r, x) := by
    cases hp : t.phase with
    | idle => rfl
    | claimed _ _ => rw [(h3 (by rw [hp]; simp)).1]
    | writing _ _ _ => rw [(h3 (by rw [hp]; simp)).1]
  rw [Thread.calls_eq, Thread.calls_eq] at hX1
  simp only [List.nil_append] at hX1
  refine ⟨?_, ?_, X, ?_, ?_, ?_⟩
  · rw [hproj, hproj', stepThread_frame s cs _ _ _ h2, hu]
    simp [hut]
  · intro r' hr'
    unfold RowThread.proj
    simp only [List.filter_append, List.map_append, filter_map_row, if_neg (Ne.symm hr'), List.append_nil]
    rw [h1, List.filter_append, List.map_append, filter_map_row, if_neg (Ne.symm hr'), List.nil_append]
    congr 1
    by_cases hi : t.phase = .idle
    · rw [hi]; simp
    · have hne : t.row ≠ r' := by rw [(h3 hi).1]; exact Ne.symm hr'
      simp [hne]
  · unfold RowThread.calls
    simp only
    rw [hcur, List.append_assoc, List.append_assoc, ← List.map_append, ← List.map_append, hX1]
  · rw [Thread.calls_eq, Thread.calls_eq, hproj', hproj]
    simp only
    rw [List.append_assoc, List.append_assoc, hX1]
  · rw [hut, List.append_nil] at hX2
    rw [h1, hX2, List.map_map]
    rfl

/-- Every step of the threads is a step on one row, or no step. -/
theorem RowConc.proj_step {g : RowConc} (i : Nat) (hg : (g.step i).failed = false) :
    (g.step i).threads.length = g.threads.length ∧ (g.step i).rows.length = g.rows.length ∧
    (g.step i = g ∨ ∃ (t t' : RowThread) (r : Nat) (s s' : DV Elem) (X : List (ACall Elem × Nat)),
      g.threads[i]? = some t ∧ g.rows[r]? = some s ∧ g.step i = ⟨g.rows.set r s', g.threads.set i t', false⟩ ∧
      (g.proj r s).step i = (g.step i).proj r s' ∧ (∀ r', r' ≠ r → t'.proj r' = t.proj r') ∧
      t'.calls = t.calls ++ X.map (fun x => (r, x)) ∧ (t'.proj r).calls = (t.proj r).calls ++ X ∧
      t.todo = X.map (fun x => (r, x.1)) ++ t'.todo) := by
  unfold RowConc.step at hg ⊢
  by_cases hf : g.failed = true
  · rw [if_pos hf] at hg ⊢
    exact ⟨rfl, rfl, .inl rfl⟩
  rw [if_neg hf] at hg ⊢
  have hf' : g.failed = false := by simpa using hf
  cases ht : g.threads[i]? with
  | none => exact ⟨rfl, rfl, .inl rfl⟩
  | some t =>
    rw [ht] at hg
    simp only at hg ⊢
    cases hn : t.next with
    | none =>
      have e : RowConc.stepThread g.rows t = some (g.rows, t) := by
        unfold RowConc.stepThread
        rw [hn]
      rw [e]
      simp only [List.length_set, true_and]
      left
      have : g.threads.set i t = g.threads := by
        apply List.ext_getElem?
        intro j
        rw [List.getElem?_set]
        split
        · rename_i hij
          subst hij
          rw [if_pos (List.getElem?_eq_some_iff.1 ht).1, ht]
        · rfl
      rw [this]
    | some x =>
      obtain ⟨r, cs, rest⟩ := x
      cases hs : g.rows[r]? with
      | none =>
        have e : RowConc.stepThread g.rows t = none := by
          unfold RowConc.stepThread
          simp only [hn, hs]
        rw [e] at hg
        cases hg
      | some s =>
        cases hu : Conc.stepThread s ⟨cs, t.phase, []⟩ with
        | none =>
          have e : RowConc.stepThread g.rows t = none := by
            unfold RowConc.stepThread
            simp only [hn, hs, hu]
          rw [e] at hg
          cases hg
        | some x =>
          obtain ⟨s', u⟩ := x
          rw [RowConc.stepThread_some hn hs hu]
          simp only [List.length_set, true_and]
          right
          obtain ⟨h1, h2, X, h3, h4, h5⟩ := RowThread.proj_step hn hu rfl
          refine ⟨t, _, r, s, s', X, rfl, hs, by rw [hf'], ?_, h2, h3, h4, h5⟩
          unfold Conc.step RowConc.proj
          simp only [hf', Bool.false_eq_true, if_false, List.getElem?_map, ht, Option.map_some, h1, List.map_set]

theorem RowConc.step_failed {g : RowConc} (i : Nat) (h : (g.step i).failed = false) : g.failed = false := by
  by_contra hc
  have hc : g.failed = true := by simpa using hc
  rw [RowConc.step, if_pos hc, hc] at h
  cases h

theorem RowConc.run_failed (sched : List Nat) : ∀ {g : RowConc}, (g.run sched).failed = false → g.failed = false := by
  induction sched with
  | nil => exact fun h => h
  | cons i is ih => exact fun h => RowConc.step_failed i (ih h)

/-- On each row, a run is a run under some schedule. -/
theorem RowConc.proj_run (sched : List Nat) : ∀ {g : RowConc}, (g.run sched).failed = false →
    (g.run sched).threads.length = g.threads.length ∧ (g.run sched).rows.length = g.rows.length ∧
    ∀ (r : Nat) (s : DV Elem), g.rows[r]? = some s → ∃ s' sched', (g.run sched).rows[r]? = some s' ∧
      (g.run sched).proj r s' = (g.proj r s).run sched' := by
  induction sched with
  | nil => exact fun _ => ⟨rfl, rfl, fun r s hs => ⟨s, [], hs, rfl⟩⟩
  | cons i is ih =>
    intro g h
    have h' : ((g.step i).run is).failed = false := h
    obtain ⟨h1, h2, h3⟩ := ih h'
    obtain ⟨k1, k2, k3⟩ := RowConc.proj_step i (RowConc.run_failed is h')
    refine ⟨h1.trans k1, h2.trans k2, fun r s hs => ?_⟩
    show ∃ s' sched', ((g.step i).run is).rows[r]? = some s' ∧ ((g.step i).run is).proj r s' = _
    rcases k3 with k3 | ⟨t, t', r0, s0, s0', X, e1, e2, e3, e4, e5, -⟩
    · rw [k3] at h3 ⊢
      exact h3 r s hs
    · by_cases hr : r = r0
      · subst hr
        rw [hs] at e2
        cases e2
        obtain ⟨s', sched', f1, f2⟩ := h3 r s0' (by
          rw [e3]
          simp [(List.getElem?_eq_some_iff.1 hs).1])
        refine ⟨s', i :: sched', f1, ?_⟩
        rw [f2, ← e4]
        rfl
      · obtain ⟨s', sched', f1, f2⟩ := h3 r s (by
          rw [e3]
          simp only
          rw [List.getElem?_set_ne (Ne.symm hr)]
          exact hs)
        refine ⟨s', sched', f1, ?_⟩
        rw [f2]
        congr 1
        have hf := RowConc.step_failed i (RowConc.run_failed is h')
        rw [e3]
        unfold RowConc.proj
        simp only [hf, List.map_set]
        congr 1
        apply List.ext_getElem?
        intro j
        rw [List.getElem?_set]
        split
        · rename_i hij
          subst hij
          have hlt := (List.getElem?_eq_some_iff.1 e1).1
          simp [hlt, e1, e5 r hr]
          rw [(List.getElem?_eq_some_iff.1 e1).2]
        · rfl

/-! ## Termination -/

/-- How many steps the thread has left, at most. -/
def RowThread.left (t : RowThread) : Nat := Thread.left ⟨t.todo.map (·.2), t.phase, []⟩

theorem RowThread.left_step {t : RowThread} {r : Nat} {cs rest} (hn : t.next = some (r, cs, rest)) {s s' : DV Elem}
    {u : Thread Elem} (hu : Conc.stepThread s ⟨cs, t.phase, []⟩ = some (s', u)) {t' : RowThread}
    (ht : t' = { todo := rest, row := r, phase := u.phase, done := t.done ++ u.done.map fun x => (r, x) }) :
    t'.left ≤ t.left - 1 := by
  obtain ⟨h1, h2, h3⟩ := RowThread.next_some hn
  obtain ⟨-, -, X, -, -, hX⟩ := RowThread.proj_step hn hu ht
  subst ht
  have hf := stepThread_frame s cs (rest.map (·.2)) t.phase [] h2
  rw [hu] at hf
  have hl := Thread.left_step hf
  obtain ⟨Y, -, hY⟩ := stepThread_calls hu
  have ht : cs ++ rest.map (·.2) = t.todo.map (·.2) := by
    rw [h1, List.map_append, List.map_map]
    congr 1
    exact (List.map_id' cs).symm
  rw [ht] at hl
  refine Nat.le_trans ?_ hl
  unfold RowThread.left Thread.left
  simp only [List.map_append, List.sum_append]
  omega

/-- What thread `i` has left. -/
def RowConc.left (g : RowConc) (i : Nat) : Nat := ((g.threads[i]?).map RowThread.left).getD 0

theorem RowThread.left_none {t : RowThread} (h : t.next = none) : t.left = 0 := by
  obtain ⟨h1, h2⟩ := RowThread.next_none h
  simp [RowThread.left, Thread.left, h1, h2]

theorem RowConc.left_step {g : RowConc} (i : Nat) (h : (g.step i).failed = false) (j : Nat) :
    (g.step i).left j ≤ if j = i then g.left j - 1 else g.left j := by
  have hf := RowConc.step_failed i h
  unfold RowConc.step at h ⊢
  rw [if_neg (by simp [hf])] at h ⊢
  cases e : g.threads[i]? with
  | none =>
    simp only
    split
    · rename_i hji
      subst hji
      simp [RowConc.left, e]
    · exact Nat.le_refl _
  | some t =>
    rw [e] at h
    simp only at h ⊢
    have hlt : i < g.threads.length := (List.getElem?_eq_some_iff.1 e).1
    cases e' : RowConc.stepThread g.rows t with
    | none => rw [e'] at h; cases h
    | some x =>
      obtain ⟨rows', t'⟩ := x
      simp only
      have hl : t'.left ≤ t.left - 1 := by
        unfold RowConc.stepThread at e'
        split at e'
        · rename_i hn
          cases e'
          rw [RowThread.left_none hn]
        · rename_i r cs rest hn
          split at e'
          · cases e'
          · split at e'
            · cases e'
            · rename_i s' u hu
              cases e'
              exact RowThread.left_step hn hu rfl
      split
      · rename_i hji
        subst hji
        have e2 := (List.getElem?_eq_some_iff.1 e).2
        simpa [RowConc.left, e2, List.getElem?_set, hlt] using hl
      · rename_i hne
        simp [RowConc.left, Ne.symm hne]

theorem RowConc.left_run (sched : List Nat) : ∀ {g : RowConc}, (g.run sched).failed = false →
    ∀ j, (g.run sched).left j ≤ g.left j - sched.count j := by
  induction sched with
  | nil => exact fun _ j => Nat.le_refl _
  | cons i is ih =>
    intro g h j
    have h1 := ih (g := g.step i) h j
    have h2 := RowConc.left_step i (RowConc.run_failed is h) j
    have h3 : (g.run (i :: is)) = ((g.step i).run is) := rfl
    rw [h3, List.count_cons]
    by_cases hij : j = i
    · subst hij
      simp only [if_true, beq_self_eq_true] at h2 ⊢
      omega
    · rw [if_neg hij] at h2
      rw [if_neg (by simpa using fun h => hij h.symm)]
      omega

theorem RowConc.kernel_finished {rows : List (DV Elem)} {progs : List (List (Nat × ACall Elem))} {sched : List Nat}
    (h : (RowConc.kernel rows progs sched).failed = false) :
    ∀ t ∈ (RowConc.kernel rows progs sched).threads, t.todo = [] ∧ t.phase = .idle := by
  intro t ht
  obtain ⟨j, hj⟩ := List.mem_iff_getElem?.1 ht
  have h1 := RowConc.left_run (sched ++ drainRows progs) h j
  rw [List.count_append, drainRows, count_drain] at h1
  have h0 : (RowConc.start rows progs).left j = (((progs.map (·.map (·.2))).getD j []).map ACall.steps).sum := by
    unfold RowConc.left RowConc.start
    simp only [List.getElem?_map, List.getD_eq_getElem?_getD]
    cases progs[j]? <;> simp [RowThread.left, Thread.left]
  rw [h0] at h1
  have h2 : (RowConc.kernel rows progs sched).left j = t.left := by simp [RowConc.left, hj]
  have h3 : ((RowConc.start rows progs).run (sched ++ drainRows progs)).left j = t.left := h2
  have h4 : t.left = 0 := by
    have h5 := h3.symm.trans_le h1
    omega
  obtain ⟨h5, h6⟩ := Thread.finished h4
  exact ⟨List.map_eq_nil_iff.1 h5, h6⟩

/-! ## The invariant of all rows -/

/-- What has been claimed on row `r`. -/
def claimsOn (O : List (Nat × Nat × ACall Elem × Nat)) (r : Nat) : List (Claim Elem) :=
  (O.filter (·.2.1 = r)).map fun x => (x.1, x.2.2)

theorem claimsOn_append (O O' : List (Nat × Nat × ACall Elem × Nat)) (r : Nat) :
    claimsOn (O ++ O') r = claimsOn O r ++ claimsOn O' r := by
  simp [claimsOn]

theorem claimsOn_tag (e : List (Claim Elem)) (r r' : Nat) :
    claimsOn (e.map fun x => (x.1, r, x.2)) r' = if r = r' then e else [] := by
  unfold claimsOn
  split
  · rename_i h
    subst h
    rw [List.filter_eq_self.2 (by intro a ha; obtain ⟨x, -, rfl⟩ := List.mem_map.1 ha; simp), List.map_map]
    exact List.map_id' _
  · rename_i h
    rw [List.filter_eq_nil_iff.2 (by intro a ha; obtain ⟨x, -, rfl⟩ := List.mem_map.1 ha; simp [h])]
    rfl

/-- The rows hold the lists, and the programs fit. -/
structure RowsFor (rows0 : List (DV Elem)) (ls : List (List Elem)) (progs : List (List (Nat × ACall Elem))) : Prop where
  len : rows0.length = ls.length
  holds : ∀ (r : Nat) (s : DV Elem) (l : List Elem), rows0[r]? = some s → ls[r]? = some l → s.Holds l (fun _ => none) ∧
    l.length + totalCount (onRow progs r) ≤ s.cap ∧ ∀ p ∈ onRow progs r, ∀ c ∈ p, c.Valid s.trivialDtor l
  range : ∀ p ∈ progs, ∀ x ∈ p, x.1 < ls.length

/-- The invariant: `O` is what has been claimed, in order. -/
structure RInv (rows0 : List (DV Elem)) (ls : List (List Elem)) (progs : List (List (Nat × ACall Elem))) (g : RowConc)
    (O : List (Nat × Nat × ACall Elem × Nat)) : Prop where
  ok : g.failed = false
  len : g.rows.length = rows0.length
  count : g.threads.length = progs.length
  row : ∀ (r : Nat) (s0 : DV Elem) (l : List Elem) (s : DV Elem), rows0[r]? = some s0 → ls[r]? = some l → g.rows[r]? = some s →
    CInv s0 l (fun _ => none) (onRow progs r) (g.proj r s) (claimsOn O r)
  prog : ∀ (i : Nat) (t : RowThread), g.threads[i]? = some t → progs[i]? = some (t.calls.map (fun x => (x.1, x.2.1)) ++ t.todo)
  own : ∀ (i : Nat) (t : RowThread), g.threads[i]? = some t → (O.filter (·.1 = i)).map (·.2) = t.calls
  ids : ∀ x ∈ O, x.2.1 < ls.length

theorem RowConc.start_proj (rows : List (DV Elem)) (progs : List (List (Nat × ACall Elem))) (r : Nat) (s : DV Elem) :
    (RowConc.start rows progs).proj r s = Conc.start s (onRow progs r) := by
  unfold RowConc.start RowConc.proj Conc.start onRow RowThread.proj
  simp

theorem RInv.start {rows0 : List (DV Elem)} {ls : List (List Elem)} {progs : List (List (Nat × ACall Elem))}
    (h : RowsFor rows0 ls progs) : RInv rows0 ls progs (RowConc.start rows0 progs) [] := by
  refine ⟨rfl, rfl, by simp [RowConc.start], ?_, ?_, ?_, by simp⟩
  · intro r s0 l s h1 h2 h3
    have h3 : rows0[r]? = some s := h3
    rw [h1] at h3
    cases h3
    rw [RowConc.start_proj]
    exact CInv.start (h.holds r s0 l h1 h2).1 _
  · intro i t ht
    simp only [RowConc.start, List.getElem?_map, Option.map_eq_some_iff] at ht
    obtain ⟨p, h1, rfl⟩ := ht
    simpa [RowThread.calls, Phase.current] using h1
  · intro i t ht
    simp only [RowConc.start, List.getElem?_map, Option.map_eq_some_iff] at ht
    obtain ⟨p, h1, rfl⟩ := ht
    simp [RowThread.calls, Phase.current]

/-- The row of the next step is one that the program names. -/
theorem RowThread.next_row {t : RowThread} {r : Nat} {cs rest} (hn : t.next = some (r, cs, rest)) :
    ∃ x ∈ t.calls.map (fun x => (x.1, x.2.1)) ++ t.todo, x.1 = r := by
  obtain ⟨h1, h2, h3⟩ := RowThread.next_some hn
  by_cases hp : t.phase = .idle
  · cases cs with
    | nil => simp [hp] at h2
    | cons c cs => exact ⟨(r, c), by simp [h1], rfl⟩
  · have hr := (h3 hp).1
    unfold RowThread.calls
    cases e : t.phase with
    | idle => exact absurd e hp
    | claimed c i => exact ⟨(r, c), by simp [Phase.current, hr], rfl⟩
    | writing c i k => exact ⟨(r, c), by simp [Phase.current, hr], rfl⟩

/-- No step fails. -/
theorem RInv.not_failed {rows0 : List (DV Elem)} {ls : List (List Elem)} {progs : List (List (Nat × ACall Elem))} {g : RowConc}
    {O : List (Nat × Nat × ACall Elem × Nat)} (h0 : RowsFor rows0 ls progs) (h : RInv rows0 ls progs g O) (i : Nat) :
    (g.step i).failed = false := by
  unfold RowConc.step
  rw [if_neg (by simp [h.ok])]
  cases ht : g.threads[i]? with
  | none => exact h.ok
  | some t =>
    simp only
    cases hn : t.next with
    | none =>
      have e : RowConc.stepThread g.rows t = some (g.rows, t) := by
        unfold RowConc.stepThread
        rw [hn]
      rw [e]
      exact h.ok
    | some x =>
      obtain ⟨r, cs, rest⟩ := x
      obtain ⟨x, hx, hxr⟩ := RowThread.next_row hn
      have hlt : r < ls.length := by
        rw [← hxr]
        exact h0.range _ (List.mem_of_getElem? (h.prog i t ht)) x hx
      have hlt0 : r < rows0.length := h0.len ▸ hlt
      have hlt1 : r < g.rows.length := h.len ▸ hlt0
      have hs := List.getElem?_eq_getElem hlt1
      have hs0 := List.getElem?_eq_getElem hlt0
      have hl := List.getElem?_eq_getElem hlt
      obtain ⟨k1, k2, k3⟩ := h0.holds r _ _ hs0 hl
      obtain ⟨o', -, hc⟩ := (h.row r _ _ _ hs0 hl hs).step k1 k2 k3 i
      have hok := hc.ok
      obtain ⟨n1, n2, n3⟩ := RowThread.next_some hn
      cases hu : Conc.stepThread g.rows[r] ⟨cs, t.phase, []⟩ with
      | some y =>
        rw [RowConc.stepThread_some hn hs (s' := y.1) (u := y.2) hu]
        exact h.ok
      | none =>
        exfalso
        have hph : (t.proj r).phase = t.phase := by
          unfold RowThread.proj
          simp only
          split
          · rfl
          · rename_i hne
            by_contra hc
            exact hne (n3 (Ne.symm hc)).1
        have hproj : t.proj r = ⟨cs ++ (rest.filter (·.1 = r)).map (·.2), t.phase, (t.done.filter (·.1 = r)).map (·.2)⟩ := by
          rw [← hph]
          unfold RowThread.proj
          simp only
          rw [n1, List.filter_append, List.map_append, filter_map_row, if_pos rfl]
        have hnone : Conc.stepThread g.rows[r] (t.proj r) = none := by
          rw [hproj, stepThread_frame _ cs _ _ _ n2, hu]
          rfl
        unfold Conc.step RowConc.proj at hok
        simp only [h.ok, Bool.false_eq_true, if_false, List.getElem?_map, ht, Option.map_some, hnone] at hok
        cases hok

/-- A step on another row. -/
theorem RowConc.proj_other {g : RowConc} {i r r' : Nat} {t t' : RowThread} {s s' : DV Elem} (hg : g.failed = false)
    (ht : g.threads[i]? = some t) (hp : t'.proj r' = t.proj r') :
    RowConc.proj ⟨g.rows.set r s', g.threads.set i t', false⟩ r' s = g.proj r' s := by
  unfold RowConc.proj
  simp only [hg, List.map_set, hp]
  congr 1
  apply List.ext_getElem?
  intro j
  rw [List.getElem?_set]
  split
  · rename_i hij
    subst hij
    have hlt := (List.getElem?_eq_some_iff.1 ht).1
    simp [hlt]
    rw [(List.getElem?_eq_some_iff.1 ht).2]
  · rfl

/-- A step preserves the invariant, and may add to the claims. -/
theorem RInv.step {rows0 : List (DV Elem)} {ls : List (List Elem)} {progs : List (List (Nat × ACall Elem))} {g : RowConc}
    {O : List (Nat × Nat × ACall Elem × Nat)} (h0 : RowsFor rows0 ls progs) (h : RInv rows0 ls progs g O) (i : Nat) :
    ∃ O', RInv rows0 ls progs (g.step i) O' := by
  have hnf := h.not_failed h0 i
  obtain ⟨l1, l2, l3⟩ := RowConc.proj_step i hnf
  rcases l3 with l3 | ⟨t, t', r, s, s', X, e1, e2, e3, e4, e5, e6, e7, e8⟩
  · exact ⟨O, l3.symm ▸ h⟩
  have hlt1 : r < g.rows.length := (List.getElem?_eq_some_iff.1 e2).1
  have hlt0 : r < rows0.length := h.len ▸ hlt1
  have hlt : r < ls.length := h0.len ▸ hlt0
  have hs0 := List.getElem?_eq_getElem hlt0
  have hl := List.getElem?_eq_getElem hlt
  obtain ⟨k1, k2, k3⟩ := h0.holds r _ _ hs0 hl
  have hrow := h.row r _ _ _ hs0 hl e2
  obtain ⟨o', ⟨e, rfl⟩, hc⟩ := hrow.step k1 k2 k3 i
  rw [e4] at hc
  have hi : i < g.threads.length := (List.getElem?_eq_some_iff.1 e1).1
  have hti : (g.step i).threads[i]? = some t' := by rw [e3]; simp [hi]
  have htj : ∀ j, j ≠ i → (g.step i).threads[j]? = g.threads[j]? := by
    intro j hj
    rw [e3]
    exact List.getElem?_set_ne (Ne.symm hj)
  have hpt : ∀ (g : RowConc) (j : Nat) (u : RowThread) (s : DV Elem), g.threads[j]? = some u →
      (g.proj r s).threads[j]? = some (u.proj r) := by
    intro g j u s hu
    simp [RowConc.proj, hu]
  -- what thread `j` has claimed with this step
  have hei : (e.filter (·.1 = i)).map (·.2) = X := by
    have a := hrow.own i _ (hpt g i t s e1)
    have b := hc.own i _ (hpt _ i t' s' hti)
    rw [List.filter_append, List.map_append, a, e7] at b
    exact List.append_cancel_left b
  have hej : ∀ (j : Nat) (u : RowThread), j ≠ i → g.threads[j]? = some u → (e.filter (·.1 = j)).map (·.2) = [] := by
    intro j u hj hu
    have a := hrow.own j _ (hpt g j u s hu)
    have b := hc.own j _ (hpt _ j u s' ((htj j hj).trans hu))
    rw [List.filter_append, List.map_append, a] at b
    exact List.append_right_eq_self.1 b
  have htag : ∀ j, ((e.map fun x => (x.1, r, x.2)).filter (·.1 = j)).map (·.2) =
      ((e.filter (·.1 = j)).map (·.2)).map fun x => (r, x) := by
    intro j
    rw [List.filter_map, List.map_map, List.map_map]
    rfl
  refine ⟨O ++ e.map fun x => (x.1, r, x.2), hnf, l2.trans h.len, l1.trans h.count, ?_, ?_, ?_, ?_⟩
  · intro r' s0 l sr h1 h2 h3
    rw [claimsOn_append, claimsOn_tag]
    by_cases hr : r' = r
    · subst hr
      rw [hs0] at h1
      rw [hl] at h2
      rw [e3] at h3
      simp only [List.getElem?_set_self hlt1] at h3
      cases h1
      cases h2
      cases h3
      rw [if_pos rfl]
      exact hc
    · rw [if_neg (Ne.symm hr), List.append_nil]
      have h3' : g.rows[r']? = some sr := by
        rw [e3] at h3
        exact (List.getElem?_set_ne (Ne.symm hr)).symm.trans h3
      rw [e3, RowConc.proj_other h.ok e1 (e5 r' hr)]
      exact h.row r' s0 l sr h1 h2 h3'
  · intro j u hu
    by_cases hj : j = i
    · subst hj
      rw [hti] at hu
      cases hu
      rw [h.prog j t e1, e6, e8]
      simp
    · rw [htj j hj] at hu
      exact h.prog j u hu
  · intro j u hu
    rw [List.filter_append, List.map_append, htag]
    by_cases hj : j = i
    · subst hj
      rw [hti] at hu
      cases hu
      rw [h.own j t e1, hei, e6]
    · rw [htj j hj] at hu
      rw [h.own j u hu, hej j u hj hu]
      simp
  · intro x hx
    rcases List.mem_append.1 hx with hx | hx
    · exact h.ids x hx
    · obtain ⟨y, -, rfl⟩ := List.mem_map.1 hx
      exact hlt

theorem RInv.run {rows0 : List (DV Elem)} {ls : List (List Elem)} {progs : List (List (Nat × ACall Elem))}
    (h0 : RowsFor rows0 ls progs) (sched : List Nat) : ∀ {g : RowConc} {O : List (Nat × Nat × ACall Elem × Nat)},
    RInv rows0 ls progs g O → ∃ O', RInv rows0 ls progs (g.run sched) O' := by
  induction sched with
  | nil => exact fun h => ⟨_, h⟩
  | cons i is ih =>
    intro g O h
    obtain ⟨O', h'⟩ := h.step h0 i
    exact ih h'

/-- Runs on all rows are a run of all rows. -/
theorem jagRun_of {dflt : Elem} {caps : List Nat} (O : List (Nat × Nat × ACall Elem × Nat)) :
    ∀ {ls fin : List (List Elem)}, ls.length = caps.length → fin.length = caps.length → (∀ x ∈ O, x.2.1 < ls.length) →
    (∀ (r : Nat) (l l' : List Elem) (cap : Nat), ls[r]? = some l → caps[r]? = some cap → fin[r]? = some l' →
      VecRun dflt cap l ((claimsOn O r).map (·.2.1.toOp)) ((claimsOn O r).map fun x => .ok (.num x.2.2)) l') →
    JagRun dflt caps ls (O.map fun x => (x.2.1, x.2.2.1.toOp)) (O.map fun x => .ok (.num x.2.2.2)) fin := by
  induction O with
  | nil =>
    intro ls fin h1 h2 _ h3
    have : ls = fin := by
      apply List.ext_getElem (h1.trans h2.symm)
      intro r hr hr'
      have := h3 r _ _ _ (List.getElem?_eq_getElem hr) (List.getElem?_eq_getElem (h1 ▸ hr)) (List.getElem?_eq_getElem hr')
      generalize ls[r] = a at this
      generalize fin[r] = b at this
      cases this
      rfl
    subst this
    exact .nil _
  | cons x O ih =>
    obtain ⟨i, r, c, n⟩ := x
    intro ls fin h1 h2 hr h3
    have hlt : r < ls.length := hr _ List.mem_cons_self
    have hltc : r < caps.length := h1 ▸ hlt
    have hltf : r < fin.length := h2.symm ▸ hltc
    have hself : claimsOn ((i, r, c, n) :: O) r = (i, c, n) :: claimsOn O r := by simp [claimsOn]
    have hother : ∀ r', r' ≠ r → claimsOn ((i, r, c, n) :: O) r' = claimsOn O r' := by
      intro r' h
      simp [claimsOn, Ne.symm h]
    have hv := h3 r _ _ _ (List.getElem?_eq_getElem hlt) (List.getElem?_eq_getElem hltc) (List.getElem?_eq_getElem hltf)
    rw [hself] at hv
    generalize hL : ls[r] = L at hv
    generalize hF : fin[r] = F at hv
    simp only [List.map_cons] at hv
    cases hv with
    | cons hstep hrest =>
      rename_i l'
      refine .cons (l := L) (cap := caps[r]) (hL ▸ List.getElem?_eq_getElem hlt) (List.getElem?_eq_getElem hltc) hstep ?_
      refine ih (by simpa using h1) h2 (fun x hx => by simpa using hr x (List.mem_cons_of_mem _ hx)) ?_
      intro r' l1 l2 cap g1 g2 g3
      by_cases hr' : r' = r
      · subst hr'
        rw [List.getElem?_set_self hlt] at g1
        cases g1
        rw [List.getElem?_eq_getElem hltc] at g2
        cases g2
        rw [List.getElem?_eq_getElem hltf, hF] at g3
        cases g3
        exact hrest
      · rw [List.getElem?_set_ne (Ne.symm hr')] at g1
        have := h3 r' l1 l2 cap g1 g2 g3
        rwa [hother r' hr'] at this

/-- A kernel on the rows: nothing fails, and there is one order for all rows. -/
theorem RowConc.kernel_ok {rows0 : List (DV Elem)} {ls : List (List Elem)} {progs : List (List (Nat × ACall Elem))}
    (h0 : RowsFor rows0 ls progs) (sched : List Nat) {dflt : Elem} {caps : List Nat} (hd : ∀ s ∈ rows0, s.dflt = dflt)
    (hcaps : rows0.map (·.cap) = caps) {P : Elem → Prop} (hP : ∀ s ∈ rows0, s.All P)
    (hPp : ∀ p ∈ progs, ∀ x ∈ p, x.2.All P) :
    ∃ (O : List (Nat × Nat × ACall Elem × Nat)) (fin : List (List Elem)),
      (RowConc.kernel rows0 progs sched).failed = false ∧
      (∀ i, (O.filter (·.1 = i)).map (·.2) = ((RowConc.kernel rows0 progs sched).threads.map RowThread.done).getD i []) ∧
      ((RowConc.kernel rows0 progs sched).threads.map RowThread.done).map (·.map fun x => (x.1, x.2.1)) = progs ∧
      JagRun dflt caps ls (O.map fun x => (x.2.1, x.2.2.1.toOp)) (O.map fun x => .ok (.num x.2.2.2)) fin ∧
      (RowConc.kernel rows0 progs sched).rows.length = rows0.length ∧ fin.length = rows0.length ∧
      ∀ (r : Nat) (s0 s : DV Elem) (l : List Elem), rows0[r]? = some s0 →
        (RowConc.kernel rows0 progs sched).rows[r]? = some s → fin[r]? = some l →
        s.Holds l (fun _ => none) ∧ s0.SameKind s ∧ s.All P := by
  obtain ⟨O, hO⟩ := RInv.run h0 (sched ++ drainRows progs) (RInv.start h0)
  change RInv rows0 ls progs (RowConc.kernel rows0 progs sched) O at hO
  have hfin := RowConc.kernel_finished hO.ok
  obtain ⟨p1, p2, p3⟩ := RowConc.proj_run (sched ++ drainRows progs) (g := RowConc.start rows0 progs) hO.ok
  change (RowConc.kernel rows0 progs sched).threads.length = _ at p1
  generalize hG : RowConc.kernel rows0 progs sched = G at *
  have hcalls : ∀ t ∈ G.threads, t.calls = t.done := by
    intro t ht
    simp [RowThread.calls, (hfin t ht).2, Phase.current]
  -- row by row
  have hrow : ∀ (r : Nat) (s0 s : DV Elem) (l : List Elem), rows0[r]? = some s0 → ls[r]? = some l → G.rows[r]? = some s →
      ∃ l', VecRun s0.dflt s0.cap l ((claimsOn O r).map (·.2.1.toOp)) ((claimsOn O r).map fun x => .ok (.num x.2.2)) l' ∧
        s.Holds l' (fun _ => none) ∧ s0.SameKind s ∧ s.All P := by
    intro r s0 s l g1 g2 g3
    obtain ⟨k1, k2, k3⟩ := h0.holds r _ _ g1 g2
    have hc := hO.row r s0 l s g1 g2 g3
    obtain ⟨l', v1, v2⟩ := CInv.finish k1 k2 k3 hc (by
      intro u hu
      obtain ⟨t, ht, rfl⟩ := List.mem_map.1 hu
      obtain ⟨f1, f2⟩ := hfin t ht
      exact ⟨by simp [RowThread.proj, f1], by simp [RowThread.proj, f2]⟩)
    refine ⟨l', v1, v2, hc.kind, ?_⟩
    obtain ⟨s', sched', q1, q2⟩ := p3 r s0 g1
    have q1' : G.rows[r]? = some s' := by
      rw [← hG]
      exact q1
    rw [g3] at q1'
    cases q1'
    have q3 : (((RowConc.start rows0 progs).proj r s0).run sched').vec = s := by
      rw [← q2]
      rfl
    rw [← q3, RowConc.start_proj]
    refine Conc.all_run _ (hP s0 (List.mem_of_getElem? g1)) (Conc.all_start ?_)
    intro p hp c hc
    obtain ⟨q, hq, rfl⟩ := List.mem_map.1 hp
    obtain ⟨x, hx, rfl⟩ := List.mem_map.1 hc
    exact hPp q hq x (List.mem_filter.1 hx).1
  -- the final lists
  have hlist : ∃ fin : List (List Elem), fin.length = rows0.length ∧ ∀ (r : Nat) (s0 s : DV Elem) (l l' : List Elem),
      rows0[r]? = some s0 → ls[r]? = some l → G.rows[r]? = some s → fin[r]? = some l' →
      VecRun s0.dflt s0.cap l ((claimsOn O r).map (·.2.1.toOp)) ((claimsOn O r).map fun x => .ok (.num x.2.2)) l' ∧
        s.Holds l' (fun _ => none) ∧ s0.SameKind s ∧ s.All P := by
    have hall : ∀ r : Nat, ∃ l' : List Elem, ∀ (s0 s : DV Elem) (l : List Elem), rows0[r]? = some s0 → ls[r]? = some l →
        G.rows[r]? = some s →
        VecRun s0.dflt s0.cap l ((claimsOn O r).map (·.2.1.toOp)) ((claimsOn O r).map fun x => .ok (.num x.2.2)) l' ∧
          s.Holds l' (fun _ => none) ∧ s0.SameKind s ∧ s.All P := by
      intro r
      by_cases hr : r < rows0.length
      · have g1 := List.getElem?_eq_getElem hr
        have g2 := List.getElem?_eq_getElem (h0.len ▸ hr : r < ls.length)
        have g3 := List.getElem?_eq_getElem (hO.len.symm ▸ hr : r < G.rows.length)
        obtain ⟨l', hl'⟩ := hrow r _ _ _ g1 g2 g3
        refine ⟨l', fun s0 s l h1 h2 h3 => ?_⟩
        rw [g1] at h1
        rw [g2] at h2
        rw [g3] at h3
        cases h1
        cases h2
        cases h3
        exact hl'
      · refine ⟨[], fun s0 s l h1 _ _ => ?_⟩
        exact absurd (List.getElem?_eq_some_iff.1 h1).1 hr
    obtain ⟨F, hF⟩ := Classical.axiomOfChoice hall
    refine ⟨(List.range rows0.length).map F, by simp, fun r s0 s l l' h1 h2 h3 h4 => ?_⟩
    simp only [List.getElem?_map, Option.map_eq_some_iff] at h4
    obtain ⟨r', h5, rfl⟩ := h4
    obtain ⟨h6, h7⟩ := List.getElem?_eq_some_iff.1 h5
    rw [List.getElem_range] at h7
    subst h7
    exact hF r s0 s l h1 h2 h3
  obtain ⟨fin, hf1, hf2⟩ := hlist
  refine ⟨O, fin, hO.ok, ?_, ?_, ?_, hO.len, hf1, ?_⟩
  · intro i
    simp only [List.getD_eq_getElem?_getD, List.getElem?_map]
    cases ht : G.threads[i]? with
    | some t => rw [hO.own i t ht, hcalls t (List.mem_of_getElem? ht)]; rfl
    | none =>
      have hnil : O.filter (·.1 = i) = [] := by
        rw [List.filter_eq_nil_iff]
        intro x hx hxi
        have hxi : x.1 = i := by simpa using hxi
        have hr := hO.ids x hx
        have hr0 : x.2.1 < rows0.length := h0.len ▸ hr
        have hc := hO.row x.2.1 _ _ _ (List.getElem?_eq_getElem hr0) (List.getElem?_eq_getElem hr)
          (List.getElem?_eq_getElem (hO.len.symm ▸ hr0 : x.2.1 < G.rows.length))
        have := hc.ids (x.1, x.2.2) (List.mem_map.2 ⟨x, List.mem_filter.2 ⟨hx, by simp⟩, rfl⟩)
        have h1 : i < progs.length := by
          rw [← hxi]
          simpa [onRow] using this
        rw [List.getElem?_eq_none_iff] at ht
        have := hO.count
        omega
      rw [hnil]
      rfl
  · apply List.ext_getElem?
    intro i
    simp only [List.getElem?_map]
    cases ht : G.threads[i]? with
    | some t =>
      rw [hO.prog i t ht, hcalls t (List.mem_of_getElem? ht), (hfin t (List.mem_of_getElem? ht)).1]
      simp
    | none =>
      rw [List.getElem?_eq_none_iff] at ht
      rw [List.getElem?_eq_none (by rw [← hO.count]; exact ht)]
      rfl
  · refine jagRun_of O (by rw [← hcaps, List.length_map]; exact h0.len.symm) (by rw [← hcaps, List.length_map]; exact hf1)
      hO.ids ?_
    intro r l l' cap h1 h2 h3
    have hr : r < rows0.length := h0.len ▸ (List.getElem?_eq_some_iff.1 h1).1
    have g1 := List.getElem?_eq_getElem hr
    have g3 := List.getElem?_eq_getElem (hO.len.symm ▸ hr : r < G.rows.length)
    have := (hf2 r _ _ l l' g1 h1 g3 h3).1
    rw [← hcaps, List.getElem?_map, g1] at h2
    cases h2
    rw [hd _ (List.getElem_mem hr)] at this
    exact this
  · intro r s0 s l h1 h2 h3
    have hr : r < ls.length := h0.len ▸ (List.getElem?_eq_some_iff.1 h1).1
    exact (hf2 r s0 s _ l h1 (List.getElem?_eq_getElem hr) h2 h3).2

end Vecmem
