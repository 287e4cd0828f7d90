import Verif.Lemmas.DeviceVectorDebug

/-!
# C29, C30, C31: `device_vector`

Vocabulary: `Verif/Spec/DeviceVector.lean` (lists, `Holds`) and `Verif/Spec/DeviceVectorConcurrent.lean`.
-/

namespace Vecmem
namespace Props

variable {α : Type}

/-- **C29**: a resizable device vector that holds a list behaves like the list: every program whose operations are
within the capacity gives, with or without assertions, what the operations on the list give; afterwards the vector holds
the resulting list, and the memory outside the payload is as before. -/
theorem c29_device_vector (s : DV α) (l : List α) (foreign : Nat → Option α) (h : s.Holds l foreign)
    (ops : List (DVOp α)) (hf : FitsAll s.trivialDtor s.dflt s.cap l ops) :
    ∃ l', VecRun s.dflt s.cap l ops (s.run ops).1 l' ∧ (s.run ops).2.Holds l' foreign := by
  induction ops generalizing s l with
  | nil => exact ⟨l, .nil l, h⟩
  | cons op ops ih =>
    obtain ⟨r, t, l', e, hstep, ht, k⟩ := DV.step_ok h hf.1
    obtain ⟨k1, k2, k3, k4, k5, k6⟩ := k
    have hf' := hf.2 r l' hstep
    rw [← k2, ← k3, ← k5] at hf'
    obtain ⟨l'', h1, h2⟩ := ih t l' ht hf'
    rw [k3, k5] at h1
    refine ⟨l'', ?_, ?_⟩
    · simp only [DV.run, e]
      exact .cons hstep h1
    · simp only [DV.run, e]
      exact h2

/-- **C29**, the reading operations of a vector that is not resizable (`size()` is the capacity). -/
theorem c29_fixed (s : DV α) (l : List α) (hs : s.hasSize = false) (hl : l.length = s.cap) (hw : s.cap < 2 ^ 32)
    (hm : ∀ i, i < s.cap → s.mem i = l[i]?) :
    (∀ i, (hi : i < l.length) → s.at_ i = .ok l[i] ∧ s.index i = .ok l[i]) ∧
    (∀ v, l.head? = some v → s.front = .ok v) ∧ (∀ v, l.getLast? = some v → s.back = .ok v) ∧
    s.size = l.length ∧ s.iterate = .ok l ∧ s.iterateBack = .ok l.reverse ∧
    (∀ c i v, i < l.length → (s.write c i v).1 = .ok () ∧
      ∀ j, (s.write c i v).2.mem j = if j = i then some v else s.mem j) := by
  have hsz : s.size = l.length := by simp [DV.size, hs, hl]
  rw [← hl] at hm hw
  refine ⟨?_, ?_, ?_, hsz, ?_, ?_, ?_⟩
  · intro i hi
    have := hm i hi
    rw [List.getElem?_eq_getElem hi] at this
    simp [DV.at_, DV.index, DV.deref, this, hsz, hi]
  · intro v hv
    have hpos : 0 < l.length := by cases l <;> simp at hv ⊢
    have := hm 0 hpos
    rw [← List.head?_eq_getElem?, hv] at this
    simp [DV.front, hsz, hpos, DV.deref, this]
  · intro v hv
    have hne : l ≠ [] := by rintro rfl; simp at hv
    obtain ⟨w, hw', e⟩ := DV.back_ok hsz hw hne hm
    rw [hv] at hw'
    rw [e, Option.some.inj hw']
  · rw [DV.iterate, hsz]
    exact DV.readFrom_ok l.length rfl fun i hi => by rw [Nat.zero_add]; exact hm i hi
  · rw [DV.iterateBack, hsz]
    exact DV.readBack_ok l hm
  · intro c i v hi
    have := hm i hi
    rw [List.getElem?_eq_getElem hi] at this
    have e : s.write c i v = (.ok (), s.put i (some v)) := by simp [DV.write, hsz, hi, this]
    rw [e]
    exact ⟨rfl, fun j => rfl⟩

/-- A vector for the examples: two of five elements in use, destructors that do something. -/
def demoVec (dbg triv : Bool) : DV Nat :=
  { dbg, trivialDtor := triv, dflt := 0, junk := fun _ => 99, cap := 5, hasSize := true, sizeWord := 2,
    mem := fun i => if i < 2 then some (i + 7) else if i < 5 then none else some 1000 }

theorem demoVec_holds (dbg triv : Bool) :
    (demoVec dbg triv).Holds [7, 8] (fun i => if i < 2 then some (i + 7) else if i < 5 then none else some 1000) := by
  refine ⟨rfl, rfl, show 2 ≤ 5 by decide, show 5 < 2 ^ 32 by decide, ?_, ?_, fun _ _ => rfl⟩
  · intro i hi
    match i, hi with
    | 0, _ => rfl
    | 1, _ => rfl
  · intro _ i h1 h2
    have h1' : 2 ≤ i := h1
    have h2' : i < 5 := h2
    simp [demoVec, h2', Nat.not_lt.2 h1']

/-- The hypotheses of `c29_device_vector` are met by a program that changes the vector in several ways. -/
example : FitsAll false 0 5 [7, 8] [.push (.elem 0), .resize 4, .iterateBack] := by
  refine ⟨⟨rfl, by decide⟩, ?_⟩
  rintro r l' ⟨hv⟩
  cases Option.some.inj hv
  refine ⟨show 4 ≤ 5 by decide, ?_⟩
  rintro r l' ⟨⟩
  exact ⟨trivial, fun _ _ _ => trivial⟩

example : ((demoVec true false).run [.push (.elem 0), .resize 4, .iterateBack, .pop, .size, .iterate]).1 =
    [.ok (.num 2), .ok .unit, .ok (.vals [0, 7, 8, 7]), .ok (.num 3), .ok (.num 3), .ok (.vals [7, 8, 7])] := by
  decide +kernel

/-- Why `Fits` excludes it: `assign` given a reference to an own element reads it after its destruction. -/
theorem c29_assign_own_element : ((demoVec false false).assign 3 (.elem 1)).1 = .ub := by decide +kernel

/-- **C30**: any number of threads append to one vector and there is room for everything.  Under every schedule nothing
fails, and once all programs have finished, the result is that of running all calls one after the other in some order —
an order in which every thread's calls are in program order, and in which every call returns the index it did return. -/
theorem c30_concurrent_appends (s : DV α) (l : List α) (foreign : Nat → Option α) (h : s.Holds l foreign)
    (progs : List (List (ACall α))) (hfit : l.length + totalCount progs ≤ s.cap)
    (hargs : ∀ p ∈ progs, ∀ c ∈ p, c.Valid s.trivialDtor l) (sched : List Nat) :
    ((Conc.start s progs).run sched).failed = false ∧
    (((Conc.start s progs).run sched).Finished →
      ∃ (order : List (Nat × ACall α × Nat)) (l' : List α),
        (∀ i, (order.filter (·.1 = i)).map (·.2) = ((Conc.start s progs).run sched).results i) ∧
        (∀ i, (((Conc.start s progs).run sched).results i).map (·.1) = (progs[i]?).getD []) ∧
        VecRun s.dflt s.cap l (order.map (·.2.1.toOp)) (order.map fun x => .ok (.num x.2.2)) l' ∧
        ((Conc.start s progs).run sched).vec.Holds l' foreign) := by
  obtain ⟨o, hi⟩ := CInv.run h hfit hargs sched (CInv.start h progs)
  generalize (Conc.start s progs).run sched = g at hi ⊢
  refine ⟨hi.ok, fun hfin => ?_⟩
  have hcalls : ∀ (i : Nat) (t : Thread α), g.threads[i]? = some t → t.calls = t.done ∧ t.todo = [] := by
    intro i t ht
    obtain ⟨h1, h2⟩ := hfin t (List.mem_of_getElem? ht)
    simp [Thread.calls, h1, h2]
  have hmem : ∀ x ∈ o, ∃ t : Thread α, g.threads[x.1]? = some t ∧ x.2 ∈ t.done := by
    intro x hx
    have hlt : x.1 < g.threads.length := hi.len ▸ hi.ids x hx
    refine ⟨g.threads[x.1], List.getElem?_eq_getElem hlt, ?_⟩
    have h1 := List.getElem?_eq_getElem hlt
    rw [← (hcalls x.1 _ h1).1, ← hi.own x.1 _ h1]
    exact List.mem_map.2 ⟨x, List.mem_filter.2 ⟨hx, by simp⟩, rfl⟩
  have hclaim : claimed o = totalCount progs := by
    have hz : (g.threads.map fun t => (t.todo.map ACall.count).sum).sum = 0 := by
      rw [List.sum_eq_zero_iff_forall_eq_nat]
      intro n hn
      obtain ⟨t, ht, rfl⟩ := List.mem_map.1 hn
      rw [(hfin t ht).1]
      rfl
    have := hi.room
    omega
  obtain ⟨ext, h1, h2, h3⟩ := Chain.vecRun (dflt := s.dflt) (cap := s.cap) (l := l) (triv := s.trivialDtor)
    (mem := g.vec.mem) (o := o) (ext := []) (by simpa using hi.chain)
    (by
      intro x hx
      obtain ⟨t, ht, hd⟩ := hmem x hx
      have hp := hi.prog x.1 t ht
      refine hargs _ (List.mem_of_getElem? hp) _ (List.mem_append_left _ ?_)
      rw [(hcalls x.1 t ht).1]
      exact List.mem_map.2 ⟨x.2, hd, rfl⟩)
    (by
      intro x hx j hj
      obtain ⟨t, ht, hd⟩ := hmem x hx
      refine hi.doneOk x.1 t ht x.2.1 x.2.2 hd j ?_
      have := x.2.1.writes_le
      omega)
    (by simpa using hi.old)
  rw [List.append_nil] at h1 h2
  obtain ⟨k1, k2, k3, k4, k5, k6⟩ := hi.kind
  refine ⟨o, l ++ ext, ?_, ?_, h1, ?_⟩
  · intro i
    rw [Conc.results]
    cases ht : g.threads[i]? with
    | none =>
      have hge : g.threads.length ≤ i := List.getElem?_eq_none_iff.1 ht
      have : o.filter (·.1 = i) = [] := by
        rw [List.filter_eq_nil_iff]
        intro x hx
        have := hi.ids x hx
        have := hi.len
        simp only [decide_eq_true_eq]
        omega
      rw [this]
      rfl
    | some t =>
      rw [hi.own i t ht, (hcalls i t ht).1]
      rfl
  · intro i
    rw [Conc.results]
    cases ht : g.threads[i]? with
    | none =>
      have hge : g.threads.length ≤ i := List.getElem?_eq_none_iff.1 ht
      rw [List.getElem?_eq_none_iff.2 (hi.len ▸ hge)]
      rfl
    | some t =>
      have := hi.prog i t ht
      rw [(hcalls i t ht).1, (hcalls i t ht).2, List.append_nil] at this
      rw [this]
      rfl
  · refine ⟨k6.trans h.resizable, by rw [hi.size, h2], by rw [h2, hclaim, k5]; exact hfit, by rw [k5]; exact h.word,
      h3, ?_, ?_⟩
    · intro ht j hj hc
      rw [h2] at hj
      exact hi.raw (k2 ▸ ht) j hj (k5 ▸ hc)
    · intro j hj
      exact hi.out j (k5 ▸ hj)

/-- **C30**, spelled out: the final size; old elements; every call's range lies behind the old elements and within the
new size, no two calls' ranges overlap, and the elements in it are those the call appended. -/
theorem c30_spelled_out (s : DV α) (l : List α) (foreign : Nat → Option α) (h : s.Holds l foreign)
    (progs : List (List (ACall α))) (hfit : l.length + totalCount progs ≤ s.cap)
    (hargs : ∀ p ∈ progs, ∀ c ∈ p, c.Valid s.trivialDtor l) (sched : List Nat)
    (hfin : ((Conc.start s progs).run sched).Finished) :
    ((Conc.start s progs).run sched).vec.size = l.length + totalCount progs ∧
    (∀ i, i < l.length → ((Conc.start s progs).run sched).vec.mem i = l[i]?) ∧
    (∀ i, ∀ x ∈ ((Conc.start s progs).run sched).results i,
      l.length ≤ x.2 ∧ x.2 + x.1.count ≤ l.length + totalCount progs ∧
      ∀ v, x.1.value s.dflt l = some v → ∀ j, j < x.1.count →
        ((Conc.start s progs).run sched).vec.mem (x.2 + j) = some v) ∧
    (∀ i j (a b : Nat) (x y : ACall α × Nat), (i, a) ≠ (j, b) →
      (((Conc.start s progs).run sched).results i)[a]? = some x →
      (((Conc.start s progs).run sched).results j)[b]? = some y →
      x.2 + x.1.count ≤ y.2 ∨ y.2 + y.1.count ≤ x.2) := by
  obtain ⟨o, hi⟩ := CInv.run h hfit hargs sched (CInv.start h progs)
  generalize (Conc.start s progs).run sched = g at hi hfin ⊢
  have hcalls : ∀ (i : Nat) (t : Thread α), g.threads[i]? = some t → t.calls = t.done := by
    intro i t ht
    obtain ⟨h1, h2⟩ := hfin t (List.mem_of_getElem? ht)
    simp [Thread.calls, h2]
  have hclaim : claimed o = totalCount progs := by
    have hz : (g.threads.map fun t => (t.todo.map ACall.count).sum).sum = 0 := by
      rw [List.sum_eq_zero_iff_forall_eq_nat]
      intro n hn
      obtain ⟨t, ht, rfl⟩ := List.mem_map.1 hn
      rw [(hfin t ht).1]
      rfl
    have := hi.room
    omega
  have hres : ∀ (i a : Nat) (x : ACall α × Nat), (g.results i)[a]? = some x →
      ∃ t : Thread α, g.threads[i]? = some t ∧ t.calls[a]? = some x := by
    intro i a x hx
    rw [Conc.results] at hx
    cases ht : g.threads[i]? with
    | none => rw [ht] at hx; simp at hx
    | some t => rw [ht] at hx; exact ⟨t, rfl, by rw [hcalls i t ht]; exact hx⟩
  refine ⟨?_, hi.old, ?_, ?_⟩
  · simp only [DV.size, hi.kind.2.2.2.2.2, h.resizable, if_true, hi.size, hclaim]
  · intro i x hx
    obtain ⟨a, ha⟩ := List.mem_iff_getElem?.1 hx
    obtain ⟨t, ht, hc⟩ := hres i a x ha
    have hb := hi.bounds ht (List.mem_of_getElem? hc)
    rw [hclaim] at hb
    refine ⟨hb.1, hb.2, ?_⟩
    intro v hv j hj
    have hd : (x.1, x.2) ∈ t.done := hcalls i t ht ▸ List.mem_of_getElem? hc
    obtain ⟨w, hw, hw'⟩ := hi.doneOk i t ht x.1 x.2 hd j (by have := x.1.writes_le; omega)
    rw [hw, hw' v hv]
  · intro i j a b x y hne hx hy
    obtain ⟨t, ht, hx⟩ := hres i a x hx
    obtain ⟨u, hu, hy⟩ := hres j b y hy
    by_cases hij : i = j
    · subst hij
      rw [ht] at hu
      cases hu
      have hab : a ≠ b := fun e => hne (by rw [e])
      have ho := List.pairwise_iff_getElem.1 (hi.ordered ht)
      obtain ⟨ha, rfl⟩ := List.getElem?_eq_some_iff.1 hx
      obtain ⟨hb, rfl⟩ := List.getElem?_eq_some_iff.1 hy
      rcases Nat.lt_or_gt_of_ne hab with hlt | hlt
      · exact .inl (ho a b ha hb hlt)
      · exact .inr (ho b a hb ha hlt)
    · exact hi.apart ht hu hij (List.mem_of_getElem? hx) (List.mem_of_getElem? hy)

/-- **C30**, why the steps may be looked at one at a time: at no point of any schedule are two threads about to write the
same cell, and none is about to write a cell of an old element (which others may read). -/
theorem c30_no_races (s : DV α) (l : List α) (foreign : Nat → Option α) (h : s.Holds l foreign)
    (progs : List (List (ACall α))) (hfit : l.length + totalCount progs ≤ s.cap)
    (hargs : ∀ p ∈ progs, ∀ c ∈ p, c.Valid s.trivialDtor l) (sched : List Nat) :
    (∀ (i : Nat) t p, ((Conc.start s progs).run sched).threads[i]? = some t → t.target = some p →
      l.length ≤ p ∧ p < s.cap) ∧
    (∀ (i j : Nat) t u p q, ((Conc.start s progs).run sched).threads[i]? = some t →
      ((Conc.start s progs).run sched).threads[j]? = some u → i ≠ j →
      t.target = some p → u.target = some q → p ≠ q) := by
  obtain ⟨o, hi⟩ := CInv.run h hfit hargs sched (CInv.start h progs)
  generalize (Conc.start s progs).run sched = g at hi ⊢
  have hw := h.word
  have htar : ∀ (i : Nat) (t : Thread α) p, g.threads[i]? = some t → t.target = some p →
      ∃ c idx k, (c, idx) ∈ t.calls ∧ p = idx + k ∧ k < c.count ∧ l.length ≤ idx ∧ idx + c.count ≤ s.cap := by
    intro i t p ht hp
    rw [Thread.target] at hp
    cases hph : t.phase with
    | writing c idx k =>
      rw [hph] at hp
      simp only at hp
      by_cases hk : k < c.writes
      · rw [if_pos hk] at hp
        have hm : (c, idx) ∈ t.calls := by simp [Thread.calls, hph]
        have hb := hi.bounds ht hm
        have hr := hi.room
        have hl := c.writes_le
        simp only at hb
        rw [Nat.mod_eq_of_lt (by omega)] at hp
        exact ⟨c, idx, k, hm, (Option.some.inj hp).symm, by omega, hb.1, by omega⟩
      · rw [if_neg hk] at hp; cases hp
    | _ => rw [hph] at hp; cases hp
  refine ⟨?_, ?_⟩
  · intro i t p ht hp
    obtain ⟨c, idx, k, -, rfl, h1, h2, h3⟩ := htar i t p ht hp
    omega
  · intro i j t u p q ht hu hij hp hq
    obtain ⟨c, idx, k, hm, rfl, h1, -, -⟩ := htar i t p ht hp
    obtain ⟨c', idx', k', hm', rfl, h1', -, -⟩ := htar j u q hu hq
    have := hi.apart ht hu hij hm hm'
    simp only at this
    omega

/-- The hypotheses are met by two threads whose calls interleave, and the run finishes. -/
example : [7, 8].length + totalCount [[ACall.push (.val 1)], [.bulkValue 2 (.elem 1)]] ≤ (demoVec true false).cap := by
  decide

def demoConc : Conc Nat :=
  (Conc.start (demoVec true false) [[ACall.push (.val 1)], [.bulkValue 2 (.elem 1)]]).run [1, 0, 0, 1, 1, 0, 1, 0, 1]

example : demoConc.vec.iterate = .ok [7, 8, 8, 8, 1] ∧ (demoConc.results 0).map (·.2) = [4] ∧
    (demoConc.results 1).map (·.2) = [2] ∧ demoConc.threads.map (fun t => t.todo.length) = [0, 0] := by
  decide +kernel

/-- **C31**, with assertions enabled: whatever the threads append, under every schedule, no cell outside the payload is
written; and if all finish without an assertion failing, the size does not exceed the capacity.

Missing: without assertions both fail (`c31_release_push`), and with them a `bulk_append_implicit` whose 32-bit sum
wraps is accepted (`c31_debug_wrap`). -/
theorem c31_appends_contained_partial (s : DV α) (hd : s.dbg = true) (hw : s.cap < 2 ^ 32) (hs : s.size ≤ s.cap)
    (progs : List (List (ACall α))) (sched : List Nat) :
    (∀ i, s.cap ≤ i → ((Conc.start s progs).run sched).vec.mem i = s.mem i) ∧
    (((Conc.start s progs).run sched).failed = false → ((Conc.start s progs).run sched).Finished →
      ((Conc.start s progs).run sched).vec.size ≤ s.cap) := by
  have h0 : DInv s (Conc.start s progs) :=
    ⟨.refl s, fun _ hz => .inl (show s.sizeWord ≤ s.cap by simpa [DV.size, hz] using hs)⟩
  have hi := h0.run hd hw sched
  generalize (Conc.start s progs).run sched = g at hi ⊢
  refine ⟨hi.inside.2, fun hf hfin => ?_⟩
  obtain ⟨k1, k2, k3, k4, k5, k6⟩ := hi.inside.1
  cases hz : s.hasSize with
  | false =>
    have : g.vec.size = g.vec.cap := by simp [DV.size, k6, hz]
    omega
  | true =>
    have : g.vec.size = g.vec.sizeWord := by simp [DV.size, k6, hz]
    rw [this]
    rcases hi.size hf hz with h | ⟨i, t, c, idx, ht, hp, -⟩
    · exact h
    · have := (hfin t (List.mem_of_getElem? ht)).2
      rw [hp] at this
      cases this

/-- Without assertions: appending to a full vector writes behind the payload, and the size exceeds the capacity. -/
theorem c31_release_push :
    let s : DV Nat := { demoVec false true with sizeWord := 5, mem := fun i => some i }
    (s.pushBack (.val 77)).1 = .ok 5 ∧ (s.pushBack (.val 77)).2.mem 5 = some 77 ∧ s.mem 5 = some 5 ∧
      (s.pushBack (.val 77)).2.size > s.cap := by
  decide +kernel

/-- Without assertions: `pop_back` on an empty vector makes the size 4294967295. -/
theorem c31_release_pop :
    let s : DV Nat := { demoVec false true with sizeWord := 0 }
    s.popBack.1 = .ok 4294967295 ∧ s.popBack.2.size = 4294967295 := by
  decide +kernel

/-- With assertions: the sum in `bulk_append_implicit` wraps; the call returns an index although its range does not
fit, and the size shrinks. -/
theorem c31_debug_wrap :
    let s : DV Nat := { demoVec true true with sizeWord := 4 }
    (s.bulkAppendImplicit 4294967293).1 = .ok 4 ∧ (s.bulkAppendImplicit 4294967293).2.size = 1 := by
  decide +kernel

end Props
end Vecmem
