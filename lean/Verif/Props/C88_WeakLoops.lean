import Verif.Lemmas.WeakLoops
import Verif.Props.C86_WeakCounters

/-!
# C88: variables that many threads change in loops with `compare_exchange_strong`, on weak memory
-/

namespace Vecmem.Props

open Vecmem

variable {w : Nat} {I : WImpl w} {m : AMem w} {input : Nat → Bool} {progs : List (LoopProg w)} {s : WRun w} {n : Nat}

/-- The programs of the threads, which try at most `n` times in each loop. -/
def loopCode (n : Nat) (progs : List (LoopProg w)) (i : Nat) : WProg w := (progs[i]?.getD .done).code n

theorem loops_get (hp : ∀ p ∈ progs, p.Loops input) (i : Nat) : (progs[i]?.getD .done).Loops input := by
  cases h : progs[i]? with
  | none => trivial
  | some p => exact hp p (List.mem_of_getElem? h)

/-- **C88**: if threads read inputs, which no thread changes, and change other variables by loops that load a value `x` and try to replace it by `f x` with `compare_exchange_strong`, then, when all threads have come
to their ends, there is one order of all changes that the threads make, with the initial values of the inputs, such that each variable has what they make of its initial value in this order: none is lost, and none is
made twice. -/
theorem c88_loops (hI : I = posixWeak ∨ I = cudaWeak ∨ I = syclWeak ∨ I = syclBuiltinWeak) (hp : ∀ p ∈ progs, p.Loops input)
    (h : WRun.Reach I m (loopCode n progs) s) (hd : ∀ i, s.prog i = .done) :
    ∃ us, us.Perm (progs.flatMap (·.updates m)) ∧ ∀ a x, s.sys.trace.Final m a x ↔ x = applied a us (m a) := by
  have hc := loops_get hp
  obtain ⟨hcor, -⟩ := c73_values I hI h.sys
  have hreads := c82_reads hI (ro := input) (fun i => loop_onlyReads (hc i)) h
  have hthread : ∀ e ∈ s.sys.trace, e.thread < progs.length := by
    intro e he
    by_contra hlt
    obtain ⟨k, hk⟩ := List.getElem?_of_mem he
    have h1 := h.after e.thread
    have h2 : loopCode n progs e.thread = .done := by simp [loopCode, List.getElem?_eq_none (Nat.le_of_not_lt hlt), LoopProg.code]
    rw [h2] at h1
    have h3 : (e, k) ∈ s.sys.trace.own e.thread := mem_own.2 ⟨hk, rfl⟩
    cases ho : s.sys.trace.own e.thread with
    | nil => rw [ho] at h3; cases h3
    | cons y l => rw [ho] at h1; cases h1
  have hno : ∀ a, s.sys.trace.NoStores a := by
    intro a e he _
    obtain ⟨k, hk⟩ := List.getElem?_of_mem he
    rcases loop_loopy _ (h.after e.thread) (e, k) (mem_own.2 ⟨hk, rfl⟩) with h1 | h1 | ⟨x, d, h1⟩ <;> rw [h1] <;> exact ⟨fun x => by simp, fun x o => by simp⟩
  have hof : ∀ i, List.Forall₂ Made ((s.sys.trace.of i).filter (·.wrote.isSome)) ((progs[i]?.getD .done).updates m) := by
    intro i
    rw [← own_map]
    exact loop_made (hc i) (by have := h.after i; rw [hd i] at this; exact this) (fun y hy => hcor y.1 (List.mem_of_getElem? (mem_own.1 hy).1)) fun y hy hin =>
      (hreads y.1 (List.mem_of_getElem? (mem_own.1 hy).1) hin).2.2
  have hall := forall₂_flatMap (l := List.range progs.length) fun i _ => hof i
  have heq : (List.range progs.length).flatMap (fun i => (progs[i]?.getD .done).updates m) = progs.flatMap (·.updates m) := by
    have := map_range_getD (β := LoopProg w) progs .done id
    rw [List.map_id] at this
    conv_rhs => rw [← this]
    rw [List.flatMap_map]
    rfl
  rw [heq] at hall
  have hperm : (s.sys.trace.filter (·.wrote.isSome)).Perm ((List.range progs.length).flatMap fun i => (s.sys.trace.of i).filter (·.wrote.isSome)) := by
    have := ((of_perm hthread).filter (·.wrote.isSome)).symm
    rwa [List.filter_flatMap] at this
  obtain ⟨us, h1, h2⟩ := List.perm_comp_forall₂ hperm hall
  refine ⟨us, h2, fun a x => ?_⟩
  obtain ⟨h3, h4⟩ := c86_one_after_other hI h.sys (hno a)
  rw [h4, result_applied h1 h3]

/-- C88: if it does not matter in which order the changes of a variable are made, then the variable has what all make of it. -/
theorem c88_any_order (hI : I = posixWeak ∨ I = cudaWeak ∨ I = syclWeak ∨ I = syclBuiltinWeak) (hp : ∀ p ∈ progs, p.Loops input)
    (h : WRun.Reach I m (loopCode n progs) s) (hd : ∀ i, s.prog i = .done) {a : Nat}
    (hcomm : ∀ f g, (a, f) ∈ progs.flatMap (·.updates m) → (a, g) ∈ progs.flatMap (·.updates m) → ∀ x, f (g x) = g (f x)) (x : BitVec w) :
    s.sys.trace.Final m a x ↔ x = applied a (progs.flatMap (·.updates m)) (m a) := by
  obtain ⟨us, h1, h2⟩ := c88_loops hI hp h hd
  rw [h2]
  have : applied a us (m a) = applied a (progs.flatMap (·.updates m)) (m a) := by
    unfold applied
    refine (h1.filter _).foldl_eq' (fun u hu v hv z => ?_) _
    simp only [List.mem_filter, decide_eq_true_eq] at hu hv
    obtain ⟨u1, rfl⟩ := hu
    obtain ⟨v1, v2⟩ := hv
    exact (hcomm u.2 v.2 (h1.mem_iff.1 u1) (v2 ▸ h1.mem_iff.1 v1) z).symm
  rw [this]

/-- C88: such threads can all come to their ends, if they may try at least once. -/
theorem c88_runs (hI : I = posixWeak ∨ I = cudaWeak ∨ I = syclWeak ∨ I = syclBuiltinWeak) (m : AMem w) (progs : List (LoopProg w)) (n : Nat) :
    ∃ s, WRun.Reach I m (loopCode (n + 1) progs) s ∧ ∀ i, s.prog i = .done := by
  have key : ∀ k, ∃ s, WRun.Reach I m (loopCode (n + 1) progs) s ∧ (∀ i, i < k → s.prog i = .done) ∧ ∀ i, k ≤ i → s.prog i = loopCode (n + 1) progs i := by
    intro k
    induction k with
    | zero => exact ⟨_, .start, fun i hi => absurd hi (by omega), fun _ _ => rfl⟩
    | succ k ih =>
      obtain ⟨s1, h1, h2, h3⟩ := ih
      obtain ⟨s2, h4, h5⟩ := loop_finish hI (i := k) (n := n) (progs[k]?.getD .done) h1 (h3 k (Nat.le_refl _))
      refine ⟨s2, h1.steps h4, fun i hi => ?_, fun i hi => ?_⟩
      · rw [h5]
        by_cases hik : i = k
        · rw [hik, WSys.set_same]
        · rw [WSys.set_ne _ _ hik]; exact h2 i (by omega)
      · rw [h5, WSys.set_ne _ _ (by omega)]
        exact h3 i (by omega)
  obtain ⟨s, h1, h2, h3⟩ := key progs.length
  refine ⟨s, h1, fun i => ?_⟩
  by_cases hi : i < progs.length
  · exact h2 i hi
  · rw [h3 i (by omega)]
    simp [loopCode, List.getElem?_eq_none (Nat.le_of_not_lt hi), LoopProg.code]

/-! ## A maximum -/

/-- A thread for each of `k` values, which reads its value from variable `X i`, and replaces the value of variable `c` by the maximum of both. -/
def maxThreads (X : Nat → Nat) (c k : Nat) : List (LoopProg w) := (List.range k).map fun i => .read (X i) fun x => .update c (fun y => if y.toNat < x.toNat then x else y) .done

theorem max_loops {X : Nat → Nat} {c k : Nat} (hX : ∀ i, X i ≠ c) : ∀ p ∈ maxThreads (w := w) X c k, p.Loops fun a => decide (a ≠ c) := by
  intro p hp
  obtain ⟨i, -, rfl⟩ := List.mem_map.1 hp
  exact ⟨by simpa using hX i, fun x => ⟨by simp, trivial⟩⟩

theorem max_updates (X : Nat → Nat) (c k : Nat) (m : AMem w) :
    (maxThreads X c k).flatMap (·.updates m) = (List.range k).map fun i => (c, fun y : BitVec w => if y.toNat < (m (X i)).toNat then m (X i) else y) := by
  simp only [maxThreads, List.flatMap_map, LoopProg.updates]
  rw [List.map_eq_flatMap]

/-- C88, end to end: threads that replace the value of a variable by its maximum with a value of their own, with a loop each, leave in it the maximum of its initial value and of all values; however they run, on weak
memory. -/
theorem c88_max (hI : I = posixWeak ∨ I = cudaWeak ∨ I = syclWeak ∨ I = syclBuiltinWeak) {X : Nat → Nat} {c k : Nat} (hX : ∀ i, X i ≠ c)
    (h : WRun.Reach I m (loopCode n (maxThreads X c k)) s) (hd : ∀ i, s.prog i = .done) (x : BitVec w) :
    s.sys.trace.Final m c x ↔ x.toNat = ((List.range k).map fun i => (m (X i)).toNat).foldl max (m c).toNat := by
  rw [c88_any_order hI (max_loops hX) h hd]
  · rw [max_updates]
    have key : ∀ (l : List Nat) (v : BitVec w), (applied c (l.map fun i => (c, fun y : BitVec w => if y.toNat < (m (X i)).toNat then m (X i) else y)) v).toNat =
        (l.map fun i => (m (X i)).toNat).foldl max v.toNat := by
      intro l
      induction l with
      | nil => intro v; rfl
      | cons i l ih =>
        intro v
        unfold applied at ih ⊢
        rw [List.map_cons, List.filter_cons_of_pos (by simp), List.foldl_cons, ih, List.map_cons, List.foldl_cons]
        congr 1
        dsimp only
        split <;> omega
    rw [← key]
    exact ⟨fun h => by rw [h], fun h => BitVec.eq_of_toNat_eq h⟩
  · intro f g hf hg y
    rw [max_updates] at hf hg
    obtain ⟨i, -, hf⟩ := List.mem_map.1 hf
    obtain ⟨j, -, hg⟩ := List.mem_map.1 hg
    simp only [Prod.mk.injEq, true_and] at hf hg
    subst hf hg
    apply BitVec.eq_of_toNat_eq
    have hmax : ∀ a b : BitVec w, (if a.toNat < b.toNat then b else a).toNat = max a.toNat b.toNat := fun a b => by split <;> omega
    rw [hmax, hmax, hmax, hmax]
    omega

/-- The hypotheses are met: five threads, with the values 1, 3, 5, 7 and 9 and two tries each, and a variable with the value 4; they can be run, and leave the value 9. -/
example : ∃ s : WRun 32, WRun.Reach cudaWeak (fun a => if a = 0 then 4 else BitVec.ofNat 32 a) (loopCode 2 (maxThreads (fun i => 2 * i + 1) 0 5)) s ∧ (∀ i, s.prog i = .done) ∧
    s.sys.trace.Final (fun a => if a = 0 then 4 else BitVec.ofNat 32 a) 0 9 := by
  have hI : (cudaWeak : WImpl 32) = posixWeak ∨ (cudaWeak : WImpl 32) = cudaWeak ∨ (cudaWeak : WImpl 32) = syclWeak ∨ (cudaWeak : WImpl 32) = syclBuiltinWeak := .inr (.inl rfl)
  obtain ⟨s, h1, h2⟩ := c88_runs hI (fun a => if a = 0 then 4 else BitVec.ofNat 32 a) (maxThreads (fun i => 2 * i + 1) 0 5) 1
  exact ⟨s, h1, h2, (c88_max hI (fun i => by omega) h1 h2 9).2 (by decide)⟩

/-- C88 is false for loops with `vecmem::atomic` in device code: a single thread, which adds one to a variable with the value 0 in such a loop, can leave 2 in it.  Its first exchange has succeeded, but has returned the
old value, 0, which means that it has not. -/
theorem c88_atomic_class_false (n : Nat) : ∃ s : WRun 32, WRun.Reach cudaWeak (fun _ => 0) (fun i => if i = 0 then tryUpdateClass 0 (fun x => x + 1) .done (n + 2) else .done) s ∧ (∀ i, s.prog i = .done) ∧
    ∀ x, s.sys.trace.Final (fun _ => 0) 0 x ↔ x = 2 := by
  have hI : (cudaWeak : WImpl 32) = posixWeak ∨ (cudaWeak : WImpl 32) = cudaWeak ∨ (cudaWeak : WImpl 32) = syclWeak ∨ (cudaWeak : WImpl 32) = syclBuiltinWeak := .inr (.inl rfl)
  have h0 : WRun.Reach (cudaWeak : WImpl 32) (fun _ => 0) (fun i => if i = 0 then tryUpdateClass 0 (fun x => x + 1) .done (n + 2) else .done) _ := .start
  obtain ⟨c1, l1, l2⟩ := load_code hI
  have key : ∀ (x : BitVec 32) (next : WProg 32) (k : Nat) (s : WRun 32), WRun.Reach cudaWeak (fun _ => 0) (fun i => if i = 0 then tryUpdateClass 0 (fun x => x + 1) .done (n + 2) else .done) s →
      s.prog 0 = tryUpdateClass 0 (fun x => x + 1) .done (k + 1) → s.sys.Latest 0 x → (if some x = some 0 then tryUpdateClass 0 (fun x => x + 1) .done k else .done) = next →
      ∃ s' t1 t2, Relation.ReflTransGen (WRun.Step cudaWeak) s s' ∧ s'.prog = WSys.set s.prog 0 next ∧ s'.sys.Latest 0 (x + 1) ∧
        s'.sys.trace = s.sys.trace ++ [⟨0, 0, .atomic .load none, some (t1, x), none⟩, ⟨0, 0, .atomic (.compareExchange x (x + 1)) none, some (t2, x), some (t2 + 1, x + 1)⟩] := by
    intro x next k s h hp hx hn
    obtain ⟨s1, a1, a2, a3, t1, a4⟩ := h.load_latest hp l1 l2 hx
    obtain ⟨c2, g, q1, q2, q3, d1, d2, d3⟩ := compare_code hI x (x + 1)
    obtain ⟨s2, b1, b2, b3, t2, b4⟩ := (h.steps a1).update_latest (i := 0) (a := 0) (by rw [a2, WSys.set_same]; rfl) d1 d2 a3 d3
    refine ⟨s2, t1, t2, a1.trans b1, ?_, b3, ?_⟩
    · rw [b2, a2, set_set, hn]
    · rw [b4, a4, List.append_assoc]; rfl
  obtain ⟨s1, t1, t2, a1, a2, a3, a4⟩ := key 0 _ (n + 1) _ h0 rfl ⟨0, _, rfl, rfl, fun u hu => if_neg (by omega)⟩ rfl
  obtain ⟨s2, t3, t4, b1, b2, b3, b4⟩ := key (0 + 1) .done n s1 (h0.steps a1) (by rw [a2, WSys.set_same]; rfl) a3 rfl
  have hr := (h0.steps a1).steps b1
  have htr : s2.sys.trace = [⟨0, 0, .atomic .load none, some (t1, 0), none⟩, ⟨0, 0, .atomic (.compareExchange 0 (0 + 1)) none, some (t2, 0), some (t2 + 1, 0 + 1)⟩,
      ⟨0, 0, .atomic .load none, some (t3, 0 + 1), none⟩, ⟨0, 0, .atomic (.compareExchange (0 + 1) (0 + 1 + 1)) none, some (t4, 0 + 1), some (t4 + 1, 0 + 1 + 1)⟩] := by
    rw [b4, a4]; rfl
  refine ⟨s2, hr, fun i => ?_, fun x => ?_⟩
  · rw [b2, a2, set_set]
    unfold WSys.set
    split
    · rfl
    · next hi => exact if_neg hi
  · have hno : s2.sys.trace.NoStores 0 := by
      rw [htr]
      intro e he _
      simp only [List.mem_cons, List.not_mem_nil, or_false] at he
      rcases he with rfl | rfl | rfl | rfl <;> exact ⟨fun x => by simp, fun x o => by simp⟩
    rw [(c86_one_after_other hI hr.sys hno).2, htr]
    have : WTrace.result 0 ([⟨0, 0, .atomic .load none, some (t1, 0), none⟩, ⟨0, 0, .atomic (.compareExchange 0 (0 + 1)) none, some (t2, 0), some (t2 + 1, 0 + 1)⟩,
      ⟨0, 0, .atomic .load none, some (t3, 0 + 1), none⟩, ⟨0, 0, .atomic (.compareExchange (0 + 1) (0 + 1 + 1)) none, some (t4, 0 + 1), some (t4 + 1, 0 + 1 + 1)⟩] : WTrace 32) 0 = 2 := rfl
    rw [this]

/-- The order can matter: a change that doubles a value and one that adds one. -/
example : applied 0 [(0, fun x => x + x), (0, fun x => x + 1)] (1 : BitVec 8) = 3 ∧ applied 0 [(0, fun x => x + 1), (0, fun x => x + x)] (1 : BitVec 8) = 4 := by decide

end Vecmem.Props
