import Verif.Lemmas.Atomics

/-!
# C46, C47: atomic references
-/

namespace Vecmem.Props

open Vecmem

variable {w : Nat}

/-! ## the implementations with atomic instructions -/

/-- C46: with the CUDA, HIP, SYCL and POSIX references and `vecmem::atomic` in SYCL code, all operations of all threads on all variables are atomic: under every
schedule there is an order in which they can have happened one by one.  The order only grows in time, so an operation that
has returned comes before one that is called later.
Missing: the other implementations, which are not atomic (`c46_dummy_lost_update`, `c46_dummy_load`,
`c46_host_lost_update`), and `sycl::atomic_ref` and `std::atomic_ref`, which are not part of the library. -/
theorem c46_atomic_partial (I : AImpl w) (hI : I = cudaRef ∨ I = posixRef ∨ I = syclRef ∨ I = atomicSycl) (m : AMem w)
    (progs : List (List (ACallAt w))) (sched₁ sched₂ : List Nat) :
    ∃ o₁ o₂, Linearizes m ((ASys.start I m progs).run sched₁) o₁ ∧
      Linearizes m ((ASys.start I m progs).run (sched₁ ++ sched₂)) (o₁ ++ o₂) := by
  have : I = .oneAccess fun op v => op.spec v := by
    rcases hI with rfl | rfl | rfl | rfl
    · exact cudaRef_eq
    · exact posixRef_eq
    · exact syclRef_eq
    · exact atomicSycl_eq
  subst this
  exact oneAccess_linearizable _ m progs (fun _ _ _ _ _ => rfl) sched₁ sched₂

/-- C46: the same for `vecmem::atomic` in CUDA and HIP code, for programs without `compare_exchange_strong`. -/
theorem c46_atomic_class_partial (m : AMem w) (progs : List (List (ACallAt w)))
    (hc : ∀ p ∈ progs, ∀ c ∈ p, ∀ e d, c.op ≠ .compareExchange e d) (sched₁ sched₂ : List Nat) :
    ∃ o₁ o₂, Linearizes m ((ASys.start atomicCuda m progs).run sched₁) o₁ ∧
      Linearizes m ((ASys.start atomicCuda m progs).run (sched₁ ++ sched₂)) (o₁ ++ o₂) := by
  refine oneAccess_linearizable _ m progs ?_ sched₁ sched₂
  intro p hp c hcp v
  have := hc p hp c hcp
  cases e : c.op with
  | compareExchange a b => exact absurd e (this a b)
  | _ => rfl

/-! ## claiming indices -/

/-- C46: threads that add 1 to a variable, again and again, get different values, and no increment is lost: the values
returned are `v`, `v + 1` up to the number of operations, each once. (This is what the functions that append to vectors use.) -/
theorem c46_claim_indices (I : AImpl w) (hI : I = cudaRef ∨ I = posixRef ∨ I = syclRef ∨ I = atomicSycl) (m : AMem w) (a : Nat)
    (progs : List (List (ACallAt w))) (hp : ∀ p ∈ progs, ∀ c ∈ p, c = ⟨a, .fetchAdd 1⟩) (sched : List Nat)
    (hfin : ((ASys.start I m progs).run sched).Finished) :
    let n := (progs.map List.length).sum
    ((ASys.start I m progs).run sched).mem a = m a + BitVec.ofNat w n ∧
      (((ASys.start I m progs).run sched).threads.flatMap fun t => t.done.map (·.ret)).Perm
        ((List.range n).map fun k => .val (m a + BitVec.ofNat w k)) := by
  have : I = .oneAccess fun op v => op.spec v := by
    rcases hI with rfl | rfl | rfl | rfl
    · exact cudaRef_eq
    · exact posixRef_eq
    · exact syclRef_eq
    · exact atomicSycl_eq
  subst this
  intro n
  obtain ⟨_, o, hi⟩ := (LInv.start (fun op v => op.spec v) m progs).run (fun _ _ _ _ _ => rfl)
    (start_fresh _ m progs) sched
  rw [List.nil_append] at hi
  generalize (ASys.start (AImpl.oneAccess fun op v => op.spec v) m progs).run sched = g at hi hfin ⊢
  have hpend : ∀ t ∈ g.threads, t.pending = [] := by
    intro t ht
    simp [AThread.pending, (hfin t ht).2]
  have hperm : (o.map (·.2)).Perm (g.threads.flatMap fun t => t.done) := by
    refine hi.perm.trans (List.Perm.of_eq ?_)
    refine List.flatMap_congr ?_
    intro t ht
    simp [hpend t ht]
  have hcall : ∀ (i : Nat) (t : AThread (AImpl.oneAccess fun op v => op.spec v)), g.threads[i]? = some t →
      t.done.map (·.call) = (progs[i]?).getD [] := by
    intro i t ht
    have hm := List.mem_of_getElem? ht
    rw [hi.prog i t ht]
    simp [AThread.begun, (hfin t hm).1, (hfin t hm).2]
  have hlen : (g.threads.flatMap fun t => t.done).length = n := by
    rw [List.length_flatMap]
    have : g.threads.map (fun t => t.done.length) = progs.map List.length := by
      apply List.ext_getElem?
      intro i
      simp only [List.getElem?_map]
      cases e : g.threads[i]? with
      | none =>
        have : progs[i]? = none := by
          rw [List.getElem?_eq_none_iff] at *
          rw [← hi.len]; exact e
        simp [this]
      | some t =>
        have hl : i < progs.length := hi.len ▸ (List.getElem?_eq_some_iff.1 e).1
        have h1 := hcall i t e
        rw [List.getElem?_eq_getElem hl] at *
        simp only [Option.getD_some] at h1
        simp only [Option.map_some, ← h1, List.length_map]
    rw [this]
  have hol : (o.map (·.2)).length = n := by rw [hperm.length_eq, hlen]
  have hadd : ∀ x ∈ o.map (·.2), x.call = ⟨a, .fetchAdd 1⟩ := by
    intro x hx
    obtain ⟨t, ht, hxt⟩ := List.mem_flatMap.1 (hperm.mem_iff.1 hx)
    obtain ⟨i, hti⟩ := List.getElem?_of_mem ht
    have h1 := hcall i t hti
    have hl : i < progs.length := hi.len ▸ (List.getElem?_eq_some_iff.1 hti).1
    rw [List.getElem?_eq_getElem hl] at h1
    simp only [Option.getD_some] at h1
    exact hp progs[i] (List.getElem_mem hl) x.call (by rw [← h1]; exact List.mem_map_of_mem hxt)
  obtain ⟨h1, h2⟩ := oneByOne_adds hi.seq a hadd
  rw [hol] at h1 h2
  refine ⟨h1, ?_⟩
  have e : (g.threads.flatMap fun t => t.done.map (·.ret)) = (g.threads.flatMap fun t => t.done).map (·.ret) := by
    rw [List.map_flatMap]
  rw [e]
  refine (hperm.symm.map _).trans (List.Perm.of_eq ?_)
  rw [h2, List.map_map]
  rfl

/-- Two threads that add 1, and a schedule after which they are done. -/
example : (∀ p ∈ [[(⟨0, .fetchAdd 1⟩ : ACallAt 32)], [⟨0, .fetchAdd 1⟩]], ∀ c ∈ p, c = ⟨0, .fetchAdd 1⟩) ∧
    ((ASys.start cudaRef (fun _ => 5) [[(⟨0, .fetchAdd 1⟩ : ACallAt 32)], [⟨0, .fetchAdd 1⟩]]).run [0, 1, 1, 0, 1, 0]).Finished := by
  refine ⟨by simp, ?_⟩
  have e : ((ASys.start cudaRef (fun _ => 5) [[(⟨0, .fetchAdd 1⟩ : ACallAt 32)], [⟨0, .fetchAdd 1⟩]]).run
      [0, 1, 1, 0, 1, 0]).threads =
      [⟨[], none, [⟨⟨0, .fetchAdd 1⟩, .val 6⟩]⟩, ⟨[], none, [⟨⟨0, .fetchAdd 1⟩, .val 5⟩]⟩] := rfl
  intro t ht
  rw [e] at ht
  simp at ht
  rcases ht with rfl | rfl <;> simp

/-! ## not interrupted -/

/-- C46, C47: an operation that is not interrupted by other threads does what it is meant to do, with any of the
implementations. (Operations of other threads may be anywhere.)  `vecmem::atomic` in CUDA and HIP code is excepted, for
`compare_exchange_strong`. -/
theorem c46_alone (I : AImpl w) 
    (hI : I = cudaRef ∨ I = posixRef ∨ I = syclRef ∨ I = atomicSycl ∨ I = atomicHost ∨ I = dummyRef) (op : AOp w) :
    AImpl.WorksAlone I op := by
  apply Alone.works
  intro v
  have one : ∃ n, Alone (AImpl.oneAccess fun op v => op.spec v) v (.inl op) n (op.spec v).1 (op.spec v).2 :=
    ⟨1, .access rfl (.ret rfl)⟩
  rcases hI with rfl | rfl | rfl | rfl | rfl | rfl
  · rw [cudaRef_eq]; exact one
  · rw [posixRef_eq]; exact one
  · rw [syclRef_eq]; exact one
  · rw [atomicSycl_eq]; exact one
  · cases op with
    | load => exact ⟨1, .access rfl (.ret rfl)⟩
    | store x => exact ⟨1, .access rfl (.ret rfl)⟩
    | exchange x => exact ⟨2, .access rfl (.access rfl (.ret rfl))⟩
    | compareExchange e d =>
      by_cases h : v = e
      · refine ⟨2, .access rfl ?_⟩
        simp only [h, if_true, AOp.spec]
        exact .access rfl (.ret rfl)
      · refine ⟨2, .access rfl ?_⟩
        simp only [h, if_false, AOp.spec]
        exact .access rfl (.ret rfl)
    | fetchAdd x => exact ⟨3, .access rfl (.access rfl (.access rfl (.ret rfl)))⟩
    | fetchSub x => exact ⟨3, .access rfl (.access rfl (.access rfl (.ret rfl)))⟩
    | fetchAnd x => exact ⟨3, .access rfl (.access rfl (.access rfl (.ret rfl)))⟩
    | fetchOr x => exact ⟨3, .access rfl (.access rfl (.access rfl (.ret rfl)))⟩
    | fetchXor x => exact ⟨3, .access rfl (.access rfl (.access rfl (.ret rfl)))⟩
  · -- one call to `compare_exchange_strong`
    have cas : ∀ (e d : BitVec w) (k : DummyCont w) (n : Nat) (v' : BitVec w) (r : ARet w),
        Alone dummyRef (if v = e then d else v) (k.returned (decide (v = e)) v) n v' r →
        ∃ n, Alone dummyRef v (.reading e d k) n v' r := by
      intro e d k n v' r h
      by_cases he : v = e
      · subst he
        refine ⟨n + 2, .access rfl ?_⟩
        simp only [if_true]
        refine .access rfl ?_
        simpa using h
      · refine ⟨n + 1, .access rfl ?_⟩
        simpa [he] using h
    have loop : ∀ op : AOp w, ∃ n, Alone dummyRef v (.reading v (op.update v) (.loop op)) n (op.update v) (op.loopRet v) := by
      intro op
      refine cas _ _ _ 0 _ _ ?_
      simp only [if_true, DummyCont.returned, decide_true]
      exact .ret rfl
    have first : ∀ op : AOp w, ∃ n, Alone dummyRef v (.reading 0 0 (.first op)) n (op.update v) (op.loopRet v) := by
      intro op
      obtain ⟨n, h⟩ := loop op
      refine cas 0 0 (.first op) n _ _ ?_
      have e : (if v = 0 then (0 : BitVec w) else v) = v := by split <;> simp_all
      rw [e]
      exact h
    cases op with
    | load =>
      refine cas 0 0 .load 0 _ _ ?_
      have e : (if v = 0 then (0 : BitVec w) else v) = v := by split <;> simp_all
      rw [e]
      exact .ret rfl
    | compareExchange e d =>
      refine cas e d .direct 0 _ _ ?_
      by_cases h : v = e
      · subst h
        simp only [AOp.spec, if_true, decide_true]
        exact .ret rfl
      · simp only [AOp.spec, h, if_false, decide_false]
        exact .ret rfl
    | store x => exact first (.store x)
    | exchange x => exact first (.exchange x)
    | fetchAdd x => exact first (.fetchAdd x)
    | fetchSub x => exact first (.fetchSub x)
    | fetchAnd x => exact first (.fetchAnd x)
    | fetchOr x => exact first (.fetchOr x)
    | fetchXor x => exact first (.fetchXor x)

/-! ## what is not guaranteed -/

/-- C46: with the dummy reference, two threads that add 1 to 0 can get the same value, and leave 1. -/
theorem c46_dummy_lost_update :
    let g := (ASys.start dummyRef (fun _ => 0) [[(⟨0, .fetchAdd 1⟩ : ACallAt 32)], [⟨0, .fetchAdd 1⟩]]).run
      [0, 0, 0, 0, 1, 1, 1, 1, 0, 1, 0, 1]
    g.mem 0 = 1 ∧ g.results 0 = [⟨⟨0, .fetchAdd 1⟩, .val 0⟩] ∧ g.results 1 = [⟨⟨0, .fetchAdd 1⟩, .val 0⟩] := by
  decide +kernel

/-- C46: with the dummy reference, a `load` can undo a `store` of another thread. -/
theorem c46_dummy_load :
    let g := (ASys.start dummyRef (fun _ => 0) [[(⟨0, .load⟩ : ACallAt 32)], [⟨0, .store 5⟩]]).run
      [0, 0, 1, 1, 1, 1, 1, 1, 0, 0]
    g.mem 0 = 0 ∧ g.results 0 = [⟨⟨0, .load⟩, .val 0⟩] ∧ g.results 1 = [⟨⟨0, .store 5⟩, .unit⟩] := by
  decide +kernel

/-- C46: `vecmem::atomic` is not atomic in host code. -/
theorem c46_host_lost_update :
    let g := (ASys.start atomicHost (fun _ => 0) [[(⟨0, .fetchAdd 1⟩ : ACallAt 32)], [⟨0, .fetchAdd 1⟩]]).run
      [0, 0, 0, 1, 1, 1, 0, 1, 0, 1]
    g.mem 0 = 1 ∧ g.results 0 = [⟨⟨0, .fetchAdd 1⟩, .val 0⟩] ∧ g.results 1 = [⟨⟨0, .fetchAdd 1⟩, .val 0⟩] := by
  decide +kernel

/-! ## compare_exchange_strong -/

/-- C47: with the CUDA, HIP, SYCL and POSIX references and `vecmem::atomic` in SYCL code, `compare_exchange_strong` stores the desired value and returns true exactly
if the variable has the expected value; otherwise it returns false, changes nothing, and puts the value it has found in
`expected`.  (For the others, if they are not interrupted, this is part of `c46_alone`.)
Missing: `vecmem::atomic` in CUDA and HIP code, for which it is false (`c47_atomic_class`). -/
theorem c47_compare_exchange_partial (I : AImpl w) (hI : I = cudaRef ∨ I = posixRef ∨ I = syclRef ∨ I = atomicSycl) (v e d : BitVec w) :
    (v = e → AImpl.ComparesTo I v e d d true e) ∧ (v ≠ e → AImpl.ComparesTo I v e d v false v) := by
  have : I = .oneAccess fun op v => op.spec v := by
    rcases hI with rfl | rfl | rfl | rfl
    · exact cudaRef_eq
    · exact posixRef_eq
    · exact syclRef_eq
    · exact atomicSycl_eq
  subst this
  refine ⟨fun h => ⟨_, rfl, ?_, ?_⟩, fun h => ⟨_, rfl, ?_, ?_⟩⟩ <;> simp [AOp.spec, h, AImpl.oneAccess]

/-- C47: in CUDA and HIP code, `compare_exchange_strong` of `vecmem::atomic` returns true exactly if the old value is not 0,
whatever was expected, and never changes `expected`. -/
theorem c47_atomic_class (v e d : BitVec w) :
    AImpl.ComparesTo atomicCuda v e d (if v = e then d else v) (decide (v ≠ 0)) e :=
  ⟨_, rfl, rfl, rfl⟩

/-- C47: so it returns false although it has exchanged the values, or true although it has not. -/
theorem c47_atomic_class_false :
    AImpl.ComparesTo (atomicCuda : AImpl 32) 0 0 7 7 false 0 ∧ AImpl.ComparesTo (atomicCuda : AImpl 32) 5 3 7 5 true 3 :=
  ⟨⟨_, rfl, rfl, rfl⟩, ⟨_, rfl, rfl, rfl⟩⟩

/-- C47: in host code, `compare_exchange_strong` of `vecmem::atomic` reads the variable twice, so it can fail with the
expected value in `expected`. -/
theorem c47_host_read_twice :
    ((ASys.start atomicHost (fun _ => 0) [[(⟨0, .compareExchange 5 7⟩ : ACallAt 32)], [⟨0, .store 5⟩]]).run
      [0, 0, 1, 1, 1, 0, 0]).results 0 = [⟨⟨0, .compareExchange 5 7⟩, .compared false 5⟩] := by
  decide +kernel

/-- C47: with one memory order, the assertion on the order for failures never fails; with two it does for `release` and
`acq_rel`. -/
theorem c47_memory_orders (order : MemOrder) :
    (casOrders order).1 = order ∧ casAssertion (casOrders order).2 = true ∧
      (casAssertion order = false ↔ order = .release ∨ order = .acqRel) := by
  cases order <;> decide

end Vecmem.Props
