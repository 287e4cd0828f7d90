import Verif.Lemmas.WeakCounters
import Verif.Props.C82_WeakReading
import Verif.Props.C73_C74_Orders

/-!
# C86: variables that many threads change by atomic operations, on weak memory
-/

namespace Vecmem.Props

open Vecmem

variable {w : Nat} {I : WImpl w} {m : AMem w}

/-- **C86**: if nothing is stored in a variable, and it is changed by atomic operations only that read and write it, of any kinds and with any memory orders, then these act one after the other, even on weak memory:
each of them finds what the ones before have made of the initial value, and in the end the variable has what all have made of it. -/
theorem c86_one_after_other (hI : I = posixWeak ∨ I = cudaWeak ∨ I = syclWeak ∨ I = syclBuiltinWeak) {s : WSys w} (h : WSys.Reach I m s) {a : Nat} (hn : s.trace.NoStores a) :
    (∀ q e t v, s.trace[q]? = some e → e.addr = a → e.wrote.isSome → e.read = some (t, v) → v = WTrace.result a (s.trace.take q) (m a)) ∧
    ∀ x, s.trace.Final m a x ↔ x = s.trace.result a (m a) := by
  obtain ⟨h1, h2⟩ := c73_values I hI h
  have hc : Changed m a s.trace := ⟨h2, h1, hn⟩
  refine ⟨fun q e t v hq ha hw hr => (hc.reads q e t v hq (by simp [WEvent.changes, ha, hw]) hr).2, fun x => ⟨fun hx => c76_final_unique h2 hx hc.final, fun hx => hx ▸ hc.final⟩⟩

/-- **C86**, watching: a thread that reads such a variable twice, in any way, finds what the changes up to some point have made of the initial value, and then what the changes up to the same or a later point have;
so what it has seen does not go back. -/
theorem c86_watch (hI : I = posixWeak ∨ I = cudaWeak ∨ I = syclWeak ∨ I = syclBuiltinWeak) {s : WSys w} (h : WSys.Reach I m s) {a : Nat} (hn : s.trace.NoStores a)
    {i j : Nat} {e f : WEvent w} {t t' : Nat} {v v' : BitVec w} (hi : s.trace[i]? = some e) (hj : s.trace[j]? = some f) (hij : i < j) (ht : e.thread = f.thread) (he : e.addr = a) (hf : f.addr = a)
    (hr : e.read = some (t, v)) (hr' : f.read = some (t', v')) :
    ∃ k k', k ≤ i ∧ k' ≤ j ∧ k ≤ k' ∧ v = WTrace.result a (s.trace.take k) (m a) ∧ v' = WTrace.result a (s.trace.take k') (m a) := by
  obtain ⟨h1, h2⟩ := c73_values I hI h
  have hc : Changed m a s.trace := ⟨h2, h1, hn⟩
  obtain ⟨k, hk, hkt, hkv⟩ := hc.seen hi he hr
  obtain ⟨k', hk', hkt', hkv'⟩ := hc.seen hj hf hr'
  have hle : t ≤ t' := ((h.ordered (R := fun _ => False) (A := fun _ => False) (fun _ _ _ hx => hx.elim) (fun _ _ _ hx => hx.elim)) i j e f (.program ⟨e, f, hi, hj, ht, hij⟩) hi hj
    (he.trans hf.symm) t (.inl ⟨v, hr⟩)).1 t' v' hr'
  by_cases hkk : k ≤ k'
  · exact ⟨k, k', hk, hk', hkk, hkv, hkv'⟩
  · have hmono := changes_mono (a := a) s.trace (show k' ≤ k by omega)
    have htake : (s.trace.take k).take k' = s.trace.take k' := by rw [List.take_take, Nat.min_eq_left (by omega)]
    have heq := changesOf_eq (a := a) (tr := s.trace.take k) (q := k') (by rw [htake]; omega)
    rw [htake] at heq
    refine ⟨k, k, hk, by omega, Nat.le_refl _, hkv, ?_⟩
    rw [hkv', WTrace.result, WTrace.result, heq]

/-- The hypotheses are met: thread 0 adds to a variable twice; thread 1 then still finds the initial value, and later the sum. -/
example : ∃ s : WSys 8, WSys.Reach posixWeak (fun _ => 7) s ∧ s.trace.NoStores 0 ∧
    s.trace[2]? = some ⟨1, 0, .atomic .load (some .relaxed), some (0, 7), none⟩ ∧ s.trace[3]? = some ⟨1, 0, .atomic .load (some .relaxed), some (2, 12), none⟩ := by
  have r := WSys.Reach.start (I := posixWeak) (m := fun _ => (7 : BitVec 8))
  have r := r.step (.call _ 0 0 (.atomic (.fetchAdd 2) (some .relaxed)) _ rfl rfl)
  have r := r.step (.update _ 0 0 0 _ _ _ _ _ _ _ 9 rfl rfl (by decide) rfl rfl rfl)
  have r := r.step (.call _ 0 0 (.atomic (.fetchAdd 3) (some .relaxed)) _ rfl rfl)
  have r := r.step (.update _ 0 0 1 _ _ _ _ _ _ _ 12 rfl rfl (by decide) rfl rfl rfl)
  have r := r.step (.call _ 1 0 (.atomic .load (some .relaxed)) _ rfl rfl)
  have r := r.step (.load _ 1 0 0 _ _ _ _ rfl rfl (by decide) rfl)
  have r := r.step (.call _ 1 0 (.atomic .load (some .relaxed)) _ rfl rfl)
  have r := r.step (.load _ 1 0 2 _ _ _ _ rfl rfl (by decide) rfl)
  refine ⟨_, r, ?_, rfl, rfl⟩
  intro e he _
  change e ∈ [_, _, _, _] at he
  simp only [List.mem_cons, List.not_mem_nil, or_false] at he
  rcases he with rfl | rfl | rfl | rfl <;> exact ⟨fun x hx => (nomatch hx), fun x o hx => (nomatch hx)⟩

theorem result_tickets {a : Nat} : ∀ {tr : WTrace w}, (∀ e ∈ tr, e.addr = a → e.wrote.isSome → ∃ o, e.call = .atomic (.fetchAdd 1) o) → ∀ v : BitVec w,
    tr.result a v = v + BitVec.ofNat w (tr.changesOf a).length
  | [], _, v => by simp [WTrace.result, WTrace.changesOf]
  | e :: tr, h, v => by
    have ih := result_tickets (tr := tr) fun x hx => h x (List.mem_cons_of_mem _ hx)
    unfold WTrace.result WTrace.changesOf at ih ⊢
    rw [List.filter_cons]
    by_cases hd : (decide (e.addr = a) && e.wrote.isSome) = true
    · rw [if_pos hd]
      simp only [Bool.and_eq_true, decide_eq_true_eq] at hd
      obtain ⟨o, ho⟩ := h e List.mem_cons_self hd.1 hd.2
      rw [List.foldl_cons, ih, List.length_cons]
      unfold WEvent.effect
      rw [ho]
      simp only [AOp.spec]
      rw [BitVec.add_assoc]
      congr 1
      apply BitVec.eq_of_toNat_eq
      simp [Nat.add_comm]
    · rw [if_neg hd]
      exact ih v

/-- **C86**, tickets: if a variable is changed by `fetch_add(1)` only, with any memory orders, then the calls return the initial value, the next one, and so on, in the order in which they are made, even on weak memory;
so no two of them return the same, unless there are more calls than values. -/
theorem c86_tickets (hI : I = posixWeak ∨ I = cudaWeak ∨ I = syclWeak ∨ I = syclBuiltinWeak) {s : WSys w} (h : WSys.Reach I m s) {a : Nat}
    (hc : ∀ e ∈ s.trace, e.addr = a → e.call = .read ∨ (∃ o, e.call = .atomic .load o) ∨ ∃ o, e.call = .atomic (.fetchAdd 1) o) :
    (∀ (q : Nat) (e : WEvent w) (o : MemOrder), s.trace[q]? = some e → e.addr = a → e.call = .atomic (.fetchAdd 1) o → e.read.map (·.2) = some (m a + BitVec.ofNat w (WTrace.changesOf a (s.trace.take q)).length)) ∧
    ∀ (q q' : Nat) (e e' : WEvent w) (o o' : MemOrder), s.trace[q]? = some e → s.trace[q']? = some e' → q ≠ q' → e.addr = a → e'.addr = a → e.call = .atomic (.fetchAdd 1) o → e'.call = .atomic (.fetchAdd 1) o' →
      (s.trace.changesOf a).length ≤ 2 ^ w → e.read.map (·.2) ≠ e'.read.map (·.2) := by
  obtain ⟨hcor, -⟩ := c73_values I hI h
  have hno : s.trace.NoStores a := by
    intro e he ha
    rcases hc e he ha with h1 | ⟨o, h1⟩ | ⟨o, h1⟩ <;> rw [h1] <;> exact ⟨fun x => by simp, fun x o => by simp⟩
  have hadd : ∀ e ∈ s.trace, e.addr = a → e.wrote.isSome → ∃ o, e.call = .atomic (.fetchAdd 1) o := by
    intro e he ha hw
    have := hcor e he
    unfold WEvent.Correct at this
    rcases hc e he ha with h1 | ⟨o, h1⟩ | h1
    · rw [h1] at this; rw [this.2] at hw; cases hw
    · rw [h1] at this; rw [this.2] at hw; cases hw
    · exact h1
  have hwrote : ∀ e ∈ s.trace, ∀ o, e.call = .atomic (.fetchAdd 1) o → ∃ t v, e.read = some (t, v) ∧ e.wrote.isSome := by
    intro e he o ho
    have := hcor e he
    unfold WEvent.Correct at this
    rw [ho] at this
    obtain ⟨t, v, h1, h2⟩ := this
    exact ⟨t, v, h1, by rw [h2]; rfl⟩
  have hval : ∀ (q : Nat) (e : WEvent w) (o : MemOrder), s.trace[q]? = some e → e.addr = a → e.call = .atomic (.fetchAdd 1) o →
      e.read.map (·.2) = some (m a + BitVec.ofNat w (WTrace.changesOf a (s.trace.take q)).length) := by
    intro q e o hq ha ho
    obtain ⟨t, v, h1, h2⟩ := hwrote e (List.mem_of_getElem? hq) o ho
    rw [h1, Option.map_some, (c86_one_after_other hI h hno).1 q e t v hq ha h2 h1, result_tickets fun x hx => hadd x (List.mem_of_mem_take hx)]
  have hlt : ∀ (q q' : Nat) (e e' : WEvent w) (o o' : MemOrder), s.trace[q]? = some e → s.trace[q']? = some e' → q < q' → e.addr = a → e'.addr = a → e.call = .atomic (.fetchAdd 1) o → e'.call = .atomic (.fetchAdd 1) o' →
      (s.trace.changesOf a).length ≤ 2 ^ w → e.read.map (·.2) ≠ e'.read.map (·.2) := by
    intro q q' e e' o o' hq hq' hqq ha ha' ho ho' hlen heq
    rw [hval q e o hq ha ho, hval q' e' o' hq' ha' ho', Option.some.injEq] at heq
    have grow : ∀ (q : Nat) (e : WEvent w) (o : MemOrder), s.trace[q]? = some e → e.addr = a → e.call = .atomic (.fetchAdd 1) o →
        (WTrace.changesOf a (s.trace.take (q + 1))).length = (WTrace.changesOf a (s.trace.take q)).length + 1 := by
      intro q e o hq ha ho
      obtain ⟨t, v, -, h2⟩ := hwrote e (List.mem_of_getElem? hq) o ho
      rw [List.take_add_one, hq]
      simp [WTrace.changesOf, List.filter_append, ha, h2]
    have mono : ∀ k k', k ≤ k' → (WTrace.changesOf a (s.trace.take k)).length ≤ (WTrace.changesOf a (s.trace.take k')).length := by
      intro k k' hk
      have : s.trace.take k <+: s.trace.take k' := List.take_prefix_take_left hk
      exact (this.filter _).length_le
    have g1 := grow q e o hq ha ho
    have g2 := grow q' e' o' hq' ha' ho'
    have g3 := mono (q + 1) q' (by omega)
    have g4 : (WTrace.changesOf a (s.trace.take (q' + 1))).length ≤ (s.trace.changesOf a).length := (changesOf_prefix a s.trace _).length_le
    rw [BitVec.add_right_inj] at heq
    have heq := congrArg BitVec.toNat heq
    rw [BitVec.toNat_ofNat, BitVec.toNat_ofNat, Nat.mod_eq_of_lt (by omega), Nat.mod_eq_of_lt (by omega)] at heq
    omega
  refine ⟨hval, fun q q' e e' o o' hq hq' hqq ha ha' ho ho' hlen => ?_⟩
  rcases Nat.lt_or_gt_of_ne hqq with h1 | h1
  · exact hlt q q' e e' o o' hq hq' h1 ha ha' ho ho' hlen
  · exact (hlt q' q e' e o' o hq' hq h1 ha' ha ho' ho hlen).symm

/-- **C86**, watching a counter: if a variable is changed by `fetch_add(1)` only, and does not wrap, then a thread that reads it twice does not find a smaller number the second time. -/
theorem c86_watch_counter (hI : I = posixWeak ∨ I = cudaWeak ∨ I = syclWeak ∨ I = syclBuiltinWeak) {s : WSys w} (h : WSys.Reach I m s) {a : Nat}
    (hc : ∀ e ∈ s.trace, e.addr = a → e.call = .read ∨ (∃ o, e.call = .atomic .load o) ∨ ∃ o, e.call = .atomic (.fetchAdd 1) o)
    (hlen : (m a).toNat + (s.trace.changesOf a).length < 2 ^ w)
    {i j : Nat} {e f : WEvent w} {t t' : Nat} {v v' : BitVec w} (hi : s.trace[i]? = some e) (hj : s.trace[j]? = some f) (hij : i < j) (ht : e.thread = f.thread) (he : e.addr = a) (hf : f.addr = a)
    (hr : e.read = some (t, v)) (hr' : f.read = some (t', v')) : v.toNat ≤ v'.toNat := by
  have hcor := (c73_values I hI h).1
  have hno : s.trace.NoStores a := by
    intro e he ha
    rcases hc e he ha with h1 | ⟨o, h1⟩ | ⟨o, h1⟩ <;> rw [h1] <;> exact ⟨fun x => by simp, fun x o => by simp⟩
  have hadd : ∀ e ∈ s.trace, e.addr = a → e.wrote.isSome → ∃ o, e.call = .atomic (.fetchAdd 1) o := by
    intro e he ha hw
    have := hcor e he
    unfold WEvent.Correct at this
    rcases hc e he ha with h1 | ⟨o, h1⟩ | h1
    · rw [h1] at this; rw [this.2] at hw; cases hw
    · rw [h1] at this; rw [this.2] at hw; cases hw
    · exact h1
  obtain ⟨k, k', -, -, hkk, hv, hv'⟩ := c86_watch hI h hno hi hj hij ht he hf hr hr'
  rw [result_tickets fun x hx => hadd x (List.mem_of_mem_take hx)] at hv hv'
  have g1 : (WTrace.changesOf a (s.trace.take k)).length ≤ (WTrace.changesOf a (s.trace.take k')).length :=
    ((List.take_prefix_take_left hkk : s.trace.take k <+: s.trace.take k').filter _).length_le
  have g2 : (WTrace.changesOf a (s.trace.take k')).length ≤ (s.trace.changesOf a).length := (changesOf_prefix a s.trace _).length_le
  rw [hv, hv', BitVec.toNat_add, BitVec.toNat_add, BitVec.toNat_ofNat, BitVec.toNat_ofNat, Nat.mod_eq_of_lt (a := List.length _) (by omega), Nat.mod_eq_of_lt (a := List.length _) (by omega),
    Nat.mod_eq_of_lt (by omega), Nat.mod_eq_of_lt (by omega)]
  omega

/-- The hypotheses are met: three threads take tickets from a variable with 7, with the order `relaxed`, and get 7, 8 and 9; the first one then finds 9 in it, although it has 10 already. -/
example : ∃ s : WSys 8, WSys.Reach posixWeak (fun _ => 7) s ∧
    (∀ e ∈ s.trace, e.addr = 0 → e.call = .read ∨ (∃ o, e.call = .atomic .load o) ∨ ∃ o, e.call = .atomic (.fetchAdd 1) o) ∧
    (s.trace.changesOf 0).length = 3 ∧ s.trace.map (fun e => (e.thread, e.read.map (·.2))) = [(2, some 7), (0, some 8), (1, some 9), (2, some 9)] := by
  have r := WSys.Reach.start (I := posixWeak) (m := fun _ => (7 : BitVec 8))
  have r := r.step (.call _ 2 0 (.atomic (.fetchAdd 1) (some .relaxed)) _ rfl rfl)
  have r := r.step (.update _ 2 0 0 _ _ _ _ _ _ _ 8 rfl rfl (by decide) rfl rfl rfl)
  have r := r.step (.call _ 0 0 (.atomic (.fetchAdd 1) (some .relaxed)) _ rfl rfl)
  have r := r.step (.update _ 0 0 1 _ _ _ _ _ _ _ 9 rfl rfl (by decide) rfl rfl rfl)
  have r := r.step (.call _ 1 0 (.atomic (.fetchAdd 1) (some .relaxed)) _ rfl rfl)
  have r := r.step (.update _ 1 0 2 _ _ _ _ _ _ _ 10 rfl rfl (by decide) rfl rfl rfl)
  have r := r.step (.call _ 2 0 (.atomic .load (some .relaxed)) _ rfl rfl)
  have r := r.step (.load _ 2 0 2 _ _ _ _ rfl rfl (by decide) rfl)
  refine ⟨_, r, ?_, rfl, rfl⟩
  intro e he _
  change e ∈ [_, _, _, _] at he
  simp only [List.mem_cons, List.not_mem_nil, or_false] at he
  rcases he with rfl | rfl | rfl | rfl
  · exact .inr (.inr ⟨_, rfl⟩)
  · exact .inr (.inr ⟨_, rfl⟩)
  · exact .inr (.inr ⟨_, rfl⟩)
  · exact .inr (.inl ⟨_, rfl⟩)

/-- The programs of the threads. -/
def countCode (progs : List (CountProg w)) (i : Nat) : WProg w := (progs[i]?.getD .done).code

variable {input : Nat → Bool} {kind : Nat → AKind} {progs : List (CountProg w)} {s : WRun w}

theorem counts_get (hp : ∀ p ∈ progs, p.Counts input kind) (i : Nat) : (progs[i]?.getD .done).Counts input kind := by
  cases h : progs[i]? with
  | none => trivial
  | some p => exact hp p (List.mem_of_getElem? h)

/-- **C86**: if threads read inputs, which no thread changes, and change other variables with atomic operations, each variable with operations of one kind, then, when all threads have come to their ends, each
variable has what the operations that the threads make, with the initial values of the inputs, make of its initial value, one after the other. -/
theorem c86_counters (hI : I = posixWeak ∨ I = cudaWeak ∨ I = syclWeak ∨ I = syclBuiltinWeak) (hp : ∀ p ∈ progs, p.Counts input kind)
    (h : WRun.Reach I m (countCode progs) s) (hd : ∀ i, s.prog i = .done) (a : Nat) (x : BitVec w) :
    s.sys.trace.Final m a x ↔ x = combined a (progs.flatMap (·.updates m)) (m a) := by
  have hc := counts_get hp
  have hcount : ∀ e ∈ s.sys.trace, Counting input kind e := by
    intro e he
    obtain ⟨k, hk⟩ := List.getElem?_of_mem he
    exact code_counting (hc e.thread) (h.after e.thread) (e, k) (mem_own.2 ⟨hk, rfl⟩)
  have hreads := c82_reads hI (ro := input) (fun i => code_onlyReads (hc i)) h
  have hthread : ∀ e ∈ s.sys.trace, e.thread < progs.length := by
    intro e he
    by_contra hlt
    obtain ⟨k, hk⟩ := List.getElem?_of_mem he
    have h1 := h.after e.thread
    have h2 : countCode progs e.thread = .done := by simp [countCode, List.getElem?_eq_none (Nat.le_of_not_lt hlt), CountProg.code]
    rw [h2] at h1
    have h3 : (e, k) ∈ s.sys.trace.own e.thread := mem_own.2 ⟨hk, rfl⟩
    cases ho : s.sys.trace.own e.thread with
    | nil => rw [ho] at h3; cases h3
    | cons y l => rw [ho] at h1; cases h1
  have hno : s.sys.trace.NoStores a := by
    intro e he _
    rcases hcount e he with ⟨h1, -⟩ | ⟨op, o, h1, h2, -⟩
    · rw [h1]; exact ⟨fun x => by simp, fun x o => by simp⟩
    · rw [h1]
      refine ⟨fun x => by simp, fun x o' hx => ?_⟩
      cases hx
      generalize kind e.addr = k at h2
      cases k <;> exact h2.elim
  have hof : ∀ i, (s.sys.trace.of i).filterMap (·.update?) = (progs[i]?.getD .done).updates m := by
    intro i
    rw [← own_map]
    exact code_updates (hc i) (by have := h.after i; rw [hd i] at this; exact this) fun y hy hin =>
      (hreads y.1 (List.mem_of_getElem? (mem_own.1 hy).1) hin).2.2
  have hall : ∀ u ∈ s.sys.trace.filterMap (·.update?), u.2.IsOf (kind u.1) := by
    intro u hu
    obtain ⟨e, he, heu⟩ := List.mem_filterMap.1 hu
    rcases hcount e he with ⟨h1, -⟩ | ⟨op, o, h1, h2, -⟩
    · simp [WEvent.update?, h1] at heu
    · simp only [WEvent.update?, h1, Option.some.injEq] at heu
      subst heu
      exact h2
  have hperm : (s.sys.trace.filterMap (·.update?)).Perm (progs.flatMap (·.updates m)) := by
    refine ((of_perm hthread).filterMap _).symm.trans (List.Perm.of_eq ?_)
    rw [List.filterMap_flatMap]
    simp only [hof]
    have := map_range_getD (β := CountProg w) progs .done id
    rw [List.map_id] at this
    rw [← List.flatMap_map]
    exact congrArg _ this
  rw [(c86_one_after_other hI h.sys hno).2, result_combined (fun e he => (c73_values I hI h.sys).1 e he) hcount, combined_perm hperm hall]

/-- C86: such kernels can be run to their ends from every state that they reach. -/
theorem c86_ends (hI : I = posixWeak ∨ I = cudaWeak ∨ I = syclWeak ∨ I = syclBuiltinWeak) (hp : ∀ p ∈ progs, p.Counts input kind)
    (h : WRun.Reach I m (countCode progs) s) : ∃ s', Relation.ReflTransGen (WRun.Step I) s s' ∧ ∀ i, s'.prog i = .done := by
  have hc := counts_get hp
  obtain ⟨s', h1, h2⟩ := h.finishAll (fun i => count_defined hI (hc i)) (n := progs.length) fun i hi => .inl (by
    have := h.after i
    have hn : countCode progs i = .done := by simp [countCode, List.getElem?_eq_none hi, CountProg.code]
    rw [hn] at this
    cases htr : s.sys.trace.own i with
    | nil => rw [htr] at this; simpa [WProg.after] using this.symm
    | cons x l => rw [htr] at this; cases this)
  exact ⟨s', h1, fun i => (h2 i).resolve_right fun hf => code_not_failed (hf ▸ (h.steps h1).after i)⟩

/-! ## A histogram -/

/-- A thread for each of `n` values, which reads its value from variable `X i`, and adds one to the variable of its bin. -/
def histogramThreads (X C : Nat → Nat) (bin : BitVec w → Nat) (n : Nat) : List (CountProg w) :=
  (List.range n).map fun i => .read (X i) fun x => .update (C (bin x)) (.fetchAdd 1) none .done

theorem combined_ones (C : Nat → Nat) (hC : ∀ b b', C b = C b' → b = b') (b : Nat) (l : List Nat) (v : BitVec w) :
    combined (C b) (l.map fun b' => (C b', .fetchAdd 1)) v = v + BitVec.ofNat w (l.count b) := by
  induction l generalizing v with
  | nil => simp [combined]
  | cons b' l ih =>
    simp only [combined] at ih ⊢
    rw [List.map_cons]
    by_cases hb : b' = b
    · subst hb
      rw [List.filter_cons_of_pos (by simp), List.foldl_cons, ih, List.count_cons_self]
      simp only [AOp.spec]
      rw [BitVec.add_assoc]
      congr 1
      apply BitVec.eq_of_toNat_eq
      simp [Nat.add_comm]
    · rw [List.filter_cons_of_neg (by simpa using fun h => hb (hC _ _ h)), ih, List.count_cons_of_ne hb]

theorem histogram_counts {X C : Nat → Nat} {bin : BitVec w → Nat} {n : Nat} (hX : ∀ i b, X i ≠ C b) {input : Nat → Bool} (hin : ∀ a, input a = true ↔ ∃ i, X i = a) :
    ∀ p ∈ histogramThreads X C bin n, p.Counts input fun _ => .sum := by
  intro p hp
  obtain ⟨i, -, rfl⟩ := List.mem_map.1 hp
  refine ⟨(hin _).2 ⟨i, rfl⟩, fun x => ⟨?_, trivial, trivial⟩⟩
  rw [Bool.eq_false_iff]
  intro h
  obtain ⟨j, hj⟩ := (hin _).1 h
  exact hX j _ hj

/-- C86, end to end: threads that fill a histogram of values, with an addition each, leave in each bin its old contents and the number of the values that belong to it; however they run, on weak memory, with
the default memory order. -/
theorem c86_histogram (hI : I = posixWeak ∨ I = cudaWeak ∨ I = syclWeak ∨ I = syclBuiltinWeak) {X C : Nat → Nat} (hC : ∀ b b', C b = C b' → b = b') (hX : ∀ i b, X i ≠ C b)
    (bin : BitVec w → Nat) (n : Nat) (h : WRun.Reach I m (countCode (histogramThreads X C bin n)) s) (hd : ∀ i, s.prog i = .done) (b : Nat) (x : BitVec w) :
    s.sys.trace.Final m (C b) x ↔ x = m (C b) + BitVec.ofNat w (((List.range n).map fun i => bin (m (X i))).count b) := by
  classical
  rw [c86_counters hI (histogram_counts (input := fun a => decide (∃ i, X i = a)) hX fun a => by simp) h hd]
  have : (histogramThreads X C bin n).flatMap (·.updates m) = ((List.range n).map fun i => bin (m (X i))).map fun b' => (C b', AOp.fetchAdd 1) := by
    simp only [histogramThreads, List.flatMap_map, CountProg.updates, List.map_map]
    rw [List.map_eq_flatMap]
    rfl
  rw [this, combined_ones C hC]

/-- The hypotheses are met: threads that fill a histogram with the last bit of five values; they can be run, and the bins then have the numbers of even and odd values. -/
example : ∃ s : WRun 32, WRun.Reach cudaWeak (fun a => if a = 0 ∨ a = 2 then 10 else BitVec.ofNat 32 a) (countCode (histogramThreads (fun i => 2 * i + 1) (fun b => 2 * b) (fun x => x.toNat / 2 % 2) 5)) s ∧
    (∀ i, s.prog i = .done) ∧ s.sys.trace.Final (fun a => if a = 0 ∨ a = 2 then 10 else BitVec.ofNat 32 a) 0 13 ∧
    s.sys.trace.Final (fun a => if a = 0 ∨ a = 2 then 10 else BitVec.ofNat 32 a) 2 12 := by
  have hI : (cudaWeak : WImpl 32) = posixWeak ∨ (cudaWeak : WImpl 32) = cudaWeak ∨ (cudaWeak : WImpl 32) = syclWeak ∨ (cudaWeak : WImpl 32) = syclBuiltinWeak := .inr (.inl rfl)
  have hX : ∀ i b : Nat, 2 * i + 1 ≠ 2 * b := fun i b => by omega
  have hC : ∀ b b' : Nat, 2 * b = 2 * b' → b = b' := fun b b' h => by omega
  obtain ⟨s, h1, h2⟩ := c86_ends hI (m := fun a => if a = 0 ∨ a = 2 then 10 else BitVec.ofNat 32 a)
    (histogram_counts (C := fun b => 2 * b) (X := fun i => 2 * i + 1) (bin := fun x : BitVec 32 => x.toNat / 2 % 2) (n := 5) hX (input := fun a => a % 2 == 1)
      fun a => ⟨fun h => ⟨a / 2, by simp at h; omega⟩, fun ⟨i, hi⟩ => by simp; omega⟩) .start
  have h3 := WRun.Reach.steps .start h1
  exact ⟨s, h3, h2, (c86_histogram hI hC hX _ 5 h3 h2 0 13).2 (by decide), (c86_histogram hI hC hX _ 5 h3 h2 1 12).2 (by decide)⟩

/-- Why operations of different kinds are not allowed: what is left depends on their order. -/
example : combined 0 [(0, .fetchAdd 1), (0, .fetchAnd 2)] (1 : BitVec 8) = 2 ∧ combined 0 [(0, .fetchAnd 2), (0, .fetchAdd 1)] (1 : BitVec 8) = 1 := by decide

end Vecmem.Props
