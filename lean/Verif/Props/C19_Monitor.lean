import Verif.Lemmas.History
import Verif.Lemmas.Double
import Verif.Props.C18_Instrumenting

/-!
# C19 — the memory monitor
-/

namespace Vecmem.Props

open Vecmem IntMath

variable {σ : Type} {R : Limits} {G : Nat}

/-- A fresh instrumenting resource over upstream in state `u`, with a fresh monitor attached. -/
def monitored (u : σ) : Instr (σ × Monitor) := Monitor.attach ⟨[], [], [], [], (u, {})⟩

private def HooksOk (s : Instr (σ × Monitor)) : Prop :=
  s.preAlloc = [] ∧ s.postAlloc = (monitored s.world.1).postAlloc ∧
    s.preDealloc = (monitored s.world.1).preDealloc

private theorem monitored_detached (u : σ) : Detached (monitored u) := by
  refine ⟨?_, ?_, ?_⟩ <;>
    simp [monitored, Monitor.attach, Instr.addPostAlloc, Instr.addPreDealloc]

private theorem preDealloc_assertOk (m : Monitor) (p n a : Nat) :
    (m.preDeallocate p n a).assertOk = (m.assertOk && decide (n ≤ m.outstanding)) := rfl

private theorem preDealloc_outstanding (m : Monitor) (p n a : Nat) :
    (m.preDeallocate p n a).outstanding = wrap64 (m.outstanding + 2 ^ 64 - n) := rfl

private theorem preDealloc_rest (m : Monitor) (p n a : Nat) :
    (m.preDeallocate p n a).maximum = m.maximum ∧ (m.preDeallocate p n a).total = m.total ∧
      (m.preDeallocate p n a).nAlloc = m.nAlloc := by
  cases m; exact ⟨rfl, rfl, rfl⟩

private theorem monitor_main {up : MR σ} {u0 : σ} (h : Lawful R G up u0) :
    let m := instrumentingMR (liftFst (η := Monitor) up)
    ∀ (calls : List Call) (s : Instr (σ × Monitor)) (acc : List Blk),
    Reach R m (monitored u0) s acc → HooksOk s → CorrectRun R m s acc calls →
    s.world.2.assertOk = true → s.world.2.outstanding = totalSize acc →
    totalSize acc ≤ s.world.2.maximum →
    let r := m.run s calls
    let mon := r.2.world.2
    mon.assertOk = true ∧
    mon.outstanding = totalSize (ledger.go acc calls r.1) ∧
    mon.total % 2 ^ 64 = (s.world.2.total + totalSize (servedBlocks calls r.1)) % 2 ^ 64 ∧
    mon.nAlloc % 2 ^ 64 = (s.world.2.nAlloc + (servedBlocks calls r.1).length) % 2 ^ 64 ∧
    s.world.2.maximum ≤ mon.maximum ∧
    (∀ k, totalSize (ledger.go acc (calls.take k) (r.1.take k)) ≤ mon.maximum) ∧
    (mon.maximum = s.world.2.maximum ∨
      ∃ k, mon.maximum = totalSize (ledger.go acc (calls.take k) (r.1.take k))) ∧
    (s.world.2.total < 2 ^ 64 → mon.total < 2 ^ 64) ∧
    (s.world.2.nAlloc < 2 ^ 64 → mon.nAlloc < 2 ^ 64) := by
  intro m calls
  have hlaw := (c18_instrumenting_lawful up u0 h (monitored u0) (monitored_detached u0) rfl).1
  induction calls with
  | nil =>
    intro s acc hr hk hc ha ho hm
    refine ⟨ha, ho, by simp [MR.run, servedBlocks, totalSize], by simp [MR.run, servedBlocks],
      Nat.le_refl _, ?_, Or.inl rfl, id, id⟩
    intro k; simpa [ledger.go, MR.run] using hm
  | cons c cs ih =>
    intro s acc hr hk hc ha ho hm
    -- reduction to a step
    have step : ∀ (ans : Answer) (s' : Instr (σ × Monitor)) (acc' : List Blk) (sv : List Blk),
        m.call s c = (ans, s') → Reach R m (monitored u0) s' acc' → HooksOk s' →
        CorrectRun R m s' acc' cs → s'.world.2.assertOk = true →
        s'.world.2.outstanding = totalSize acc' →
        (∀ xs ys, ledger.go acc (c :: xs) (ans :: ys) = ledger.go acc' xs ys) →
        (∀ xs ys, servedBlocks (c :: xs) (ans :: ys) = sv ++ servedBlocks xs ys) →
        s'.world.2.maximum = max (totalSize acc') s.world.2.maximum →
        s'.world.2.total % 2 ^ 64 = (s.world.2.total + totalSize sv) % 2 ^ 64 →
        s'.world.2.nAlloc % 2 ^ 64 = (s.world.2.nAlloc + sv.length) % 2 ^ 64 →
        (s.world.2.total < 2 ^ 64 → s'.world.2.total < 2 ^ 64) →
        (s.world.2.nAlloc < 2 ^ 64 → s'.world.2.nAlloc < 2 ^ 64) →
        let r := m.run s (c :: cs)
        let mon := r.2.world.2
        mon.assertOk = true ∧
        mon.outstanding = totalSize (ledger.go acc (c :: cs) r.1) ∧
        mon.total % 2 ^ 64 = (s.world.2.total + totalSize (servedBlocks (c :: cs) r.1)) % 2 ^ 64 ∧
        mon.nAlloc % 2 ^ 64 = (s.world.2.nAlloc + (servedBlocks (c :: cs) r.1).length) % 2 ^ 64 ∧
        s.world.2.maximum ≤ mon.maximum ∧
        (∀ k, totalSize (ledger.go acc ((c :: cs).take k) (r.1.take k)) ≤ mon.maximum) ∧
        (mon.maximum = s.world.2.maximum ∨
          ∃ k, mon.maximum = totalSize (ledger.go acc ((c :: cs).take k) (r.1.take k))) ∧
        (s.world.2.total < 2 ^ 64 → mon.total < 2 ^ 64) ∧
        (s.world.2.nAlloc < 2 ^ 64 → mon.nAlloc < 2 ^ 64) := by
      intro ans s' acc' sv e1 e2 e3 e4 e5 e6 e7 e8 e9 e10 e11 e12 e13
      obtain ⟨j1, j2, j3, j4, j5, j6, j7, j8, j9⟩ :=
        ih s' acc' e2 e3 e4 e5 e6 (by rw [e9]; exact Nat.le_max_left _ _)
      have er : m.run s (c :: cs) = (ans :: (m.run s' cs).1, (m.run s' cs).2) := by
        simp [MR.run, e1]
      simp only [er]
      have hmx : s.world.2.maximum ≤ s'.world.2.maximum := by rw [e9]; exact Nat.le_max_right _ _
      refine ⟨j1, ?_, ?_, ?_, by omega, ?_, ?_, fun h => j8 (e12 h), fun h => j9 (e13 h)⟩
      · rw [e7]; exact j2
      · rw [e8]
        have : totalSize (sv ++ servedBlocks cs (m.run s' cs).1) =
            totalSize sv + totalSize (servedBlocks cs (m.run s' cs).1) := by simp [totalSize]
        omega
      · rw [e8, List.length_append]; omega
      · intro k
        cases k with
        | zero => simp only [List.take_zero, ledger.go]; omega
        | succ k => rw [List.take_succ_cons, List.take_succ_cons, e7]; exact j6 k
      · rcases j7 with j7 | ⟨k, j7⟩
        · rw [e9] at j7
          rcases Nat.le_total (totalSize acc') s.world.2.maximum with hle | hle
          · left; rw [j7, Nat.max_eq_right hle]
          · right
            refine ⟨1, ?_⟩
            rw [List.take_succ_cons, List.take_succ_cons, e7, j7, Nat.max_eq_left hle]
            simp [ledger.go]
        · right
          refine ⟨k + 1, ?_⟩
          rw [List.take_succ_cons, List.take_succ_cons, e7]; exact j7
    obtain ⟨hk1, hk2, hk3⟩ := hk
    cases c with
    | alloc n a =>
      obtain ⟨hq, hc⟩ := hc
      rcases Nat.eq_zero_or_pos n with hz | hz
      · subst hz
        have e : m.allocate s 0 a = (.ok 0, s) := by simp [m, instrumentingMR, pimpl]
        rw [e] at hc
        refine step (.alloc (.ok 0)) s acc [] (by simp [MR.call, e]) hr ⟨hk1, hk2, hk3⟩ (by simpa using hc)
          ha ho (by simp [ledger.go]) (by simp [servedBlocks]) (Nat.max_eq_right hm).symm
          (by simp [totalSize]) (by simp) id id
      · have hr' := (c18_instrumenting_lawful up u0 h (monitored u0) (monitored_detached u0) rfl).2 s acc hr
        have hg := h.alloc hr'.1 hq hz
        have hzn := Nat.pos_iff_ne_zero.1 hz
        have hlt : ∀ s', Reach R m (monitored u0) s' acc → totalSize acc < 2 ^ 64 := fun s' hh =>
          hlaw.totalSize_lt hh
        rcases hg.cases with ⟨p, hp⟩ | hp
        · rw [hp] at hg
          have hp0 : p ≠ 0 := hg.1
          have e : m.allocate s n a = (.ok p, { s with
              events := s.events ++ [⟨true, n, a, p⟩]
              world := ((up.allocate s.world.1 n a).2, s.world.2.postAllocate n a p) }) := by
            simp [m, instrumentingMR, pimpl, hzn, Instr.allocate, hk1, liftFst, hp, Instr.finish, hp0,
              hk2, monitored, Monitor.attach, Instr.addPostAlloc, Instr.addPreDealloc]
          rw [e] at hc
          simp only [hzn, if_false] at hc
          have hreach := Reach.alloc hr hq hz e
          have hs := hlaw.totalSize_lt hreach
          rw [totalSize_cons] at hs
          simp only at hs
          refine step (.alloc (.ok p)) _ (⟨p, n, a⟩ :: acc) [⟨p, n, a⟩] (by simp [MR.call, e])
            hreach ⟨hk1, hk2, hk3⟩ hc ?_ ?_ (by simp [ledger.go, hzn])
            (by simp [servedBlocks, hzn]) ?_ ?_ ?_ ?_ ?_
          all_goals simp only [Monitor.postAllocate, hp0, if_false, totalSize_cons, wrap64]
          · exact ha
          · rw [ho]; omega
          · rw [ho]
            congr 1; omega
          · simp [totalSize]
          · simp
          · intro _; omega
          · intro _; omega
        · have e : m.allocate s n a = (.badAlloc, { s with
              events := s.events ++ [⟨true, n, a, 0⟩]
              world := ((up.allocate s.world.1 n a).2, s.world.2) }) := by
            simp [m, instrumentingMR, pimpl, hzn, Instr.allocate, hk1, liftFst, hp, Instr.finish,
              hk2, monitored, Monitor.attach, Instr.addPostAlloc, Instr.addPreDealloc,
              Monitor.postAllocate]
          rw [e] at hc
          refine step (.alloc .badAlloc) _ acc [] (by simp [MR.call, e]) (.refuse hr hq hz e)
            ⟨hk1, hk2, hk3⟩ (by simpa using hc) ha ho (by simp [ledger.go]) (by simp [servedBlocks])
            (Nat.max_eq_right hm).symm (by simp [totalSize]) (by simp) id id
    | free p n a =>
      obtain ⟨hq, hc⟩ := hc
      by_cases hp : p = 0
      · subst hp
        have e : m.deallocate s 0 n a = (.ok (), s) := by simp [m, instrumentingMR, pimpl]
        rw [e] at hc
        refine step (.free (.ok ())) s acc [] (by simp [MR.call, e]) hr ⟨hk1, hk2, hk3⟩
          (by simpa using hc) ha ho (by simp [ledger.go]) (by simp [servedBlocks])
          (Nat.max_eq_right hm).symm (by simp [totalSize]) (by simp) id id
      · simp only [hp, false_or, if_false] at hq hc
        have hr' := (c18_instrumenting_lawful up u0 h (monitored u0) (monitored_detached u0) rfl).2 s acc hr
        have hd := h.dealloc hr'.1 hq
        simp only at hd
        have e : m.deallocate s p n a = (.ok (), { s with
            events := s.events ++ [⟨false, n, a, p⟩]
            world := ((up.deallocate s.world.1 p n a).2, s.world.2.preDeallocate p n a) }) := by
          simp [m, instrumentingMR, pimpl, hp, Instr.deallocate, liftFst, hk3, monitored,
            Monitor.attach, Instr.addPostAlloc, Instr.addPreDealloc, hd]
        rw [e] at hc
        have hs := totalSize_erase hq
        have hlt := hlaw.totalSize_lt hr
        simp only at hs
        have q1 : (s.world.2.preDeallocate p n a).assertOk = true := by
          rw [preDealloc_assertOk, ha, ho]; simp; omega
        have q2 : (s.world.2.preDeallocate p n a).outstanding =
            totalSize (acc.erase ⟨p, n, a⟩) := by
          rw [preDealloc_outstanding, ho]; unfold wrap64; omega
        have q3 : (s.world.2.preDeallocate p n a).maximum =
            max (totalSize (acc.erase ⟨p, n, a⟩)) s.world.2.maximum := by
          rw [(preDealloc_rest _ _ _ _).1]; omega
        generalize hmon : s.world.2.preDeallocate p n a = mon at *
        have q4 : mon.total = s.world.2.total := by rw [← hmon]; exact (preDealloc_rest _ _ _ _).2.1
        have q5 : mon.nAlloc = s.world.2.nAlloc := by rw [← hmon]; exact (preDealloc_rest _ _ _ _).2.2
        exact step (.free (.ok ())) _ (acc.erase ⟨p, n, a⟩) [] (by simp [MR.call, e])
          (hr.free_mem hq e) ⟨hk1, hk2, hk3⟩ hc q1 q2 (by simp [ledger.go, hp])
          (by simp [servedBlocks]) q3 (by simp [totalSize, q4]) (by simp [q5])
          (fun h => by rw [q4]; exact h) (fun h => by rw [q5]; exact h)

/-- **C19** (partial: the counters `total` and the number of allocations are exact only up to their
64-bit range, i.e. modulo 2^64, and the average is computed with `double`, so that it is exact only below 2^52 bytes).
For every well-behaved upstream and every correct list of calls: no assertion fires,
`outstanding_allocation` is exactly the total size of the blocks held, `maximal_allocation` is the
maximum of this total over all moments of the history, `total_allocation` is the total size of all
blocks ever served, and `average_allocation` is the rounded mean size of the blocks served, provided one
was served and fewer than 2^52 bytes were; beyond, it is the rounded mean up to a relative error of 2^-51. -/
theorem c19_monitor_partial (up : MR σ) (u0 : σ) (h : Lawful R G up u0) (calls : List Call)
    (hc : CorrectRun R (instrumentingMR (liftFst up)) (monitored u0) [] calls) :
    let r := (instrumentingMR (liftFst up)).run (monitored u0) calls
    let mon := r.2.world.2
    let served := servedBlocks calls r.1
    let heldAfter := fun k => totalSize (ledger (calls.take k) (r.1.take k))
    mon.assertOk = true ∧
    mon.outstandingAllocation = totalSize (ledger calls r.1) ∧
    (∀ k, heldAfter k ≤ mon.maximalAllocation) ∧ (∃ k, heldAfter k = mon.maximalAllocation) ∧
    mon.totalAllocation = totalSize served % 2 ^ 64 ∧
    (totalSize served < 2 ^ 52 → served ≠ [] → ∃ avg, mon.averageAllocation = .ok avg ∧
      2 * avg * served.length ≤ 2 * totalSize served + served.length ∧
      2 * totalSize served < (2 * avg + 1) * served.length) ∧
    (totalSize served ≤ 2 ^ 64 - 2 ^ 11 → served ≠ [] → ∃ avg, mon.averageAllocation = .ok avg ∧
      |(avg : ℚ) - totalSize served / served.length| ≤ 1 / 2 + totalSize served / served.length / 2 ^ 51) := by
  intro r mon served heldAfter
  obtain ⟨j1, j2, j3, j4, _, j6, j7, j8, j9⟩ := monitor_main h calls (monitored u0) []
    .init ⟨rfl, rfl, rfl⟩ hc rfl rfl (Nat.zero_le _)
  have e0 : (monitored u0).world.2 = ({} : Monitor) := rfl
  rw [e0] at j3 j4 j7 j8 j9
  have k1 : mon.total = totalSize served % 2 ^ 64 := by
    have := j8 (by decide)
    have e : ({} : Monitor).total = 0 := rfl
    rw [e] at j3
    have : mon.total % 2 ^ 64 = mon.total := Nat.mod_eq_of_lt this
    rw [← this]
    simpa using j3
  have k2 : mon.nAlloc = served.length % 2 ^ 64 := by
    have := j9 (by decide)
    have e : ({} : Monitor).nAlloc = 0 := rfl
    rw [e] at j4
    have : mon.nAlloc % 2 ^ 64 = mon.nAlloc := Nat.mod_eq_of_lt this
    rw [← this]
    simpa using j4
  have hlen : served.length ≤ totalSize served := by
    have hpos : ∀ b ∈ served, 0 < b.size := servedBlocks_pos calls r.1
    clear_value served
    clear k1 k2
    induction served with
    | nil => simp
    | cons b l ih =>
      rw [totalSize_cons, List.length_cons]
      have := ih (fun c hc => hpos c (List.mem_cons_of_mem _ hc))
      have := hpos b List.mem_cons_self
      omega
  refine ⟨j1, j2, j6, ?_, k1, ?_, ?_⟩
  · rcases j7 with j7 | ⟨k, j7⟩
    · refine ⟨0, ?_⟩
      have : mon.maximum = 0 := j7
      simp [heldAfter, ledger, ledger.go, totalSize, Monitor.maximalAllocation, this]
    · exact ⟨k, j7.symm⟩
  · intro hlt hne
    have hl0 : 0 < served.length := List.length_pos_iff.2 hne
    have k1' : mon.total = totalSize served := by rw [k1]; exact Nat.mod_eq_of_lt (by omega)
    have k2' : mon.nAlloc = served.length := by rw [k2]; exact Nat.mod_eq_of_lt (by omega)
    have hb : (2 * totalSize served + served.length) / (2 * served.length) < 2 ^ 64 :=
      lt_of_le_of_lt (Nat.div_le_self _ _) (by omega)
    refine ⟨(2 * totalSize served + served.length) / (2 * served.length), ?_, ?_, ?_⟩
    · simp only [Monitor.averageAllocation, k1', k2']
      rw [if_neg (by omega), Double.ofSize_eq (by omega), Double.ofSize_eq (by omega), Double.div, Double.stdRound_div hlt hl0,
        if_pos (by exact_mod_cast hb), Int.toNat_natCast]
    · have := Nat.div_mul_le_self (2 * totalSize served + served.length) (2 * served.length)
      calc _ = (2 * totalSize served + served.length) / (2 * served.length) * (2 * served.length) := by
            ring
        _ ≤ _ := this
    · have := Nat.lt_div_mul_add (a := 2 * totalSize served + served.length)
        (b := 2 * served.length) (by omega)
      nlinarith
  · intro hle hne
    have hl0 : 0 < served.length := List.length_pos_iff.2 hne
    have k1' : mon.total = totalSize served := by rw [k1]; exact Nat.mod_eq_of_lt (by omega)
    have k2' : mon.nAlloc = served.length := by rw [k2]; exact Nat.mod_eq_of_lt (by omega)
    obtain ⟨a, e1, e2, e3⟩ := Double.stdRound_quotient hle hl0 hlen
    refine ⟨a, ?_, e3⟩
    simp only [Monitor.averageAllocation, k1', k2']
    rw [if_neg (by omega), e1, if_pos (by exact_mod_cast e2), Int.toNat_natCast]

/-- Before anything was allocated, `average_allocation` is undefined. -/
theorem c19_average_undefined (u0 : σ) :
    ((monitored u0).world.2).averageAllocation = .ub := rfl

/-- `total_allocation` is not the sum of all allocation sizes once that exceeds 2^64: four times
2^62 - 16 bytes and 64 more, allocated and freed again one after the other, reported as 0. -/
theorem c19_total_overflows :
    let up : MR Unit := ⟨fun _ _ _ => (.ok 16, ()), fun _ _ _ _ => (.ok (), ())⟩
    let n := 2 ^ 62 - 16
    let calls : List Call := [.alloc n 8, .free 16 n 8, .alloc n 8, .free 16 n 8, .alloc n 8,
      .free 16 n 8, .alloc n 8, .free 16 n 8, .alloc 64 8]
    let r := (instrumentingMR (liftFst up)).run (monitored ()) calls
    totalSize (servedBlocks calls r.1) = 2 ^ 64 ∧ r.2.world.2.totalAllocation = 0 := by
  decide +kernel

/-- The arithmetic in which the average is computed is that of `double` (Spec/Double.lean): the result of each operation is the `double`
that is nearest to the exact one. -/
theorem c19_double (t : Nat) :
    Double.IsNearest t (Double.ofSize t) ∧
      ∀ x y : ℚ, 0 ≤ x → 0 < y → Double.IsNearest (x / y) (Double.div x y) :=
  ⟨Double.round53_nearest (by positivity), fun _ _ hx hy => Double.round53_nearest (div_nonneg hx hy.le)⟩

example : Double.IsDouble (1 / 2) ∧ Double.div 1 3 = 6004799503160661 / 2 ^ 54 ∧ Double.ofSize (2 ^ 53 + 3) = 2 ^ 53 + 4 :=
  ⟨⟨1, -1, by norm_num, by norm_num⟩, by decide +kernel, by decide +kernel⟩

/-- `average_allocation` is not exact beyond 2^52 bytes: after a single allocation of 2^53 + 1 bytes the reported average is 2^53. -/
theorem c19_average_inexact :
    let up : MR Unit := ⟨fun _ _ _ => (.ok 16, ()), fun _ _ _ _ => (.ok (), ())⟩
    let calls : List Call := [.alloc (2 ^ 53 + 1) 8]
    let r := (instrumentingMR (liftFst up)).run (monitored ()) calls
    r.2.world.2.totalAllocation = 2 ^ 53 + 1 ∧ r.2.world.2.averageAllocation = .ok (2 ^ 53) := by
  decide +kernel

/-- C19 at work (and its hypothesis met): two blocks, one returned, over the demo upstream. -/
example :
    let m := instrumentingMR (liftFst (η := Monitor) demoBase)
    let calls : List Call := [.alloc 100 8, .alloc 31 8, .free 4096 100 8, .alloc 7 8]
    let mon := (m.run (monitored demoInit) calls).2.world.2
    CorrectRun 64 m (monitored demoInit) [] calls ∧
    mon = ⟨3, 138, 38, 131, true⟩ ∧ mon.averageAllocation = .ok 46 := by
  refine ⟨?_, by decide +kernel, by decide +kernel⟩
  refine ⟨⟨by decide, by decide, 3, rfl⟩, ⟨by decide, by decide, 3, rfl⟩, ?_,
    ⟨by decide, by decide, 3, rfl⟩, trivial⟩
  right; decide +kernel

end Vecmem.Props
