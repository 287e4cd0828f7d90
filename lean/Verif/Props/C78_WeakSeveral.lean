import Verif.Lemmas.WeakSeveral
import Verif.Props.C77_WeakKernels

/-!
# C78: threads that append to several vectors at once, on weak memory

Vocabulary: `Verif/Spec/WeakSeveral.lean`, and that of C76 and C77.
-/

namespace Vecmem.Props

open Vecmem

section

variable {w : Nat} {I : WImpl w} {m : AMem w} {V : Nat → WVec} {tasks : Nat → MTask w} {s : WRun w}

/-- C78: looked at from one vector, the threads run programs as in C76: everything that C76 says of a trace holds for each vector. -/
theorem c78_each (h : WRun.Reach I m (fun i => (tasks i).code V) s) (ha : Apart V) (hp : ∀ i, (tasks i).Polite V) (k : Nat) :
    ∃ (tasks' : Nat → WTask w) (prog' : Nat → WProg w), (∀ i, (tasks' i).Polite { V k with dbg := false }) ∧
      WRun.Reach I m (fun i => (tasks' i).code { V k with dbg := false }) ⟨s.sys, prog'⟩ := by
  obtain ⟨prog', h1, -⟩ := several_project h
  exact ⟨fun i => (tasks i).proj V k, prog', fun i => proj_polite ha k (hp i), h1 k⟩

/-- C78: the calls on a vector get places behind its old elements, no two of them the same, and without gaps, whatever is done to the other vectors. -/
theorem c78_places (hI : I = posixWeak ∨ I = cudaWeak ∨ I = syclWeak ∨ I = syclBuiltinWeak) (h : WRun.Reach I m (fun i => (tasks i).code V) s)
    (hv : ∀ k, (V k).Valid w) (ha : Apart V) (hp : ∀ i, (tasks i).Polite V) (k : Nat) (fits : (m (V k).size).toNat + s.sys.trace.claimed (V k).size ≤ (V k).cap) :
    (∀ (q : Nat) (e : WEvent w) (v n : Nat), s.sys.trace[q]? = some e → e.Claims (V k).size v n →
      (m (V k).size).toNat ≤ v ∧ v + n ≤ (m (V k).size).toNat + s.sys.trace.claimed (V k).size) ∧
    (∀ (q q' : Nat) (e e' : WEvent w) (v n v' n' : Nat), s.sys.trace[q]? = some e → s.sys.trace[q']? = some e' → e.Claims (V k).size v n →
      e'.Claims (V k).size v' n' → q ≠ q' → v + n ≤ v' ∨ v' + n' ≤ v) ∧
    ∀ p, (m (V k).size).toNat ≤ p → p < (m (V k).size).toNat + s.sys.trace.claimed (V k).size →
      ∃ (q : Nat) (e : WEvent w) (v n : Nat), s.sys.trace[q]? = some e ∧ e.Claims (V k).size v n ∧ v ≤ p ∧ p < v + n := by
  obtain ⟨tasks', prog', h1, h2⟩ := c78_each h ha hp k
  have := c76_places hI h2 ⟨(hv k).cells, (hv k).size, (hv k).cap⟩ h1 fits
  exact this

/-- C78: an element of a vector is written only by the thread that has claimed its place in this vector, and after it has; so the old elements of all vectors stay as they were, and
every read of an element finds its initial value, or what that thread has written. -/
theorem c78_elements (hI : I = posixWeak ∨ I = cudaWeak ∨ I = syclWeak ∨ I = syclBuiltinWeak) (h : WRun.Reach I m (fun i => (tasks i).code V) s)
    (hv : ∀ k, (V k).Valid w) (ha : Apart V) (hp : ∀ i, (tasks i).Polite V) (k : Nat) (fits : (m (V k).size).toNat + s.sys.trace.claimed (V k).size ≤ (V k).cap) :
    (∀ (q v p : Nat) (x : BitVec w), s.sys.trace.Writes q ((V k).cell v p) x → ∃ (q' : Nat) (e : WEvent w) (a n : Nat), q' < q ∧ s.sys.trace[q']? = some e ∧
      s.sys.trace.By e.thread q ∧ e.Claims (V k).size a n ∧ a ≤ p ∧ p < a + n) ∧
    (∀ (q q' i i' v v' p : Nat) (x x' : BitVec w), s.sys.trace.Writes q ((V k).cell v p) x → s.sys.trace.Writes q' ((V k).cell v' p) x' → s.sys.trace.By i q →
      s.sys.trace.By i' q' → i = i') ∧
    ∀ (j v p : Nat) (x : BitVec w), s.sys.trace.Reads j ((V k).cell v p) x → x = m ((V k).cell v p) ∨
      ((m (V k).size).toNat ≤ p ∧ p < (m (V k).size).toNat + s.sys.trace.claimed (V k).size ∧ ∃ q, q < j ∧ s.sys.trace.Writes q ((V k).cell v p) x) := by
  obtain ⟨tasks', prog', h1, h2⟩ := c78_each h ha hp k
  have := c76_elements hI h2 ⟨(hv k).cells, (hv k).size, (hv k).cap⟩ h1 fits
  exact this

/-- C78: what is left in the end in each vector.  The size is the old one and all that was appended to this vector; a place that was not claimed is as it was. -/
theorem c78_final (hI : I = posixWeak ∨ I = cudaWeak ∨ I = syclWeak ∨ I = syclBuiltinWeak) (h : WRun.Reach I m (fun i => (tasks i).code V) s)
    (hv : ∀ k, (V k).Valid w) (ha : Apart V) (hp : ∀ i, (tasks i).Polite V) (k : Nat) (fits : (m (V k).size).toNat + s.sys.trace.claimed (V k).size ≤ (V k).cap) :
    (∃ y, s.sys.trace.Final m (V k).size y ∧ y.toNat = (m (V k).size).toNat + s.sys.trace.claimed (V k).size) ∧
    ∀ v p, (p < (m (V k).size).toNat ∨ (m (V k).size).toNat + s.sys.trace.claimed (V k).size ≤ p) → s.sys.trace.Final m ((V k).cell v p) (m ((V k).cell v p)) := by
  obtain ⟨tasks', prog', h1, h2⟩ := c78_each h ha hp k
  obtain ⟨h3, h4, -⟩ := c76_final hI h2 ⟨(hv k).cells, (hv k).size, (hv k).cap⟩ h1 fits
  exact ⟨h3, h4⟩

/-- C78, with POSIX references: a thread that has heard of an element of one of the vectors, by releasing and acquiring operations on whatever variable, reads it, or a later value
from the same thread; and one that has heard of all appends to a vector reads its final size. -/
theorem c78_heard_posix (h : WRun.Reach posixWeak m (fun i => (tasks i).code V) s)
    (hv : ∀ k, (V k).Valid w) (ha : Apart V) (hp : ∀ i, (tasks i).Polite V) (k : Nat) (fits : (m (V k).size).toNat + s.sys.trace.claimed (V k).size ≤ (V k).cap) :
    (∀ (q j i v p : Nat) (x y : BitVec w), s.sys.trace.Writes q ((V k).cell v p) x → s.sys.trace.By i q → s.sys.trace.Reads j ((V k).cell v p) y →
      s.sys.trace.HappensBefore WEvent.Releases WEvent.Acquires q j → ∃ q', q ≤ q' ∧ s.sys.trace.By i q' ∧ s.sys.trace.Writes q' ((V k).cell v p) y) ∧
    ∀ (j : Nat) (x : BitVec w), s.sys.trace.Reads j (V k).size x →
      (∀ (q : Nat) (e : WEvent w) (v n : Nat), s.sys.trace[q]? = some e → e.Claims (V k).size v n →
        s.sys.trace.HappensBefore WEvent.Releases WEvent.Acquires q j) →
      x.toNat = (m (V k).size).toNat + s.sys.trace.claimed (V k).size := by
  obtain ⟨tasks', prog', h1, h2⟩ := c78_each h ha hp k
  have := c76_heard_posix h2 ⟨(hv k).cells, (hv k).size, (hv k).cap⟩ h1 fits
  exact this

/-- C78: no assertion of any vector fails; and when a thread has ended, all its calls have claimed their places in the vectors that they were called on, have stored and left their
values there, and have returned the first of them. -/
theorem c78_complete (hI : I = posixWeak ∨ I = cudaWeak ∨ I = syclWeak ∨ I = syclBuiltinWeak) (h : WRun.Reach I m (fun i => (tasks i).code V) s)
    (hv : ∀ k, (V k).Valid w) (ha : Apart V) (hp : ∀ i, (tasks i).Polite V) (fits : ∀ k, (m (V k).size).toNat + s.sys.trace.claimed (V k).size ≤ (V k).cap) (i : Nat) :
    s.prog i ≠ .failed ∧ (s.prog i = .done → (tasks i).Left V m (s.sys.trace.Final m) (s.sys.trace.of i)) := by
  refine ⟨fun hf => ?_, fun hd => ?_⟩
  · have h1 := h.after i
    rw [hf] at h1
    obtain ⟨k, c, x, hx, h2, h3, h4⟩ := several_failed (hp i) h1
    obtain ⟨prog', h5, -⟩ := several_appending hI h hv ha hp (fits k)
    have h6 : x.1.index + c.count ≤ (V k).cap := (h5.hist_claim hx h2 h3).2
    have hcap := (hv k).cap
    unfold WAppend.check at h4
    split at h4
    · next hs =>
      have := h3.2.1 hs
      simp only [decide_eq_false_iff_not] at h4
      omega
    · simp only [decide_eq_false_iff_not] at h4
      rw [Nat.mod_eq_of_lt (by omega)] at h4
      omega
  · refine left_of_proj fun k => ?_
    obtain ⟨prog', h5, h6⟩ := several_appending hI h hv ha hp (fits k)
    have h7 := h6 i
    rw [hd] at h7
    generalize hq : prog' i = q at h7
    cases h7
    exact h5.left (h.sys.ordered (fun _ _ _ h => h.elim) (fun _ _ _ h => h.elim)) hq

/-- C78: threads are never stuck.  From every state that they reach, there are steps with which all of them come to their ends (or an assertion fails). -/
theorem c78_ends (hI : I = posixWeak ∨ I = cudaWeak ∨ I = syclWeak ∨ I = syclBuiltinWeak) (h : WRun.Reach I m (fun i => (tasks i).code V) s)
    (ha : ∀ i, (tasks i).Allowed I) {n : Nat} (hn : ∀ i, n ≤ i → tasks i = .done) :
    ∃ s', Relation.ReflTransGen (WRun.Step I) s s' ∧ ∀ i, s'.prog i = .done ∨ s'.prog i = .failed := by
  refine h.finishAll (fun i => several_defined hI V (ha i)) (n := n) fun i hi => .inl ?_
  have := h.after i
  simp only [hn i hi, MTask.code] at this
  cases htr : s.sys.trace.own i with
  | nil => rw [htr] at this; simpa [WProg.after] using this.symm
  | cons x l => rw [htr] at this; cases this

end

variable {α : Type} {I : WImpl 32} {m : AMem 32} {V : Nat → WVec} {words : Nat → α → List (BitVec 32)} {progs : List (List (Nat × ACall α))} {s : WRun 32} {s0 : Nat → DV α}

/-- C78: let threads append to several device vectors, in any order that they like, on a memory in which they may read old values, and let there be room for all.  No assertion
fails; and when all have ended, there is for each vector a schedule of the calls on it, on a memory without old values, in which it is left with the same size and
elements, and in which the calls return the same indices. -/
theorem c78_kernels (hI : I = posixWeak ∨ I = cudaWeak ∨ I = syclWeak ∨ I = syclBuiltinWeak) (hV : ∀ k, (V k).Valid 32) (ha : Apart V)
    (hs : ∀ k, (V k).Shows (words k) (fun a x => x = m a) (s0 k)) (hp : ∀ p ∈ progs, ∀ c ∈ p, c.2.Valid true [])
    (room : ∀ k, (s0 k).sizeWord + totalCount (progs.map (callsOn k)) ≤ (s0 k).cap)
    (h : WRun.Reach I m (fun i => (MTask.calls words (fun k => (s0 k).dflt) (progs[i]?.getD [])).code V) s) :
    (∀ i, s.prog i ≠ .failed) ∧
    ((∀ i, s.prog i = .done) → ∀ k, ∃ sched, ((Conc.start (s0 k) (progs.map (callsOn k))).run sched).failed = false ∧
      ((Conc.start (s0 k) (progs.map (callsOn k))).run sched).Finished ∧
      (V k).Shows (words k) (s.sys.trace.Final m) ((Conc.start (s0 k) (progs.map (callsOn k))).run sched).vec ∧
      ∀ i, (((Conc.start (s0 k) (progs.map (callsOn k))).run sched).results i).map (·.1) = callsOn k (progs[i]?.getD []) ∧
        Returned (V k).size (((Conc.start (s0 k) (progs.map (callsOn k))).run sched).results i) (WTrace.claims (V k).size (s.sys.trace.of i))) := by
  have hval : ∀ (i : Nat) (c : Nat × ACall α), c ∈ progs[i]?.getD [] → c.2.Valid true [] ∧ c.2.count < 2 ^ 32 := by
    intro i c hc
    obtain ⟨k, c⟩ := c
    cases hpi : progs[i]? with
    | none => rw [hpi] at hc; cases hc
    | some p =>
      rw [hpi, Option.getD_some] at hc
      have hmem := List.mem_of_getElem? hpi
      refine ⟨hp p hmem _ hc, ?_⟩
      have hc' : c ∈ callsOn k p := List.mem_map.2 ⟨(k, c), List.mem_filter.2 ⟨hc, by simp⟩, rfl⟩
      have h1 : c.count ≤ ((callsOn k p).map ACall.count).sum := le_sum_mem (List.mem_map_of_mem hc')
      have h2 : ((callsOn k p).map ACall.count).sum ≤ totalCount (progs.map (callsOn k)) :=
        le_sum_mem (List.mem_map_of_mem (f := fun p => (p.map ACall.count).sum) (List.mem_map_of_mem (f := callsOn k) hmem))
      have := room k
      have := (hV k).cap
      have := (hs k).cap
      simp only
      omega
  have fits : ∀ k, (m (V k).size).toNat + s.sys.trace.claimed (V k).size ≤ (V k).cap := by
    intro k
    obtain ⟨y, rfl, hy⟩ := (hs k).size
    have := several_claimed hV ha h k
    have := room k
    rw [hy, (hs k).cap]
    omega
  have hpol : ∀ i, (MTask.calls words (fun k => (s0 k).dflt) (progs[i]?.getD [])).Polite V := fun i => calls_polite_several V words _ (hval i)
  have hcomp := c78_complete (tasks := fun i => MTask.calls words (fun k => (s0 k).dflt) (progs[i]?.getD [])) hI h hV ha hpol fits
  refine ⟨fun i => (hcomp i).1, fun ended k => ?_⟩
  obtain ⟨prog', h5, -⟩ := several_appending (tasks := fun i => MTask.calls words (fun k => (s0 k).dflt) (progs[i]?.getD [])) hI h hV ha hpol (fits k)
  have := h5.sequential (V := V k) (d := false) (s0 := s0 k) (progs := progs.map (callsOn k)) (hs k)
    (fun i c hc => by
      rw [callsOn_getD] at hc
      obtain ⟨x, hx, rfl⟩ := List.mem_map.1 hc
      exact (hval i x (List.mem_of_mem_filter hx)).1)
    (fun i => by
      have := several_left hV ha k ((hcomp i).2 (ended i))
      rw [WTrace.of, List.filter_comm] at this
      rw [callsOn_getD]
      exact this)
  simpa only [callsOn_getD] using this

/-! ## Instances -/

/-- Vectors of one word per element, that have room for four elements each, in their own variables. -/
def severalVecs : Nat → WVec := fun k => ⟨Nat.pair k 0, fun v i => Nat.pair k (Nat.pair v i + 1), 4, true⟩

theorem severalVecs_valid (k : Nat) : (severalVecs k).Valid 32 :=
  ⟨fun v i v' i' (h : Nat.pair k (Nat.pair v i + 1) = Nat.pair k (Nat.pair v' i' + 1)) => Nat.pair_eq_pair.1 (Nat.succ.inj (Nat.pair_eq_pair.1 h).2),
    fun v i (h : Nat.pair k (Nat.pair v i + 1) = Nat.pair k 0) => Nat.succ_ne_zero _ (Nat.pair_eq_pair.1 h).2, show 4 < 2 ^ 32 by decide⟩

theorem severalVecs_apart : Apart severalVecs := by
  intro j k hjk a h1 h2
  apply hjk
  rcases h1 with rfl | ⟨v, i, rfl⟩ <;> rcases h2 with h2 | ⟨v', i', h2⟩ <;> (dsimp only [severalVecs] at h2; exact (Nat.pair_eq_pair.1 h2).1)

/-- Empty vectors with room for four. -/
def severalStart : Nat → DV (BitVec 32) := fun _ => { cap := 4, hasSize := true, sizeWord := 0, mem := fun _ => some 0, dflt := 0, dbg := true, trivialDtor := true, junk := fun _ => 0 }

/-- Two threads, which append to two vectors in different orders. -/
def severalProgs : List (List (Nat × ACall (BitVec 32))) := [[(0, .push (.val 1)), (1, .bulkValue 2 (.val 5))], [(1, .push (.val 2)), (0, .bulk 3)]]

theorem several_room (k : Nat) : (severalStart k).sizeWord + totalCount (severalProgs.map (callsOn k)) ≤ (severalStart k).cap := by
  rcases k with _ | _ | k
  · decide
  · decide
  · simp [severalStart, severalProgs, callsOn, totalCount]

/-- The hypotheses of the theorems are met, and the threads come to their ends. -/
example : ∃ s, WRun.Reach cudaWeak (fun _ => 0) (fun i => (MTask.calls (fun _ x => [x]) (fun k => (severalStart k).dflt) (severalProgs[i]?.getD [])).code severalVecs) s ∧
    (∀ i, s.prog i = .done) ∧
    (∀ k, (severalVecs k).Shows (fun x => [x]) (fun a x => x = (fun _ => 0 : AMem 32) a) (severalStart k)) ∧
    (∀ p ∈ severalProgs, ∀ c ∈ p, c.2.Valid true []) ∧ ∀ k, (severalStart k).sizeWord + totalCount (severalProgs.map (callsOn k)) ≤ (severalStart k).cap := by
  have hs : ∀ k, (severalVecs k).Shows (fun x => [x]) (fun a x => x = (fun _ => 0 : AMem 32) a) (severalStart k) := by
    intro k
    refine ⟨rfl, rfl, rfl, ⟨0, rfl, rfl⟩, fun p _ => ⟨0, rfl, fun v b hb => ?_⟩⟩
    cases v with
    | zero => simpa using hb.symm
    | succ v => simp at hb
  have hp : ∀ p ∈ severalProgs, ∀ c ∈ p, c.2.Valid true [] := by
    intro p hp c hc
    simp only [severalProgs, List.mem_cons, List.not_mem_nil, or_false] at hp
    rcases hp with rfl | rfl <;> simp only [List.mem_cons, List.not_mem_nil, or_false] at hc <;> rcases hc with rfl | rfl <;> first | rfl | trivial
  obtain ⟨s, h1, h2⟩ := c78_ends (I := cudaWeak) (m := fun _ => 0) (V := severalVecs) (tasks := fun i => MTask.calls (fun _ x => [x]) (fun k => (severalStart k).dflt) (severalProgs[i]?.getD []))
    (n := 2) (.inr (.inl rfl)) .start (fun i => several_calls_allowed _ _ _) (fun i hi => by rw [List.getElem?_eq_none hi]; rfl)
  have hr := WRun.Reach.steps .start h1
  obtain ⟨h3, -⟩ := c78_kernels (.inr (.inl rfl)) severalVecs_valid severalVecs_apart hs hp several_room hr
  exact ⟨s, hr, fun i => (h2 i).resolve_right (h3 i), hs, hp, several_room⟩

end Vecmem.Props
