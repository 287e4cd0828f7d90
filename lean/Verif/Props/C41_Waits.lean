import Verif.Lemmas.AsyncCopyUser
import Verif.Props.C41_AsyncCopy
import Verif.Props.C38_C40_CopyJagged

/-!
# C41: asynchronous copies, if every event is waited for
-/

namespace Vecmem
namespace Props

open Prog

/-- **C41** on a CUDA stream, if every event is waited for: consider any steps of a user, who calls functions of the
copy object, waits for the event of each call, and reads and writes memory between the calls.  If nothing is undefined with
synchronous copies, then, however the stream progresses, the host never uses something that a pending operation uses (one of
them writing), nothing is undefined, the program is not blocked, and when it has ended the host has read what it would have
read with synchronous copies, or got the same exception, the memory is the same, and no operation is pending. -/
theorem c41_stream_waits (hs : List HostStep) (m : Mem) (hub : (hostProg hs).value m ≠ .ub)
    (c : AConf (List Mem)) (h : ASteps (AConf.start (hostProg hs) m) c) :
    ¬ Race c ∧ ¬ Undefined c ∧ ((∃ r, c.prog = .ret r ∧ c.queue = []) ∨ ∃ d, AStep c d) ∧
    ∀ r, c.prog = .ret r → r = (hostProg hs).value m ∧ c.queue = [] ∧ c.st.mem = ((hostProg hs).result m).2 ∧
      c.st.locals = [] := by
  have hsafe := (safe_host hs ⟨m, [], 0⟩ hub).withRun
  obtain ⟨s, P, h1, h2⟩ := AInv.steps (c := AConf.start (hostProg hs) m) ⟨hsafe, List.suffix_rfl, rfl⟩ h
  obtain ⟨g1, g2, g3⟩ := h1.fine
  refine ⟨g1, g2, ?_, ?_⟩
  · rcases g3 with ⟨⟨r, hr⟩, hq⟩ | hd
    · exact .inl ⟨r, hr, hq⟩
    · exact .inr hd
  · intro r hr
    have h3 := h1.safe
    rw [hr] at h3
    obtain ⟨-, ⟨e1, e2⟩, e3⟩ := h3
    have h4 := h1.suffix
    rw [e2] at h4
    have h5 := List.suffix_nil.1 h4
    have h6 := h1.exec
    rw [h5] at h6
    simp only [execAll, Option.some.injEq] at h6
    refine ⟨by rw [Prog.value, e3], h5, by rw [Prog.result, e3, h6], ?_⟩
    rw [h6]
    exact List.length_eq_zero_iff.1 e1

/-- **C41** on a SYCL queue, which may execute operations in any order and at the same time: consider any steps of a user,
who calls functions of the copy object, waits for the event of each call, and reads and writes memory between the calls.
If nothing is undefined with synchronous copies, and the vectors given to each call do not share memory where they must not,
then, however the queue progresses, no two operations and no operation and the host use something at the same time that one
of them writes, nothing is undefined, the program is not blocked, and when it has ended the host has read what it would have
read with synchronous copies, or got the same exception, the memory is the same, and no operation is pending. -/
theorem c41_sycl_waits (hs : List HostStep) (m : Mem) (hub : (hostProg hs).value m ≠ .ub) (ha : StepsApart hs m)
    (c : SConf (List Mem)) (h : SSteps (SConf.start (hostProg hs) m) c) :
    ¬ SRace c ∧ ¬ SUndefined c ∧ ((∃ r, c.prog = .ret r ∧ c.pending = []) ∨ ∃ d, SStep c d) ∧
    ∀ r, c.prog = .ret r → r = (hostProg hs).value m ∧ c.pending = [] ∧ c.st.mem = ((hostProg hs).result m).2 ∧
      c.st.locals = [] := by
  have hsafe := ssafe_host hs ⟨m, [], 0⟩ ⟨[], 0, [], []⟩ rfl hub ha.from
  obtain ⟨s, B, h1⟩ := SInv.steps (c := SConf.start (hostProg hs) m) ⟨hsafe, List.Sublist.refl _, rfl, .nil, rfl, rfl, rfl⟩ h
  obtain ⟨g1, g2, g3⟩ := h1.fine
  refine ⟨g1, g2, ?_, ?_⟩
  · rcases g3 with ⟨⟨r, hr⟩, hq⟩ | hd
    · exact .inl ⟨r, hr, hq⟩
    · exact .inr hd
  · intro r hr
    have h2 := h1.safe
    rw [hr] at h2
    obtain ⟨-, e1, e2, e3⟩ := h2
    have h3 := h1.sub
    rw [e3] at h3
    have h4 := List.sublist_nil.1 h3
    have h5 := h1.exec
    rw [h4] at h5
    simp only [List.map_nil, execAll, Option.some.injEq] at h5
    refine ⟨by rw [Prog.value, e1], h4, by rw [Prog.result, e1, h5], ?_⟩
    rw [h5]
    exact List.length_eq_zero_iff.1 e2

/-- Every execution ends: there is no infinite sequence of steps. -/
theorem c41_sycl_terminates (hs : List HostStep) (m : Mem) :
    ¬ ∃ f : Nat → SConf (List Mem), f 0 = SConf.start (hostProg hs) m ∧ ∀ i, SStep (f i) (f (i + 1)) := by
  rintro ⟨f, h0, hf⟩
  have : ∀ c, Acc (fun d c : SConf (List Mem) => SStep c d) c → ∀ i, f i ≠ c := by
    intro c hc
    induction hc with
    | intro c _ ih =>
      rintro i rfl
      exact ih (f (i + 1)) (hf i) (i + 1) rfl
  exact this _ (acc_sconf _ _ _ _ _ _) 0 h0

/-- Copy a jagged vector with two rows into another one, read its first row, write to it, copy that row into a vector, and
read that. -/
def demoWaits : List HostStep :=
  [.call (.copyJag true 1 demoJagSrc demoJagDst), .read 300 3, .write 301 1 (fun _ => 9),
    .call (.copy 1 ⟨3, 0, 300⟩ ⟨3, 0, 400⟩), .read 400 3]

theorem demoWaits_apart : StepsApart demoWaits demoMem := by
  rintro pre c post m' h hm
  match pre, h with
  | [], h =>
    simp only [demoWaits, List.nil_append, List.cons.injEq, HostStep.call.injEq] at h
    obtain ⟨rfl, -⟩ := h
    have hm' : m' = demoMem := by
      simp only [Prog.result, hostProg, Prog.run, Prod.mk.injEq] at hm
      exact hm.2.symm
    subst hm'
    refine ⟨by decide, demoJagSrc_valid, demoJagDst_valid, ?_⟩
    rintro x ⟨⟨v, hv, h1⟩, ⟨w, hw, h2⟩⟩
    simp only [demoJagSrc, demoJagDst, List.mem_cons, List.not_mem_nil, or_false] at hv hw
    rcases hv with rfl | rfl <;> rcases hw with rfl | rfl <;> rcases h1 with ⟨h1, h3⟩ | ⟨h1, h3, h5⟩ <;>
      rcases h2 with ⟨h2, h4⟩ | ⟨h2, h4, h6⟩ <;> simp only at * <;> omega
  | [_], h => simp [demoWaits] at h
  | [_, _], h => simp [demoWaits] at h
  | [_, _, _], h =>
    simp only [demoWaits, List.cons_append, List.nil_append, List.cons.injEq, HostStep.call.injEq] at h
    obtain ⟨-, -, -, rfl, -⟩ := h
    trivial
  | [_, _, _, _], h => simp [demoWaits] at h
  | _ :: _ :: _ :: _ :: _ :: _, h => simp [demoWaits] at h

/-- These steps meet the hypotheses of `c41_stream_waits` and `c41_sycl_waits`, and this is what is read. -/
example : StepsApart demoWaits demoMem ∧
    ((hostProg demoWaits).value demoMem).map (fun l => l.map fun b => (List.range 3).map b) =
      .ok [[200, 201, 46], [200, 9, 46]] := ⟨demoWaits_apart, by decide +kernel⟩

end Props
end Vecmem
