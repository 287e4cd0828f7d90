import Verif.Lemmas.AsyncCopySafe
import Verif.Props.C37_Copy

/-!
# C41: asynchronous copies
-/

namespace Vecmem
namespace Props

open Prog

/-- The start of a program of a user: nothing was given to the stream yet. -/
def AConf.start {β : Type} (p : Prog β) (m : Mem) : AConf β := ⟨p, ⟨m, [], 0⟩, []⟩

/-- **C41** on a CUDA stream: consider any calls, whose events are waited for or ignored in any pattern, in the end the
stream is waited for, and the same calls are not undefined with synchronous copies.  Then, however the stream progresses,
no operation uses something the host uses at the same time, nothing is undefined, the program is not blocked, and when it
has ended it has the same outcome and the same memory as with synchronous copies, with no operation pending or lost.  (If it
ends with an exception, which a call threw, operations of earlier calls may still be pending, and they will lead to the same
memory.) -/
theorem c41_calls (cs : List (CopyCall × Bool)) (m : Mem) (hub : (userProg cs).value m ≠ .ub)
    (c : AConf Unit) (h : ASteps (AConf.start (userProg cs) m) c) :
    ¬ Race c ∧ ¬ Undefined c ∧ ((∃ r, c.prog = .ret r ∧ c.queue = []) ∨ ∃ d, AStep c d) ∧
    ∀ r, c.prog = .ret r → r = (userProg cs).value m ∧ (r = .ok () → c.queue = []) ∧
      (c.queue = [] → c.st.mem = ((userProg cs).result m).2 ∧ c.st.locals = []) := by
  have hsafe : Safe (userProg cs) _ ⟨m, [], 0⟩ [] :=
    lib_calls (Lib.sync (Lib.ret fun _ _ _ => trivial)) cs ⟨m, [], 0⟩ [] .nil hub
  obtain ⟨s, P, h1, h2⟩ := AInv.steps (c := AConf.start (userProg cs) m) ⟨hsafe, List.suffix_rfl, rfl⟩ h
  obtain ⟨g1, g2, g3⟩ := h1.fine
  refine ⟨g1, g2, ?_, ?_⟩
  · rcases g3 with ⟨⟨r, hr⟩, hq⟩ | hd
    · exact .inl ⟨r, hr, hq⟩
    · exact .inr hd
  · intro r hr
    rw [hr] at h2
    have h2' : (r, s) = (userProg cs).run ⟨m, [], 0⟩ := h2
    refine ⟨by rw [Prog.value, ← h2'], ?_, fun hq => ?_⟩
    · rintro rfl
      obtain ⟨s1, hs1⟩ := calls_ok (b := ()) (by rw [← userProg, ← h2'])
      have hsafe := (safe_calls (P := []) (k := Prog.sync (.ret (.ok ()))) (Q := fun _ _ P' => P' = []) cs .nil hs1
        fun P' _ _ => safe_sync ⟨by simp, rfl⟩).1
      obtain ⟨s', P', h3, _⟩ := AInv.steps (c := AConf.start (userProg cs) m) ⟨hsafe, List.suffix_rfl, rfl⟩ h
      have h4 := h3.safe
      rw [hr] at h4
      have h5 := h3.suffix
      rw [h4.2] at h5
      exact List.suffix_nil.1 h5
    · have hx := h1.exec
      rw [hq] at hx
      simp only [execAll, Option.some.injEq] at hx
      rw [Prog.result, ← h2', hx]
      refine ⟨rfl, ?_⟩
      have := h1.safe
      rw [hr] at this
      exact List.length_eq_zero_iff.1 this.2.2.1

/-- Every execution ends: there is no infinite sequence of steps. -/
theorem c41_terminates (cs : List (CopyCall × Bool)) (m : Mem) :
    ¬ ∃ f : Nat → AConf Unit, f 0 = AConf.start (userProg cs) m ∧ ∀ i, AStep (f i) (f (i + 1)) := by
  rintro ⟨f, h0, hf⟩
  have : ∀ c, Acc (fun d c : AConf Unit => AStep c d) c → ∀ i, f i ≠ c := by
    intro c hc
    induction hc with
    | intro c _ ih =>
      rintro i rfl
      exact ih (f (i + 1)) (hf i) (i + 1) rfl
  exact this _ (acc_conf _ _ _) 0 h0

/-- Two calls whose hypotheses are met: the first one's event is ignored. -/
def demoCalls : List (CopyCall × Bool) := [(.memset 1 demoDst 7, false), (.copy 1 demoSrc demoDst, true)]

example : (userProg demoCalls).value demoMem = .ok () ∧
    demoDst.elems ((userProg demoCalls).result demoMem).2 1 = [[200], [201], [7]] := by decide +kernel

/-- What C41 says about waiting: when the event of the last call was waited for, the host may read any memory, and reads what
it would read with synchronous copies; for all calls with `P`. -/
def C41Wait (P : Mem → List (CopyCall × Bool) → CopyCall → Prop) : Prop :=
  ∀ (cs : List (CopyCall × Bool)) (c : CopyCall) (m : Mem) (p n : Nat), (userRead cs c p n).value m ≠ .ub → P m cs c →
    ∀ d, ASteps (AConf.start (userRead cs c p n) m) d → ¬ Race d ∧ ∀ r, d.prog = .ret r → r = (userRead cs c p n).value m

/-- It holds if the last call returned an event of the stream (or threw), that is, one that waits for as many operations as
there were.  Missing: calls that return an event which does nothing, because they had nothing to do (`c41_wait_false`). -/
theorem c41_wait_partial : C41Wait fun m cs c => ∀ s1 e s2, (calls (.ret (.ok ())) cs).run ⟨m, [], 0⟩ = (.ok (), s1) →
    c.prog.run s1 = (.ok e, s2) → e = s2.done := by
  intro cs c m p n hub hP d hd
  have hsafe : Safe (userRead cs c p n) (fun _ _ _ => True) ⟨m, [], 0⟩ [] := by
    cases hx : (calls (.ret (.ok ())) cs).run ⟨m, [], 0⟩ with
    | mk r s1 =>
      have hlast : ∀ P', r = .ok () → Slotted P' s1.locals.length → Safe (c.prog.bind fun e =>
          .wait e (.load p n fun b => .ret (.ok b))) (fun _ _ _ => True) s1 P' := by
        rintro P' rfl hP'
        have hub1 : (c.prog.run s1).1 ≠ .ub := by
          have : ((userRead cs c p n).run ⟨m, [], 0⟩).1 ≠ .ub := hub
          rw [userRead, calls_eq, run_bind_ok hx] at this
          exact run_bind_ub this
        apply Safe.bind
        refine (lib_call c s1 P' hP' hub1).withRun.mono ?_
        rintro r s' P2 ⟨⟨g1, g2, g3⟩, g4⟩
        refine ⟨?_, fun _ _ _ => trivial⟩
        rintro e rfl
        have he := hP s1 e s' hx g4
        subst he
        refine ⟨Nat.le_refl _, ?_⟩
        rw [Nat.sub_self, Nat.sub_zero, List.drop_length]
        exact ⟨by simp, by simp, trivial⟩
      have hbase := lib_calls (k := .ret (.ok ())) (T := fun _ _ => True) (Lib.ret fun _ _ _ => trivial) cs ⟨m, [], 0⟩ [] .nil
        (by
          have : ((userRead cs c p n).run ⟨m, [], 0⟩).1 ≠ .ub := hub
          rw [userRead, calls_eq] at this
          exact run_bind_ub this)
      rw [userRead, calls_eq]
      apply Safe.bind
      refine hbase.withRun.mono ?_
      rintro r' s' P' ⟨⟨g1, g2, _⟩, g4⟩
      rw [hx] at g4
      cases g4
      refine ⟨?_, fun _ _ _ => trivial⟩
      rintro _ rfl
      exact hlast P' rfl (by rw [g2]; exact g1)
  obtain ⟨s, P, h1, h2⟩ := AInv.steps (c := AConf.start (userRead cs c p n) m) ⟨hsafe, List.suffix_rfl, rfl⟩ hd
  refine ⟨h1.fine.1, fun r hr => ?_⟩
  rw [hr] at h2
  have h2' : (r, s) = (userRead cs c p n).run ⟨m, [], 0⟩ := h2
  rw [Prog.value, ← h2']

/-- In particular after any calls, a copy of a vector that is not empty, and waiting for it, the host finds in the target the
bytes of the elements that the source had after the earlier calls. -/
theorem c41_copy_visible (cs : List (CopyCall × Bool)) (m : Mem) (s : DState) (t : Nat) (src dst : View)
    (h : (calls (.ret (.ok ())) cs).run ⟨m, [], 0⟩ = (.ok (), s)) (hs : src.Valid s.mem t) (hd : dst.Valid s.mem t)
    (hsep : src.Separate t dst) (h0 : src.len s.mem ≠ 0) (hfit : src.len s.mem ≤ dst.capacity)
    (c : AConf Mem) (hc : ASteps (AConf.start (userRead cs (.copy t src dst) dst.ptr (src.len s.mem * t)) m) c) :
    ¬ Race c ∧ ∀ r, c.prog = .ret r → ∃ b, r = .ok b ∧ ∀ i, i < src.len s.mem * t → b i = s.mem (src.ptr + i) := by
  have hcopy := copyView_does hs hd hsep
  rw [if_neg h0, if_neg (by omega), if_neg h0, if_neg (by omega)] at hcopy
  obtain ⟨d', hd'⟩ := hcopy s.locals s.done
  have hrun : (CopyCall.copy t src dst).prog.run s = (.ok d', ⟨memCopy (if dst.sizePtr = 0 then s.mem else
      writeLE s.mem dst.sizePtr 4 (src.len s.mem)) dst.ptr src.ptr (src.len s.mem * t), s.locals, d'⟩) := by
    show (copyVec t src dst).run s = _
    rw [copyVec, run_bind_ok hd']
    rfl
  have hval : (userRead cs (.copy t src dst) dst.ptr (src.len s.mem * t)).value m = .ok (fun i =>
      if i < src.len s.mem * t then memCopy (if dst.sizePtr = 0 then s.mem else writeLE s.mem dst.sizePtr 4 (src.len s.mem))
        dst.ptr src.ptr (src.len s.mem * t) (dst.ptr + i) else 0) := by
    rw [Prog.value, userRead, calls_eq, run_bind_ok h, run_bind_ok hrun]
    rfl
  obtain ⟨h1, h2⟩ := c41_wait_partial cs (.copy t src dst) m dst.ptr (src.len s.mem * t) (by rw [hval]; simp) (by
    intro s1 e s2 g1 g2
    rw [h] at g1
    cases g1
    rw [hrun] at g2
    cases g2
    rfl) c hc
  refine ⟨h1, fun r hr => ⟨_, (h2 r hr).trans hval, ?_⟩⟩
  intro i hi
  have hb : src.HasPayload t (src.ptr + i) := hs.bytes (by omega) (by omega)
  simp only [if_pos hi, memCopy]
  rw [if_pos ⟨by omega, by omega⟩, Nat.add_sub_cancel_left]
  split
  · rfl
  · rename_i hne
    refine writeLE_other ?_
    by_contra hcon
    exact hsep _ ⟨.inl hb, .inr ⟨hne, by omega, by omega⟩⟩

example : ∃ s, (calls (.ret (.ok ())) [(.memset 1 demoDst 7, false)]).run ⟨demoMem, [], 0⟩ = (.ok (), s) ∧
    demoSrc.len s.mem = 2 ∧ demoSrc.len s.mem ≤ demoDst.capacity := ⟨_, rfl, by decide +kernel, by decide +kernel⟩

/-- A program that fills a vector, ignores the event, copies an empty vector, waits for that, and reads the first. -/
def demoEarly : Prog Mem := userRead [(.memset 1 demoDst 7, false)] (.copy 1 demoEmpty demoSrc) 300 3

/-- **C41** is false: waiting for the event of an operation does not make earlier operations visible if this operation had
nothing to do.  `demoEarly` gets to read the memory while it is being filled, and may read its former contents. -/
theorem c41_wait_false : ¬ C41Wait fun _ _ _ => True := by
  intro h
  have h1 := h [(.memset 1 demoDst 7, false)] (.copy 1 demoEmpty demoSrc) demoMem 300 3 (by
    have : (match demoEarly.value demoMem with | .ub => false | _ => true) = true := by decide +kernel
    intro hc
    simp only [demoEarly] at this
    rw [hc] at this
    cases this) trivial
  have hs : ASteps (AConf.start demoEarly demoMem) ⟨.load 300 3 fun b => .ret (.ok b), ⟨demoMem, [], 0⟩, [.memset 3 300 7]⟩ := by
    refine .step (.step (.step .refl .issue) .event) ?_
    exact .wait (Nat.le_refl 0)
  exact (h1 _ hs).1 ⟨.memset 3 300 7, by simp, 300, by omega, by simp [COp.Writes]⟩

/-! ## events -/

/-- The event of CUDA, whatever is called on it before it is destroyed: its `cudaEvent_t` is destroyed exactly once, and
nothing is called on it afterwards; and unless it was ignored before anything else was called, the host waited for it. -/
theorem c41_event (e : Nat) (ws : List Bool) :
    ((CudaEvent.life ⟨some e, []⟩ ws).log = [.synchronize e, .destroy e] ∧ ws.head? ≠ some false) ∨
    ((CudaEvent.life ⟨some e, []⟩ ws).log = [.destroy e] ∧ ws.head? = some false) := by
  have hnone : ∀ (ws : List Bool) (l : List CudaCall), ws.foldl (fun c b => if b then c.wait else c.ignore)
      (⟨none, l⟩ : CudaEvent) = ⟨none, l⟩ := by
    intro ws l
    induction ws with
    | nil => rfl
    | cons w ws ih => cases w <;> exact ih
  cases ws with
  | nil => left; exact ⟨rfl, by simp⟩
  | cons w ws =>
    cases w with
    | true =>
      left
      refine ⟨?_, by simp⟩
      have : CudaEvent.life ⟨some e, []⟩ (true :: ws) = CudaEvent.destruct (ws.foldl (fun c b => if b then c.wait else c.ignore)
        ⟨none, [.synchronize e, .destroy e]⟩) := rfl
      rw [this, hnone]
      rfl
    | false =>
      right
      refine ⟨?_, rfl⟩
      have : CudaEvent.life ⟨some e, []⟩ (false :: ws) = CudaEvent.destruct (ws.foldl (fun c b => if b then c.wait else c.ignore)
        ⟨none, [.destroy e]⟩) := rfl
      rw [this, hnone]
      rfl

/-- Waiting three times, and not at all. -/
example : (CudaEvent.life ⟨some 5, []⟩ [true, true, true]).log = [.synchronize 5, .destroy 5] ∧
    (CudaEvent.life ⟨some 5, []⟩ []).log = [.synchronize 5, .destroy 5] := by decide

/-! ## SYCL -/

/-- The start of a program of a user. -/
def SConf.start {β : Type} (p : Prog β) (m : Mem) : SConf β := ⟨p, ⟨m, [], 0⟩, [], 0, [], []⟩

/-- Fill a vector, ignore the event, and copy it into another one. -/
def demoSycl : List (CopyCall × Bool) := [(.memset 1 demoDst 7, false), (.copy 1 demoDst ⟨3, 0, 400⟩, true)]

/-- **C41** is false for SYCL: operations on the queue are not executed in the order they were issued in.  The program that
fills a vector and copies it to another one may end, with all events waited for that were not ignored and the queue waited
for, while the other vector holds the former contents of the first one; and so it does when all operations were executed. -/
theorem c41_sycl_false : ∃ c d : SConf Unit, SSteps (SConf.start (userProg demoSycl) demoMem) c ∧ c.prog = .ret (.ok ()) ∧
    SSteps c d ∧ d.pending = [] ∧ View.elems d.st.mem 1 ⟨3, 0, 400⟩ = [[44], [45], [46]] ∧
    View.elems ((userProg demoSycl).result demoMem).2 1 ⟨3, 0, 400⟩ = [[7], [7], [7]] := by
  let s1 : DState := ⟨memCopy demoMem 400 300 3, [], 1⟩
  let s2 : DState := ⟨memFill s1.mem 300 7 3, [], 2⟩
  refine ⟨⟨.ret (.ok ()), s1, [(0, .memset 3 300 7)], 2, [], [[0], [1], []]⟩,
    ⟨.ret (.ok ()), s2, [], 2, [], [[0], [1], []]⟩, ?_, rfl, ?_, rfl, ?_, ?_⟩
  · refine .step .issue (.step .event (.step .issue (.step .event ?_)))
    refine .step (.device (q := [(0, .memset 3 300 7)]) (i := 1) (op := .copy 3 300 400) (q' := []) (t := s1) rfl) ?_
    refine .step (.wait ?_) (.step .event (.step (.wait ?_) .refl))
    · intro x hx
      simp only [List.append_nil, List.mem_singleton] at hx
      subst hx
      right
      decide
    · intro x hx
      simp only [List.append_nil, List.mem_singleton] at hx
      subst hx
      right
      decide
  · exact .step (.device (q := []) (i := 0) (op := .memset 3 300 7) (q' := []) (t := s2) rfl) .refl
  · decide +kernel
  · decide +kernel

end Props
end Vecmem
