import Verif.Lemmas.AsyncJag
import Verif.Lemmas.AsyncRun
import Verif.Props.C66_AsyncEdm

/-!
# C67: programs with vector buffers and jagged buffers, copies and kernels on a stream

Vocabulary: `Verif/Spec/AsyncProgram.lean` (`StreamSys.run`: the program if every step is complete when it returns;
`StreamSys.Fits`: what the host may do), `Verif/Spec/AsyncJag.lean` (which memory the steps need), `Verif/Spec/AsyncCopy.lean` (`Race`,
`Undefined`), `Verif/Spec/JagPipeline.lean` (lists of lists).
-/

namespace Vecmem
namespace Props

open Prog

variable {σ : Type} {R : Limits} {G : Nat} {ups : Nat → MR σ} {u0 : σ} {c : JagCfg} {p : JPipe σ} {q : JReady}

/-- No buffers, and any contents of memory. -/
def jagStart (u0 : σ) (m : Mem) : JPipe σ × JReady := (⟨⟨u0, m, []⟩, []⟩, ⟨fun _ => false, fun _ => false⟩)

/-- **C67**: a program creates and destroys vector buffers and jagged buffers (with or without host accessible resources), sets
them up, fills them, copies between them and from and to vectors and jagged vectors of the host, and runs kernels which read any number
of them and work on one of either kind, all on one stream; the host waits for the events of some of these operations, and reads memory.
It only writes and reads memory itself which no operation uses that it has not waited for (`StreamSys.Fits`); this includes what
the constructors of jagged buffers write.  Then, however the stream progresses: nothing is used by the host and by an operation at the
same time, nothing is undefined, and the program is not blocked.  When it has ended, every step gave, and the host has read, and memory,
buffers and resources are, what they are if every step is complete when it returns — also where buffers were destroyed, and their
memory was used for others, before the stream had executed anything. -/
theorem c67_stream (hl : FamLawful R G ups u0) (hc : c.Wf) (m : Mem) (ops : List (HostAct JagOp))
    (hf : (jagSys c R ups).Fits (jagStart u0 m) (fun _ => False) ops) (d : AConf _)
    (h : ASteps (AConf.start (hostStream (jagPlan c ups) ops ⟨u0, [], []⟩ []) m) d) :
    ¬ Race d ∧ ¬ Undefined d ∧ ((∃ r, d.prog = .ret r ∧ d.queue = []) ∨ ∃ d', AStep d d') ∧
    ∀ r, d.prog = .ret r → d.queue = [] ∧ ∃ rs p q, (jagSys c R ups).run (jagStart u0 m) ops = (rs, p, q) ∧
      r = .ok (rs, ⟨p.vec.res, p.vec.bufs, p.jags⟩) ∧ d.st.mem = p.vec.mem := by
  have := host_stream (Y := jagSys c R ups) (host := fun s => JagHost.mk s.1.vec.res s.1.vec.bufs s.1.jags)
    (Inv := fun s => JInv c R ups u0 s.1 s.2) (fun s op hi hm => (jplan hl hc hi hm).leaves fun h => h) (p := jagStart u0 m) (jag_inv hl hc (.init m)) hf
    (d := d) h
  obtain ⟨h1, h2, h3, h4⟩ := this
  refine ⟨h1, h2, h3, fun r hr => ?_⟩
  obtain ⟨k1, rs, s, k2, k3, k4⟩ := h4 r hr
  exact ⟨k1, rs, s.1, s.2, k2, k3, k4⟩

/-- Every execution ends. -/
theorem c67_terminates (m : Mem) (ops : List (HostAct JagOp)) :
    ¬ ∃ f : Nat → AConf _, f 0 = AConf.start (hostStream (jagPlan c ups) ops ⟨u0, [], []⟩ []) m ∧ ∀ i, AStep (f i) (f (i + 1)) :=
  host_terminates _ m

/-! ## Lists -/

theorem jag_lists (hl : FamLawful R G ups u0) (hc : c.Wf) : ∀ (ops : List (HostAct JagOp)) (p : JPipe σ) (q : JReady) (busy : Nat → Prop),
    JInv c R ups u0 p q → (jagSys c R ups).Fits (p, q) busy ops →
    ActRun (JagStep c) (p.store c q) ops ((jagSys c R ups).run (p, q) ops).1
      (((jagSys c R ups).run (p, q) ops).2.1.store c ((jagSys c R ups).run (p, q) ops).2.2) ∧
    JInv c R ups u0 ((jagSys c R ups).run (p, q) ops).2.1 ((jagSys c R ups).run (p, q) ops).2.2 := by
  intro ops
  induction ops with
  | nil => exact fun p q busy h _ => ⟨.nil _, h⟩
  | cons o ops ih =>
    intro p q busy h hf
    cases o with
    | sync =>
      obtain ⟨h1, h2⟩ := ih p q _ h hf
      exact ⟨.sync h1, h2⟩
    | look a n =>
      obtain ⟨h1, h2⟩ := ih p q busy h hf.2
      exact ⟨.look a n _ (bytesAt_length _ _ _) h1, h2⟩
    | step op w =>
      obtain ⟨f1, -, f3⟩ := hf
      have hs := jag_step hl hc h f1
      obtain ⟨h1, h2⟩ := ih _ _ _ hs.1 f3
      exact ⟨.step w hs.2 h1, h2⟩

/-- **C67**, lists: when the program has ended, its steps gave what they may give, and the buffers hold the lists, and the lists of
lists, that they may hold, if every step is made when it is called; and the memory in use is what the buffers own.

Missing: as in C62. -/
theorem c67_lists_partial (hl : FamLawful R G ups u0) (hc : c.Wf) (m : Mem) (ops : List (HostAct JagOp))
    (hf : (jagSys c R ups).Fits (jagStart u0 m) (fun _ => False) ops) (d : AConf _)
    (h : ASteps (AConf.start (hostStream (jagPlan c ups) ops ⟨u0, [], []⟩ []) m) d) (r : Res _) (hr : d.prog = .ret r) :
    ∃ rs a q, r = .ok (rs, a) ∧
      ActRun (JagStep c) ⟨fun _ => none, fun _ => none⟩ ops rs ((JPipe.mk ⟨a.res, d.st.mem, a.bufs⟩ a.jags).store c q) ∧
      FReach R ups u0 a.res ((Pipe.mk a.res d.st.mem a.bufs).owned c.vec ++ (JPipe.mk ⟨a.res, d.st.mem, a.bufs⟩ a.jags).owned c) := by
  obtain ⟨-, rs, p, q, h1, h2, h3⟩ := (c67_stream hl hc m ops hf d h).2.2.2 r hr
  obtain ⟨k1, k2⟩ := jag_lists hl hc ops ⟨⟨u0, m, []⟩, []⟩ ⟨fun _ => false, fun _ => false⟩ _ (jag_inv hl hc (.init m)) hf
  unfold jagStart at h1
  rw [h1] at k1 k2
  refine ⟨rs, ⟨p.vec.res, p.vec.bufs, p.jags⟩, q, h2, ?_, ?_⟩
  · rw [h3]
    exact k1
  · rw [h3]
    exact k2.vec.reach

/-- What a copy to the host leaves in the host's arrays. -/
theorem jag_download_bytes (hl : FamLawful R G ups u0) (hc : c.Wf) (h : JInv c R ups u0 p q) {k : Nat} {ats : List Nat}
    {caps : List Nat} {b dev : Bool} {rows : List (List Elem)} (hk : (p.store c q).Has k caps b dev rows)
    (hf : (JagOp.download k ats).Fits c R (p.Outside c) (p.store c q)) {r a : Nat} {l : List Elem} (ha : ats[r]? = some a)
    (hrow : rows[r]? = some l) : bytesAt (p.exec c ups (.download k ats)).2.vec.mem a (l.length * (c.ty k).size) = l.flatten := by
  have hs := (jag_step hl hc h hf).2
  have hT : (p.exec c ups (.download k ats)).1 = .ok (.rows rows) := by
    generalize (p.exec c ups (.download k ats)).1 = out at hs ⊢
    generalize (p.exec c ups (.download k ats)).2.store c _ = S' at hs
    generalize hS : p.store c q = S at hs hk
    cases hs with
    | download _ _ hh =>
      unfold JStore.Has at hh hk
      rw [hk] at hh
      simp only [Option.some.injEq, JBuf.mk.injEq] at hh
      rw [hh.2.2.1]
  simp only [JPipe.exec] at hT ⊢
  cases hb : p.jags.lookup k with
  | none => rw [hb] at hT; cases hT
  | some bf =>
    rw [hb] at hT
    simp only at hT ⊢
    cases hn : (getSizes bf.views).value p.vec.mem with
    | ok ns =>
      rw [hn] at hT
      simp only at hT ⊢
      generalize (copyJagToStd c.vec.dbg (c.ty k).size bf.view fun _ => ats).result p.vec.mem = e at hT ⊢
      obtain ⟨e1, m'⟩ := e
      cases e1 with
      | ok =>
        simp only [Res.map, Res.ok.injEq, JagOut.rows.injEq] at hT
        rw [← hT, List.getElem?_zipWith, ha] at hrow
        cases hnr : ns[r]? with
        | none => rw [hnr] at hrow; cases hrow
        | some w =>
          rw [hnr] at hrow
          simp only [Option.some.injEq] at hrow
          have hw : l.length = w := by rw [← hrow, elems_length]; rfl
          rw [hw, bytesAt_elems, hrow]
      | _ => cases hT
    | _ => rw [hn] at hT; cases hT

/-- **C67**, results: a program copies a jagged buffer to vectors of the host, waits for the event of this copy (only), and reads
the array of one of these vectors.  It finds the elements that this row of the buffer has after all steps before, if every step is
made when it is called (`c67_lists_partial` says which these are). -/
theorem c67_download (hl : FamLawful R G ups u0) (hc : c.Wf) (m : Mem) (ops : List (HostAct JagOp)) (k : Nat) (ats : List Nat)
    (caps : List Nat) (b dev : Bool) (rows : List (List Elem)) (s : JPipe σ × JReady)
    (hs : s = ((jagSys c R ups).run (jagStart u0 m) ops).2) (hk : (s.1.store c s.2).Has k caps b dev rows) (r a : Nat) (l : List Elem)
    (ha : ats[r]? = some a) (hrow : rows[r]? = some l)
    (hf : (jagSys c R ups).Fits (jagStart u0 m) (fun _ => False)
      (ops ++ [.step (.download k ats) true, .look a (l.length * (c.ty k).size)])) (d : AConf _)
    (h : ASteps (AConf.start (hostStream (jagPlan c ups) (ops ++ [.step (.download k ats) true, .look a (l.length * (c.ty k).size)])
      ⟨u0, [], []⟩ []) m) d)
    (res : Res _) (hr : d.prog = .ret res) : ∃ rs x, res = .ok (rs ++ [.ok l.flatten], x) := by
  obtain ⟨-, rs, p, q, h1, h2, h3⟩ := (c67_stream hl hc m _ hf d h).2.2.2 res hr
  obtain ⟨busy, f1, f2, -⟩ := StreamSys.fits_append hf
  obtain ⟨-, hinv⟩ := jag_lists hl hc ops ⟨⟨u0, m, []⟩, []⟩ ⟨fun _ => false, fun _ => false⟩ _ (jag_inv hl hc (.init m)) f1
  change JInv c R ups u0 ((jagSys c R ups).run (jagStart u0 m) ops).2.1 ((jagSys c R ups).run (jagStart u0 m) ops).2.2 at hinv
  rw [StreamSys.run_append, ← hs] at h1
  rw [← hs] at f2 hinv
  have hbytes := jag_download_bytes hl hc hinv hk f2 ha hrow
  have hmem : (jagSys c R ups).mem ((jagSys c R ups).exec s (.download k ats)).2 = (s.1.exec c ups (.download k ats)).2.vec.mem := rfl
  simp only [StreamSys.run, hmem, hbytes, Prod.mk.injEq] at h1
  rw [h2, ← h1.1]
  exact ⟨((jagSys c R ups).run (jagStart u0 m) ops).1 ++ [((jagSys c R ups).exec s (.download k ats)).1.map fun _ => []],
    ⟨p.vec.res, p.vec.bufs, p.jags⟩, by simp only [List.append_assoc, List.cons_append, List.nil_append]⟩

/-! ## Examples -/

/-- The program of the example of C62 on a stream: a vector is copied from the host; a kernel with a thread for each of its elements
appends to one of two rows; the vector buffer is destroyed; and the rows are copied to
the host, which reads them.  This copy is waited for, and then everything before the last step, which makes another jagged buffer. -/
def demoJagStream (sched : List Nat) : List (HostAct JagOp) :=
  [.step (.vec (.create 0 4 false)) false, .step (.vec (.upload 100 [[1], [2], [3], [5]] 0)) false, .step (.create 0 [3, 4] true) false,
    .step (.setup 0) false,
    .step (.kernel [0] [] 0 (binKernel (fun e => (e.getD 0 0).toNat % 2) fun e => [2 * e.getD 0 0]) sched) false,
    .step (.vec (.destroy 0)) false, .step (.download 0 [200, 210]) true, .look 210 3,
    .sync, .step (.create 2 [1] true) false]

/-- What the host reads, if every step is complete when it returns. -/
example : ((jagSys demoJagCfg 64 fun _ => demoBase).run (jagStart demoInit fun _ => 7) (demoJagStream [3, 2, 2, 0, 2, 3])).1[7]? =
    some (.ok [10, 6, 2]) := by
  decide +kernel

set_option maxRecDepth 20000 in
/-- The hypotheses of `c67_stream` are met by this program. -/
example : FamLawful 64 64 (fun _ : Nat => demoBase) demoInit ∧ demoJagCfg.Wf ∧
    (jagSys demoJagCfg 64 fun _ => demoBase).Fits (jagStart demoInit fun _ => 7) (fun _ => False)
      (demoJagStream [3, 2, 2, 0, 2, 3]) := by
  refine ⟨.same (demo_lawful 64), demoJagCfg_wf, ⟨rfl, by decide, ⟨by decide, by decide, 4, rfl⟩⟩, fun _ h => h.elim,
    ⟨by decide, fun _ => ⟨by decide, by decide⟩, ?_, by decide, 4, false, [[7], [7], [7], [7]], by rfl⟩, ?_,
    ⟨rfl, by decide, ⟨by decide, by decide, 4, rfl⟩, ⟨by decide, by decide, 4, rfl⟩⟩, ?_, ⟨_, rfl⟩, fun _ h => h.elim,
    ⟨by decide, [[[1], [2], [3], [5]]], [], [3, 4], [[], []], ⟨⟨4, false, by rfl⟩, trivial⟩, trivial, by rfl, ?_, ?_⟩, fun _ h => h.elim,
    ⟨_, rfl⟩, fun _ h => h.elim,
    ⟨[3, 4], true, true, [[[4]], [[10], [6], [2]]], by rfl, rfl, ?_, ?_⟩, fun _ h => h.elim, ?_,
    ⟨by decide +kernel, by decide, ⟨by decide, by decide, 4, rfl⟩, ⟨by decide, by decide, 4, rfl⟩⟩, fun _ _ h => h, trivial⟩
  · unfold JPipe.Outside Pipe.Outside
    decide +kernel
  · rintro x - (h | h)
    · exact h.1
    · exact h.2.elim id id
  · rintro x ⟨b, hb, x1, x2⟩ hbusy
    have hat : ((((jagSys demoJagCfg 64 fun _ => demoBase).run (jagStart demoInit fun _ => 7)
        ((demoJagStream [3, 2, 2, 0, 2, 3]).take 3)).2.1.jags.lookup 0).all fun b => b.hostPtr == 4160) = true := by
      decide +kernel
    rw [show ((jagSys demoJagCfg 64 fun _ => demoBase).run (jagStart demoInit fun _ => 7)
        ((demoJagStream [3, 2, 2, 0, 2, 3]).take 3)).2.1.jags.lookup 0 = some b from hb, Option.all_some, beq_iff_eq] at hat
    rcases hbusy with ⟨⟨h, -⟩ | ⟨-, h⟩, -⟩ | ⟨-, h | ⟨b', hb', h⟩⟩
    · exact h
    · exact h.elim id id
    · have : x < 104 := h.2
      omega
    · have hat' : ((((jagSys demoJagCfg 64 fun _ => demoBase).run (jagStart demoInit fun _ => 7)
          ((demoJagStream [3, 2, 2, 0, 2, 3]).take 1)).2.1.vec.bufs.lookup 0).all fun b => b.view == ⟨4, 0, 4096⟩) = true := by
        decide +kernel
      rw [show ((jagSys demoJagCfg 64 fun _ => demoBase).run (jagStart demoInit fun _ => 7)
          ((demoJagStream [3, 2, 2, 0, 2, 3]).take 1)).2.1.vec.bufs.lookup 0 = some b' from hb', Option.all_some, beq_iff_eq] at hat'
      rw [hat'] at h
      rcases h with ⟨-, h⟩ | ⟨h, -⟩
      · have : x < 4096 + 4 * 1 := h
        omega
      · exact h rfl
  · intro pr hpr x hx
    obtain ⟨e, he, rfl⟩ := List.mem_map.1 hpr
    simp only [List.headD_cons, List.mem_cons, List.not_mem_nil, or_false] at he
    rcases he with rfl | rfl | rfl | rfl <;> simp at hx <;> subst hx
    all_goals exact ⟨[], by decide, rfl, rfl⟩
  · intro i l cap h1 h2
    match i, h1, h2 with
    | 0, h1, h2 => cases h1; cases h2; decide
    | 1, h1, h2 => cases h1; cases h2; decide
  · intro i a l h1 h2
    match i, h1, h2 with
    | 0, h1, h2 =>
      cases h1; cases h2
      exact ⟨by unfold JPipe.Outside Pipe.Outside; decide +kernel, by decide⟩
    | 1, h1, h2 =>
      cases h1; cases h2
      exact ⟨by unfold JPipe.Outside Pipe.Outside; decide +kernel, by decide⟩
  · intro i j a b l l' hij h1 h2 h3 h4
    match i, j, h1, h2, h3, h4 with
    | 0, 1, h1, h2, h3, h4 => cases h1; cases h2; cases h3; cases h4; decide
    | 1, 1, _, _, _, _ => omega
  · rintro x - - (⟨-, hb⟩ | hb)
    · exact hb ⟨rfl, [3, 4], true, true, [[[4]], [[10], [6], [2]]], by rfl, by simp⟩
    · exact hb.1.elim (by simp) fun h => h

deriving instance DecidableEq for JBuf

/-- A jagged buffer with a host accessible array of views is set up, which is not waited for, and is destroyed; another one is made. -/
def demoJagReuse : List JagOp := [.create 0 [2, 1] true, .setup 0, .destroy 0, .create 2 [2, 1] true]

/-- The rule about what constructors write is needed: destroying a jagged buffer before the stream is done with it is not safe, even if
nobody uses it any more.  Each of these steps may be made, and the host never writes to memory itself.  But the constructor of the
second buffer may write the views of its rows to host accessible memory from which the `setup` of the first one is still copying. -/
theorem c67_destroyed_early :
    FamLawful 4096 4096 (fun _ : Nat => demoPooled) (demoPool, demoInit) ∧ demoJagCfg.Wf ∧
    jagFits demoJagCfg 4096 (fun _ => demoPooled) ⟨⟨(demoPool, demoInit), fun _ => 7, []⟩, []⟩ ⟨fun _ => false, fun _ => false⟩
      demoJagReuse ∧
    ∃ d, ASteps (AConf.start (hostStream (jagPlan demoJagCfg fun _ => demoPooled) (demoJagReuse.map fun op => .step op false)
      ⟨(demoPool, demoInit), [], []⟩ []) fun _ => 7) d ∧ Race d := by
  refine ⟨demoPooled_lawful, demoJagCfg_wf,
    ⟨⟨by decide +kernel, by decide, ⟨by decide, by decide, 4, rfl⟩, ⟨by decide, by decide, 4, rfl⟩⟩, ⟨⟨[2, 1], true, none, false⟩, by decide +kernel⟩,
      ⟨⟨[2, 1], true, some [[], []], true⟩, by decide +kernel⟩,
      ⟨by decide +kernel, by decide, ⟨by decide, by decide, 4, rfl⟩, ⟨by decide, by decide, 4, rfl⟩⟩, trivial⟩,
    _, lazyRun_steps _ 9, race_of_poke 4992 (by decide +kernel)⟩

end Props
end Vecmem
