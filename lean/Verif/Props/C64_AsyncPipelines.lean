import Verif.Lemmas.AsyncPipeline
import Verif.Props.C59_Pipelines
import Verif.Props.C41_AsyncCopy

/-!
# C64: programs with buffers, copies and kernels on a stream

Vocabulary: `Verif/Spec/AsyncPipeline.lean` (`syncRun`: the program if every step is complete when it returns; `streamFits`: what
the host may do), `Verif/Spec/AsyncCopy.lean` (`Race`, `Undefined`), `Verif/Spec/Pipeline.lean` (lists of elements).
-/

namespace Vecmem
namespace Props

open Prog

variable {σ : Type} {R : Limits} {G : Nat} {ups : Nat → MR σ} {u0 : σ} {c : PipeCfg} {p : Pipe σ} {ready : Nat → Bool}

theorem streamProg_onStream {op : PipeOp} (ho : op.OnStream) (w : Bool) (ops : List StreamOp) (u : σ) (bufs : List (Nat × VecBuffer))
    (out : List (Res (List UInt8))) : streamProg c ups (.step op w :: ops) u bufs out =
    attempt (fun r =>
      match r with
      | .ok e => if w then .wait e (streamProg c ups ops u bufs (out ++ [.ok []])) else streamProg c ups ops u bufs (out ++ [.ok []])
      | r => streamProg c ups ops u bufs (out ++ [r.map fun _ => []])) (streamStep c ups u bufs op) := by
  cases op <;> first | exact ho.elim | rfl

/-- The invariant of the host: what is pending uses busy memory only. -/
theorem stream_safe (hl : FamLawful R G ups u0) (hc : c.Wf) : ∀ (ops : List StreamOp) (p : Pipe σ) (ready : Nat → Bool)
    (busy : Nat → Prop) (out : List (Res (List UInt8))) (d : Nat) (P : List COp), PipeInv c R ups u0 [] p ready →
    streamFits c R ups p ready busy ops → Slotted P 0 → (∀ op ∈ P, op.Within busy) →
    Safe (streamProg c ups ops p.res p.bufs out) (fun r s' P' => P' = [] ∧ s'.locals = [] ∧ s'.mem = (syncRun c ups p ops).2.mem ∧
      r = .ok (out ++ (syncRun c ups p ops).1, (syncRun c ups p ops).2.res, (syncRun c ups p ops).2.bufs)) ⟨p.mem, [], d⟩ P := by
  intro ops
  induction ops with
  | nil =>
    intro p ready busy out d P _ _ _ _
    rw [streamProg]
    exact safe_sync ⟨by simp, rfl, rfl, rfl, by simp [syncRun]⟩
  | cons o ops ih =>
    intro p ready busy out d P hinv hf hP hb
    cases o with
    | sync =>
      rw [streamProg]
      refine safe_sync ((ih p ready _ (out ++ [.ok []]) d [] hinv hf .nil (by simp)).mono ?_)
      rintro r s' P' ⟨h1, h2, h3, h4⟩
      exact ⟨h1, h2, h3, by rw [h4]; simp [syncRun]⟩
    | look a n =>
      rw [streamProg]
      have hbytes : (List.range n).map (fun i => if i < n then p.mem (a + i) else 0) = bytesAt p.mem a n := by
        unfold bytesAt
        apply List.map_congr_left
        intro i hi
        rw [if_pos (List.mem_range.1 hi)]
      refine ⟨fun op ho x hx hw => hf.1 x hx.1 hx.2 (hb op ho x (.inr hw)), ?_⟩
      refine (ih p ready busy _ d P hinv hf.2 hP hb).mono ?_
      rintro r s' P' ⟨h1, h2, h3, h4⟩
      refine ⟨h1, h2, h3, ?_⟩
      rw [h4]
      simp [syncRun, hbytes]
    | step op w =>
      obtain ⟨hf1, hf2, hf3⟩ := hf
      have hs := pipe_step hl hc hinv (pipe_free hf1)
      have hub := pipeStep_defined hs.2.1
      by_cases ho : op.OnStream
      · obtain ⟨h1, h2, h3⟩ := stream_step (P := P) hinv ho hf1 hs hP
          (fun hu o ho x hx hrw => hf2 hu x hx (hb o ho x hrw)) d
        rw [streamProg_onStream ho]
        apply Safe.attempt
        refine h1.withRun.mono ?_
        rintro x ⟨m', L', d'⟩ P' ⟨⟨g1, g2, g3, g4, g5, g6, g7⟩, grun⟩
        have gev := fun hw => works_event hinv (op := op) hw d grun
        simp only at g2 g3 gev
        subst g3
        have hcont : ∀ P2, Slotted P2 0 → (∀ o ∈ P2, o.Within fun x => busy x ∧ ¬ (w = true ∧ op.Works (p.store c ready)) ∨
              w = false ∧ op.Uses c p x) →
            Safe (streamProg c ups ops p.res p.bufs (out ++ [(p.exec c ups op).1.map fun _ => []])) (fun r s' P' => P' = [] ∧
              s'.locals = [] ∧ s'.mem = (syncRun c ups p (.step op w :: ops)).2.mem ∧
              r = .ok (out ++ (syncRun c ups p (.step op w :: ops)).1, (syncRun c ups p (.step op w :: ops)).2.res,
                (syncRun c ups p (.step op w :: ops)).2.bufs)) ⟨m', [], d'⟩ P2 := by
          intro P2 hP2 hb2
          have := ih (p.exec c ups op).2 _ _ (out ++ [(p.exec c ups op).1.map fun _ => []]) d' P2 hs.1 hf3 hP2 hb2
          rw [h2, h3, ← g2] at this
          refine this.mono ?_
          rintro r s' P'' ⟨k1, k2, k3, k4⟩
          exact ⟨k1, k2, k3, by rw [k4]; simp [syncRun]⟩
        have hres : ((p.exec c ups op).1.map fun _ => ([] : List UInt8)) = x.map fun _ => [] := by
          have := congrArg (fun r : Res Unit => r.map fun _ => ([] : List UInt8)) g1
          simp only [Res.map_map] at this
          exact this.symm
        rw [hres] at hcont
        have hxub : x ≠ .ub := by
          rintro rfl
          exact map_unit_ne hub g1.symm
        cases x with
        | ok e =>
          obtain ⟨e1, e2⟩ := g7 e rfl
          cases w with
          | true =>
            refine ⟨e1, hcont _ g4.drop fun o ho => ?_⟩
            by_cases hw : op.Works (p.store c ready)
            · rcases gev hw with h | h
              · cases h
              · cases h
                simp at ho
            · exact within_mono (fun x hx => .inl ⟨hx, fun h => hw h.2⟩) (hb o (e2 o ho))
          | false =>
            refine hcont _ g4 fun o ho => ?_
            rcases g5 o ho with h | h
            · exact within_mono (fun x hx => .inl ⟨hx, by simp⟩) (hb o h)
            · exact within_mono (fun x hx => .inr ⟨rfl, hx⟩) h
        | ub => exact absurd rfl hxub
        | _ =>
          refine hcont _ g4 fun o ho => within_mono (fun x hx => .inl ⟨hx, fun hw => ?_⟩) (hb o (g6 (by simp) o ho))
          rcases gev hw.2 with h | h <;> cases h
      · have hnw : ¬ op.Works (p.store c ready) := by
          cases op with
          | create => exact id
          | destroy => exact id
          | _ => exact absurd trivial ho
        have hcont : Safe (streamProg c ups ops (p.exec c ups op).2.res (p.exec c ups op).2.bufs (out ++ [(p.exec c ups op).1.map fun _ => []]))
            (fun r s' P' => P' = [] ∧ s'.locals = [] ∧ s'.mem = (syncRun c ups p (.step op w :: ops)).2.mem ∧
              r = .ok (out ++ (syncRun c ups p (.step op w :: ops)).1, (syncRun c ups p (.step op w :: ops)).2.res,
                (syncRun c ups p (.step op w :: ops)).2.bufs)) ⟨(p.exec c ups op).2.mem, [], d⟩ P := by
          refine (ih (p.exec c ups op).2 _ _ (out ++ [(p.exec c ups op).1.map fun _ => []]) d P hs.1 hf3 hP
            fun o ho => within_mono (fun x hx => .inl ⟨hx, fun hw => hnw hw.2⟩) (hb o ho)).mono ?_
          rintro r s' P'' ⟨k1, k2, k3, k4⟩
          exact ⟨k1, k2, k3, by rw [k4]; simp [syncRun]⟩
        cases op with
        | create k cap r =>
          rw [streamProg]
          simp only [Pipe.exec] at hcont hub
          generalize VecBuffer.create (ups (c.res k)) p.res (c.ty k) cap r = e at hcont hub ⊢
          obtain ⟨e1, e2⟩ := e
          cases e1 with
          | ok b => exact hcont
          | ub => exact absurd rfl hub
          | _ => exact hcont
        | destroy k =>
          rw [streamProg]
          simp only [Pipe.exec] at hcont hub
          cases hk : p.bufs.lookup k with
          | none => rw [hk] at hub; exact absurd rfl hub
          | some b =>
            rw [hk] at hcont hub
            simp only at hcont hub ⊢
            generalize b.destroy (ups (c.res k)) p.res = e at hcont hub ⊢
            obtain ⟨e1, e2⟩ := e
            cases e1 with
            | ub => exact absurd rfl hub
            | _ => exact hcont
        | _ => exact absurd trivial ho

/-- **C64**: a program creates and destroys buffers, sets them up, fills them, copies between them and from and to arrays of the
host, and runs kernels, all on one stream; the host waits for the events of some of these operations, and reads memory.  It
only writes and reads memory itself which no operation uses that it has not waited for (`streamFits`).  Then, however the stream
progresses: nothing is used by the host and by an operation at the same time, nothing is undefined, and the program is not
blocked.  When it has ended, every step gave, and the host has read, and memory, buffers and resources are, what they are if
every step is complete when it returns — also where buffers were destroyed, and their memory was used for others, before the
stream had executed anything. -/
theorem c64_stream (hl : FamLawful R G ups u0) (hc : c.Wf) (m : Mem) (ops : List StreamOp)
    (hf : streamFits c R ups ⟨u0, m, []⟩ (fun _ => false) (fun _ => False) ops) (d : AConf _)
    (h : ASteps (AConf.start (streamProg c ups ops u0 [] []) m) d) :
    ¬ Race d ∧ ¬ Undefined d ∧ ((∃ r, d.prog = .ret r ∧ d.queue = []) ∨ ∃ d', AStep d d') ∧
    ∀ r, d.prog = .ret r → d.queue = [] ∧ ∃ rs p, syncRun c ups ⟨u0, m, []⟩ ops = (rs, p) ∧
      r = .ok (rs, p.res, p.bufs) ∧ d.st.mem = p.mem := by
  have hsafe := stream_safe hl hc ops ⟨u0, m, []⟩ (fun _ => false) (fun _ => False) [] 0 [] (pipe_inv hl hc (.init m)) hf .nil (by simp)
  obtain ⟨s, P, h1, h2⟩ := AInv.steps (c := AConf.start (streamProg c ups ops u0 [] []) m) ⟨hsafe, List.suffix_rfl, rfl⟩ h
  obtain ⟨g1, g2, g3⟩ := h1.fine
  refine ⟨g1, g2, ?_, ?_⟩
  · rcases g3 with ⟨⟨r, hr⟩, hq⟩ | hd
    · exact .inl ⟨r, hr, hq⟩
    · exact .inr hd
  · intro r hr
    have h3 := h1.safe
    rw [hr] at h3
    obtain ⟨-, k1, k2, k3, k4⟩ := h3
    have hq : d.queue = [] := by
      have := h1.suffix
      rw [k1] at this
      exact List.suffix_nil.1 this
    have hx := h1.exec
    rw [hq] at hx
    simp only [execAll, Option.some.injEq] at hx
    refine ⟨hq, _, _, rfl, ?_, ?_⟩
    · rw [k4]; simp
    · rw [hx, k3]

/-- Every execution ends. -/
theorem c64_terminates (m : Mem) (ops : List StreamOp) :
    ¬ ∃ f : Nat → AConf _, f 0 = AConf.start (streamProg c ups ops u0 [] []) m ∧ ∀ i, AStep (f i) (f (i + 1)) := by
  rintro ⟨f, h0, hf⟩
  have : ∀ c, Acc (fun d c => AStep c d) c → ∀ i, f i ≠ c := by
    intro c hc
    induction hc with
    | intro c _ ih =>
      rintro i rfl
      exact ih (f (i + 1)) (hf i) (i + 1) rfl
  exact this _ (acc_conf _ _ _) 0 h0

/-! ## Lists -/

/-- Which buffers are set up after a program. -/
def readyStream (ready : Nat → Bool) : List StreamOp → Nat → Bool
  | [] => ready
  | .step op _ :: ops => readyStream (op.ready ready) ops
  | _ :: ops => readyStream ready ops

/-- A run of the host's program on lists; `PipeStep` says what steps may do.  The host may read any memory, and finds
whatever it finds. -/
inductive StreamRun (c : PipeCfg) : Store → List StreamOp → List (Res (List UInt8)) → Store → Prop
  | nil (S) : StreamRun c S [] [] S
  | step {S op r S' ops rs S''} (w : Bool) (h : PipeStep c S op r S') (hs : StreamRun c S' ops rs S'') :
      StreamRun c S (.step op w :: ops) ((r.map fun _ => []) :: rs) S''
  | sync {S ops rs S'} (hs : StreamRun c S ops rs S') : StreamRun c S (.sync :: ops) (.ok [] :: rs) S'
  | look {S ops rs S'} (a n : Nat) (l : List UInt8) (hn : l.length = n) (hs : StreamRun c S ops rs S') :
      StreamRun c S (.look a n :: ops) (.ok l :: rs) S'

theorem stream_lists (hl : FamLawful R G ups u0) (hc : c.Wf) : ∀ (ops : List StreamOp) (p : Pipe σ) (ready : Nat → Bool)
    (busy : Nat → Prop), PipeInv c R ups u0 [] p ready → streamFits c R ups p ready busy ops →
    StreamRun c (p.store c ready) ops (syncRun c ups p ops).1 ((syncRun c ups p ops).2.store c (readyStream ready ops)) ∧
    PipeInv c R ups u0 [] (syncRun c ups p ops).2 (readyStream ready ops) := by
  intro ops
  induction ops with
  | nil => exact fun p ready busy h _ => ⟨.nil _, h⟩
  | cons o ops ih =>
    intro p ready busy h hf
    cases o with
    | sync =>
      obtain ⟨h1, h2⟩ := ih p ready _ h hf
      exact ⟨.sync h1, h2⟩
    | look a n =>
      obtain ⟨h1, h2⟩ := ih p ready busy h hf.2
      exact ⟨.look a n _ (bytesAt_length _ _ _) h1, h2⟩
    | step op w =>
      obtain ⟨f1, -, f3⟩ := hf
      have hs := pipe_step hl hc h (pipe_free f1)
      obtain ⟨h1, h2⟩ := ih _ _ _ hs.1 f3
      exact ⟨.step w hs.2.1 h1, h2⟩

/-- **C64**, lists: when the program has ended, its steps gave what they may give, and the buffers hold the lists that they
may hold, if every step is made when it is called (C59); and the memory in use is what the buffers own. -/
theorem c64_lists (hl : FamLawful R G ups u0) (hc : c.Wf) (m : Mem) (ops : List StreamOp)
    (hf : streamFits c R ups ⟨u0, m, []⟩ (fun _ => false) (fun _ => False) ops) (d : AConf _)
    (h : ASteps (AConf.start (streamProg c ups ops u0 [] []) m) d) (r : Res _) (hr : d.prog = .ret r) :
    ∃ rs u bufs, r = .ok (rs, u, bufs) ∧
      StreamRun c (fun _ => none) ops rs ((Pipe.mk u d.st.mem bufs).store c (readyStream (fun _ => false) ops)) ∧
      FReach R ups u0 u ((Pipe.mk u d.st.mem bufs).owned c) := by
  obtain ⟨-, rs, p, h1, h2, h3⟩ := (c64_stream hl hc m ops hf d h).2.2.2 r hr
  obtain ⟨k1, k2⟩ := stream_lists hl hc ops ⟨u0, m, []⟩ _ _ (pipe_inv hl hc (.init m)) hf
  rw [h1] at k1 k2
  refine ⟨rs, p.res, p.bufs, h2, ?_, ?_⟩
  · rw [h3]
    exact k1
  · rw [h3]
    have := k2.reach
    rw [List.append_nil] at this
    exact this

theorem bytesAt_add (m : Mem) (a n k : Nat) : bytesAt m a (n + k) = bytesAt m a n ++ bytesAt m (a + n) k := by
  unfold bytesAt
  rw [List.range_add, List.map_append, List.map_map]
  congr 1
  apply List.map_congr_left
  intro i _
  simp only [Function.comp]
  congr 1
  omega

theorem bytesAt_mul (m : Mem) (a t : Nat) : ∀ n, bytesAt m a (n * t) = ((List.range n).map fun i => bytesAt m (a + i * t) t).flatten := by
  intro n
  induction n with
  | zero => simp [bytesAt]
  | succ n ih =>
    rw [Nat.succ_mul, bytesAt_add, ih, List.range_succ, List.map_append, List.flatten_append]
    simp

theorem syncRun_append (p : Pipe σ) (ops ops' : List StreamOp) : syncRun c ups p (ops ++ ops') =
    ((syncRun c ups p ops).1 ++ (syncRun c ups (syncRun c ups p ops).2 ops').1, (syncRun c ups (syncRun c ups p ops).2 ops').2) := by
  induction ops generalizing p with
  | nil => simp [syncRun]
  | cons o ops ih => cases o <;> simp [syncRun, ih]

theorem streamFits_append {busy : Nat → Prop} {ops ops' : List StreamOp} (h : streamFits c R ups p ready busy (ops ++ ops')) :
    streamFits c R ups p ready busy ops ∧
    ∃ busy', streamFits c R ups (syncRun c ups p ops).2 (readyStream ready ops) busy' ops' := by
  induction ops generalizing p ready busy with
  | nil => exact ⟨trivial, busy, h⟩
  | cons o ops ih =>
    cases o with
    | step op w =>
      obtain ⟨h1, h2⟩ := ih h.2.2
      exact ⟨⟨h.1, h.2.1, h1⟩, h2⟩
    | sync =>
      obtain ⟨h1, h2⟩ := ih (ready := ready) h
      exact ⟨h1, h2⟩
    | look a n =>
      obtain ⟨h1, h2⟩ := ih h.2
      exact ⟨⟨h.1, h1⟩, h2⟩

/-- **C64**, results: a program copies a buffer to an array of the host, waits for the event of this copy (only), and reads
the array.  It finds the elements that the buffer has after all steps before, if every step is made when it is called
(`c64_lists` says which these are). -/
theorem c64_download (hl : FamLawful R G ups u0) (hc : c.Wf) (m : Mem) (ops : List StreamOp) (k at_ cap : Nat) (b : Bool) (l : List Elem)
    (hk : ((syncRun c ups ⟨u0, m, []⟩ ops).2.store c (readyStream (fun _ => false) ops)).Has k cap b l)
    (hf : streamFits c R ups ⟨u0, m, []⟩ (fun _ => false) (fun _ => False)
      (ops ++ [.step (.download k at_) true, .look at_ (l.length * (c.ty k).size)])) (d : AConf _)
    (h : ASteps (AConf.start (streamProg c ups (ops ++ [.step (.download k at_) true, .look at_ (l.length * (c.ty k).size)]) u0 [] []) m) d)
    (r : Res _) (hr : d.prog = .ret r) : ∃ rs x, r = .ok (rs ++ [.ok l.flatten], x) := by
  obtain ⟨-, rs, p, h1, h2, h3⟩ := (c64_stream hl hc m _ hf d h).2.2.2 r hr
  obtain ⟨f1, busy, f2, f3, -⟩ := streamFits_append hf
  obtain ⟨-, hinv⟩ := stream_lists hl hc ops ⟨u0, m, []⟩ _ _ (pipe_inv hl hc (.init m)) f1
  rw [syncRun_append] at h1
  generalize (syncRun c ups ⟨u0, m, []⟩ ops).2 = q at h1 hk f2 f3 hinv
  generalize (syncRun c ups ⟨u0, m, []⟩ ops).1 = rs0 at h1
  obtain ⟨cap', r', l', g1, g2⟩ := f2
  unfold Store.Has at hk g1
  rw [hk] at g1
  simp only [Option.some.injEq, VBuf.mk.injEq] at g1
  obtain ⟨rfl, rfl, rfl⟩ := g1
  obtain ⟨v, v1, v2, v3, v4, v5, v6, v7, v8⟩ := hinv.has (show Store.Has _ k cap b l from hk)
  obtain ⟨m', e1, e2, e3⟩ := c37_to_std q.mem (c.ty k).size v.view (fun _ => at_) v7
    (fun x ⟨x1, x2⟩ => hinv.outside (v8 ▸ g2) v2 x1 x2)
  have hbytes : bytesAt (q.exec c ups (.download k at_)).2.mem at_ (l.length * (c.ty k).size) = l.flatten := by
    simp only [Pipe.exec, v1, (getSize_does v.view q.mem).value.1, e1]
    rw [bytesAt_mul]
    congr 1
    rw [v6] at e2
    refine Eq.trans ?_ e2
    have hlen : l.length = v.view.len q.mem := by rw [← v6, elems_length]
    rw [hlen]
    rfl
  simp only [syncRun, hbytes, Prod.mk.injEq] at h1
  rw [h2, ← h1.1]
  exact ⟨rs0 ++ [Res.map (fun _ => []) (q.exec c ups (.download k at_)).1], (p.res, p.bufs), by simp⟩

/-! ## Examples -/

/-- A program: three bytes are copied to a buffer; a kernel appends the double of each odd one to another; the first buffer is
destroyed, and a third one is created and filled; the second one is copied to the host, which reads it; and the array with the
three bytes is used for two others.  Only the copy to the host is waited for. -/
def demoStream (sched : List Nat) : List StreamOp :=
  [.step (.create 0 3 false) false, .step (.upload 100 [[1], [2], [3]] 0) false, .step (.create 1 5 true) false, .step (.setup 1) false,
    .step (.kernel [0] 1 (filterKernel (fun e => (e.getD 0 0).toNat % 2 = 1) fun e => [2 * e.getD 0 0]) sched) false,
    .step (.destroy 0) false, .step (.create 2 3 false) false, .step (.memset 2 9) false, .step (.download 1 200) true, .look 200 2,
    .step (.upload 100 [[5], [6]] 2) false]

/-- What the host reads at the end, if every step is complete when it returns. -/
example : (syncRun demoCfg (fun _ => demoBase) ⟨demoInit, fun _ => 7, []⟩ (demoStream [1, 2, 2, 0, 2])).1[9]? = some (.ok [6, 2]) := by
  decide +kernel

set_option maxRecDepth 20000 in
/-- The hypotheses of `c64_stream` are met by this program. -/
example : FamLawful 64 64 (fun _ : Nat => demoBase) demoInit ∧ demoCfg.Wf ∧ streamFits demoCfg 64 (fun _ => demoBase)
    ⟨demoInit, fun _ => 7, []⟩ (fun _ => false) (fun _ => False) (demoStream [1, 2, 2, 0, 2]) := by
  refine ⟨.same (demo_lawful 64), demoCfg_wf, ⟨rfl, by decide, ⟨by decide, by decide, 4, rfl⟩⟩, by simp,
    ⟨by decide, fun _ => ⟨by decide, by decide⟩, ?_, by decide, 3, false, [[7], [7], [7]], by rfl⟩, ?_,
    ⟨rfl, by decide, ⟨by decide, by decide, 4, rfl⟩⟩, by simp, ⟨_, rfl⟩, by simp,
    ⟨by decide, [[[1], [2], [3]]], 5, [], ⟨⟨3, false, by rfl⟩, trivial⟩, by rfl, by decide, ?_⟩, by simp,
    ⟨_, rfl⟩, by simp, ⟨rfl, by decide, ⟨by decide, by decide, 4, rfl⟩⟩, by simp, ⟨_, rfl⟩, by simp,
    ⟨5, true, [[6], [2]], by rfl, ?_⟩, by simp, ?_,
    ⟨by decide, fun _ => ⟨by decide, by decide⟩, ?_, by decide, 3, false, [[9], [9], [9]], by rfl⟩, ?_, trivial⟩
  · unfold Pipe.Outside
    decide +kernel
  · rintro - x - (h | h)
    · exact h.1
    · rcases h.2 with h | h <;> exact h
  · intro pr hpr x hx
    obtain ⟨e, he, rfl⟩ := List.mem_map.1 hpr
    simp only [List.headD_cons, List.mem_cons, List.not_mem_nil, or_false] at he
    rcases he with rfl | rfl | rfl <;> simp at hx
    all_goals (subst hx; exact ⟨rfl, rfl⟩)
  · unfold Pipe.Outside
    decide +kernel
  · rintro x - - (⟨-, hb⟩ | hb)
    · exact hb ⟨rfl, trivial⟩
    · exact absurd hb.1 (by simp)
  · unfold Pipe.Outside
    decide +kernel
  · rintro - x - (⟨-, hb⟩ | hb)
    · exact hb ⟨rfl, trivial⟩
    · exact absurd hb.1 (by simp)

/-- The rule about busy memory is needed: a program copies from an array to a buffer, does not wait, and fills the array
again, while the stream may be reading it. -/
def demoHasty : List StreamOp :=
  [.step (.create 0 1 false) false, .step (.upload 100 [[1]] 0) false, .step (.upload 100 [[2]] 0) true]

theorem c64_hasty : ∃ d, ASteps (AConf.start (streamProg demoCfg (fun _ => demoBase) demoHasty demoInit [] []) fun _ => 7) d ∧ Race d := by
  refine ⟨_, .step (.step (.step .refl .poke) .issue) .event, ?_⟩
  exact ⟨_, List.mem_singleton.2 rfl, 100, by decide, .inl ⟨by decide, by decide +kernel⟩⟩

/-- So is the rule for reading: a program copies a buffer to a host vector, and reads the vector without waiting. -/
theorem c64_early_look : ∃ d, ASteps (AConf.start (streamProg demoCfg (fun _ => demoBase)
    [.step (.create 0 1 false) true, .step (.download 0 200) false, .look 200 1] demoInit [] []) fun _ => 7) d ∧ Race d := by
  refine ⟨_, .step (.step .refl .issue) .event, ?_⟩
  exact ⟨_, List.mem_singleton.2 rfl, 200, by decide, ⟨by decide, by decide +kernel⟩⟩

/-- Waiting for a later step that has nothing to do is not enough: here a copy of no elements. -/
theorem c64_idle_wait : ∃ d, ASteps (AConf.start (streamProg demoCfg (fun _ => demoBase)
    [.step (.create 0 1 false) true, .step (.upload 100 [[1]] 0) false, .step (.upload 300 [] 0) true, .step (.upload 100 [[2]] 0) true]
    demoInit [] []) fun _ => 7) d ∧ Race d := by
  refine ⟨_, .step (.step (.step (.step (.step .refl .poke) .issue) .event) .poke) (.wait (Nat.zero_le _)), ?_⟩
  exact ⟨_, List.mem_singleton.2 rfl, 100, by decide, .inl ⟨by decide, by decide +kernel⟩⟩

end Props
end Vecmem
