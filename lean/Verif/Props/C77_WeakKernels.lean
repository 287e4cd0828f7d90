import Verif.Lemmas.WeakPipeline
import Verif.Lemmas.WeakSequential
import Verif.Lemmas.WeakProgress
import Mathlib.Data.Nat.Pairing
import Verif.Props.C59_Pipelines
import Verif.Props.C76_WeakVector

/-!
# C77: kernels that append on weak memory do what they could do on a memory without stale values

Vocabulary: `Verif/Spec/WeakKernel.lean` (`WVec.Shows`, `Returned`), `Verif/Spec/WeakVector.lean` (`WTrace.Final`), `Verif/Spec/DeviceVectorConcurrent.lean`.
-/

namespace Vecmem.Props

open Vecmem

variable {α : Type} {I : WImpl 32} {m : AMem 32} {V : WVec} {words : α → List (BitVec 32)} {progs : List (List (ACall α))} {s : WRun 32} {s0 : DV α}

/-- C77: let threads append to a device vector on a memory in which they may read old values, and let there be room for all.  No assertion fails; and when all have ended, there is a
schedule of the same threads on a memory without old values, with which they end, in which the vector is left with the same size and elements, and in which
all calls return the same indices. -/
theorem c77_sequential (hI : I = posixWeak ∨ I = cudaWeak ∨ I = syclWeak ∨ I = syclBuiltinWeak) (hV : V.Valid 32)
    (hs : V.Shows words (fun a x => x = m a) s0) (hp : ∀ p ∈ progs, ∀ c ∈ p, c.Valid true [])
    (room : s0.sizeWord + totalCount progs ≤ s0.cap)
    (h : WRun.Reach I m (fun i => (WTask.calls words s0.dflt (progs[i]?.getD [])).code V) s) :
    (∀ i, s.prog i ≠ .failed) ∧
    ((∀ i, s.prog i = .done) → ∃ sched, ((Conc.start s0 progs).run sched).failed = false ∧ ((Conc.start s0 progs).run sched).Finished ∧
      V.Shows words (s.sys.trace.Final m) ((Conc.start s0 progs).run sched).vec ∧
      ∀ i, (((Conc.start s0 progs).run sched).results i).map (·.1) = progs[i]?.getD [] ∧
        Returned V.size (((Conc.start s0 progs).run sched).results i) (WTrace.claims V.size (s.sys.trace.of i))) := by
  obtain ⟨y, rfl, hy⟩ := hs.size
  have hcap := hV.cap
  rw [hs.cap] at hcap
  have hval : ∀ (i : Nat) (c : ACall α), c ∈ progs[i]?.getD [] → c.Valid true [] ∧ c.count < 2 ^ 32 := by
    intro i c hc
    cases hpi : progs[i]? with
    | none => rw [hpi] at hc; cases hc
    | some p =>
      rw [hpi, Option.getD_some] at hc
      have hmem := List.mem_of_getElem? hpi
      refine ⟨hp p hmem c hc, ?_⟩
      have h1 : c.count ≤ (p.map ACall.count).sum := le_sum_mem (List.mem_map_of_mem hc)
      have h2 : (p.map ACall.count).sum ≤ totalCount progs := le_sum_mem (List.mem_map_of_mem (f := fun p => (p.map ACall.count).sum) hmem)
      omega
  have hle := kernel_claimed hV h
  have ha := h.appending (tasks := fun i => WTask.calls words s0.dflt (progs[i]?.getD [])) hI hV (fun i => calls_polite V words _ (hval i))
    (by rw [hy, hs.cap]; omega)
  refine ⟨ha.not_failed, fun ended => ?_⟩
  have ho := h.sys.ordered (R := fun _ => False) (A := fun _ => False) (fun _ _ _ h => h.elim) (fun _ _ _ h => h.elim)
  have hleft : ∀ i, List.Forall₂ (fun c e => ∃ v, CallLeft V m (s.sys.trace.Final m) words s0.dflt c v e) (progs[i]?.getD [])
      ((WTrace.claims V.size s.sys.trace).filter fun e => decide (e.thread = i)) := by
    intro i
    have := calls_left hV (ha.left ho (ended i))
    rw [WTrace.of, List.filter_comm] at this
    exact this
  exact ha.sequential (d := V.dbg) hs (fun i c hc => (hval i c hc).1) hleft

/-- C77: threads are never stuck.  From every state that they reach, there are steps with which all of them come to their ends (or an assertion fails). -/
theorem c77_ends {w : Nat} {I : WImpl w} {m : AMem w} {V : WVec} {tasks : Nat → WTask w} {s : WRun w} (hI : I = posixWeak ∨ I = cudaWeak ∨ I = syclWeak ∨ I = syclBuiltinWeak)
    (h : WRun.Reach I m (fun i => (tasks i).code V) s) (ha : ∀ i, (tasks i).Allowed I) {n : Nat} (hn : ∀ i, n ≤ i → tasks i = .done) :
    ∃ s', Relation.ReflTransGen (WRun.Step I) s s' ∧ ∀ i, s'.prog i = .done ∨ s'.prog i = .failed := by
  refine h.finishAll (fun i => code_defined hI V (ha i)) (n := n) fun i hi => .inl ?_
  have := h.after i
  simp only [hn i hi, WTask.code] at this
  cases htr : s.sys.trace.own i with
  | nil => rw [htr] at this; simpa [WProg.after] using this.symm
  | cons x l => rw [htr] at this; cases this

/-! ## programs with such kernels -/

section

variable {σ : Type} {R : Limits} {G : Nat} {ups : Nat → MR σ} {u0 : σ} {c : PipeCfg} {p : Pipe σ} {ready : Nat → Bool}

/-- C77: a kernel on weak memory leaves memory as a kernel does that is scheduled on a memory without stale values, and returns the same. -/
theorem c77_kernel (hI : I = posixWeak ∨ I = cudaWeak ∨ I = syclWeak ∨ I = syclBuiltinWeak) {t : Nat} {v : View} {dbg : Bool} {dflt : Elem} {mem mem' : Mem}
    {progs : List (List (ACall Elem))} {rets : List (List (ACall Elem × Nat))} (hv : v.Valid mem t) (hz : v.sizePtr ≠ 0) (hd : dflt.length = t)
    (hp : ∀ q ∈ progs, ∀ x ∈ q, x.Valid true [] ∧ x.Sized t) (room : v.len mem + totalCount progs ≤ v.capacity)
    (h : WeakKernel I dbg dflt t v progs mem mem' rets) :
    ∃ sched, (Conc.kernel (v.device dbg dflt t mem) progs sched).failed = false ∧
      (Conc.kernel (v.device dbg dflt t mem) progs sched).threads.map Thread.done = rets ∧
      v.storeDevice t mem (Conc.kernel (v.device dbg dflt t mem) progs sched).vec = mem' := by
  obtain ⟨V, m, s, hV, hdbg, h1, h2, h3, h4, h5, h6, h7⟩ := h
  have hlen : v.len mem = (v.device dbg dflt t mem).sizeWord := by simp [View.len, View.device, hz]
  have hsh := h1.shows (dbg := dbg) (dflt := dflt) hdbg hz
  obtain ⟨-, h8⟩ := c77_sequential hI hV hsh (fun q hq x hx => (hp q hq x hx).1) (by rw [← hlen]; exact room) h2
  obtain ⟨sched, g1, g2, g3, g4⟩ := h8 h3
  refine ⟨sched, ?_⟩
  rw [c59_schedules _ _ _ g2]
  have hall : ((Conc.start (v.device dbg dflt t mem) progs).run sched).vec.All (fun e => e.length = t) := by
    refine Conc.all_run _ (device_all _ hd _ _) (Conc.all_start fun q hq x hx => ?_)
    have := (hp q hq x hx).2
    cases x <;> first | trivial | (rename_i a; cases a <;> exact this)
  have hlenT : ((Conc.start (v.device dbg dflt t mem) progs).run sched).threads.length = progs.length := by
    rw [Conc.run_length]
    simp [Conc.start]
  have hfw := h2.sys.values.writes
  generalize (Conc.start (v.device dbg dflt t mem) progs).run sched = g at g1 g2 g3 g4 hall hlenT
  refine ⟨g1, ?_, ?_⟩
  · have hl : rets.length = progs.length := by rw [← h6, List.length_map]
    apply List.ext_getElem?
    intro i
    by_cases hi : i < progs.length
    · have e1 : g.results i = rets[i]?.getD [] := by
        refine returned_unique ?_ (g4 i).2 (h7 i)
        rw [(g4 i).1, ← h6, List.getElem?_map]
        cases rets[i]? <;> rfl
      rw [List.getElem?_map]
      unfold Conc.results at e1
      rw [List.getElem?_eq_getElem (by omega)] at e1 ⊢
      rw [List.getElem?_eq_getElem (hl ▸ hi)] at e1 ⊢
      simpa using e1
    · rw [List.getElem?_eq_none (by simp; omega), List.getElem?_eq_none (by omega)]
  · funext x
    by_cases hx : v.Has t x
    · rcases hx with hx | hx
      · unfold View.storeDevice
        rw [if_pos (c := v.ptr ≤ x ∧ _) hx]
        obtain ⟨hx1, hx2⟩ := hx
        have ht : 0 < t := by
          rcases Nat.eq_zero_or_pos t with rfl | ht
          · rw [Nat.mul_zero] at hx2; omega
          · exact ht
        have hq : (x - v.ptr) / t < v.capacity := by
          rw [Nat.div_lt_iff_lt_mul ht]; omega
        have hu : (x - v.ptr) % t < t := Nat.mod_lt _ ht
        have hcap : g.vec.cap = v.capacity := g3.cap.symm.trans h1.cap
        obtain ⟨e, e1, e2⟩ := g3.elems _ (by rw [hcap]; exact hq)
        have e3 := hall.3 _ _ e1
        have e4 := e2 ((x - v.ptr) % t) (BitVec.ofNat 32 (e.getD ((x - v.ptr) % t) 0).toNat) (by
          simp only [byteWords, List.getElem?_map]
          rw [List.getElem?_eq_getElem (by omega), List.getD_eq_getElem?_getD, List.getElem?_eq_getElem (by omega)]
          rfl)
        have e5 := c76_final_unique hfw e4 (h4.bytes _ _ hq hu)
        rw [e1, Option.getD_some]
        have hx' : v.ptr + (x - v.ptr) / t * t + (x - v.ptr) % t = x := by
          have := Nat.div_add_mod (x - v.ptr) t
          rw [Nat.mul_comm] at this
          omega
        rw [hx'] at e5
        exact byte_inj e5
      · unfold View.storeDevice
        rw [if_neg (c := v.ptr ≤ x ∧ _) (fun hp => hv.apart x ⟨hp, hx⟩), if_neg hz]
        obtain ⟨y, e1, e2⟩ := g3.size
        obtain ⟨y', e3, e4⟩ := h4.size
        have := c76_final_unique hfw e1 e3
        subst this
        rw [← e2, e4]
        exact writeLE_readLE hx.2.1 hx.2.2
    · rw [storeDevice_other hx, h5 x hx]

/-- C77: such kernels can be run: there is an execution of it on weak memory from every memory, and it leaves a memory. -/
theorem c77_runs (hI : I = posixWeak ∨ I = cudaWeak ∨ I = syclWeak ∨ I = syclBuiltinWeak) {t : Nat} {v : View} {dbg : Bool} {dflt : Elem} {mem : Mem}
    {progs : List (List (ACall Elem))} (hv : v.Valid mem t) (hz : v.sizePtr ≠ 0) (hd : dflt.length = t)
    (hp : ∀ q ∈ progs, ∀ x ∈ q, x.Valid true [] ∧ x.Sized t) (room : v.len mem + totalCount progs ≤ v.capacity) :
    ∃ mem' rets, WeakKernel I dbg dflt t v progs mem mem' rets := by
  obtain ⟨V, hV⟩ : ∃ V : WVec, V = ⟨0, fun u i => Nat.pair u i + 1, v.capacity, dbg⟩ := ⟨_, rfl⟩
  obtain ⟨m, hm⟩ : ∃ m : AMem 32, m = fun a => if a = 0 then BitVec.ofNat 32 (readLE mem v.sizePtr 4) else
    BitVec.ofNat 32 (mem (v.ptr + (Nat.unpair (a - 1)).2 * t + (Nat.unpair (a - 1)).1)).toNat := ⟨_, rfl⟩
  have hvalid : V.Valid 32 := by
    subst hV
    refine ⟨fun u i u' i' h => ?_, fun u i => Nat.succ_ne_zero _, hv.word32⟩
    exact Nat.pair_eq_pair.1 (Nat.succ.inj h)
  have hin : v.InVars t V (fun a x => x = m a) mem := by
    subst hV hm
    refine ⟨rfl, ⟨_, rfl, ?_⟩, fun i u hi hu => ?_⟩
    · simp only [if_true, BitVec.toNat_ofNat]
      exact Nat.mod_eq_of_lt (by simpa using readLE_lt mem v.sizePtr 4)
    · simp
  have hsh := hin.shows (dbg := dbg) (dflt := dflt) (by rw [hV]) hz
  have hlen : v.len mem = (v.device dbg dflt t mem).sizeWord := by simp [View.len, View.device, hz]
  have hp' : ∀ q ∈ progs, ∀ x ∈ q, x.Valid true [] := fun q hq x hx => (hp q hq x hx).1
  have hroom : (v.device dbg dflt t mem).sizeWord + totalCount progs ≤ (v.device dbg dflt t mem).cap := by rw [← hlen]; exact room
  obtain ⟨s, h1, h2⟩ := c77_ends (n := progs.length) (tasks := fun i => WTask.calls byteWords dflt (progs[i]?.getD [])) (V := V) (m := m) hI .start (fun i => calls_allowed _ _ _)
    (fun i hi => by rw [List.getElem?_eq_none hi]; rfl)
  have hr := WRun.Reach.steps (.start) h1
  obtain ⟨h3, h4⟩ := c77_sequential hI hvalid hsh hp' hroom hr
  have hdone : ∀ i, s.prog i = .done := fun i => (h2 i).resolve_right (h3 i)
  obtain ⟨sched, g1, g2, g3, g4⟩ := h4 hdone
  have hall : ((Conc.start (v.device dbg dflt t mem) progs).run sched).vec.All (fun e => e.length = t) := by
    refine Conc.all_run _ (device_all _ hd _ _) (Conc.all_start fun q hq x hx => ?_)
    have := (hp q hq x hx).2
    cases x <;> first | trivial | (rename_i a; cases a <;> exact this)
  have hlenT : ((Conc.start (v.device dbg dflt t mem) progs).run sched).threads.length = progs.length := by
    rw [Conc.run_length]
    simp [Conc.start]
  generalize (Conc.start (v.device dbg dflt t mem) progs).run sched = g at g1 g2 g3 g4 hall hlenT
  refine ⟨v.storeDevice t mem g.vec, g.threads.map Thread.done, V, m, s, hvalid, by rw [hV], hin, hr, hdone, ⟨hin.cap, ?_, ?_⟩, fun x hx => storeDevice_other hx, ?_, ?_⟩
  · obtain ⟨y, e1, e2⟩ := g3.size
    refine ⟨y, e1, e2.trans ?_⟩
    have := storeDevice_len (m := mem) hv.toPlaced (s := g.vec) (fun _ => by rw [← e2]; exact y.isLt)
    rw [if_neg hz] at this
    rw [← this]
    simp [View.len, hz]
  · intro i u hi hu
    obtain ⟨e, e1, e2⟩ := g3.elems i (by rw [← g3.cap, hin.cap]; exact hi)
    have e3 := hall.3 _ _ e1
    refine e2 u _ ?_
    have hb := payload_bound hi hu
    simp only [byteWords, List.getElem?_map]
    unfold View.storeDevice
    rw [if_pos ⟨by omega, by omega⟩, show v.ptr + i * t + u - v.ptr = i * t + u by omega, Nat.mul_comm i t, Nat.mul_add_div (by omega),
      Nat.mul_add_mod, Nat.mod_eq_of_lt hu, Nat.div_eq_of_lt hu, Nat.add_zero, e1, Option.getD_some, List.getD_eq_getElem?_getD,
      List.getElem?_eq_getElem (by omega)]
    rfl
  · apply List.ext_getElem?
    intro i
    have := (g4 i).1
    unfold Conc.results at this
    rw [List.getElem?_map, List.getElem?_map]
    by_cases hi : i < progs.length
    · rw [List.getElem?_eq_getElem (by omega)] at this ⊢
      rw [List.getElem?_eq_getElem hi] at this ⊢
      simpa using this
    · rw [List.getElem?_eq_none (by omega), List.getElem?_eq_none (by omega)]; rfl
  · intro i
    have := (g4 i).2
    unfold Conc.results at this
    rw [List.getElem?_map]
    cases hg : g.threads[i]? <;> rw [hg] at this <;> exact this

/-- A step with a kernel on weak memory is a step with a kernel that is scheduled somehow. -/
theorem weak_step {T : List (Nat × Blk)} {outside : Nat → Nat → Prop} (hI : I = posixWeak ∨ I = cudaWeak ∨ I = syclWeak ∨ I = syclBuiltinWeak) (hc : c.Wf)
    (hinv : PipeInv c R ups u0 T p ready) {op : PipeOp} (hf : op.Fits c R outside (p.store c ready)) (hop : op.Plain) {r : Res PipeOut} {p' : Pipe σ}
    (hs : WPipeStep I c ups p op r p') :
    p.exec c ups op = (r, p') ∨ ∃ ins k f sched sched', op = .kernel ins k f sched ∧ p.exec c ups (.kernel ins k f sched') = (r, p') := by
  cases hs with
  | other _ => exact .inl rfl
  | @kernel ins k f sched b ls mem' rets hb hr hk =>
    obtain ⟨-, ls', cap, l, f1, f2, f3, f4⟩ := hf
    obtain ⟨b', b1, b2, b3, b4, b5, b6, b7, b8⟩ := hinv.has f2
    rw [hb] at b1
    cases b1
    have hz : b.view.sizePtr ≠ 0 := bne_iff_ne.1 b5
    have hls := hinv.reads f1
    rw [hr] at hls
    cases hls
    obtain ⟨sched', g1, g2, g3⟩ := c77_kernel hI b7 hz (hc k).2 (fun q hq x hx => ⟨hop ls q hq x hx, (f4 q hq x hx).2⟩)
      (by rw [b8, b4]; exact f3) hk
    refine .inr ⟨ins, k, f, sched, sched', rfl, ?_⟩
    change (Conc.kernel (p.device c k b) (f ls) sched').failed = false at g1
    change (Conc.kernel (p.device c k b) (f ls) sched').threads.map Thread.done = rets at g2
    change b.view.storeDevice (c.ty k).size p.mem (Conc.kernel (p.device c k b) (f ls) sched').vec = mem' at g3
    simp only [Pipe.exec, hb, hr]
    rw [if_neg (by simp [g1]), g2, g3]

theorem c77_step (hI : I = posixWeak ∨ I = cudaWeak ∨ I = syclWeak ∨ I = syclBuiltinWeak) (hl : FamLawful R G ups u0) (hc : c.Wf)
    (h : PipeReach c R ups u0 p ready) {op : PipeOp} (hf : op.Fits c R p.Outside (p.store c ready)) (hop : op.Plain) {r : Res PipeOut} {p' : Pipe σ}
    (hs : WPipeStep I c ups p op r p') :
    p.exec c ups op = (r, p') ∨ ∃ ins k f sched sched', op = .kernel ins k f sched ∧ p.exec c ups (.kernel ins k f sched') = (r, p') :=
  weak_step hI hc (pipe_inv hl hc h) hf hop hs

/-- Every state that is reached with kernels on weak memory is reached with kernels that are scheduled somehow: all of C59 holds in it. -/
theorem c77_reach (hI : I = posixWeak ∨ I = cudaWeak ∨ I = syclWeak ∨ I = syclBuiltinWeak) (hl : FamLawful R G ups u0) (hc : c.Wf)
    (h : WPipeReach I c R ups u0 p ready) : PipeReach c R ups u0 p ready := by
  induction h with
  | init m => exact .init m
  | @step p ready op r p' h hf hp hs ih =>
    rcases c77_step hI hl hc ih hf hp hs with h1 | ⟨ins, k, f, sched, sched', rfl, h1⟩
    · have := ih.step hf
      rwa [h1] at this
    · have := ih.step (op := .kernel ins k f sched') hf
      rwa [h1] at this

/-- C77: in a program with buffers and copies (C59) whose kernels run on weak memory, every step does to the elements in memory, and returns, what it may do and return according to
`PipeStep`, which speaks about lists of elements only. -/
theorem c77_pipelines (hI : I = posixWeak ∨ I = cudaWeak ∨ I = syclWeak ∨ I = syclBuiltinWeak) (hl : FamLawful R G ups u0) (hc : c.Wf)
    (h : WPipeReach I c R ups u0 p ready) {op : PipeOp} (hf : op.Fits c R p.Outside (p.store c ready)) (hop : op.Plain) {r : Res PipeOut} {p' : Pipe σ}
    (hs : WPipeStep I c ups p op r p') : PipeStep c (p.store c ready) op r (p'.store c (op.ready ready)) := by
  have h' := c77_reach hI hl hc h
  rcases c77_step hI hl hc h' hf hop hs with h1 | ⟨ins, k, f, sched, sched', rfl, h1⟩
  · have := c59_pipelines_partial hl hc h' op hf
    rwa [h1] at this
  · have := c59_pipelines_partial hl hc h' (.kernel ins k f sched') hf
    rw [h1] at this
    change PipeStep c (p.store c ready) _ r (p'.store c ready) at this
    change PipeStep c (p.store c ready) _ r (p'.store c ready)
    generalize p'.store c ready = S' at this ⊢
    cases this with
    | kernel _ _ _ _ a1 a2 order results l' a3 a4 a5 =>
      exact .kernel ins k f sched a1 a2 order results l' a3 a4 a5

theorem weak_goes_on {T : List (Nat × Blk)} {outside : Nat → Nat → Prop} (hI : I = posixWeak ∨ I = cudaWeak ∨ I = syclWeak ∨ I = syclBuiltinWeak) (hc : c.Wf)
    (hinv : PipeInv c R ups u0 T p ready) {op : PipeOp} (hf : op.Fits c R outside (p.store c ready)) (hop : op.Plain) : ∃ r p', WPipeStep I c ups p op r p' := by
  by_cases hk : op.IsKernel
  · cases op with
    | kernel ins k f sched =>
      obtain ⟨-, ls, cap, l, f1, f2, f3, f4⟩ := hf
      obtain ⟨b, b1, b2, b3, b4, b5, b6, b7, b8⟩ := hinv.has f2
      obtain ⟨mem', rets, hw⟩ := c77_runs (dbg := c.dbg) hI b7 (bne_iff_ne.1 b5) (hc k).2 (fun q hq x hx => ⟨hop ls q hq x hx, (f4 q hq x hx).2⟩)
        (by rw [b8, b4]; exact f3)
      exact ⟨_, _, .kernel b1 (hinv.reads f1) hw⟩
    | _ => exact hk.elim
  · exact ⟨_, _, .other hk⟩

/-- C77: kernels on weak memory are no less able to run than others: in every state of a program, each step that fits can be made. -/
theorem c77_goes_on (hI : I = posixWeak ∨ I = cudaWeak ∨ I = syclWeak ∨ I = syclBuiltinWeak) (hl : FamLawful R G ups u0) (hc : c.Wf)
    (h : WPipeReach I c R ups u0 p ready) {op : PipeOp} (hf : op.Fits c R p.Outside (p.store c ready)) (hop : op.Plain) :
    ∃ r p', WPipeStep I c ups p op r p' :=
  weak_goes_on hI hc (pipe_inv hl hc (c77_reach hI hl hc h)) hf hop

theorem filterKernel_mem {q : Elem → Bool} {g : Elem → Elem} {xs : List Elem} {pr : List (ACall Elem)} (hpr : pr ∈ filterKernel q g [xs]) {x : ACall Elem} (hx : x ∈ pr) :
    ∃ e ∈ xs, x = .push (.val (g e)) := by
  obtain ⟨e, he, rfl⟩ := List.mem_map.1 hpr
  cases hq : q e with
  | false => rw [hq] at hx; cases hx
  | true =>
    rw [hq] at hx
    exact ⟨e, he, by simpa using hx⟩

theorem filterKernel_plain (ins : List Nat) (k : Nat) (q : Elem → Bool) (g : Elem → Elem) (sched : List Nat) : (PipeOp.kernel ins k (filterKernel q g) sched).Plain := by
  intro ls pr hpr x hx
  obtain ⟨e, -, rfl⟩ := filterKernel_mem (xs := ls.headD []) (q := q) (g := g) (by simpa [filterKernel] using hpr) hx
  rfl

/-- C77, end to end: in any state of any program, a kernel with a thread for each element of one buffer appends, on weak memory, a value for each element that satisfies a
condition to an empty resizable buffer, whose capacity is large enough.  The host vector that this buffer is then copied to holds exactly these values, in some order. -/
theorem c77_parallel_filter (hI : I = posixWeak ∨ I = cudaWeak ∨ I = syclWeak ∨ I = syclBuiltinWeak) (hl : FamLawful R G ups u0) (hc : c.Wf)
    (h : WPipeReach I c R ups u0 p ready) (i k : Nat) (hik : k ≠ i) (xs : List Elem) (hi : ∃ cap r, (p.store c ready).Has i cap r xs) (cap : Nat)
    (hk : (p.store c ready).Has k cap true []) (q : Elem → Bool) (g : Elem → Elem) (hg : ∀ e ∈ xs, (g e).length = (c.ty k).size)
    (hroom : (xs.filter q).length ≤ cap) (at_ : Nat) (hout : p.Outside at_ ((xs.filter q).length * (c.ty k).size)) {sched : List Nat} {r : Res PipeOut} {p' : Pipe σ}
    (hs : WPipeStep I c ups p (.kernel [i] k (filterKernel q g) sched) r p') :
    (∃ out, r = .ok out) ∧ ∃ l, (p'.exec c ups (.download k at_)).1 = .ok (.vals l) ∧ l.Perm ((xs.filter q).map g) := by
  have h' := c77_reach hI hl hc h
  have hf : (PipeOp.kernel [i] k (filterKernel q g) sched).Fits c R p.Outside (p.store c ready) := by
    refine ⟨by simpa using hik, [xs], cap, [], ⟨hi, trivial⟩, hk, ?_, fun pr hpr x hx => ?_⟩
    · rw [filterKernel_count]; simpa using hroom
    · obtain ⟨e, he, rfl⟩ := filterKernel_mem hpr hx
      exact ⟨rfl, hg e he⟩
  rcases c77_step hI hl hc h' hf (filterKernel_plain _ _ _ _ _) hs with h1 | ⟨ins, k', f, sched', sched'', h0, h1⟩
  · have := c59_parallel_filter hl hc h' i k hik xs hi cap hk q g hg hroom sched at_ hout
    rw [h1] at this
    exact this
  · cases h0
    have := c59_parallel_filter hl hc h' i k hik xs hi cap hk q g hg hroom sched'' at_ hout
    rw [h1] at this
    exact this

end

/-! ## Instances -/

/-- The hypotheses of `c77_runs`, and with its result those of `c77_kernel`, are met: two threads, of which one appends a value and the other appends two in one call, to a vector of bytes
with the size word at address 4 and room for four elements at address 8. -/
example : ∃ mem' rets, WeakKernel posixWeak true [9] 1 ⟨4, 4, 8⟩ [[.push (.val [1])], [.bulkValue 2 (.val [5])]] (fun _ => 0) mem' rets := by
  have hv : (View.mk 4 4 8).Valid (fun _ => 0) 1 := by
    refine ⟨⟨by decide, by decide, by decide, ?_⟩, by decide⟩
    rintro x ⟨⟨h1, h2⟩, h3, h4, h5⟩
    simp at h1 h2 h4 h5
    omega
  have hp : ∀ q ∈ ([[.push (.val [1])], [.bulkValue 2 (.val [5])]] : List (List (ACall Elem))), ∀ x ∈ q, x.Valid true [] ∧ x.Sized 1 := by
    intro q hq x hx
    simp only [List.mem_cons, List.not_mem_nil, or_false] at hq
    rcases hq with rfl | rfl <;> (rw [List.mem_singleton] at hx; subst hx) <;> exact ⟨rfl, rfl⟩
  exact c77_runs (.inl rfl) hv (by decide) rfl hp (by decide)

/-- A program reaches the state before a kernel, which can then run on weak memory; so the hypotheses of `c77_pipelines` and `c77_parallel_filter` are met. -/
example : ∃ (p : Pipe _) (ready : Nat → Bool) (r : Res PipeOut) (p' : Pipe _),
    WPipeReach cudaWeak demoCfg 64 (fun _ => demoBase) demoInit p ready ∧
    (p.store demoCfg ready).HasAll [0] [[[1], [2], [3]]] ∧ (p.store demoCfg ready).Has 1 5 true [] ∧
    WPipeStep cudaWeak demoCfg (fun _ => demoBase) p (.kernel [0] 1 (filterKernel (fun e => (e.getD 0 0).toNat % 2 = 1) fun e => [2 * e.getD 0 0]) []) r p' := by
  have h0 := WPipeReach.init (I := cudaWeak) (c := demoCfg) (R := 64) (ups := fun _ => demoBase) (u0 := demoInit) (fun _ => 7)
  have h1 := h0.step (op := .create 0 3 false) ⟨rfl, by decide, ⟨by decide, by decide, 4, rfl⟩⟩ trivial (.other id)
  have h2 := h1.step (op := .upload 100 [[1], [2], [3]] 0)
    ⟨by decide, fun _ => ⟨by decide, by decide⟩, by unfold Pipe.Outside; decide +kernel, by decide, 3, false, [[7], [7], [7]], by rfl⟩ trivial (.other id)
  have h3 := h2.step (op := .create 1 5 true) ⟨rfl, by decide, ⟨by decide, by decide, 4, rfl⟩⟩ trivial (.other id)
  have h4 := h3.step (op := .setup 1) ⟨_, rfl⟩ trivial (.other id)
  have hk := c77_goes_on (op := .kernel [0] 1 (filterKernel (fun e => (e.getD 0 0).toNat % 2 = 1) fun e => [2 * e.getD 0 0]) []) (.inr (.inl rfl))
    (FamLawful.same (demo_lawful 64)) demoCfg_wf h4 ⟨by decide, [[[1], [2], [3]]], 5, [], ⟨⟨3, false, by rfl⟩, trivial⟩, by rfl, by decide, by
      intro pr hpr x hx
      obtain ⟨e, he, rfl⟩ := List.mem_map.1 hpr
      simp only [List.headD_cons, List.mem_cons, List.not_mem_nil, or_false] at he
      rcases he with rfl | rfl | rfl <;> simp at hx
      all_goals (subst hx; exact ⟨rfl, rfl⟩)⟩ (filterKernel_plain _ _ _ _ _)
  obtain ⟨r, p', hs⟩ := hk
  exact ⟨_, _, r, p', h4, ⟨⟨3, false, by rfl⟩, trivial⟩, by rfl, hs⟩

end Vecmem.Props
