import Verif.Lemmas.AsyncEdm
import Verif.Lemmas.AsyncRun
import Verif.Props.C03_C06_Pool
import Verif.Props.C64_AsyncPipelines

/-!
# C66: programs with container buffers, copies and kernels on a stream

Vocabulary: `Verif/Spec/AsyncProgram.lean` (`StreamSys.run`: the program if every step is complete when it returns;
`StreamSys.Fits`: what the host may do), `Verif/Spec/AsyncEdm.lean` (which memory the steps need), `Verif/Spec/AsyncCopy.lean` (`Race`,
`Undefined`), `Verif/Spec/EdmPipeline.lean` (tables).
-/

namespace Vecmem
namespace Props

open Prog

variable {σ : Type} {R : Limits} {G : Nat} {ups : Nat → MR σ} {u0 : σ} {c : EdmCfg} {p : EPipe σ} {q : EReady}

/-- No buffers, and any contents of memory. -/
def edmStart (u0 : σ) (m : Mem) : EPipe σ × EReady := (⟨u0, m, []⟩, ⟨fun _ => false, fun _ => false⟩)

/-- **C66**: a program creates and destroys container buffers (with or without jagged vectors and host accessible resources), sets
them up, fills them, copies between them and from and to containers of the host, and runs kernels, all on one stream; the host waits
for the events of some of these operations, and reads memory.  It only writes and reads memory itself which no operation
uses that it has not waited for (`StreamSys.Fits`); this includes what the constructors of container buffers write.  Then, however
the stream progresses: nothing is used by the host and by an operation at the same time, nothing is undefined, and the program
is not blocked.  When it has ended, every step gave, and the host has read, and memory, buffers and resources are, what they
are if every step is complete when it returns — also where buffers were destroyed, and their memory was used for others, before
the stream had executed anything. -/
theorem c66_stream (hl : FamLawful R G ups u0) (hc : c.Wf) (m : Mem) (ops : List (HostAct EdmOp))
    (hf : (edmSys c R G ups).Fits (edmStart u0 m) (fun _ => False) ops) (d : AConf _)
    (h : ASteps (AConf.start (hostStream (edmPlan c ups) ops (u0, []) []) m) d) :
    ¬ Race d ∧ ¬ Undefined d ∧ ((∃ r, d.prog = .ret r ∧ d.queue = []) ∨ ∃ d', AStep d d') ∧
    ∀ r, d.prog = .ret r → d.queue = [] ∧ ∃ rs p q, (edmSys c R G ups).run (edmStart u0 m) ops = (rs, p, q) ∧
      r = .ok (rs, p.res, p.bufs) ∧ d.st.mem = p.mem := by
  have := host_stream (Y := edmSys c R G ups) (host := fun s => (s.1.res, s.1.bufs)) (Inv := fun s => EInv c R G ups u0 s.1 s.2)
    (fun s op hi hm => eplan hl hc hi hm) (p := edmStart u0 m) (edm_inv hl hc (.init m)) hf (d := d) h
  obtain ⟨h1, h2, h3, h4⟩ := this
  refine ⟨h1, h2, h3, fun r hr => ?_⟩
  obtain ⟨k1, rs, s, k2, k3, k4⟩ := h4 r hr
  exact ⟨k1, rs, s.1, s.2, k2, k3, k4⟩

/-- Every execution ends. -/
theorem c66_terminates (m : Mem) (ops : List (HostAct EdmOp)) :
    ¬ ∃ f : Nat → AConf _, f 0 = AConf.start (hostStream (edmPlan c ups) ops (u0, []) []) m ∧ ∀ i, AStep (f i) (f (i + 1)) :=
  host_terminates _ m

/-! ## Tables -/

theorem edm_tables (hl : FamLawful R G ups u0) (hc : c.Wf) : ∀ (ops : List (HostAct EdmOp)) (p : EPipe σ) (q : EReady) (busy : Nat → Prop),
    EInv c R G ups u0 p q → (edmSys c R G ups).Fits (p, q) busy ops →
    ActRun (EdmStep c) (p.store c q) ops ((edmSys c R G ups).run (p, q) ops).1
      (((edmSys c R G ups).run (p, q) ops).2.1.store c ((edmSys c R G ups).run (p, q) ops).2.2) ∧
    EInv c R G ups u0 ((edmSys c R G ups).run (p, q) ops).2.1 ((edmSys c R G ups).run (p, q) ops).2.2 := by
  intro ops
  induction ops with
  | nil => exact fun p q busy h _ => ⟨.nil _, h⟩
  | cons o ops ih =>
    intro p q busy h hf
    cases o with
    | sync =>
      obtain ⟨h1, h2⟩ := ih p q _ h hf
      exact ⟨.sync h1, h2⟩
    | look a n =>
      obtain ⟨h1, h2⟩ := ih p q busy h hf.2
      exact ⟨.look a n _ (bytesAt_length _ _ _) h1, h2⟩
    | step op w =>
      obtain ⟨f1, -, f3⟩ := hf
      have hs := edm_step hl hc h f1
      obtain ⟨h1, h2⟩ := ih _ _ _ hs.1 f3
      exact ⟨.step w hs.2 h1, h2⟩

/-- **C66**, tables: when the program has ended, its steps gave what they may give, and the buffers hold the tables that they may
hold, if every step is made when it is called; and the memory in use is what the buffers own.

Missing: as in C65. -/
theorem c66_tables_partial (hl : FamLawful R G ups u0) (hc : c.Wf) (m : Mem) (ops : List (HostAct EdmOp))
    (hf : (edmSys c R G ups).Fits (edmStart u0 m) (fun _ => False) ops) (d : AConf _)
    (h : ASteps (AConf.start (hostStream (edmPlan c ups) ops (u0, []) []) m) d) (r : Res _) (hr : d.prog = .ret r) :
    ∃ rs u bufs q, r = .ok (rs, u, bufs) ∧ ActRun (EdmStep c) (fun _ => none) ops rs ((EPipe.mk u d.st.mem bufs).store c q) ∧
      FReach R ups u0 u ((EPipe.mk u d.st.mem bufs).owned c) := by
  obtain ⟨-, rs, p, q, h1, h2, h3⟩ := (c66_stream hl hc m ops hf d h).2.2.2 r hr
  obtain ⟨k1, k2⟩ := edm_tables hl hc ops ⟨u0, m, []⟩ ⟨fun _ => false, fun _ => false⟩ _ (edm_inv hl hc (.init m)) hf
  unfold edmStart at h1
  rw [h1] at k1 k2
  refine ⟨rs, p.res, p.bufs, q, h2, ?_, ?_⟩
  · rw [h3]
    exact k1
  · rw [h3]
    exact k2.reach

theorem bytesAt_elems (m : Mem) (n a t : Nat) : bytesAt m a (n * t) = ((View.mk n 0 a).elems m t).flatten := by
  rw [bytesAt_mul]
  rfl

/-- What a copy to the host leaves in the host's arrays. -/
theorem edm_download_bytes (hl : FamLawful R G ups u0) (hc : c.Wf) (h : EInv c R G ups u0 p q) {k : Nat} {ats : List (List Nat)}
    {caps : List Nat} {b dev : Bool} {t : Table} (hk : (p.store c q).Has k caps b dev t)
    (hf : (EdmOp.download k ats).Fits c R G (p.Outside c) (p.store c q)) {i r a : Nat} {v : Var} {as : List Nat} {rows : List (List Elem)}
    {l : List Elem} (hv : (c.schema k)[i]? = some v) (has : ats[i]? = some as) (ht : t[i]? = some rows) (ha : as[r]? = some a)
    (hrow : rows[r]? = some l) : bytesAt (p.exec c ups (.download k ats)).2.mem a (l.length * v.type.size) = l.flatten := by
  have hs := (edm_step hl hc h hf).2
  have hT : (p.exec c ups (.download k ats)).1 = .ok (.table t) := by
    generalize (p.exec c ups (.download k ats)).1 = out at hs ⊢
    generalize (p.exec c ups (.download k ats)).2.store c _ = S' at hs
    generalize hS : p.store c q = S at hs hk
    cases hs with
    | download _ _ hh =>
      unfold EStore.Has at hh hk
      rw [hk] at hh
      simp only [Option.some.injEq, EBuf.mk.injEq] at hh
      rw [hh.2.2.1]
  simp only [EPipe.exec] at hT ⊢
  cases hb : p.bufs.lookup k with
  | none => rw [hb] at hT; cases hT
  | some bf =>
    rw [hb] at hT
    simp only at hT ⊢
    cases hn : (hostSizes c.dbg (c.schema k) bf.buf.view).value p.mem with
    | ok ns =>
      rw [hn] at hT
      simp only at hT ⊢
      generalize (copyEdmToHost c.dbg (c.schema k) bf.buf.view fun _ => ats).result p.mem = e at hT ⊢
      obtain ⟨e1, m'⟩ := e
      cases e1 with
      | ok =>
        simp only [Res.map, Res.ok.injEq, EdmOut.table.injEq] at hT
        rw [← hT] at ht
        unfold hostTable at ht
        rw [List.getElem?_zipWith, hv] at ht
        have hz : ∀ {n : List Nat}, ns[i]? = some n → (List.zip ns ats)[i]? = some (n, as) := by
          intro n hn
          rw [List.getElem?_zip_eq_some]
          exact ⟨hn, has⟩
        cases hni : ns[i]? with
        | none =>
          rw [List.getElem?_eq_none (by rw [List.length_zip]; have := List.getElem?_eq_none_iff.1 hni; omega)] at ht
          cases ht
        | some n =>
          rw [hz hni] at ht
          simp only [Option.some.injEq] at ht
          rw [← ht, List.getElem?_zipWith, ha] at hrow
          cases hnr : n[r]? with
          | none => rw [hnr] at hrow; cases hrow
          | some w =>
            rw [hnr] at hrow
            simp only [Option.some.injEq] at hrow
            have hw : l.length = w := by rw [← hrow, elems_length]; rfl
            rw [hw, bytesAt_elems, hrow]
      | _ => cases hT
    | _ => rw [hn] at hT; cases hT

/-- **C66**, results: a program copies a container buffer to a container of the host, waits for the event of this copy (only), and reads
the array of one row of one variable.  It finds the elements that this row of the buffer has after all steps before, if every step is
made when it is called (`c66_tables_partial` says which these are). -/
theorem c66_download (hl : FamLawful R G ups u0) (hc : c.Wf) (m : Mem) (ops : List (HostAct EdmOp)) (k : Nat) (ats : List (List Nat))
    (caps : List Nat) (b dev : Bool) (t : Table) (s : EPipe σ × EReady) (hs : s = ((edmSys c R G ups).run (edmStart u0 m) ops).2)
    (hk : (s.1.store c s.2).Has k caps b dev t) (i r a : Nat) (v : Var) (as : List Nat) (rows : List (List Elem)) (l : List Elem)
    (hv : (c.schema k)[i]? = some v) (has : ats[i]? = some as) (ht : t[i]? = some rows) (ha : as[r]? = some a) (hrow : rows[r]? = some l)
    (hf : (edmSys c R G ups).Fits (edmStart u0 m) (fun _ => False)
      (ops ++ [.step (.download k ats) true, .look a (l.length * v.type.size)])) (d : AConf _)
    (h : ASteps (AConf.start (hostStream (edmPlan c ups) (ops ++ [.step (.download k ats) true, .look a (l.length * v.type.size)])
      (u0, []) []) m) d)
    (res : Res _) (hr : d.prog = .ret res) : ∃ rs x, res = .ok (rs ++ [.ok l.flatten], x) := by
  obtain ⟨-, rs, p, q, h1, h2, h3⟩ := (c66_stream hl hc m _ hf d h).2.2.2 res hr
  obtain ⟨busy, f1, f2, -⟩ := StreamSys.fits_append hf
  obtain ⟨-, hinv⟩ := edm_tables hl hc ops ⟨u0, m, []⟩ ⟨fun _ => false, fun _ => false⟩ _ (edm_inv hl hc (.init m)) f1
  change EInv c R G ups u0 ((edmSys c R G ups).run (edmStart u0 m) ops).2.1 ((edmSys c R G ups).run (edmStart u0 m) ops).2.2 at hinv
  rw [StreamSys.run_append, ← hs] at h1
  rw [← hs] at f2 hinv
  have hbytes := edm_download_bytes hl hc hinv hk f2 hv has ht ha hrow
  have hmem : (edmSys c R G ups).mem ((edmSys c R G ups).exec s (.download k ats)).2 = (s.1.exec c ups (.download k ats)).2.mem := rfl
  simp only [StreamSys.run, hmem, hbytes, Prod.mk.injEq] at h1
  rw [h2, ← h1.1]
  exact ⟨((edmSys c R G ups).run (edmStart u0 m) ops).1 ++ [((edmSys c R G ups).exec s (.download k ats)).1.map fun _ => []],
    (p.res, p.bufs), by simp only [List.append_assoc, List.cons_append, List.nil_append]⟩

/-! ## Examples -/

/-- The program of the example of C65 on a stream: a container is copied from the host; a kernel appends an element to another one for each
of its elements, and another kernel changes them; the first container is destroyed; and the result is copied to the host, which reads it.
A thread appends to the rows of a jagged vector.  The copy to the host is waited for, and everything before the last step, which makes
another container with a jagged vector. -/
def demoEdmStream (sched sched' : List Nat) : List (HostAct EdmOp) :=
  [.step (.create 0 [0, 0, 0] false) false, .step (.upload [[100], [110], [120]] demoTable 0) false,
    .step (.create 2 [0, 0, 0, 0] true) false, .step (.setup 2) false, .step (.append [0] 2 demoAppend sched) false,
    .step (.kernel [] 2 (fun _ => demoAdd) sched') false, .step (.destroy 0) false, .step (.download 2 [[200], [210], [220]]) true,
    .look 200 3, .step (.create 1 [2, 1] true) false, .step (.setup 1) false,
    .step (.rows [2] 1 1 (fun _ => [[(0, .push (.val [3]))], [(1, .push (.val [5])), (0, .push (.val [4]))]]) sched) false, .sync,
    .step (.create 3 [2, 1] true) false]

theorem no_views {p : EPipe σ} {k x : Nat} (h : (p.bufs.all fun e => e.2.buf.view.vars.all fun
    | .jagged _ => false
    | _ => true) = true) : ¬ p.Views k x := by
  rintro ⟨b, j, hb, hj, -⟩
  have h1 := List.all_eq_true.1 h _ (mem_of_lookup hb)
  exact absurd (List.all_eq_true.1 h1 _ hj) (by simp)

theorem not_thrown {β : Type} {r : Res β} (h : (match r with
    | .lengthError => false
    | _ => true) = true) : r ≠ .lengthError := by
  rintro rfl
  cases h

/-- What the host reads, if every step is complete when it returns. -/
example : ((edmSys demoEdmCfg 64 64 fun _ => demoBase).run (edmStart demoInit fun _ => 7)
    (demoEdmStream [2, 1, 2, 2, 0] [1, 0, 2, 1, 0])).1[8]? = some (.ok [13, 11, 9]) := by
  decide +kernel

set_option maxRecDepth 20000 in
/-- The hypotheses of `c66_stream` are met by this program. -/
example : FamLawful 64 64 (fun _ : Nat => demoBase) demoInit ∧ demoEdmCfg.Wf ∧
    (edmSys demoEdmCfg 64 64 fun _ => demoBase).Fits (edmStart demoInit fun _ => 7) (fun _ => False)
      (demoEdmStream [2, 1, 2, 2, 0] [1, 0, 2, 1, 0]) := by
  refine ⟨.same (demo_lawful 64), demoEdmCfg_wf,
    ⟨rfl, demoEdm_ok 0 [0, 0, 0] (by decide) (by decide) (by decide), ⟨by decide, by decide, 4, rfl⟩, by decide⟩, fun _ _ h => h,
    ⟨demoEdm_host (by decide) (by decide) rfl rfl ?_, ⟨3, rfl, by decide, ?_⟩, ⟨rfl, ?_⟩,
      [0, 0, 0], false, true, [[[[7], [7], [7]]], [[[7, 7], [7, 7], [7, 7]]], [[[7]]]], by unfold EStore.Has; decide +kernel⟩,
    ?_,
    ⟨by decide +kernel, demoEdm_ok 2 [0, 0, 0, 0] (by decide) (by decide) (by decide), ⟨by decide, by decide, 4, rfl⟩, by decide⟩, ?_,
    ⟨⟨[0, 0, 0, 0], true, none, true⟩, by decide +kernel, by decide⟩, fun _ h => h.elim,
    ⟨by decide, by decide, [demoTable], [0, 0, 0, 0], [[[]], [[]], [[[7]]]], 0,
      ⟨⟨[0, 0, 0], false, by unfold EStore.Has; decide +kernel⟩, trivial⟩, by unfold EStore.Has; decide +kernel, ?_, by decide, ?_⟩,
    fun _ h => h.elim,
    ⟨by decide, [], [0, 0, 0, 0], true, [[[[6], [4], [2]]], [[[6, 0], [5, 0], [4, 0]]], [[[7]]]], trivial,
      by unfold EStore.Has; decide +kernel, demoAdd_races _ [7] [6] [4] [2] rfl rfl rfl rfl⟩, fun _ h => h.elim,
    ⟨⟨[0, 0, 0], false, some demoTable, true⟩, by decide +kernel⟩, fun _ h => h.elim,
    ⟨[0, 0, 0, 0], true, true, [[[[13], [11], [9]]], [[[6, 0], [5, 0], [4, 0]]], [[[7]]]], by unfold EStore.Has; decide +kernel,
      demoEdm_host (by decide) (by decide) rfl rfl ?_⟩, fun _ h => h.elim, ?_,
    ⟨by decide +kernel, demoEdm_ok 1 [2, 1] (by decide) (by decide) (by decide), ⟨by decide, by decide, 4, rfl⟩, by decide⟩, ?_,
    ⟨⟨[2, 1], true, none, false⟩, by decide +kernel, by decide⟩, fun _ h => h.elim,
    ⟨by decide, [[[[[13], [11], [9]]], [[[6, 0], [5, 0], [4, 0]]], [[[7]]]]], [2, 1], [[[[7], [7]]], [[], []]], ⟨.jagged, ⟨1, 1⟩⟩, [[], []],
      ⟨⟨[0, 0, 0, 0], true, by unfold EStore.Has; decide +kernel⟩, trivial⟩, by unfold EStore.Has; decide +kernel, rfl, rfl, rfl, ?_, ?_⟩,
    fun _ h => h.elim,
    ⟨by decide +kernel, demoEdm_ok 3 [2, 1] (by decide) (by decide) (by decide), ⟨by decide, by decide, 4, rfl⟩, by decide⟩,
    fun _ _ h => h, trivial⟩
  · unfold EPipe.Outside
    decide +kernel
  · intro i v ns hv hns
    match i, hv, hns with
    | 0, hv, hns => cases hv; cases hns; exact ⟨by simp, fun _ => rfl, by simp⟩
    | 1, hv, hns => cases hv; cases hns; exact ⟨by simp, fun _ => rfl, by simp⟩
    | 2, hv, hns => cases hv; cases hns; exact ⟨fun _ => rfl, by simp, by simp⟩
  · intro i v rows hv hr
    match i, hv, hr with
    | 0, hv, hr => cases hv; cases hr; decide
    | 1, hv, hr => cases hv; cases hr; decide
    | 2, hv, hr => cases hv; cases hr; decide
  · rintro x - (h | h)
    · exact h.1
    · exact h.2
  · exact fun x hx _ => no_views (by decide +kernel) hx
  · intro i v rows hv hk hr
    match i, hv, hr, hk with
    | 0, hv, hr, _ => cases hr; exact ⟨_, rfl, rfl⟩
    | 1, hv, hr, _ => cases hr; exact ⟨_, rfl, rfl⟩
    | 2, hv, hr, hk => cases hv; cases hk
  · have e : demoAppend [demoTable] = [[⟨[(0, [2]), (1, [4, 0])]⟩], [⟨[(0, [4]), (1, [5, 0])]⟩], [⟨[(0, [6]), (1, [6, 0])]⟩]] := rfl
    rw [e]
    intro pr hpr x hx a ha
    simp only [List.mem_cons, List.not_mem_nil, or_false] at hpr
    rcases hpr with rfl | rfl | rfl <;> simp only [List.mem_cons, List.not_mem_nil, or_false] at hx <;> subst hx <;>
      simp only [List.mem_cons, List.not_mem_nil, or_false] at ha <;> rcases ha with rfl | rfl <;> exact ⟨_, rfl, rfl, rfl⟩
  · unfold EPipe.Outside
    decide +kernel
  · rintro x - - (⟨-, hb⟩ | hb)
    · exact hb ⟨rfl, trivial, not_thrown (by decide +kernel)⟩
    · exact hb.1.elim (by simp) (not_thrown (by decide +kernel))
  · rintro x - (⟨-, hb⟩ | hb)
    · exact hb ⟨rfl, trivial, not_thrown (by decide +kernel)⟩
    · exact hb.1.elim (by simp) (not_thrown (by decide +kernel))
  · intro pr hpr x hx
    simp only [List.mem_cons, List.not_mem_nil, or_false] at hpr
    rcases hpr with rfl | rfl <;> simp only [List.mem_cons, List.not_mem_nil, or_false] at hx
    · subst hx
      exact ⟨[], rfl, rfl, rfl⟩
    · rcases hx with rfl | rfl <;> exact ⟨[], rfl, rfl, rfl⟩
  · intro i l cap h1 h2
    match i, h1, h2 with
    | 0, h1, h2 => cases h1; cases h2; decide
    | 1, h1, h2 => cases h1; cases h2; decide

/-- A pool, which gives memory away again that was returned to it. -/
def demoPooled : MR (Pool × (Contig × Unit)) := Pool.mr true {} demoBase

theorem demoPooled_lawful : FamLawful 4096 4096 (fun _ : Nat => demoPooled) (demoPool, demoInit) :=
  .same (c03_pool true {} demoPool (by decide +kernel) (pool_default_sound true) demoBase demoInit demoInit 4096
    [] (demo_lawful 4096) .init (by decide) (by decide) (by decide)).1

/-- The rule about what constructors write is needed: a container with a jagged vector is set up, which is not waited for, and is
destroyed; another one is made. -/
def demoReuse : List EdmOp := [.create 1 [2, 1] true, .setup 1, .destroy 1, .create 3 [2, 1] true]

/-- Destroying a buffer before the stream is done with it is not safe, even if nobody uses it any more: each of these steps may be made,
and the host never writes to memory itself.  But the constructor of the second container may write the views of its rows to host
accessible memory from which the `setup` of the first one is still copying. -/
theorem c66_destroyed_early :
    FamLawful 4096 4096 (fun _ : Nat => demoPooled) (demoPool, demoInit) ∧ demoEdmCfg.Wf ∧
    edmFits demoEdmCfg 4096 4096 (fun _ => demoPooled) ⟨(demoPool, demoInit), fun _ => 7, []⟩ ⟨fun _ => false, fun _ => false⟩ demoReuse ∧
    ∃ d, ASteps (AConf.start (hostStream (edmPlan demoEdmCfg fun _ => demoPooled) (demoReuse.map fun op => .step op false)
      ((demoPool, demoInit), []) []) fun _ => 7) d ∧ Race d := by
  refine ⟨demoPooled_lawful, demoEdmCfg_wf,
    ⟨⟨rfl, demoEdm_ok 1 [2, 1] (by decide) (by decide) (by decide), ⟨by decide, by decide, 4, rfl⟩, by decide⟩,
      ⟨⟨[2, 1], true, none, false⟩, by decide +kernel, by decide⟩,
      ⟨⟨[2, 1], true, some [[[[7], [7]]], [[], []]], true⟩, by decide +kernel⟩,
      ⟨by decide +kernel, demoEdm_ok 3 [2, 1] (by decide) (by decide) (by decide), ⟨by decide, by decide, 4, rfl⟩, by decide⟩, trivial⟩,
    _, lazyRun_steps _ 9, race_of_poke 7104 (by decide +kernel)⟩

/-- A container with two elements is copied to a buffer with room for one; and then one with one element. -/
def demoTooMany : List (HostAct EdmOp) :=
  [.step (.create 0 [0] true) true, .step (.setup 0) true, .step (.upload [[100], [110]] [[[[1]]], [[[2], [3]]]] 0) true,
    .step (.upload [[100], [110]] [[[[1]]], [[[4]]]] 0) true]

/-- What a failed copy leaves behind cannot be waited for: the first copy throws `std::length_error`, as it should, and so returns no
event.  But the scalar before the vector was given to the stream, which may be reading the host's scalar when the host, after it has
caught the exception, writes it.  (`c66_stream` is about such programs, too; it demands that the host waits for everything, or for
the event of a later step.) -/
theorem c66_failed_copy :
    ((edmSys demoScalarCfg 64 64 fun _ => demoBase).run (edmStart demoInit fun _ => 7) demoTooMany).1 =
      [.ok [], .ok [], .lengthError, .ok []] ∧
    ∃ d, ASteps (AConf.start (hostStream (edmPlan demoScalarCfg fun _ => demoBase) demoTooMany (demoInit, []) []) fun _ => 7) d ∧
      Race d :=
  ⟨by decide +kernel, _, lazyRun_steps _ 8, race_of_poke 100 (by decide +kernel)⟩

/-- A copy throws, and the host waits for everything before it reads the scalar, which was copied. -/
def demoThrows : List (HostAct EdmOp) := demoRefused.map (fun op => .step op true) ++ [.sync, .look 4128 2]

/-- The hypotheses of `c66_stream` are met by this program. -/
example : (edmSys demoScalarCfg 64 64 fun _ => demoBase).Fits (edmStart demoInit fun _ => 7) (fun _ => False) demoThrows :=
  ⟨demoRefused_fits.1, fun _ _ h => h, demoRefused_fits.2.1, fun x hx _ => no_views (by decide +kernel) hx,
    demoRefused_fits.2.2.1, fun _ h => h.elim, demoRefused_fits.2.2.2.1, fun _ h => h.elim, fun _ _ _ h => h, trivial⟩

/-- The third step has filled the first buffer; the last one throws. -/
example : ((edmSys demoScalarCfg 64 64 fun _ => demoBase).run (edmStart demoInit fun _ => 7) demoThrows).1 =
    [.ok [], .ok [], .ok [], .lengthError, .ok [], .ok [5, 7]] := by
  decide +kernel

end Props
end Vecmem
