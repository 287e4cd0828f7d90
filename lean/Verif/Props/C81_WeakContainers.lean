import Verif.Lemmas.WeakAccess
import Verif.Lemmas.WeakContainers
import Verif.Props.C65_EdmPipelines
import Verif.Props.C79_WeakJagged
import Verif.Props.C80_RaceFree

/-!
# C81: programs with container buffers, whose kernels run on weak memory

Vocabulary: `Verif/Spec/WeakContainer.lean`, `Verif/Spec/WeakAccess.lean`, `Verif/Spec/WeakContainers.lean`, and that of C65, C79 and C80.
-/

namespace Vecmem.Props

open Vecmem

section

variable {α : Type} {I : WImpl 32} {m : AMem 32} {V : WVec} {words : α → List (BitVec 32)} {progs : List (List (DCall α))} {s : WRun 32} {s0 : DevCont α} {n : Nat}

/-- C81: let threads append elements to a container with `push_back_default` and assign to their variables, on a memory in which they may read old values, and let there be room for all.  No
assertion fails; and when all have ended, there is a schedule of the same threads on a memory without old values, with which they end, in which the container is left
with the same size and elements, and in which all calls return the same indices. -/
theorem c81_sequential (hI : I = posixWeak ∨ I = cudaWeak ∨ I = syclWeak ∨ I = syclBuiltinWeak) (hV : V.Valid 32)
    (hs : V.ShowsContainer words (fun a x => x = m a) s0) (hr : s0.Ready n) (room : n + callCount progs ≤ s0.cap) (hargs : ∀ p ∈ progs, ∀ c ∈ p, c.Valid s0)
    (hw : s0.Worded words progs) (h : WRun.Reach I m (fun i => (WTask.records words s0.newElement (progs[i]?.getD [])).code V) s) :
    (∀ i, s.prog i ≠ .failed) ∧
    ((∀ i, s.prog i = .done) → ∃ sched, ((DConc.start s0 progs).run sched).failed = false ∧ ((DConc.start s0 progs).run sched).Finished ∧
      V.ShowsContainer words (s.sys.trace.Final m) ((DConc.start s0 progs).run sched).cont ∧
      ∀ i, (((DConc.start s0 progs).run sched).results i).map (·.1) = progs[i]?.getD [] ∧
        ReturnedRecords V.size (((DConc.start s0 progs).run sched).results i) (WTrace.claims V.size (s.sys.trace.of i))) := by
  obtain ⟨y, hy0, hy⟩ := hs.size
  have hle := records_claimed hV h
  have ha := h.appending (tasks := fun i => WTask.records words s0.newElement (progs[i]?.getD [])) hI hV (fun i => records_polite V words _ (by decide) _)
    (by rw [← hy0, hy, hs.cap, hr.size]; omega)
  refine ⟨ha.not_failed, fun ended => ?_⟩
  have ho := h.sys.ordered (R := fun _ => False) (A := fun _ => False) (fun _ _ _ h => h.elim) (fun _ _ _ h => h.elim)
  refine ha.records hs hr room hargs hw fun i => ?_
  have := records_left hV (ha.left ho (ended i))
  rw [WTrace.of, List.filter_comm] at this
  exact this

end

section

variable {σ : Type} {I : WImpl 32} {R : Limits} {G : Nat} {c : EdmCfg}

/-- C81: a kernel that appends to a container on weak memory leaves memory as a kernel does that is scheduled on a memory without stale values, and returns the same. -/
theorem c81_append (hI : I = posixWeak ∨ I = cudaWeak ∨ I = syclWeak ∨ I = syclBuiltinWeak) (hc : c.Wf) {k A : Nat} {hasHost : Bool} {b : EBuffer} {caps : List Nat} {n : Nat}
    {progs : List (List (DCall Elem))} {mem mem' : Mem} {rets : List (List (DCall Elem × Nat))} (hb : EdmOk σ R G (c.schema k) A hasHost b)
    (hj : (c.schema k).hasJagged = false) (ha : AppendReady c k mem b caps n progs)
    (h : ContainerKernel I c.dbg (c.dflt k) (c.schema k) b.buf.view progs mem mem' rets) :
    ∃ sched, (DConc.kernel (b.buf.view.device c.dbg (c.dflt k) (c.schema k) mem) progs sched).failed = false ∧
      (DConc.kernel (b.buf.view.device c.dbg (c.dflt k) (c.schema k) mem) progs sched).threads.map DThread.done = rets ∧
      b.buf.view.store (c.schema k) mem (DConc.kernel (b.buf.view.device c.dbg (c.dflt k) (c.schema k) mem) progs sched).cont = mem' := by
  obtain ⟨V, m, s, hV, -, h1, h2, h3, h4, h5, h6, h7⟩ := h
  obtain ⟨-, h8⟩ := c81_sequential hI hV (ha.shows h1) ha.ready ha.room ha.valid (ha.worded hc) h2
  obtain ⟨sched, g1, g2, g3, g4⟩ := h8 h3
  rw [← DConc.kernel_run g2] at g1 g3 g4
  obtain ⟨i1, i2⟩ := ha.stored hc hb hj sched g3 h1.cap
  obtain ⟨-, -, -, -, g5, -⟩ := DConc.kernel_ok ha.ready (progs := progs) ha.room ha.valid sched
  refine ⟨sched, g1, ?_, EdmView.InVars.unique (val := s.sys.trace.Final m) (fun h1 h2' => c76_final_unique h2.sys.values.writes h1 h2') i1 h4 fun a ha => (i2 a ha).trans (h5 a ha).symm⟩
  generalize DConc.kernel (b.buf.view.device c.dbg (c.dflt k) (c.schema k) mem) progs sched = g at g4 g5
  have hl : rets.length = progs.length := by rw [← h6, List.length_map]
  have hlt : g.threads.length = progs.length := by rw [← g5, List.length_map, List.length_map]
  apply List.ext_getElem?
  intro i
  by_cases hi : i < progs.length
  · have e1 : g.results i = rets[i]?.getD [] := by
      refine records_unique ?_ (g4 i).2 (h7 i)
      rw [(g4 i).1, ← h6, List.getElem?_map]
      cases rets[i]? <;> rfl
    rw [List.getElem?_map]
    unfold DConc.results at e1
    rw [List.getElem?_eq_getElem (by omega)] at e1 ⊢
    rw [List.getElem?_eq_getElem (hl ▸ hi)] at e1 ⊢
    simpa using e1
  · rw [List.getElem?_eq_none (by simp; omega), List.getElem?_eq_none (by omega)]

/-- C81: such kernels can be run: there is an execution of it on weak memory from every memory, and it leaves a memory. -/
theorem c81_append_runs (hI : I = posixWeak ∨ I = cudaWeak ∨ I = syclWeak ∨ I = syclBuiltinWeak) (hc : c.Wf) {k A : Nat} {hasHost : Bool} {b : EBuffer} {caps : List Nat} {n : Nat}
    {progs : List (List (DCall Elem))} {mem : Mem} (hb : EdmOk σ R G (c.schema k) A hasHost b) (hj : (c.schema k).hasJagged = false)
    (ha : AppendReady c k mem b caps n progs) : ∃ mem' rets, ContainerKernel I c.dbg (c.dflt k) (c.schema k) b.buf.view progs mem mem' rets := by
  have hvalid := contVars_valid c.dbg (e := b.buf.view) (by rw [ha.cap]; exact ha.cap32)
  have hin := contVars_in c.dbg (c.schema k) b.buf.view mem
  obtain ⟨s, h1, h2⟩ := c77_ends (n := progs.length)
    (tasks := fun i => WTask.records byteWords (b.buf.view.device c.dbg (c.dflt k) (c.schema k) mem).newElement (progs[i]?.getD [])) (V := contVars c.dbg b.buf.view)
    (m := contVals (c.schema k) b.buf.view mem) hI .start (fun i => records_allowed _ _ _) (fun i hi => by rw [List.getElem?_eq_none hi]; rfl)
  have hr := WRun.Reach.steps (.start) h1
  obtain ⟨h3, h4⟩ := c81_sequential hI hvalid (ha.shows hin) ha.ready ha.room ha.valid (ha.worded hc) hr
  have hdone : ∀ i, s.prog i = .done := fun i => (h2 i).resolve_right (h3 i)
  obtain ⟨sched, g1, g2, g3, g4⟩ := h4 hdone
  rw [← DConc.kernel_run g2] at g3 g4
  obtain ⟨i1, i2⟩ := ha.stored hc hb hj sched g3 hin.cap
  obtain ⟨-, -, -, -, g5, -⟩ := DConc.kernel_ok ha.ready (progs := progs) ha.room ha.valid sched
  refine ⟨_, _, contVars c.dbg b.buf.view, _, s, hvalid, rfl, hin, hr, hdone, i1, i2, g5, fun i => ?_⟩
  have := (g4 i).2
  unfold DConc.results at this
  rw [List.getElem?_map]
  exact this

/-- C81: a kernel that loads and stores elements without races leaves memory, on weak memory, as it does if its threads run one after the other. -/
theorem c81_access (hI : I = posixWeak ∨ I = cudaWeak ∨ I = syclWeak ∨ I = syclBuiltinWeak) {S : Schema} {A : Nat} {hasHost : Bool} {b : EBuffer} {mem mem' : Mem} {t : Table}
    {ps : List KProg} (hb : EdmOk σ R G S A hasHost b) (hs : Shows S b mem t) (hv : ∀ p ∈ ps, p.Valid S t) (hr : NoRaces t ps)
    (h : AccessKernel I (b.buf.view.locate S mem) ps mem mem') : execKernel S b.buf.view ps [] mem = .ok mem' := by
  obtain ⟨s, h1, h2, h3⟩ := h
  obtain ⟨hf, -⟩ := hs.raceFree hb hv hr
  obtain ⟨m', e1, e2⟩ := hs.soloAll hb hs (fun _ => rfl) hv hr
  have : byteVars m' = byteVars mem' := by
    funext a
    have := (c80_one_by_one hI hf h1 h2 (n := ps.length) (fun i hi => accessCode_rest hi) (List.Perm.refl _) a _).1 (h3 a)
    rw [this, oneByOne_range, e2]
  cases byteVars_inj this
  exact e1

theorem access_defined (hI : I = posixWeak ∨ I = cudaWeak ∨ I = syclWeak ∨ I = syclBuiltinWeak) (loc : Cell → Option (Nat × Nat)) (p : KProg) : (p.code loc).Defined I := by
  have hrd : (I .read).isSome := by rcases hI with rfl | rfl | rfl | rfl <;> rfl
  have hwr : ∀ x, (I (.write x)).isSome := by intro x; rcases hI with rfl | rfl | rfl | rfl <;> rfl
  have hR : ∀ (k : Elem → WProg 32), (∀ x, (k x).Defined I) → ∀ (t a : Nat) (l : Elem), (readBytes k t a l).Defined I := by
    intro k hk t
    induction t with
    | zero => exact fun a l => hk l
    | succ t ih => exact fun a l => ⟨hrd, fun r => ih _ _⟩
  have hW : ∀ (k : WProg 32), k.Defined I → ∀ (l : Elem) (a : Nat), (writeBytes k a l).Defined I := by
    intro k hk l
    induction l with
    | nil => exact fun a => hk
    | cons x l ih => exact fun a => ⟨hwr _, fun r => ih _⟩
  induction p with
  | done => trivial
  | load c next ih =>
    unfold KProg.code
    split
    · exact hR _ ih _ _ _
    · trivial
  | store c x next ih =>
    unfold KProg.code
    split
    · exact hW _ ih _ _
    · trivial

/-- C81: such kernels can be run, too. -/
theorem c81_access_runs (hI : I = posixWeak ∨ I = cudaWeak ∨ I = syclWeak ∨ I = syclBuiltinWeak) {S : Schema} {A : Nat} {hasHost : Bool} {b : EBuffer} {mem : Mem} {t : Table}
    {ps : List KProg} (hb : EdmOk σ R G S A hasHost b) (hs : Shows S b mem t) (hv : ∀ p ∈ ps, p.Valid S t) (hr : NoRaces t ps) :
    ∃ mem', AccessKernel I (b.buf.view.locate S mem) ps mem mem' := by
  obtain ⟨hf, hok⟩ := hs.raceFree hb hv hr
  obtain ⟨m', e1, e2⟩ := hs.soloAll hb hs (fun _ => rfl) hv hr
  obtain ⟨s, h1, h2⟩ := c80_ends hI hf .start (fun i => access_defined hI _ _) hok (n := ps.length) (fun i hi => accessCode_rest hi)
  have hrch := WRun.Reach.steps (.start) h1
  refine ⟨m', s, hrch, h2, fun a => ?_⟩
  refine (c80_one_by_one hI hf hrch h2 (n := ps.length) (fun i hi => accessCode_rest hi) (List.Perm.refl _) a _).2 ?_
  rw [oneByOne_range, e2]

end

section

variable {σ : Type} {I : WImpl 32} {R : Limits} {G : Nat} {ups : Nat → MR σ} {u0 : σ} {c : EdmCfg} {p : EPipe σ} {q : EReady}

/-- The same step, with another schedule. -/
inductive EdmRescheduled : EdmOp → EdmOp → Prop
  | same (op) : EdmRescheduled op op
  | append (ins k f sched sched') : EdmRescheduled (.append ins k f sched) (.append ins k f sched')
  | rows (ins k v f sched sched') : EdmRescheduled (.rows ins k v f sched) (.rows ins k v f sched')
  | kernel (ins k f sched sched') : EdmRescheduled (.kernel ins k f sched) (.kernel ins k f sched')

theorem EdmRescheduled.fits {op op' : EdmOp} (h : EdmRescheduled op op') {outside : Nat → Nat → Prop} {S : EStore} (hf : op.Fits c R G outside S) : op'.Fits c R G outside S := by
  cases h <;> exact hf

theorem EdmRescheduled.ready {op op' : EdmOp} (h : EdmRescheduled op op') (q : EReady) : op'.ready q = op.ready q := by
  cases h <;> rfl

theorem EdmRescheduled.step {op op' : EdmOp} (h : EdmRescheduled op op') {S S' : EStore} {r : Res EdmOut} (hs : EdmStep c S op' r S') : EdmStep c S op r S' := by
  cases h with
  | same => exact hs
  | append ins k f sched sched' =>
    cases hs with
    | append _ _ _ _ hi h n hn order results t' ho hp hx ht => exact .append ins k f sched hi h n hn order results t' ho hp hx ht
  | rows ins k v f sched sched' =>
    cases hs with
    | rows _ _ _ _ _ hi h hv hr order results rows' ho hp hj => exact .rows ins k v f sched hi h hv hr order results rows' ho hp hj
  | kernel ins k f sched sched' =>
    cases hs with
    | kernel _ _ _ _ hi h => exact .kernel ins k f sched hi h

/-- What is known of a container to whose rows a kernel appends. -/
theorem edm_rows_ready (h : EInv c R G ups u0 p q) {k v : Nat} {caps : List Nat} {t : Table} {ty : Var} {rows : List (List Elem)} (f2 : (p.store c q).Has k caps true true t)
    (hv : (c.schema k)[v]? = some ty) (hk : ty.kind = .jagged) (hr : t[v]? = some rows)
    {progs : List (List (Nat × ACall Elem))} (hpl : ∀ q ∈ progs, ∀ x ∈ q, x.2.Valid true [])
    (f4 : ∀ p ∈ progs, ∀ x ∈ p, ∃ l, rows[x.1]? = some l ∧ x.2.Valid true l ∧ x.2.Sized ty.type.size)
    (f5 : ∀ (i : Nat) (l : List Elem) (cap : Nat), rows[i]? = some l → caps[i]? = some cap → l.length + totalCount (onRow progs i) ≤ cap) :
    ∃ b x, p.bufs.lookup k = some b ∧ b.buf.view.vars[v]? = some x ∧
      p.devices c k v ty x = x.rows.map (fun r => r.device c.dbg (c.dflt k v) ty.type.size p.mem) ∧
      (x.deviceRows p.mem).length = x.rows.length ∧
      (∀ (i : Nat) (v w : View), (x.deviceRows p.mem)[i]? = some v → x.rows[i]? = some w → v.Alike w) ∧
      (∀ w ∈ x.rows, w.Valid p.mem ty.type.size ∧ w.sizePtr ≠ 0) ∧ x.rows.Pairwise (View.Separate ty.type.size) ∧
      (∀ q ∈ progs, ∀ y ∈ q, y.1 < x.rows.length ∧ y.2.Valid true [] ∧ y.2.Sized ty.type.size) ∧
      ∀ (i : Nat) (w : View), x.rows[i]? = some w → w.len p.mem + totalCount (onRow progs i) ≤ w.capacity := by
  obtain ⟨b, b1, b2, b3, b4, b5, b6, b7, b8, b9⟩ := h.has f2
  obtain ⟨x, hx, hx'⟩ := tableOf_at b5 (m := p.mem) hv
  rw [← b8, hr] at hx'
  have hrows : rows = x.rows.map fun r => r.elems p.mem ty.type.size := Option.some.inj hx'
  obtain ⟨k1, k2, k3⟩ := b5.row_facts hv hx
  have hrc : ty.rowCaps b.caps = caps := by unfold Var.rowCaps; rw [hk]; exact b3
  rw [hrc] at k2
  have hz : ∀ w ∈ x.rows, w.sizePtr ≠ 0 := fun w hw => (k3 w hw).2 (by unfold Schema.grows; rw [b4, hk]; rfl)
  have hval := b5.valid (b6.sizes b7) hv hx
  have hlr : rows.length = x.rows.length := by rw [hrows, List.length_map]
  have hdesc : ∀ j, x = .jagged j → DescribedAt p.mem j.ptr j.views :=
    fun j hj => b6.described b5 b9.symm j (by rw [← hj]; exact List.mem_of_getElem? hx)
  obtain ⟨a1, a2⟩ := VarView.deviceRows_alike hdesc
  refine ⟨b, x, b1, hx, edevices_eq hdesc _ _ _, a1, a2, fun w hw => ⟨hval w hw, hz w hw⟩, (b5.varsPlaced.each v ty x hv hx).2.2.separate, ?_, ?_⟩
  · intro pr hpr y hy
    obtain ⟨l, y1, -, y3⟩ := f4 pr hpr y hy
    exact ⟨by rw [← hlr]; exact (List.getElem?_eq_some_iff.1 y1).1, hpl pr hpr y hy, y3⟩
  · intro i w hw
    have g1 : rows[i]? = some (w.elems p.mem ty.type.size) := by rw [hrows, List.getElem?_map, hw]; rfl
    have := f5 i _ w.capacity g1 (by rw [← k2, List.getElem?_map, hw]; rfl)
    rwa [elems_length] at this

/-- A step with a kernel on weak memory is a step with a kernel that is scheduled somehow. -/
theorem c81_step_inv (hI : I = posixWeak ∨ I = cudaWeak ∨ I = syclWeak ∨ I = syclBuiltinWeak) (hc : c.Wf) (h : EInv c R G ups u0 p q) {op : EdmOp}
    (hf : op.Fits c R G (p.Outside c) (p.store c q)) (hop : op.Plain) {r : Res EdmOut} {p' : EPipe σ} (hs : WEdmStep I c ups p op r p') :
    ∃ op', EdmRescheduled op op' ∧ p.exec c ups op' = (r, p') := by
  cases hs with
  | other _ => exact ⟨op, .same _, rfl⟩
  | @append ins k f sched b ts mem' rets hb hi hk =>
    obtain ⟨-, hnj, ts', caps, t, n, f1, f2, hn, hfit, hargs⟩ := hf
    have hts := h.reads f1
    rw [hi] at hts
    cases hts
    obtain ⟨b', b1, b2, ha⟩ := h.appendReady hc hnj f2 hn hfit hargs
    rw [hb] at b1
    cases b1
    obtain ⟨sched', g1, g2, g3⟩ := c81_append hI hc b2 hnj ha hk
    refine ⟨_, .append ins k f sched sched', ?_⟩
    simp only [EPipe.exec, hb, hi]
    rw [if_neg (by simp [g1]), g2, g3]
  | @rows ins k v f sched b ts ty x mem' rets hb hi hv hx hk =>
    obtain ⟨-, ts', caps, t, ty', rows, f1, f2, hv', hkd, hr, f4, f5⟩ := hf
    have hts := h.reads f1
    rw [hi] at hts
    cases hts
    cases hv.symm.trans hv'
    obtain ⟨b', x', b1, b2, b3, b4, b5, b6, b7, b8, b9⟩ := edm_rows_ready h f2 hv hkd hr (hop ts) f4 f5
    cases hb.symm.trans b1
    cases hx.symm.trans b2
    obtain ⟨sched', g1, g2, g3⟩ := c79_kernel hI b6 b7 ((hc.2 k).2 v ty hv).2.2 b8 b9 (hk.alike b4 b5)
    refine ⟨_, .rows ins k v f sched sched', ?_⟩
    simp only [EPipe.exec, hb, hi, hv, hx, b3]
    rw [if_neg (by simp [g1]), g2]
    unfold EPipe.leave
    rw [storeRows_alike _ b4 b5, g3]
  | @kernel ins k f sched b ts mem' hb hi hk =>
    obtain ⟨-, ts', caps, r, t, f1, f2, f3, f4⟩ := hf
    have hts := h.reads f1
    rw [hi] at hts
    cases hts
    obtain ⟨b', b1, -, b3, b4, b5, b6, b7, b8, b9⟩ := h.has f2
    cases hb.symm.trans b1
    have hsh : Shows (c.schema k) b p.mem t := ⟨b8.symm, b6.sizes b7, fun j hj => b6.described b5 b9.symm j hj⟩
    have := c81_access hI b5 hsh f3 f4 hk
    refine ⟨_, .kernel ins k f sched [], ?_⟩
    simp only [EPipe.exec, hb, hi, this]

/-- Every state that is reached with kernels on weak memory is reached with kernels that are scheduled somehow: all of C65 holds in it. -/
theorem c81_reach (hI : I = posixWeak ∨ I = cudaWeak ∨ I = syclWeak ∨ I = syclBuiltinWeak) (hl : FamLawful R G ups u0) (hc : c.Wf)
    (h : WEdmReach I c R G ups u0 p q) : EdmReach c R G ups u0 p q := by
  induction h with
  | init m => exact .init m
  | @step p q op r p' h hf hp hs ih =>
    obtain ⟨op', h1, h2⟩ := c81_step_inv hI hc (edm_inv hl hc ih) hf hp hs
    have := ih.step (h1.fits hf)
    rwa [h2, h1.ready] at this

/-- C81: in a program with container buffers and copies (C65) whose kernels run on weak memory, every step does to the elements in memory, and returns, what it may do and return
according to `EdmStep`, which speaks about tables only. -/
theorem c81_pipelines (hI : I = posixWeak ∨ I = cudaWeak ∨ I = syclWeak ∨ I = syclBuiltinWeak) (hl : FamLawful R G ups u0) (hc : c.Wf)
    (h : WEdmReach I c R G ups u0 p q) {op : EdmOp} (hf : op.Fits c R G (p.Outside c) (p.store c q)) (hop : op.Plain) {r : Res EdmOut} {p' : EPipe σ}
    (hs : WEdmStep I c ups p op r p') : EdmStep c (p.store c q) op r (p'.store c (op.ready q)) := by
  have h' := c81_reach hI hl hc h
  obtain ⟨op', h1, h2⟩ := c81_step_inv hI hc (edm_inv hl hc h') hf hop hs
  have := c65_edm_pipelines_partial hl hc h' op' (h1.fits hf)
  rw [h2, h1.ready] at this
  exact h1.step this

/-- C81: kernels on weak memory are no less able to run than others: in every state of a program, each step that fits can be made. -/
theorem c81_goes_on (hI : I = posixWeak ∨ I = cudaWeak ∨ I = syclWeak ∨ I = syclBuiltinWeak) (hl : FamLawful R G ups u0) (hc : c.Wf)
    (h : WEdmReach I c R G ups u0 p q) {op : EdmOp} (hf : op.Fits c R G (p.Outside c) (p.store c q)) (hop : op.Plain) : ∃ r p', WEdmStep I c ups p op r p' := by
  have hinv := edm_inv hl hc (c81_reach hI hl hc h)
  by_cases hk : op.IsKernel
  · cases op with
    | append ins k f sched =>
      obtain ⟨-, hnj, ts, caps, t, n, f1, f2, hn, hfit, hargs⟩ := hf
      obtain ⟨b, b1, b2, ha⟩ := hinv.appendReady hc hnj f2 hn hfit hargs
      obtain ⟨mem', rets, hw⟩ := c81_append_runs hI hc b2 hnj ha
      exact ⟨_, _, .append b1 (hinv.reads f1) hw⟩
    | rows ins k v f sched =>
      obtain ⟨-, ts, caps, t, ty, rows, f1, f2, hv, hkd, hr, f4, f5⟩ := hf
      obtain ⟨b, x, b1, b2, b3, b4, b5, b6, b7, b8, b9⟩ := edm_rows_ready hinv f2 hv hkd hr (hop ts) f4 f5
      obtain ⟨mem', rets, hw⟩ := c79_runs (dbg := c.dbg) hI b6 b7 ((hc.2 k).2 v ty hv).2.2 b8 b9
      exact ⟨_, _, .rows b1 (hinv.reads f1) hv b2 (hw.alike b4.symm fun i v w h1 h2 => (b5 i w v h2 h1).symm)⟩
    | kernel ins k f sched =>
      obtain ⟨-, ts, caps, r, t, f1, f2, f3, f4⟩ := hf
      obtain ⟨b, b1, -, b3, b4, b5, b6, b7, b8, b9⟩ := hinv.has f2
      obtain ⟨mem', hw⟩ := c81_access_runs hI b5 ⟨b8.symm, b6.sizes b7, fun j hj => b6.described b5 b9.symm j hj⟩ f3 f4
      exact ⟨_, _, .kernel b1 (hinv.reads f1) hw⟩
    | _ => exact hk.elim
  · exact ⟨_, _, .other hk⟩

/-- C81: what a kernel without races leaves behind on weak memory does not depend on the execution. -/
theorem c81_deterministic (hI : I = posixWeak ∨ I = cudaWeak ∨ I = syclWeak ∨ I = syclBuiltinWeak) (hl : FamLawful R G ups u0) (hc : c.Wf)
    (h : WEdmReach I c R G ups u0 p q) {ins : List Nat} {k : Nat} {f : List Table → List KProg} {sched sched' : List Nat}
    (hf : (EdmOp.kernel ins k f sched).Fits c R G (p.Outside c) (p.store c q)) {r r' : Res EdmOut} {p1 p2 : EPipe σ}
    (h1 : WEdmStep I c ups p (.kernel ins k f sched) r p1) (h2 : WEdmStep I c ups p (.kernel ins k f sched') r' p2) : r = r' ∧ p1 = p2 := by
  have hinv := edm_inv hl hc (c81_reach hI hl hc h)
  obtain ⟨-, ts, caps, rz, t, f1, f2, f3, f4⟩ := hf
  obtain ⟨b, b1, -, b3, b4, b5, b6, b7, b8, b9⟩ := hinv.has f2
  have hsh : Shows (c.schema k) b p.mem t := ⟨b8.symm, b6.sizes b7, fun j hj => b6.described b5 b9.symm j hj⟩
  cases h1 with
  | other hn => exact absurd trivial hn
  | kernel hb hi hk =>
    cases h2 with
    | other hn => exact absurd trivial hn
    | kernel hb' hi' hk' =>
      cases b1.symm.trans hb
      cases b1.symm.trans hb'
      cases (hinv.reads f1).symm.trans hi
      cases (hinv.reads f1).symm.trans hi'
      have e1 := c81_access hI b5 hsh f3 f4 hk
      have e2 := c81_access hI b5 hsh f3 f4 hk'
      cases e1.symm.trans e2
      exact ⟨rfl, rfl⟩

/-- C81, end to end: in any state of any program, the threads of a kernel read containers and append elements to a resizable container on weak memory, and the container is then copied to the
host.  The host gets the old elements, followed by the new ones in some order, which is the same for all variables: the values assigned to one element stay together. -/
theorem c81_elements_stay_together (hI : I = posixWeak ∨ I = cudaWeak ∨ I = syclWeak ∨ I = syclBuiltinWeak) (hl : FamLawful R G ups u0) (hc : c.Wf)
    (h : WEdmReach I c R G ups u0 p q) (ins : List Nat) (k : Nat)
    (f : List Table → List (List (DCall Elem))) (sched : List Nat) (hk : k ∉ ins) (hj : (c.schema k).hasJagged = false)
    (ts : List Table) (hi : (p.store c q).HasAll ins ts) (caps : List Nat) (t : Table) (ht : (p.store c q).Has k caps true true t)
    (n : Nat) (hn : VectorsHave (c.schema k) n t) (hroom : n + callCount (f ts) ≤ caps.length)
    (hargs : ∀ pr ∈ f ts, ∀ x ∈ pr, ∀ a ∈ x.assigns, ∃ v, (c.schema k)[a.1]? = some v ∧ v.kind = .vector ∧ a.2.length = v.type.size)
    (ats : List (List Nat)) (want : Table) (hw : Appended (c.schema k) (c.dflt k) (f ts).flatten t want)
    (hout : HostTable (p.Outside c) (c.schema k) ats want) {r : Res EdmOut} {p' : EPipe σ} (hs : WEdmStep I c ups p (.append ins k f sched) r p') :
    (∃ out, r = .ok out) ∧ ∃ t', (p'.exec c ups (.download k ats)).1 = .ok (.table t') ∧
      ∃ order : List (DCall Elem), order.Perm (f ts).flatten ∧ Appended (c.schema k) (c.dflt k) order t t' := by
  have h' := c81_reach hI hl hc h
  obtain ⟨op', h1, h2⟩ := c81_step_inv hI hc (edm_inv hl hc h') (op := .append ins k f sched) ⟨hk, hj, ts, caps, t, n, hi, ht, hn, hroom, hargs⟩ trivial hs
  obtain ⟨sched', rfl⟩ : ∃ sched', op' = .append ins k f sched' := by
    cases h1 with
    | same => exact ⟨_, rfl⟩
    | append _ _ _ _ sched' => exact ⟨sched', rfl⟩
  have := c65_elements_stay_together hl hc h' ins k f sched' hk hj ts hi caps t ht n hn hroom hargs ats want hw hout
  rw [h2] at this
  exact this

end

/-! ## Instances -/

set_option maxRecDepth 20000 in
/-- A program reaches a state in which each of the three kinds of kernels can be run on weak memory; so the hypotheses of the theorems are met. -/
example : ∃ (p : EPipe _) (q : EReady), WEdmReach cudaWeak demoEdmCfg 64 64 (fun _ => demoBase) demoInit p q ∧
    (∃ r p', WEdmStep cudaWeak demoEdmCfg (fun _ => demoBase) p (.append [0] 2 demoAppend []) r p') ∧
    (∃ r p', WEdmStep cudaWeak demoEdmCfg (fun _ => demoBase) p (.kernel [] 0 (fun _ => demoAdd) []) r p') ∧
    ∃ r p', WEdmStep cudaWeak demoEdmCfg (fun _ => demoBase) p
      (.rows [0] 1 1 (fun _ => [[(0, .push (.val [3]))], [(1, .push (.val [5])), (0, .push (.val [4]))]]) []) r p' := by
  have h0 := WEdmReach.init (I := cudaWeak) (c := demoEdmCfg) (R := 64) (G := 64) (ups := fun _ => demoBase) (u0 := demoInit) (fun _ => 7)
  have h1 := h0.step (op := .create 0 [0, 0, 0] false)
    ⟨rfl, demoEdm_ok 0 [0, 0, 0] (by decide) (by decide) (by decide), ⟨by decide, by decide, 4, rfl⟩, by decide⟩ trivial (.other id)
  have h2 := h1.step (op := .upload [[100], [110], [120]] demoTable 0)
    ⟨demoEdm_host (by decide) (by decide) rfl rfl (by unfold EPipe.Outside; decide +kernel), ⟨3, rfl, by decide, by
      intro i v ns hv hns
      match i, hv, hns with
      | 0, hv, hns => cases hv; cases hns; exact ⟨by simp, fun _ => rfl, by simp⟩
      | 1, hv, hns => cases hv; cases hns; exact ⟨by simp, fun _ => rfl, by simp⟩
      | 2, hv, hns => cases hv; cases hns; exact ⟨fun _ => rfl, by simp, by simp⟩⟩, ⟨rfl, by
      intro i v rows hv hr
      match i, hv, hr with
      | 0, hv, hr => cases hv; cases hr; decide
      | 1, hv, hr => cases hv; cases hr; decide
      | 2, hv, hr => cases hv; cases hr; decide⟩,
      [0, 0, 0], false, true, [[[[7], [7], [7]]], [[[7, 7], [7, 7], [7, 7]]], [[[7]]]], by unfold EStore.Has; decide +kernel⟩ trivial (.other id)
  have h3 := h2.step (op := .create 2 [0, 0, 0, 0] true)
    ⟨by decide +kernel, demoEdm_ok 2 [0, 0, 0, 0] (by decide) (by decide) (by decide), ⟨by decide, by decide, 4, rfl⟩, by decide⟩ trivial (.other id)
  have h4 := h3.step (op := .setup 2) ⟨⟨[0, 0, 0, 0], true, none, true⟩, by decide +kernel, by decide⟩ trivial (.other id)
  have h5 := h4.step (op := .create 1 [2, 1] true)
    ⟨by decide +kernel, demoEdm_ok 1 [2, 1] (by decide) (by decide) (by decide), ⟨by decide, by decide, 4, rfl⟩, by decide⟩ trivial (.other id)
  have h6 := h5.step (op := .setup 1) ⟨⟨[2, 1], true, none, false⟩, by decide +kernel, by decide⟩ trivial (.other id)
  have hc : (cudaWeak : WImpl 32) = posixWeak ∨ (cudaWeak : WImpl 32) = cudaWeak ∨ (cudaWeak : WImpl 32) = syclWeak ∨ (cudaWeak : WImpl 32) = syclBuiltinWeak := .inr (.inl rfl)
  refine ⟨_, _, h6, c81_goes_on hc (FamLawful.same (demo_lawful 64)) demoEdmCfg_wf h6 ?_ trivial,
    c81_goes_on hc (FamLawful.same (demo_lawful 64)) demoEdmCfg_wf h6 ?_ trivial, c81_goes_on hc (FamLawful.same (demo_lawful 64)) demoEdmCfg_wf h6 ?_ ?_⟩
  · refine ⟨by decide, by decide, [demoTable], [0, 0, 0, 0], [[[]], [[]], [[[7]]]], 0,
      ⟨⟨[0, 0, 0], false, by unfold EStore.Has; decide +kernel⟩, trivial⟩, by unfold EStore.Has; decide +kernel, ?_, by decide, ?_⟩
    · intro i v rows hv hk hr
      match i, hv, hr, hk with
      | 0, hv, hr, _ => cases hr; exact ⟨_, rfl, rfl⟩
      | 1, hv, hr, _ => cases hr; exact ⟨_, rfl, rfl⟩
      | 2, hv, hr, hk => cases hv; cases hk
    · have e : demoAppend [demoTable] = [[⟨[(0, [2]), (1, [4, 0])]⟩], [⟨[(0, [4]), (1, [5, 0])]⟩], [⟨[(0, [6]), (1, [6, 0])]⟩]] := rfl
      rw [e]
      intro pr hpr x hx a ha
      simp only [List.mem_cons, List.not_mem_nil, or_false] at hpr
      rcases hpr with rfl | rfl | rfl <;> simp only [List.mem_cons, List.not_mem_nil, or_false] at hx <;> subst hx <;>
        simp only [List.mem_cons, List.not_mem_nil, or_false] at ha <;> rcases ha with rfl | rfl <;> exact ⟨_, rfl, rfl, rfl⟩
  · exact ⟨by decide, [], [0, 0, 0], false, demoTable, trivial, by unfold EStore.Has; decide +kernel, demoAdd_races _ [9] [1] [2] [3] rfl rfl rfl rfl⟩
  · refine ⟨by decide, [demoTable], [2, 1], [[[[7], [7]]], [[], []]], ⟨.jagged, ⟨1, 1⟩⟩, [[], []],
      ⟨⟨[0, 0, 0], false, by unfold EStore.Has; decide +kernel⟩, trivial⟩, by unfold EStore.Has; decide +kernel, rfl, rfl, rfl, ?_, ?_⟩
    · intro pr hpr x hx
      simp only [List.mem_cons, List.not_mem_nil, or_false] at hpr
      rcases hpr with rfl | rfl <;> simp only [List.mem_cons, List.not_mem_nil, or_false] at hx
      · subst hx
        exact ⟨[], rfl, rfl, rfl⟩
      · rcases hx with rfl | rfl <;> exact ⟨[], rfl, rfl, rfl⟩
    · intro i l cap h1 h2
      match i, h1, h2 with
      | 0, h1, h2 => cases h1; cases h2; decide
      | 1, h1, h2 => cases h1; cases h2; decide
  · intro ts pr hpr x hx
    simp only [List.mem_cons, List.not_mem_nil, or_false] at hpr
    rcases hpr with rfl | rfl <;> simp only [List.mem_cons, List.not_mem_nil, or_false] at hx
    · subst hx; rfl
    · rcases hx with rfl | rfl <;> rfl

end Vecmem.Props
