import Verif.Lemmas.EdmPipelineRaces

/-!
# C65: programs with container buffers

Vocabulary: `Verif/Spec/EdmPipeline.lean` (`EdmStep`: what steps do to tables; `EdmOp.Fits`: what a user may do).
-/

namespace Vecmem
namespace Props

variable {σ : Type} {R : Limits} {G : Nat} {ups : Nat → MR σ} {u0 : σ} {c : EdmCfg} {p : EPipe σ} {q : EReady}

theorem edm_step (hl : FamLawful R G ups u0) (hc : c.Wf) (h : EInv c R G ups u0 p q) {op : EdmOp}
    (hf : op.Fits c R G (p.Outside c) (p.store c q)) : EStepOk c R G ups u0 p q op := by
  cases op with
  | create => exact estep_create hc hl h hf
  | destroy => exact estep_destroy hl h hf
  | setup => exact estep_setup hl h hf
  | memset => exact estep_memset hl h hf
  | copy => exact estep_copy hl h hf
  | upload => exact estep_upload hl hc h hf
  | download => exact estep_download h hc hf
  | append => exact estep_append hl hc h hf
  | rows => exact estep_rows hl hc h hf
  | kernel => exact estep_kernel hl h hf
  | single => exact estep_single hl hc h hf

theorem edm_inv (hl : FamLawful R G ups u0) (hc : c.Wf) (h : EdmReach c R G ups u0 p q) : EInv c R G ups u0 p q := by
  induction h with
  | init m => exact ⟨.init, List.nodup_nil, by simp, by simp⟩
  | step _ hf ih => exact (edm_step hl hc ih hf).1

/-- **C65**: whatever a program has done with any number of container buffers (of any schemas, in any resources that are well-behaved
together, with or without a separate host accessible resource), with copies between them and from and to host containers, and with
kernels under any schedules, which append elements, append to the rows of jagged vectors, or load and store elements without races:
the next step does to the elements in memory, and returns, what it may do and return according to `EdmStep`, which speaks about
tables only.

Copies may be between buffers of different capacities; if something does not fit they throw, and the variables before it have been
copied; of a variable with nothing to copy the target keeps what it had (`c44_empty_not_copied`).

Missing: `setup` of resizable containers without capacity, and `memset` of containers without capacity (`c40_no_capacity`); copies
between buffers of different capacities if these might have the same number of bytes (`c44_inner_capacities`); containers of 4 GiB or
more (`c42_payload_truncated`). -/
theorem c65_edm_pipelines_partial (hl : FamLawful R G ups u0) (hc : c.Wf) (h : EdmReach c R G ups u0 p q) (op : EdmOp)
    (hf : op.Fits c R G (p.Outside c) (p.store c q)) :
    EdmStep c (p.store c q) op (p.exec c ups op).1 ((p.exec c ups op).2.store c (op.ready q)) :=
  (edm_step hl hc (edm_inv hl hc h) hf).2

/-- **C65**, memory: at any point of any program, the memory in use is exactly what the existing buffers own, so it is all
given back when none is left; and buffers own no memory twice. -/
theorem c65_memory (hl : FamLawful R G ups u0) (hc : c.Wf) (h : EdmReach c R G ups u0 p q) :
    FReach R ups u0 p.res (p.owned c) ∧ (p.bufs = [] → FReach R ups u0 p.res []) ∧
    (p.owned c).Pairwise (fun e f => e.2.Disjoint f.2) := by
  have hr := (edm_inv hl hc h).reach
  refine ⟨hr, fun h1 => ?_, (hl.live hr).2⟩
  unfold EPipe.owned at hr
  rw [h1] at hr
  exact hr

/-- **C65**, where memory comes from: the memory in use consists of what the buffers have from the resources they were made with, and,
of those with a host accessible resource, what they have from that one. -/
theorem c65_sources (hl : FamLawful R G ups u0) (hc : c.Wf) (h : EdmReach c R G ups u0 p q) :
    FReach R ups u0 p.res (p.bufs.flatMap fun e => e.2.buf.owned.map fun x => (if x.1 then (c.host e.1).getD 0 else c.res e.1, x.2)) :=
  (c65_memory hl hc h).1

/-- **C65**, the device's view: at any point of any program, kernels find the very rows of each variable that the host finds, as soon
as the buffer has been set up (or if it has no jagged vectors, or there is no separate host accessible resource).  Views of rows
without capacity may differ in the pointer, which is never used. -/
theorem c65_same_rows (hl : FamLawful R G ups u0) (hc : c.Wf) (h : EdmReach c R G ups u0 p q) (k : Nat) (b : EBuffer)
    (hb : p.bufs.lookup k = some b) (hd : (c.schema k).hasJagged = false ∨ c.hasHost k = false ∨ q.dev k = true)
    (x : VarView) (hx : x ∈ b.buf.view.vars) :
    (x.deviceRows p.mem).length = x.rows.length ∧
    ∀ (i : Nat) (v w : View), (x.deviceRows p.mem)[i]? = some v → x.rows[i]? = some w →
      v.capacity = w.capacity ∧ v.sizePtr = w.sizePtr ∧ (w.capacity ≠ 0 → v.ptr = w.ptr) := by
  have hi := edm_inv hl hc h
  have hbm := mem_of_lookup hb
  refine VarView.deviceRows_alike fun j hj => (hi.good _ hbm).described (hi.bufs _ hbm) ?_ j (by rw [← hj]; exact hx)
  rcases hd with hd | hd | hd <;> simp [hd]

/-! ## Copies that do not fit -/

theorem _root_.Vecmem.Misfit.lt {S : Schema} {caps : List Nat} {n k : Nat} {t : Table} (hm : Misfit S caps n t) (hn : FirstFit S caps k t) :
    k ≤ n := by
  obtain ⟨v, rows, h1, h2, h3, h4⟩ := hm
  rcases Nat.lt_or_ge n k with h | h
  · exact absurd (hn n v rows h h1 h2) (not_or.2 ⟨h3, h4⟩)
  · exact h

theorem _root_.Vecmem.Misfit.lt_length {S : Schema} {caps : List Nat} {n : Nat} {t : Table} (hm : Misfit S caps n t) : n < S.length := by
  obtain ⟨v, rows, h1, -⟩ := hm
  exact (List.getElem?_eq_some_iff.1 h1).1

theorem refused_upload {S S' : EStore} {ats : List (List Nat)} {t : Table} {k n : Nat} {res : Res EdmOut} {caps : List Nat} {r dev : Bool}
    {old : Table} (h : EdmStep c S (.upload ats t k) res S') (hk : S.Has k caps r dev old) (hn : FirstFit (c.schema k) caps n t)
    (hm : Misfit (c.schema k) caps n t) :
    res = .lengthError ∧ ∃ t', S' = S.put k (some ⟨caps, r, some t', dev⟩) ∧ TableCopied (c.schema k) caps r n t old t' := by
  cases h with
  | upload _ _ _ hk' hn' ht' =>
    have := hk.symm.trans hk'
    simp only [Option.some.injEq, EBuf.mk.injEq] at this
    obtain ⟨rfl, -⟩ := this
    exact absurd hm.lt_length (Nat.not_lt.2 (hm.lt hn'))
  | uploadRefused _ _ _ n' hk' hn' hm' ht' =>
    have := hk.symm.trans hk'
    simp only [Option.some.injEq, EBuf.mk.injEq] at this
    obtain ⟨rfl, rfl, rfl, rfl⟩ := this
    obtain rfl := Nat.le_antisymm (hm.lt hn') (hm'.lt hn)
    exact ⟨rfl, _, rfl, ht'⟩

theorem refused_copy {S S' : EStore} {i j n : Nat} {res : Res EdmOut} {caps caps' : List Nat} {r r' dev dev' : Bool} {t old : Table}
    (h : EdmStep c S (.copy i j) res S') (hi : S.Has i caps r dev t) (hj : S.Has j caps' r' dev' old) (hne : caps ≠ caps')
    (hn : FirstFit (c.schema j) caps' n t) (hm : Misfit (c.schema j) caps' n t) :
    res = .lengthError ∧ ∃ t', S' = S.put j (some ⟨caps', r', some t', dev'⟩) ∧ TableCopied (c.schema j) caps' r' n t old t' := by
  have key : ∀ {caps1 caps1' r1 r1' d1 d1' t1 old1}, S.Has i caps1 r1 d1 t1 → S j = some ⟨caps1', r1', old1, d1'⟩ →
      caps1 = caps ∧ t1 = t ∧ caps1' = caps' ∧ r1' = r' ∧ d1' = dev' ∧ old1 = some old := by
    intro caps1 caps1' r1 r1' d1 d1' t1 old1 h1 h2
    have e1 := h1.symm.trans hi
    have e2 := h2.symm.trans hj
    simp only [Option.some.injEq, EBuf.mk.injEq] at e1 e2
    exact ⟨e1.1, e1.2.2.1, e2.1, e2.2.1, e2.2.2.2, e2.2.2.1⟩
  cases h with
  | copyBlock _ _ h1 h2 =>
    obtain ⟨e1, -, e3, -⟩ := key h1 h2
    exact absurd (e1.symm.trans e3) hne
  | copy _ _ h1 h2 hn' =>
    obtain ⟨-, rfl, rfl, -⟩ := key h1 h2
    exact absurd hm.lt_length (Nat.not_lt.2 (hm.lt hn'))
  | copyRefused _ _ n' h1 h2 hn' hm' ht' =>
    obtain ⟨-, rfl, rfl, rfl, rfl, e⟩ := key h1 h2
    cases e
    obtain rfl := Nat.le_antisymm (hm.lt hn') (hm'.lt hn)
    exact ⟨rfl, _, rfl, ht'⟩

/-- **C65**, copies that do not fit: in any state of any program, a host container is copied to a buffer, or a buffer to one of other
capacities, and `n` is the first variable that does not fit.  Then the call throws `std::length_error`, the variables before `n` have
been copied, those from `n` on are what they were, and no other buffer has changed. -/
theorem c65_refused (hl : FamLawful R G ups u0) (hc : c.Wf) (h : EdmReach c R G ups u0 p q) (op : EdmOp)
    (hf : op.Fits c R G (p.Outside c) (p.store c q)) (j n : Nat) (caps : List Nat) (r dev : Bool) (t old : Table)
    (hj : (p.store c q).Has j caps r dev old)
    (ho : (∃ ats, op = .upload ats t j) ∨ ∃ i caps' r' dev', op = .copy i j ∧ (p.store c q).Has i caps' r' dev' t ∧ caps' ≠ caps)
    (hn : FirstFit (c.schema j) caps n t) (hm : Misfit (c.schema j) caps n t) :
    (p.exec c ups op).1 = .lengthError ∧
    ∃ t', ((p.exec c ups op).2.store c (op.ready q)) = (p.store c q).put j (some ⟨caps, r, some t', dev⟩) ∧
      TableCopied (c.schema j) caps r n t old t' := by
  have hs := c65_edm_pipelines_partial hl hc h op hf
  rcases ho with ⟨ats, rfl⟩ | ⟨i, caps', r', dev', rfl, hi, hne⟩
  · exact refused_upload hs hj hn hm
  · exact refused_copy hs hi hj hne hn hm

/-! ## Runs -/

/-- Run a program. -/
def edmRun (c : EdmCfg) (ups : Nat → MR σ) (p : EPipe σ) : List EdmOp → List (Res EdmOut) × EPipe σ
  | [] => ([], p)
  | op :: ops => let r := p.exec c ups op; let rs := edmRun c ups r.2 ops; (r.1 :: rs.1, rs.2)

/-- Which buffers are known and set up after a program. -/
def edmReadyAfter (q : EReady) : List EdmOp → EReady
  | [] => q
  | op :: ops => edmReadyAfter (op.ready q) ops

/-- Every step of the program may be made when it is made. -/
def edmFits (c : EdmCfg) (R : Limits) (G : Nat) (ups : Nat → MR σ) (p : EPipe σ) (q : EReady) : List EdmOp → Prop
  | [] => True
  | op :: ops => op.Fits c R G (p.Outside c) (p.store c q) ∧ edmFits c R G ups (p.exec c ups op).2 (op.ready q) ops

/-- A run of a program on tables. -/
inductive EdmProgramRun (c : EdmCfg) : EStore → List EdmOp → List (Res EdmOut) → EStore → Prop
  | nil (S) : EdmProgramRun c S [] [] S
  | cons {S op r S' ops rs S''} (h : EdmStep c S op r S') (hs : EdmProgramRun c S' ops rs S'') :
      EdmProgramRun c S (op :: ops) (r :: rs) S''

/-- **C65**, whole programs: started without buffers and with any contents of memory, a program returns what it may return
according to the tables, the buffers then hold the tables, and the memory in use is what they own. -/
theorem c65_runs_partial (hl : FamLawful R G ups u0) (hc : c.Wf) (m : Mem) (ops : List EdmOp)
    (hf : edmFits c R G ups ⟨u0, m, []⟩ ⟨fun _ => false, fun _ => false⟩ ops) :
    EdmProgramRun c (fun _ => none) ops (edmRun c ups ⟨u0, m, []⟩ ops).1
      ((edmRun c ups ⟨u0, m, []⟩ ops).2.store c (edmReadyAfter ⟨fun _ => false, fun _ => false⟩ ops)) ∧
    FReach R ups u0 (edmRun c ups ⟨u0, m, []⟩ ops).2.res ((edmRun c ups ⟨u0, m, []⟩ ops).2.owned c) := by
  have key : ∀ (ops : List EdmOp) (p : EPipe σ) (q : EReady), EInv c R G ups u0 p q → edmFits c R G ups p q ops →
      EdmProgramRun c (p.store c q) ops (edmRun c ups p ops).1 ((edmRun c ups p ops).2.store c (edmReadyAfter q ops)) ∧
      FReach R ups u0 (edmRun c ups p ops).2.res ((edmRun c ups p ops).2.owned c) := by
    intro ops
    induction ops with
    | nil => exact fun p q h _ => ⟨.nil _, h.reach⟩
    | cons op ops ih =>
      intro p q h hf
      obtain ⟨h1, h2⟩ := edm_step hl hc h hf.1
      obtain ⟨h3, h4⟩ := ih _ _ h1 hf.2
      exact ⟨.cons h2 h3, h4⟩
  exact key ops _ _ (edm_inv hl hc (.init m)) hf

/-! ## Kernels -/

theorem _root_.Vecmem.EStore.HasAll.unique {S : EStore} : ∀ {ks : List Nat} {ts ts' : List Table}, S.HasAll ks ts → S.HasAll ks ts' → ts = ts' := by
  intro ks
  induction ks with
  | nil =>
    intro ts ts' h h'
    match ts, ts', h, h' with
    | [], [], _, _ => rfl
  | cons k ks ih =>
    intro ts ts' h h'
    match ts, ts', h, h' with
    | t :: ts, t' :: ts', ⟨⟨_, _, h1⟩, h2⟩, ⟨⟨_, _, h3⟩, h4⟩ =>
      unfold EStore.Has at h1 h3
      rw [h1] at h3
      simp only [Option.some.injEq, EBuf.mk.injEq] at h3
      rw [h3.2.2.1, ih h2 h4]

/-- **C65**, schedules: a kernel whose threads load and store elements without races leaves the same elements behind under any
schedule: those that its threads leave when they run one after the other. -/
theorem c65_any_schedule (hl : FamLawful R G ups u0) (hc : c.Wf) (h : EdmReach c R G ups u0 p q) (ins : List Nat) (k : Nat)
    (f : List Table → List KProg) (sched : List Nat) (hk : k ∉ ins) (ts : List Table) (hi : (p.store c q).HasAll ins ts)
    (caps : List Nat) (r : Bool) (t : Table) (ht : (p.store c q).Has k caps r true t) (hv : ∀ x ∈ f ts, x.Valid (c.schema k) t)
    (hr : NoRaces t (f ts)) :
    (∃ out, (p.exec c ups (.kernel ins k f sched)).1 = .ok out) ∧
    (p.exec c ups (.kernel ins k f sched)).2.store c q =
      (p.store c q).put k (some ⟨caps, r, some ((f ts).foldl (fun t x => x.run t) t), true⟩) := by
  obtain ⟨-, h2⟩ := edm_step hl hc (edm_inv hl hc h) (op := .kernel ins k f sched) ⟨hk, ts, caps, r, t, hi, ht, hv, hr⟩
  rw [show (EdmOp.kernel ins k f sched).ready q = q from rfl] at h2
  generalize (p.exec c ups (.kernel ins k f sched)).1 = out at h2 ⊢
  generalize (p.exec c ups (.kernel ins k f sched)).2.store c q = S' at h2 ⊢
  cases h2 with
  | @kernel _ _ _ _ ts' caps' r' t' hi' ht' =>
    cases hi.unique hi'
    unfold EStore.Has at ht ht'
    rw [ht] at ht'
    simp only [Option.some.injEq, EBuf.mk.injEq] at ht'
    obtain ⟨rfl, rfl, rfl, -⟩ := ht'
    exact ⟨⟨_, rfl⟩, rfl⟩

theorem _root_.Vecmem.HostTable.congr {outside : Nat → Nat → Prop} {S : Schema} {ats : List (List Nat)} {t t' : Table}
    (h : HostTable outside S ats t)
    (hl : (t'.map fun (rows : List (List Elem)) => rows.map List.length) = t.map fun (rows : List (List Elem)) => rows.map List.length) :
    HostTable outside S ats t' := by
  refine ⟨?_, hl ▸ h.placed, hl ▸ h.outside⟩
  rw [h.shape]
  have := congrArg (fun (l : List (List Nat)) => l.map List.length) hl
  simpa [List.map_map, Function.comp_def] using this.symm

theorem _root_.Vecmem.Appended.lengths {S : Schema} {dflt : Nat → Elem} {calls calls' : List (DCall Elem)} {t t1 t2 : Table} (hS : S.length = t.length)
    (h1 : Appended S dflt calls t t1) (h2 : Appended S dflt calls' t t2) (hl : calls.length = calls'.length) :
    (t1.map fun (rows : List (List Elem)) => rows.map List.length) = t2.map fun (rows : List (List Elem)) => rows.map List.length := by
  refine list_eq (by simp [h1.1, h2.1]) ?_
  intro i a b x1 x2
  rw [List.getElem?_map] at x1 x2
  obtain ⟨r1, y1, rfl⟩ := Option.map_eq_some_iff.1 x1
  obtain ⟨r2, y2, rfl⟩ := Option.map_eq_some_iff.1 x2
  obtain ⟨r0, y0⟩ := get_same h1.1 y1
  obtain ⟨v, hv⟩ := get_same (l' := S) (hS ▸ rfl) y0
  rw [h1.2 i v r0 r1 hv y0 y1, h2.2 i v r0 r2 hv y0 y2]
  split
  · simp [List.map_map, Function.comp_def, hl]
  · rfl

/-- **C65**, end to end: in any state of any program, the threads of a kernel read containers and append elements to a resizable
container with `push_back_default` and assignments, under any schedule, and the container is then copied to the host.  The host gets
the old elements, followed by the new ones in some order — and that order is the same for all variables, so the values assigned
to one element stay together.  `want` has the new elements in the order of the threads; it gives the sizes of the host's arrays. -/
theorem c65_elements_stay_together (hl : FamLawful R G ups u0) (hc : c.Wf) (h : EdmReach c R G ups u0 p q) (ins : List Nat) (k : Nat)
    (f : List Table → List (List (DCall Elem))) (sched : List Nat) (hk : k ∉ ins) (hj : (c.schema k).hasJagged = false)
    (ts : List Table) (hi : (p.store c q).HasAll ins ts) (caps : List Nat) (t : Table) (ht : (p.store c q).Has k caps true true t)
    (n : Nat) (hn : VectorsHave (c.schema k) n t) (hroom : n + callCount (f ts) ≤ caps.length)
    (hargs : ∀ pr ∈ f ts, ∀ x ∈ pr, ∀ a ∈ x.assigns, ∃ v, (c.schema k)[a.1]? = some v ∧ v.kind = .vector ∧ a.2.length = v.type.size)
    (ats : List (List Nat)) (want : Table) (hw : Appended (c.schema k) (c.dflt k) (f ts).flatten t want)
    (hout : HostTable (p.Outside c) (c.schema k) ats want) :
    (∃ out, (p.exec c ups (.append ins k f sched)).1 = .ok out) ∧
    ∃ t', ((p.exec c ups (.append ins k f sched)).2.exec c ups (.download k ats)).1 = .ok (.table t') ∧
      ∃ order : List (DCall Elem), order.Perm (f ts).flatten ∧ Appended (c.schema k) (c.dflt k) order t t' := by
  have hinv := edm_inv hl hc h
  obtain ⟨h1, h2⟩ := edm_step hl hc hinv (op := .append ins k f sched) ⟨hk, hj, ts, caps, t, n, hi, ht, hn, hroom, hargs⟩
  rw [show (EdmOp.append ins k f sched).ready q = q from rfl] at h1 h2
  have hlen : (c.schema k).length = t.length := by
    obtain ⟨b, -, -, -, -, b5, -, -, b8, -⟩ := hinv.has ht
    rw [b8, tableOf_length b5]
  have hout' : HostTable ((p.exec c ups (.append ins k f sched)).2.Outside c) (c.schema k) ats want := by
    have : (p.exec c ups (.append ins k f sched)).2.Outside c = p.Outside c := by
      have hsame : (p.exec c ups (.append ins k f sched)).2.bufs = p.bufs := by
        simp only [EPipe.exec]
        split <;> rfl
      funext a n
      unfold EPipe.Outside EPipe.owned
      rw [hsame]
    rw [this]
    exact hout
  generalize hp1 : (p.exec c ups (.append ins k f sched)).2 = p1 at h1 h2 hout' ⊢
  generalize (p.exec c ups (.append ins k f sched)).1 = out at h2 ⊢
  generalize hS : p1.store c q = S1 at h2
  cases h2 with
  | @append _ _ _ _ ts' caps' r' t0 hi' ht' n' hn' order results t' ho hp hx hap =>
    cases hi.unique hi'
    unfold EStore.Has at ht ht'
    rw [ht] at ht'
    simp only [Option.some.injEq, EBuf.mk.injEq] at ht'
    obtain ⟨rfl, rfl, rfl, -⟩ := ht'
    have hperm : (order.map (·.2.1)).Perm (f ts).flatten := by
      have hlt : ∀ x ∈ order, x.1 < results.length := by
        intro x hx
        by_contra hcon
        have h3 : x.2 ∈ results.getD x.1 [] := by
          rw [← ho x.1]
          exact List.mem_map.2 ⟨x, List.mem_filter.2 ⟨hx, by simp⟩, rfl⟩
        rw [List.getD_eq_getElem?_getD, List.getElem?_eq_none (by omega)] at h3
        cases h3
      have h3 := perm_byKey (fun x : Nat × DCall Elem × Nat => x.1) order results.length
      rw [List.filter_eq_self.2 fun x hx => by simpa using hlt x hx] at h3
      refine (h3.map _).trans (List.Perm.of_eq ?_)
      rw [List.map_flatMap, ← hp, List.flatten_eq_flatMap, List.flatMap_map, ← flatMap_getD]
      rw [List.flatMap_def, List.flatMap_def]
      congr 1
      apply List.map_congr_left
      intro n _
      simp only [id]
      rw [← ho n, List.map_map]
      rfl
    refine ⟨⟨_, rfl⟩, ?_⟩
    have hk1 : (p1.store c q).Has k caps true true t' := by
      unfold EStore.Has
      rw [hS]
      simp [EStore.put]
    obtain ⟨-, h3⟩ := edm_step hl hc h1 (op := .download k ats) ⟨caps, true, true, t', hk1,
      hout'.congr (hap.lengths hlen hw hperm.length_eq)⟩
    generalize (p1.exec c ups (.download k ats)).1 = o2 at h3 ⊢
    generalize (p1.exec c ups (.download k ats)).2.store c _ = S2 at h3
    cases h3 with
    | @download _ _ _ _ _ t2 h4 =>
      unfold EStore.Has at h4 hk1
      rw [hk1] at h4
      simp only [Option.some.injEq, EBuf.mk.injEq] at h4
      obtain ⟨-, -, rfl, -⟩ := h4
      exact ⟨t', rfl, _, hperm, hap⟩

/-! ## Examples -/

/-- Containers with even numbers have two vectors and a scalar; those with odd numbers have a vector and a jagged vector, and get a
host accessible resource. -/
def demoEdmCfg : EdmCfg :=
  { schema := fun k => if k % 2 = 0 then [⟨.vector, ⟨1, 1⟩⟩, ⟨.vector, ⟨2, 2⟩⟩, ⟨.scalar, ⟨1, 1⟩⟩] else [⟨.vector, ⟨1, 1⟩⟩, ⟨.jagged, ⟨1, 1⟩⟩],
    res := fun _ => 0, host := fun k => if k % 2 = 0 then none else some 1,
    dflt := fun k i => if k % 2 = 0 ∧ i = 1 then [0, 0] else [0], align := 8, dbg := true }

/-- A thread for each element of the container read, which appends an element with the double of the first value and the same second
value. -/
def demoAppend (ts : List Table) : List (List (DCall Elem)) :=
  match ts with
  | [[[as], [bs], _]] => List.zipWith (fun a b => [⟨[(0, [2 * a.getD 0 0]), (1, b)]⟩]) as bs
  | _ => []

/-- A thread for each of three elements, which adds the scalar to the first value. -/
def demoAdd : List KProg :=
  [0, 1, 2].map fun i => .load ⟨2, 0, 0⟩ fun s => .load ⟨0, 0, i⟩ fun a => .store ⟨0, 0, i⟩ [a.getD 0 0 + s.getD 0 0] .done

def demoTable : Table := [[[[1], [2], [3]]], [[[4, 0], [5, 0], [6, 0]]], [[[9]]]]

/-- A program: a container is copied from the host; a kernel appends an element to another one for each of its elements; another
kernel changes them; the result is copied to the host.  A thread appends to the rows of a jagged vector. -/
def demoEdmProgram (sched sched' : List Nat) : List EdmOp :=
  [.create 0 [0, 0, 0] false, .upload [[100], [110], [120]] demoTable 0, .create 2 [0, 0, 0, 0] true, .setup 2,
    .append [0] 2 demoAppend sched, .kernel [] 2 (fun _ => demoAdd) sched', .download 2 [[200], [210], [220]], .destroy 0,
    .create 1 [2, 1] true, .setup 1, .rows [2] 1 1 (fun _ => [[(0, .push (.val [3]))], [(1, .push (.val [5])), (0, .push (.val [4]))]]) sched]

/-- The elements of the first host container of a program. -/
def lastTable : List (Res EdmOut) → Table
  | [] => []
  | .ok (.table t) :: _ => t
  | _ :: rs => lastTable rs

example : lastTable (edmRun demoEdmCfg (fun _ => demoBase) ⟨demoInit, fun _ => 7, []⟩ (demoEdmProgram [] [])).1 =
      [[[[9], [11], [13]]], [[[4, 0], [5, 0], [6, 0]]], [[[7]]]] ∧
    lastTable (edmRun demoEdmCfg (fun _ => demoBase) ⟨demoInit, fun _ => 7, []⟩ (demoEdmProgram [2, 1, 2, 2, 0] [1, 0, 2, 1, 0])).1 =
      [[[[13], [11], [9]]], [[[6, 0], [5, 0], [4, 0]]], [[[7]]]] := by
  decide +kernel

theorem demoEdmCfg_wf : demoEdmCfg.Wf := by
  have w1 : CType.Wf ⟨1, 1⟩ := ⟨Nat.zero_lt_one, ⟨0, rfl⟩, Nat.dvd_refl 1⟩
  have w2 : CType.Wf ⟨2, 2⟩ := ⟨Nat.zero_lt_two, ⟨1, rfl⟩, Nat.dvd_refl 2⟩
  refine ⟨by decide, fun k => ?_⟩
  by_cases hk : k % 2 = 0
  · have e : demoEdmCfg.schema k = [⟨.vector, ⟨1, 1⟩⟩, ⟨.vector, ⟨2, 2⟩⟩, ⟨.scalar, ⟨1, 1⟩⟩] := if_pos hk
    rw [e]
    refine ⟨⟨⟨.vector, ⟨1, 1⟩⟩, by simp, by simp⟩, fun i v hv => ?_⟩
    match i, hv with
    | 0, hv => cases hv; exact ⟨w1, by decide, by simp [demoEdmCfg]⟩
    | 1, hv => cases hv; exact ⟨w2, by decide, by simp [demoEdmCfg, hk]⟩
    | 2, hv => cases hv; exact ⟨w1, by decide, by simp [demoEdmCfg]⟩
  · have e : demoEdmCfg.schema k = [⟨.vector, ⟨1, 1⟩⟩, ⟨.jagged, ⟨1, 1⟩⟩] := if_neg hk
    rw [e]
    refine ⟨⟨⟨.vector, ⟨1, 1⟩⟩, by simp, by simp⟩, fun i v hv => ?_⟩
    match i, hv with
    | 0, hv => cases hv; exact ⟨w1, by decide, by simp [demoEdmCfg, hk]⟩
    | 1, hv => cases hv; exact ⟨w1, by decide, by simp [demoEdmCfg, hk]⟩

theorem demoEdm_ok (k : Nat) (caps : List Nat) (h1 : ∀ c ∈ caps, c < 2 ^ 32) (h2 : caps.length < 2 ^ 32) (h3 : caps.sum < 2 ^ 64) :
    (demoEdmCfg.schema k).Ok caps :=
  ⟨fun v hv => by obtain ⟨i, hi⟩ := List.mem_iff_getElem?.1 hv; exact ((demoEdmCfg_wf.2 k).2 i v hi).1, h1, h2, h3⟩

/-- Three elements of the first kind of container, in arrays at `a`, `a + 10` and `a + 20`. -/
theorem demoEdm_host {outside : Nat → Nat → Prop} {a : Nat} (h0 : a ≠ 0) (ha : a < 1000) {as bs : List Elem} {s : Elem} (h1 : as.length = 3)
    (h2 : bs.length = 3) (ho : outside a 3 ∧ outside (a + 10) 6 ∧ outside (a + 20) 1) :
    HostTable outside (demoEdmCfg.schema 0) [[a], [a + 10], [a + 20]] [[as], [bs], [[s]]] := by
  have hrows : hostArrays ([[as], [bs], [[s]]].map fun (rows : List (List Elem)) => rows.map List.length) [[a], [a + 10], [a + 20]] =
      [[⟨3, 0, a⟩], [⟨3, 0, a + 10⟩], [⟨1, 0, a + 20⟩]] := by simp [hostArrays, h1, h2]
  have e : demoEdmCfg.schema 0 = [⟨.vector, ⟨1, 1⟩⟩, ⟨.vector, ⟨2, 2⟩⟩, ⟨.scalar, ⟨1, 1⟩⟩] := rfl
  refine ⟨rfl, ?_, ?_⟩
  · rw [hrows, e]
    refine ⟨?_, ?_⟩
    · intro i v rs hv hr
      match i, hv, hr with
      | 0, hv, hr => cases hv; cases hr; refine ⟨by simp, ?_⟩; simp; omega
      | 1, hv, hr => cases hv; cases hr; refine ⟨by simp, ?_⟩; simp; omega
      | 2, hv, hr => cases hv; cases hr; refine ⟨by simp, ?_⟩; simp; omega
    · intro i j v w rs qs hij hv hw hr hq x
      have hb : ∀ (i : Nat) (v : Var) (rs : List View),
          ([⟨.vector, ⟨1, 1⟩⟩, ⟨.vector, ⟨2, 2⟩⟩, ⟨.scalar, ⟨1, 1⟩⟩] : Schema)[i]? = some v →
          ([[⟨3, 0, a⟩], [⟨3, 0, a + 10⟩], [⟨1, 0, a + 20⟩]] : List (List View))[i]? = some rs → JagHas v.type.size rs x →
          a + 10 * i ≤ x ∧ x < a + 10 * i + 10 := by
        intro i v rs hv hr hx
        match i, hv, hr with
        | 0, hv, hr => cases hv; cases hr; simp [JagHas, View.Has, View.HasPayload, View.HasWord] at hx; omega
        | 1, hv, hr => cases hv; cases hr; simp [JagHas, View.Has, View.HasPayload, View.HasWord] at hx; omega
        | 2, hv, hr => cases hv; cases hr; simp [JagHas, View.Has, View.HasPayload, View.HasWord] at hx; omega
      intro ⟨x1, x2⟩
      have := hb i v rs hv hr x1
      have := hb j w qs hw hq x2
      omega
  · rw [hrows, e]
    intro i v rs hv hr
    match i, hv, hr with
    | 0, hv, hr => cases hv; cases hr; simpa using ho.1
    | 1, hv, hr => cases hv; cases hr; simpa using ho.2.1
    | 2, hv, hr => cases hv; cases hr; simpa using ho.2.2

theorem demoAdd_races (t : Table) (s a b d : Elem) (h0 : t.cell ⟨2, 0, 0⟩ = some s) (h1 : t.cell ⟨0, 0, 0⟩ = some a)
    (h2 : t.cell ⟨0, 0, 1⟩ = some b) (h3 : t.cell ⟨0, 0, 2⟩ = some d) :
    (∀ x ∈ demoAdd, x.Valid (demoEdmCfg.schema 2) t) ∧ NoRaces t demoAdd := by
  refine ⟨?_, ?_⟩
  · intro x hx
    simp only [demoAdd, List.map_cons, List.map_nil, List.mem_cons, List.not_mem_nil, or_false] at hx
    rcases hx with rfl | rfl | rfl
    · exact ⟨s, h0, a, h1, by rw [h1]; rfl, ⟨_, rfl, rfl⟩, trivial⟩
    · exact ⟨s, h0, b, h2, by rw [h2]; rfl, ⟨_, rfl, rfl⟩, trivial⟩
    · exact ⟨s, h0, d, h3, by rw [h3]; rfl, ⟨_, rfl, rfl⟩, trivial⟩
  · have key : ∀ (i : Nat) (p : KProg), demoAdd[i]? = some p →
        p.accesses t = [(false, ⟨2, 0, 0⟩), (false, ⟨0, 0, i⟩), (true, ⟨0, 0, i⟩)] := by
      intro i p hp
      match i, hp with
      | 0, hp => cases hp; rfl
      | 1, hp => cases hp; rfl
      | 2, hp => cases hp; rfl
    intro i j p q hij hp hq c b hc
    rw [key i p hp] at hc
    rw [key j q hq]
    simp only [List.mem_cons, Prod.mk.injEq, Bool.true_eq_false, false_and, true_and, List.not_mem_nil, or_false, false_or] at hc
    subst hc
    simp only [List.mem_cons, Prod.mk.injEq, Cell.mk.injEq, List.not_mem_nil, or_false]
    omega

set_option maxRecDepth 20000 in
/-- The hypotheses of `c65_runs_partial` are met by this program. -/
example : FamLawful 64 64 (fun _ : Nat => demoBase) demoInit ∧ demoEdmCfg.Wf ∧
    edmFits demoEdmCfg 64 64 (fun _ => demoBase) ⟨demoInit, fun _ => 7, []⟩ ⟨fun _ => false, fun _ => false⟩
      (demoEdmProgram [2, 1, 2, 2, 0] [1, 0, 2, 1, 0]) := by
  refine ⟨.same (demo_lawful 64), demoEdmCfg_wf,
    ⟨rfl, demoEdm_ok 0 [0, 0, 0] (by decide) (by decide) (by decide), ⟨by decide, by decide, 4, rfl⟩, by decide⟩,
    ⟨demoEdm_host (by decide) (by decide) rfl rfl ?_, ⟨3, rfl, by decide, ?_⟩, ⟨rfl, ?_⟩,
      [0, 0, 0], false, true, [[[[7], [7], [7]]], [[[7, 7], [7, 7], [7, 7]]], [[[7]]]], by unfold EStore.Has; decide +kernel⟩,
    ⟨by decide +kernel, demoEdm_ok 2 [0, 0, 0, 0] (by decide) (by decide) (by decide), ⟨by decide, by decide, 4, rfl⟩, by decide⟩,
    ⟨⟨[0, 0, 0, 0], true, none, true⟩, by decide +kernel, by decide⟩,
    ⟨by decide, by decide, [demoTable], [0, 0, 0, 0], [[[]], [[]], [[[7]]]], 0,
      ⟨⟨[0, 0, 0], false, by unfold EStore.Has; decide +kernel⟩, trivial⟩, by unfold EStore.Has; decide +kernel, ?_, by decide, ?_⟩,
    ⟨by decide, [], [0, 0, 0, 0], true, [[[[6], [4], [2]]], [[[6, 0], [5, 0], [4, 0]]], [[[7]]]], trivial,
      by unfold EStore.Has; decide +kernel, demoAdd_races _ [7] [6] [4] [2] rfl rfl rfl rfl⟩,
    ⟨[0, 0, 0, 0], true, true, [[[[13], [11], [9]]], [[[6, 0], [5, 0], [4, 0]]], [[[7]]]], by unfold EStore.Has; decide +kernel,
      demoEdm_host (by decide) (by decide) rfl rfl ?_⟩,
    ⟨⟨[0, 0, 0], false, some demoTable, true⟩, by decide +kernel⟩,
    ⟨by decide +kernel, demoEdm_ok 1 [2, 1] (by decide) (by decide) (by decide), ⟨by decide, by decide, 4, rfl⟩, by decide⟩,
    ⟨⟨[2, 1], true, none, false⟩, by decide +kernel, by decide⟩,
    ⟨by decide, [[[[[13], [11], [9]]], [[[6, 0], [5, 0], [4, 0]]], [[[7]]]]], [2, 1], [[[[7], [7]]], [[], []]], ⟨.jagged, ⟨1, 1⟩⟩, [[], []],
      ⟨⟨[0, 0, 0, 0], true, by unfold EStore.Has; decide +kernel⟩, trivial⟩, by unfold EStore.Has; decide +kernel, rfl, rfl, rfl, ?_, ?_⟩,
    trivial⟩
  · unfold EPipe.Outside
    decide +kernel
  · intro i v ns hv hns
    match i, hv, hns with
    | 0, hv, hns => cases hv; cases hns; exact ⟨by simp, fun _ => rfl, by simp⟩
    | 1, hv, hns => cases hv; cases hns; exact ⟨by simp, fun _ => rfl, by simp⟩
    | 2, hv, hns => cases hv; cases hns; exact ⟨fun _ => rfl, by simp, by simp⟩
  · intro i v rows hv hr
    match i, hv, hr with
    | 0, hv, hr => cases hv; cases hr; decide
    | 1, hv, hr => cases hv; cases hr; decide
    | 2, hv, hr => cases hv; cases hr; decide
  · intro i v rows hv hk hr
    match i, hv, hr, hk with
    | 0, hv, hr, _ => cases hr; exact ⟨_, rfl, rfl⟩
    | 1, hv, hr, _ => cases hr; exact ⟨_, rfl, rfl⟩
    | 2, hv, hr, hk => cases hv; cases hk
  · have e : demoAppend [demoTable] = [[⟨[(0, [2]), (1, [4, 0])]⟩], [⟨[(0, [4]), (1, [5, 0])]⟩], [⟨[(0, [6]), (1, [6, 0])]⟩]] := rfl
    rw [e]
    intro pr hpr x hx a ha
    simp only [List.mem_cons, List.not_mem_nil, or_false] at hpr
    rcases hpr with rfl | rfl | rfl <;> simp only [List.mem_cons, List.not_mem_nil, or_false] at hx <;> subst hx <;>
      simp only [List.mem_cons, List.not_mem_nil, or_false] at ha <;> rcases ha with rfl | rfl <;> exact ⟨_, rfl, rfl, rfl⟩
  · unfold EPipe.Outside
    decide +kernel
  · intro pr hpr x hx
    simp only [List.mem_cons, List.not_mem_nil, or_false] at hpr
    rcases hpr with rfl | rfl <;> simp only [List.mem_cons, List.not_mem_nil, or_false] at hx
    · subst hx
      exact ⟨[], rfl, rfl, rfl⟩
    · rcases hx with rfl | rfl <;> exact ⟨[], rfl, rfl, rfl⟩
  · intro i l cap h1 h2
    match i, h1, h2 with
    | 0, h1, h2 => cases h1; cases h2; decide
    | 1, h1, h2 => cases h1; cases h2; decide

/-- A scalar and a vector. -/
def demoScalarCfg : EdmCfg :=
  { schema := fun _ => [⟨.scalar, ⟨1, 1⟩⟩, ⟨.vector, ⟨1, 1⟩⟩], res := fun _ => 0, host := fun _ => none, dflt := fun _ _ => [0], align := 8,
    dbg := true }

theorem demoScalarCfg_wf : demoScalarCfg.Wf := by
  refine ⟨by decide, fun k => ⟨⟨⟨.vector, ⟨1, 1⟩⟩, by simp [demoScalarCfg], by simp⟩, fun i v hv => ?_⟩⟩
  have w1 : CType.Wf ⟨1, 1⟩ := ⟨Nat.zero_lt_one, ⟨0, rfl⟩, Nat.dvd_refl 1⟩
  match i, hv with
  | 0, hv => cases hv; exact ⟨w1, by decide, rfl⟩
  | 1, hv => cases hv; exact ⟨w1, by decide, rfl⟩

/-- Four elements are copied to a container with room for one. -/
def demoRefused : List EdmOp := [.create 0 [0, 0, 0, 0] false, .create 1 [0] false, .memset 0 5, .copy 0 1]

theorem demoScalar_ok (k : Nat) (caps : List Nat) (h1 : ∀ c ∈ caps, c < 2 ^ 32) (h2 : caps.length < 2 ^ 32) (h3 : caps.sum < 2 ^ 64) :
    (demoScalarCfg.schema k).Ok caps :=
  ⟨fun v hv => by obtain ⟨i, hi⟩ := List.mem_iff_getElem?.1 hv; exact ((demoScalarCfg_wf.2 k).2 i v hi).1, h1, h2, h3⟩

set_option maxRecDepth 20000 in
theorem demoRefused_fits :
    edmFits demoScalarCfg 64 64 (fun _ => demoBase) ⟨demoInit, fun _ => 7, []⟩ ⟨fun _ => false, fun _ => false⟩ demoRefused :=
  ⟨⟨rfl, demoScalar_ok 0 _ (by decide) (by decide) (by decide), ⟨by decide, by decide, 4, rfl⟩, by decide⟩,
    ⟨by decide +kernel, demoScalar_ok 1 _ (by decide) (by decide) (by decide), ⟨by decide, by decide, 4, rfl⟩, by decide⟩,
    ⟨⟨[0, 0, 0, 0], false, some [[[[7]]], [[[7], [7], [7], [7]]]], true⟩, by decide +kernel, by decide⟩,
    ⟨by decide, rfl, [0, 0, 0, 0], [0], false, false, true, true, [[[[5]]], [[[5], [5], [5], [5]]]], some [[[[7]]], [[[7]]]],
      by unfold EStore.Has; decide +kernel, by decide +kernel, .inl ⟨rfl, .inr (.inr (by decide))⟩⟩, trivial⟩

/-- The hypotheses of `c65_refused` are met by the last step of this program (with `n = 1`): the scalar is copied, and the vector is not. -/
example : FamLawful 64 64 (fun _ : Nat => demoBase) demoInit ∧ demoScalarCfg.Wf ∧
    edmFits demoScalarCfg 64 64 (fun _ => demoBase) ⟨demoInit, fun _ => 7, []⟩ ⟨fun _ => false, fun _ => false⟩ demoRefused ∧
    FirstFit (demoScalarCfg.schema 1) [0] 1 [[[[5]]], [[[5], [5], [5], [5]]]] ∧
    Misfit (demoScalarCfg.schema 1) [0] 1 [[[[5]]], [[[5], [5], [5], [5]]]] ∧
    ((edmRun demoScalarCfg (fun _ => demoBase) ⟨demoInit, fun _ => 7, []⟩ demoRefused).2.store demoScalarCfg
      ⟨fun _ => false, fun _ => false⟩) 1 = some ⟨[0], false, some [[[[5]]], [[[7]]]], true⟩ := by
  refine ⟨.same (demo_lawful 64), demoScalarCfg_wf, demoRefused_fits, ?_, ?_, by decide +kernel⟩
  · intro i v rows hi hv hr
    obtain rfl : i = 0 := by omega
    cases hv
    cases hr
    refine .inr ⟨rfl, fun i l cap h1 h2 => ?_⟩
    match i, h1, h2 with
    | 0, h1, h2 => cases h1; cases h2; decide
  · refine ⟨_, _, rfl, rfl, ?_, ?_⟩
    · rintro (⟨-, h⟩ | ⟨h, -⟩) <;> simp at h
    · rintro ⟨-, h⟩
      exact absurd (h 0 _ _ rfl rfl) (by decide)

end Props
end Vecmem
