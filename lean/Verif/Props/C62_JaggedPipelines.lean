import Verif.Lemmas.JagPipelineKernels

/-!
# C62: programs with vector buffers and jagged buffers

Vocabulary: `Verif/Spec/JagPipeline.lean` (`JagStep`: what steps do to lists of elements and lists of rows; `JagOp.Fits`: what a
user may do).
-/

namespace Vecmem
namespace Props

variable {σ : Type} {R : Limits} {G : Nat} {ups : Nat → MR σ} {u0 : σ} {c : JagCfg} {p : JPipe σ} {q : JReady}

theorem jag_step (hl : FamLawful R G ups u0) (hc : c.Wf) (h : JInv c R ups u0 p q) {op : JagOp}
    (hf : op.Fits c R (p.Outside c) (p.store c q)) : JStepOk c R ups u0 p q op := by
  cases op with
  | vec => exact jstep_vec hl hc h hf
  | create => exact jstep_create hl hc h hf
  | destroy => exact jstep_destroy hl h hf
  | setup => exact jstep_setup hl h hf
  | memset => exact jstep_memset hl hc h hf
  | copy => exact jstep_copy hl hc h hf
  | upload => exact jstep_upload hl hc h hf
  | download => exact jstep_download h hc hf
  | kernel => exact jstep_kernel hl hc h hf
  | single => exact jstep_single hl hc h hf
  | vecKernel => exact jstep_vecKernel hl hc h hf
  | vecSingle => exact jstep_vecSingle hl hc h hf

theorem jag_inv (hl : FamLawful R G ups u0) (hc : c.Wf) (h : JagReach c R ups u0 p q) : JInv c R ups u0 p q := by
  induction h with
  | init m => exact ⟨⟨.init, List.nodup_nil, by simp, by simp, by simp⟩, List.nodup_nil, by simp, by simp, by simp, by simp⟩
  | step _ hf ih => exact (jag_step hl hc ih hf).1

/-- **C62**: whatever a program has done with any numbers of vector buffers and jagged buffers (of any element types, in any
resources that are well-behaved together, with or without a separate host accessible resource), with copies between them and
from and to host vectors, and with kernels under any schedules: the next step does to the elements in memory, and returns, what
it may do and return according to `JagStep`, which speaks about lists of elements and lists of rows only.

Missing: a copy of an empty vector, or of a jagged vector without rows, into one that is not empty has no effect and does not
throw (`copied`, `c59_empty_copy`, `c62_empty_copy`); `memset` of a jagged buffer without rows is undefined
(`c40_memset_empty_jagged`). -/
theorem c62_jagged_pipelines_partial (hl : FamLawful R G ups u0) (hc : c.Wf) (h : JagReach c R ups u0 p q) (op : JagOp)
    (hf : op.Fits c R (p.Outside c) (p.store c q)) :
    JagStep c (p.store c q) op (p.exec c ups op).1 ((p.exec c ups op).2.store c (op.ready q)) :=
  (jag_step hl hc (jag_inv hl hc h) hf).2

/-- **C62**, what is missing: a copy of a jagged vector without rows into one that has rows does not throw, and has no effect, in
whatever state it is made. -/
theorem c62_empty_copy (hl : FamLawful R G ups u0) (hc : c.Wf) (h : JagReach c R ups u0 p q) {i j : Nat} {caps caps' : List Nat}
    {r d r' d' : Bool} {rows : List (List Elem)} (hij : i ≠ j) (hty : (c.ty i).size = (c.ty j).size)
    (hi : (p.store c q).Has i caps r d []) (hj : (p.store c q).Has j caps' r' d' rows) (hne : caps' ≠ []) :
    (p.exec c ups (.copy i j)).1 = .ok (.vec .unit) ∧ (p.exec c ups (.copy i j)).2.store c q = p.store c q := by
  have := c62_jagged_pipelines_partial hl hc h (.copy i j) ⟨hij, hty, caps, r, d, [], caps', r', d', rows, hi, hj⟩
  exact this.copy_empty hi hj hne

/-- **C62**, memory: at any point of any program, the memory in use is exactly what the existing buffers own, so it is all
given back when none is left; and buffers own no memory twice. -/
theorem c62_memory (hl : FamLawful R G ups u0) (hc : c.Wf) (h : JagReach c R ups u0 p q) :
    FReach R ups u0 p.vec.res (p.vec.owned c.vec ++ p.owned c) ∧
    (p.vec.bufs = [] → p.jags = [] → FReach R ups u0 p.vec.res []) ∧
    (p.vec.owned c.vec ++ p.owned c).Pairwise (fun e f => e.2.Disjoint f.2) := by
  have hr := (jag_inv hl hc h).vec.reach
  refine ⟨hr, fun h1 h2 => ?_, (hl.live hr).2⟩
  unfold Pipe.owned JPipe.owned at hr
  rw [h1, h2] at hr
  exact hr

/-- **C62**, where memory comes from: the memory in use consists of what the buffers have from the resources they were made with, and,
of jagged buffers with a host accessible resource, what they have from that one. -/
theorem c62_sources (hl : FamLawful R G ups u0) (hc : c.Wf) (h : JagReach c R ups u0 p q) :
    FReach R ups u0 p.vec.res (p.vec.owned c.vec ++ p.jags.flatMap fun e => (e.2.owned (c.host e.1).isSome).map fun x =>
      (if x.1 then (c.host e.1).getD 0 else c.res e.1, x.2)) :=
  (c62_memory hl hc h).1

/-- **C62**, the device's view: at any point of any program, through the pointer that a jagged buffer gives to kernels, these find
the very rows that the host finds, as soon as the buffer has been set up (or if there is no separate host accessible resource).
Views of rows without capacity may differ in the pointer, which is never used. -/
theorem c62_same_rows (hl : FamLawful R G ups u0) (hc : c.Wf) (h : JagReach c R ups u0 p q) (k : Nat) (b : JagBuffer)
    (hb : p.jags.lookup k = some b) (hd : c.hasHost k = false ∨ q.jag k = true) :
    (b.deviceRows p.vec.mem).length = b.views.length ∧
    ∀ (i : Nat) (v w : View), (b.deviceRows p.vec.mem)[i]? = some v → b.views[i]? = some w →
      v.capacity = w.capacity ∧ v.sizePtr = w.sizePtr ∧ (w.capacity ≠ 0 → v.ptr = w.ptr) :=
  deviceRows_alike ((jag_inv hl hc h).described (e := (k, b)) (mem_of_lookup hb) (by
    rcases hd with hd | hd <;> simp [hd]))

/-! ## Runs -/

/-- Run a program. -/
def jagRun (c : JagCfg) (ups : Nat → MR σ) (p : JPipe σ) : List JagOp → List (Res JagOut) × JPipe σ
  | [] => ([], p)
  | op :: ops => let r := p.exec c ups op; let rs := jagRun c ups r.2 ops; (r.1 :: rs.1, rs.2)

/-- Which buffers are set up after a program. -/
def jagReadyAfter (q : JReady) : List JagOp → JReady
  | [] => q
  | op :: ops => jagReadyAfter (op.ready q) ops

/-- Every step of the program may be made when it is made. -/
def jagFits (c : JagCfg) (R : Limits) (ups : Nat → MR σ) (p : JPipe σ) (q : JReady) : List JagOp → Prop
  | [] => True
  | op :: ops => op.Fits c R (p.Outside c) (p.store c q) ∧ jagFits c R ups (p.exec c ups op).2 (op.ready q) ops

/-- A run of a program on lists. -/
inductive JagProgramRun (c : JagCfg) : JStore → List JagOp → List (Res JagOut) → JStore → Prop
  | nil (S) : JagProgramRun c S [] [] S
  | cons {S op r S' ops rs S''} (h : JagStep c S op r S') (hs : JagProgramRun c S' ops rs S'') :
      JagProgramRun c S (op :: ops) (r :: rs) S''

/-- **C62**, whole programs: started without buffers and with any contents of memory, a program returns what it may return
according to the lists, the buffers then hold the lists, and the memory in use is what they own. -/
theorem c62_runs_partial (hl : FamLawful R G ups u0) (hc : c.Wf) (m : Mem) (ops : List JagOp)
    (hf : jagFits c R ups ⟨⟨u0, m, []⟩, []⟩ ⟨fun _ => false, fun _ => false⟩ ops) :
    JagProgramRun c ⟨fun _ => none, fun _ => none⟩ ops (jagRun c ups ⟨⟨u0, m, []⟩, []⟩ ops).1
      ((jagRun c ups ⟨⟨u0, m, []⟩, []⟩ ops).2.store c (jagReadyAfter ⟨fun _ => false, fun _ => false⟩ ops)) ∧
    FReach R ups u0 (jagRun c ups ⟨⟨u0, m, []⟩, []⟩ ops).2.vec.res
      ((jagRun c ups ⟨⟨u0, m, []⟩, []⟩ ops).2.vec.owned c.vec ++ (jagRun c ups ⟨⟨u0, m, []⟩, []⟩ ops).2.owned c) := by
  have key : ∀ (ops : List JagOp) (p : JPipe σ) (q : JReady), JInv c R ups u0 p q → jagFits c R ups p q ops →
      JagProgramRun c (p.store c q) ops (jagRun c ups p ops).1 ((jagRun c ups p ops).2.store c (jagReadyAfter q ops)) ∧
      FReach R ups u0 (jagRun c ups p ops).2.vec.res ((jagRun c ups p ops).2.vec.owned c.vec ++ (jagRun c ups p ops).2.owned c) := by
    intro ops
    induction ops with
    | nil => exact fun p q h _ => ⟨.nil _, h.vec.reach⟩
    | cons op ops ih =>
      intro p q h hf
      obtain ⟨h1, h2⟩ := jag_step hl hc h hf.1
      obtain ⟨h3, h4⟩ := ih _ _ h1 hf.2
      exact ⟨.cons h2 h3, h4⟩
  exact key ops _ _ (jag_inv hl hc (.init m)) hf

/-! ## Parallel binning -/

/-- The kernel of the example: a thread for each element of the input, which appends a value to the row that the element
belongs to. -/
def binKernel (bin : Elem → Nat) (g : Elem → Elem) (ls : List (List Elem)) (_ : List (List (List Elem))) :
    List (List (Nat × ACall Elem)) :=
  (ls.headD []).map fun e => [(bin e, .push (.val (g e)))]

theorem binKernel_count (bin : Elem → Nat) (g : Elem → Elem) (xs : List Elem) (js) (j : Nat) :
    totalCount (onRow (binKernel bin g [xs] js) j) = (xs.filter fun e => bin e = j).length := by
  unfold totalCount onRow binKernel
  simp only [List.headD_cons, List.map_map]
  induction xs with
  | nil => rfl
  | cons x xs ih =>
    rw [List.map_cons, List.sum_cons, ih, List.filter_cons]
    by_cases hb : bin x = j
    · simp [hb, ACall.count]; omega
    · simp [hb]

theorem binKernel_values (bin : Elem → Nat) (g : Elem → Elem) (xs : List Elem) (js) (j : Nat) :
    ((binKernel bin g [xs] js).flatMap fun pr => (pr.filter (·.1 = j)).map fun x => pushed x.2) =
      (xs.filter fun e => bin e = j).map g := by
  unfold binKernel
  simp only [List.headD_cons]
  induction xs with
  | nil => rfl
  | cons x xs ih =>
    rw [List.map_cons, List.flatMap_cons, ih, List.filter_cons]
    by_cases hb : bin x = j <;> simp [hb, pushed]

theorem jagRun_pushed {d : Elem} {caps : List Nat} {order : List (Nat × Nat × ACall Elem × Nat)} :
    ∀ {rows rows' : List (List Elem)} {rs}, (∀ x ∈ order, ∃ v, x.2.2.1 = .push (.val v)) →
    JagRun d caps rows (order.map fun x => (x.2.1, x.2.2.1.toOp)) rs rows' →
    rows'.length = rows.length ∧ ∀ (j : Nat) (l l' : List Elem), rows[j]? = some l → rows'[j]? = some l' →
      l' = l ++ (order.filter fun x => x.2.1 = j).map fun x => pushed x.2.2.1 := by
  induction order with
  | nil =>
    intro rows rows' rs _ h
    cases h
    refine ⟨rfl, fun j l l' h1 h2 => ?_⟩
    cases h1.symm.trans h2
    simp
  | cons x order ih =>
    intro rows rows' rs hx h
    obtain ⟨v, hv⟩ := hx x List.mem_cons_self
    rw [List.map_cons, hv] at h
    cases h with
    | @cons _ _ cap l0 _ r l1 _ rs _ hi hcap h1 h2 =>
      cases h1 with
      | push hv' =>
        cases Option.some.inj hv'
        obtain ⟨e1, e2⟩ := ih (fun y hy => hx y (List.mem_cons_of_mem _ hy)) h2
        rw [List.length_set] at e1
        refine ⟨e1, fun j l l' g1 g2 => ?_⟩
        rw [List.filter_cons]
        by_cases hj : x.2.1 = j
        · subst hj
          cases hi.symm.trans g1
          rw [e2 x.2.1 _ l' (List.getElem?_set_self (List.getElem?_eq_some_iff.1 hi).1) g2]
          simp [hv, pushed]
        · rw [e2 j l l' (by rw [List.getElem?_set_ne hj]; exact g1) g2]
          simp [hj]

theorem _root_.Vecmem.HostArrays.congr {outside : Nat → Nat → Prop} {t : Nat} {ats : List Nat} {rows rows' : List (List Elem)}
    (h : HostArrays outside t ats rows) (hl : rows'.map List.length = rows.map List.length) : HostArrays outside t ats rows' := by
  have hlen : rows'.length = rows.length := by simpa using congrArg List.length hl
  have key : ∀ (i : Nat) (l' : List Elem), rows'[i]? = some l' → ∃ l, rows[i]? = some l ∧ l.length = l'.length := by
    intro i l' h'
    obtain ⟨l, hl'⟩ := get_same hlen h'
    refine ⟨l, hl', ?_⟩
    have := congrArg (fun x => x[i]?) hl
    simp only [List.getElem?_map, h', hl', Option.map_some, Option.some.injEq] at this
    exact this.symm
  obtain ⟨h1, h2, h3⟩ := h
  refine ⟨by omega, fun i a l' x1 x2 => ?_, fun i j a b l l' hij x1 x2 x3 x4 => ?_⟩
  · obtain ⟨l, y1, y2⟩ := key i l' x2
    obtain ⟨z1, z2⟩ := h2 i a l x1 y1
    rw [y2] at z1 z2
    refine ⟨z1, fun hne => z2 fun hc => hne ?_⟩
    rw [hc] at y2
    exact List.length_eq_zero_iff.1 y2.symm
  · obtain ⟨m, y1, y2⟩ := key i l x3
    obtain ⟨m', y3, y4⟩ := key j l' x4
    rw [← y2, ← y4]
    exact h3 i j a b m m' hij x1 x2 y1 y3

/-- **C62**, end to end: in any state of any program, a kernel with a thread for each element of a vector buffer appends, under
any schedule, a value for each element to the row of a resizable jagged buffer (with empty rows, whose capacities are large
enough) to which the element belongs.  The host vectors that this buffer is then copied to hold, row by row, exactly the values of
the elements that belong to the row, in some order. -/
theorem c62_parallel_binning (hl : FamLawful R G ups u0) (hc : c.Wf) (h : JagReach c R ups u0 p q) (i k : Nat)
    (xs : List Elem) (hi : ∃ cap r, (p.store c q).vec.Has i cap r xs) (caps : List Nat)
    (hk : (p.store c q).Has k caps true true (caps.map fun _ => []))
    (bin : Elem → Nat) (hb : ∀ e ∈ xs, bin e < caps.length) (g : Elem → Elem) (hg : ∀ e ∈ xs, (g e).length = (c.ty k).size)
    (hroom : ∀ (j cap : Nat), caps[j]? = some cap → (xs.filter fun e => bin e = j).length ≤ cap)
    (sched : List Nat) (ats : List Nat)
    (hout : HostArrays (p.Outside c) (c.ty k).size ats
      ((List.range caps.length).map fun j => (xs.filter fun e => bin e = j).map g)) :
    (∃ out, (p.exec c ups (.kernel [i] [] k (binKernel bin g) sched)).1 = .ok out) ∧
    ∃ rows, ((p.exec c ups (.kernel [i] [] k (binKernel bin g) sched)).2.exec c ups (.download k ats)).1 = .ok (.rows rows) ∧
      rows.length = caps.length ∧
      ∀ (j : Nat) (row : List Elem), rows[j]? = some row → row.Perm ((xs.filter fun e => bin e = j).map g) := by
  obtain ⟨capi, ri, hi⟩ := hi
  have hall : (p.store c q).vec.HasAll [i] [xs] := ⟨⟨capi, ri, hi⟩, trivial⟩
  have hinv := jag_inv hl hc h
  have hpush : ∀ pr ∈ binKernel bin g [xs] [], ∀ x ∈ pr, ∃ e ∈ xs, x = (bin e, .push (.val (g e))) := by
    intro pr hpr x hx
    obtain ⟨e, he, rfl⟩ := List.mem_map.1 hpr
    exact ⟨e, he, by simpa using hx⟩
  obtain ⟨h1, h2⟩ := jag_step hl hc hinv (op := .kernel [i] [] k (binKernel bin g) sched)
    ⟨by simp, [xs], [], caps, _, hall, trivial, hk, fun pr hpr x hx => by
      obtain ⟨e, he, rfl⟩ := hpush pr hpr x hx
      exact ⟨[], by rw [List.getElem?_map, List.getElem?_eq_getElem (hb e he)]; rfl, rfl, hg e he⟩, fun j l cap g1 g2 => by
      rw [List.getElem?_map, g2] at g1
      cases g1
      rw [binKernel_count, List.length_nil, Nat.zero_add]
      exact hroom j cap g2⟩
  rw [show (JagOp.kernel [i] [] k (binKernel bin g) sched).ready q = q from rfl] at h1 h2
  have hsame : (p.exec c ups (.kernel [i] [] k (binKernel bin g) sched)).2.jags = p.jags ∧
      (p.exec c ups (.kernel [i] [] k (binKernel bin g) sched)).2.vec.bufs = p.vec.bufs := by
    simp only [JPipe.exec]
    split
    · exact ⟨rfl, rfl⟩
    · split <;> exact ⟨rfl, rfl⟩
  have hout' : HostArrays ((p.exec c ups (.kernel [i] [] k (binKernel bin g) sched)).2.Outside c) (c.ty k).size ats
      ((List.range caps.length).map fun j => (xs.filter fun e => bin e = j).map g) := by
    have : (p.exec c ups (.kernel [i] [] k (binKernel bin g) sched)).2.Outside c = p.Outside c := by
      funext a n
      unfold JPipe.Outside JPipe.owned Pipe.Outside
      rw [hsame.1, hsame.2]
    rw [this]
    exact hout
  generalize hp1 : (p.exec c ups (.kernel [i] [] k (binKernel bin g) sched)).2 = p1 at h1 h2 hout' ⊢
  generalize (p.exec c ups (.kernel [i] [] k (binKernel bin g) sched)).1 = out at h2 ⊢
  generalize hS : p1.store c q = S1 at h2
  cases h2 with
  | @kernel _ _ _ _ _ ls js caps' rows0 hi' hj' hk' order results rows' ho hp hr =>
    obtain rfl : ls = [xs] := by
      match ls, hi' with
      | [l], hi' =>
        obtain ⟨⟨_, _, h3⟩, -⟩ := hi'
        unfold Store.Has at h3 hi
        rw [hi] at h3
        simp only [Option.some.injEq, VBuf.mk.injEq] at h3
        rw [h3.2.2]
    obtain rfl : js = [] := by
      match js, hj' with
      | [], _ => rfl
    unfold JStore.Has at hk hk'
    rw [hk] at hk'
    simp only [Option.some.injEq, JBuf.mk.injEq] at hk'
    obtain ⟨rfl, -, rfl, -⟩ := hk'
    have hlen : results.length = (binKernel bin g [xs] []).length := by rw [← hp, List.length_map]
    have hres : ∀ j, (binKernel bin g [xs] []).getD j [] = (results.getD j []).map fun x => (x.1, x.2.1) := by
      intro j
      rw [← hp]
      simp only [List.getD_eq_getElem?_getD, List.getElem?_map]
      cases results[j]? <;> rfl
    have hkey : ∀ x ∈ order, x.1 < results.length ∧ (x.2.1, x.2.2.1) ∈ (binKernel bin g [xs] []).getD x.1 [] := by
      intro x hx
      have h3 := ho x.1
      have h4 : x.2 ∈ results.getD x.1 [] := by
        rw [← h3]
        exact List.mem_map.2 ⟨x, List.mem_filter.2 ⟨hx, by simp⟩, rfl⟩
      have hlt : x.1 < results.length := by
        by_contra hcon
        rw [List.getD_eq_getElem?_getD, List.getElem?_eq_none (by omega)] at h4
        cases h4
      refine ⟨hlt, ?_⟩
      rw [hres]
      exact List.mem_map.2 ⟨x.2, h4, rfl⟩
    have hval : ∀ x ∈ order, ∃ v, x.2.2.1 = .push (.val v) := by
      intro x hx
      obtain ⟨h3, h4⟩ := hkey x hx
      rw [List.getD_eq_getElem?_getD, List.getElem?_eq_getElem (hlen ▸ h3)] at h4
      obtain ⟨e, -, he⟩ := hpush _ (List.getElem_mem _) _ h4
      exact ⟨g e, (Prod.mk.injEq .. ▸ he).2⟩
    obtain ⟨hlr, hl'⟩ := jagRun_pushed hval hr
    rw [List.length_map] at hlr
    have hperm : ∀ (j : Nat) (row : List Elem), rows'[j]? = some row → row.Perm ((xs.filter fun e => bin e = j).map g) := by
      intro j row hrow
      obtain ⟨l0, hl0⟩ := get_same (l' := caps.map fun _ => ([] : List Elem)) (by rw [List.length_map]; exact hlr) hrow
      have := hl' j l0 row hl0 hrow
      rw [List.getElem?_map] at hl0
      obtain ⟨_, -, rfl⟩ := Option.map_eq_some_iff.1 hl0
      rw [this, List.nil_append, ← binKernel_values bin g xs [] j]
      have h3 := perm_byKey (fun x : Nat × Nat × ACall Elem × Nat => x.1) order results.length
      rw [List.filter_eq_self.2 fun x hx => by simpa using (hkey x hx).1] at h3
      refine ((h3.filter _).map _).trans (List.Perm.of_eq ?_)
      rw [List.filter_flatMap, List.map_flatMap, ← flatMap_getD, ← hlen, List.flatMap_def, List.flatMap_def]
      congr 1
      apply List.map_congr_left
      intro n _
      rw [hres, ← ho n, List.map_map, List.filter_map, List.map_map]
      rfl
    refine ⟨⟨_, rfl⟩, ?_⟩
    have hk1 : (p1.store c q).Has k caps true true rows' := by
      unfold JStore.Has
      rw [hS]
      simp [JStore.put]
    have hlens : rows'.map List.length =
        ((List.range caps.length).map fun j => (xs.filter fun e => bin e = j).map g).map List.length := by
      refine list_eq (by simp [hlr]) ?_
      intro j n n' g1 g2
      rw [List.getElem?_map] at g1
      obtain ⟨row, hrow, rfl⟩ := Option.map_eq_some_iff.1 g1
      have hj : j < caps.length := hlr ▸ (List.getElem?_eq_some_iff.1 hrow).1
      rw [List.getElem?_map, List.getElem?_map, List.getElem?_range hj] at g2
      cases g2
      exact (hperm j row hrow).length_eq
    obtain ⟨-, h3⟩ := jag_step hl hc h1 (op := .download k ats) ⟨caps, true, true, rows', hk1, hout'.congr hlens⟩
    generalize (p1.exec c ups (.download k ats)).1 = o2 at h3 ⊢
    generalize (p1.exec c ups (.download k ats)).2.store c _ = S2 at h3
    cases h3 with
    | @download _ _ _ _ _ rows2 h4 =>
      unfold JStore.Has at h4 hk1
      rw [hk1] at h4
      simp only [Option.some.injEq, JBuf.mk.injEq] at h4
      obtain ⟨-, -, rfl, -⟩ := h4
      exact ⟨rows', rfl, hlr, hperm⟩

/-! ## Examples -/

/-- Bytes; one resource, and a host accessible resource for the jagged buffers with even numbers. -/
def demoJagCfg : JagCfg :=
  { vec := demoCfg, ty := fun _ => ⟨1, 1⟩, res := fun _ => 0, host := fun k => if k % 2 = 0 then some 1 else none,
    dflt := fun _ => [0] }

theorem demoJagCfg_wf : demoJagCfg.Wf := ⟨demoCfg_wf, fun _ => ⟨⟨Nat.zero_lt_one, ⟨0, rfl⟩, Nat.dvd_refl 1⟩, rfl⟩⟩

/-- A program: four bytes are copied to a vector buffer; a kernel with a thread for each of them appends the double of each to
one of two rows, depending on its parity; the rows are copied to host vectors. -/
def demoJagProgram (sched : List Nat) : List JagOp :=
  [.vec (.create 0 4 false), .vec (.upload 100 [[1], [2], [3], [5]] 0), .create 0 [3, 4] true, .setup 0,
    .kernel [0] [] 0 (binKernel (fun e => (e.getD 0 0).toNat % 2) fun e => [2 * e.getD 0 0]) sched, .download 0 [200, 210],
    .vec (.destroy 0)]

/-- The elements in the first host vectors of a program. -/
def lastRows : List (Res JagOut) → List (List Elem)
  | [] => []
  | .ok (.rows l) :: _ => l
  | _ :: rs => lastRows rs

example : lastRows (jagRun demoJagCfg (fun _ => demoBase) ⟨⟨demoInit, fun _ => 7, []⟩, []⟩ (demoJagProgram [0, 1, 2])).1 =
      [[[4]], [[2], [6], [10]]] ∧
    lastRows (jagRun demoJagCfg (fun _ => demoBase) ⟨⟨demoInit, fun _ => 7, []⟩, []⟩ (demoJagProgram [3, 2, 2, 0, 2, 3])).1 =
      [[[4]], [[10], [6], [2]]] := by
  decide +kernel

set_option maxRecDepth 20000 in
/-- The hypotheses of `c62_runs_partial` are met by this program. -/
example : FamLawful 64 64 (fun _ : Nat => demoBase) demoInit ∧ demoJagCfg.Wf ∧
    jagFits demoJagCfg 64 (fun _ => demoBase) ⟨⟨demoInit, fun _ => 7, []⟩, []⟩ ⟨fun _ => false, fun _ => false⟩
      (demoJagProgram [3, 2, 2, 0, 2, 3]) := by
  refine ⟨.same (demo_lawful 64), demoJagCfg_wf, ⟨rfl, by decide, ⟨by decide, by decide, 4, rfl⟩⟩,
    ⟨by decide, fun _ => ⟨by decide, by decide⟩, ?_, by decide, 4, false, [[7], [7], [7], [7]], by rfl⟩,
    ⟨rfl, by decide, ⟨by decide, by decide, 4, rfl⟩, ⟨by decide, by decide, 4, rfl⟩⟩, ⟨_, rfl⟩,
    ⟨by decide, [[[1], [2], [3], [5]]], [], [3, 4], [[], []], ⟨⟨4, false, by rfl⟩, trivial⟩, trivial, by rfl, ?_, ?_⟩,
    ⟨[3, 4], true, true, [[[4]], [[10], [6], [2]]], by rfl, rfl, ?_, ?_⟩, ⟨_, rfl⟩, trivial⟩
  · unfold JPipe.Outside Pipe.Outside
    decide +kernel
  · intro pr hpr x hx
    obtain ⟨e, he, rfl⟩ := List.mem_map.1 hpr
    simp only [List.headD_cons, List.mem_cons, List.not_mem_nil, or_false] at he
    rcases he with rfl | rfl | rfl | rfl <;> simp at hx <;> subst hx
    all_goals exact ⟨[], by decide, rfl, rfl⟩
  · intro i l cap h1 h2
    match i, h1, h2 with
    | 0, h1, h2 => cases h1; cases h2; decide
    | 1, h1, h2 => cases h1; cases h2; decide
  · intro i a l h1 h2
    match i, h1, h2 with
    | 0, h1, h2 =>
      cases h1; cases h2
      exact ⟨by unfold JPipe.Outside Pipe.Outside; decide +kernel, by decide⟩
    | 1, h1, h2 =>
      cases h1; cases h2
      exact ⟨by unfold JPipe.Outside Pipe.Outside; decide +kernel, by decide⟩
  · intro i j a b l l' hij h1 h2 h3 h4
    match i, j, h1, h2, h3, h4 with
    | 0, 1, h1, h2, h3, h4 => cases h1; cases h2; cases h3; cases h4; decide
    | 1, 1, _, _, _, _ => omega

end Props
end Vecmem
