import Verif.Lemmas.PipelineSteps

/-!
# C59: programs with buffers, copies and kernels

Vocabulary: `Verif/Spec/Pipeline.lean` (`PipeStep`: what steps do to lists of elements; `PipeOp.Fits`: what a user may do).
-/

namespace Vecmem
namespace Props

variable {σ : Type} {R : Limits} {G : Nat} {ups : Nat → MR σ} {u0 : σ} {c : PipeCfg} {p : Pipe σ} {ready : Nat → Bool}

theorem pipe_step {T : List (Nat × Blk)} (hl : FamLawful R G ups u0) (hc : c.Wf) (h : PipeInv c R ups u0 T p ready) {op : PipeOp}
    (hf : op.Fits c R (p.Free T) (p.store c ready)) : StepOk c R ups u0 T p ready op := by
  cases op with
  | create => exact step_create hl hc h hf
  | destroy => exact step_destroy hl h hf
  | setup => exact step_setup hl h hf
  | memset => exact step_memset hl h hf
  | copy => exact step_copy hl h hf
  | upload => exact step_upload hl h hf
  | download => exact step_download h hf
  | kernel => exact step_kernel hl hc h hf
  | single => exact step_single hl hc h hf

theorem pipe_free {op : PipeOp} (hf : op.Fits c R p.Outside (p.store c ready)) : op.Fits c R (p.Free []) (p.store c ready) := by
  have : p.Free [] = p.Outside := by
    funext a n
    simp [Pipe.Free]
  rwa [this]

theorem pipe_inv (hl : FamLawful R G ups u0) (hc : c.Wf) (h : PipeReach c R ups u0 p ready) : PipeInv c R ups u0 [] p ready := by
  induction h with
  | init m => exact ⟨.init, List.nodup_nil, by simp, by simp, by simp⟩
  | step _ hf ih => exact (pipe_step hl hc ih (pipe_free hf)).1

/-- **C59**: whatever a program has done with any number of buffers (of any element types, in any resources that are
well-behaved together), with copies between them and from and to host vectors, and with kernels under any schedules: the
next step does to the elements in memory, and returns, what it may do and return according to `PipeStep`, which speaks about
lists of elements only.

Missing: a copy of an empty vector into a resizable vector does not make the latter empty, as an assignment of lists would
(`copied`, `c59_empty_copy`). -/
theorem c59_pipelines_partial (hl : FamLawful R G ups u0) (hc : c.Wf) (h : PipeReach c R ups u0 p ready) (op : PipeOp)
    (hf : op.Fits c R p.Outside (p.store c ready)) :
    PipeStep c (p.store c ready) op (p.exec c ups op).1 ((p.exec c ups op).2.store c (op.ready ready)) :=
  (pipe_step hl hc (pipe_inv hl hc h) (pipe_free hf)).2.1

/-- **C59**, what is missing: a copy of an empty vector into a vector that has elements leaves these in place, and all else
too, in whatever state it is made. -/
theorem c59_empty_copy (hl : FamLawful R G ups u0) (hc : c.Wf) (h : PipeReach c R ups u0 p ready) {i j cap cap' : Nat} {r r' : Bool}
    {l : List Elem} (hij : i ≠ j) (hty : (c.ty i).size = (c.ty j).size) (hi : (p.store c ready).Has i cap r [])
    (hj : (p.store c ready).Has j cap' r' l) :
    (p.exec c ups (.copy i j)).1 = .ok .unit ∧ (p.exec c ups (.copy i j)).2.store c ready = p.store c ready := by
  have := c59_pipelines_partial hl hc h (.copy i j) ⟨hij, hty, cap, r, [], cap', r', l, hi, hj⟩
  exact this.copy_empty hi hj

/-- **C59**, memory: at any point of any program, the memory in use is exactly what the existing buffers own; so it is
all given back when none is left. -/
theorem c59_memory (hl : FamLawful R G ups u0) (hc : c.Wf) (h : PipeReach c R ups u0 p ready) :
    FReach R ups u0 p.res (p.owned c) ∧ (p.bufs = [] → FReach R ups u0 p.res []) := by
  have := (pipe_inv hl hc h).reach
  rw [List.append_nil] at this
  refine ⟨this, fun h0 => ?_⟩
  unfold Pipe.owned at this
  rw [h0] at this
  exact this

/-- The order in which a kernel's threads are scheduled may be any: a schedule that lets all threads finish is what the
kernel does, and nothing is left to do. -/
theorem c59_schedules {α : Type} (s : DV α) (progs : List (List (ACall α))) (sched : List Nat)
    (h : ((Conc.start s progs).run sched).Finished) : Conc.kernel s progs sched = (Conc.start s progs).run sched := by
  unfold Conc.kernel
  rw [Conc.run_append, Conc.run_finished h]

/-! ## Runs -/

/-- Run a program. -/
def pipeRun (c : PipeCfg) (ups : Nat → MR σ) (p : Pipe σ) : List PipeOp → List (Res PipeOut) × Pipe σ
  | [] => ([], p)
  | op :: ops => let r := p.exec c ups op; let rs := pipeRun c ups r.2 ops; (r.1 :: rs.1, rs.2)

/-- Which buffers are set up after a program. -/
def readyAfter (ready : Nat → Bool) : List PipeOp → Nat → Bool
  | [] => ready
  | op :: ops => readyAfter (op.ready ready) ops

/-- Every step of the program may be made when it is made. -/
def pipeFits (c : PipeCfg) (R : Limits) (ups : Nat → MR σ) (p : Pipe σ) (ready : Nat → Bool) : List PipeOp → Prop
  | [] => True
  | op :: ops => op.Fits c R p.Outside (p.store c ready) ∧ pipeFits c R ups (p.exec c ups op).2 (op.ready ready) ops

/-- A run of a program on lists. -/
inductive PipeRun (c : PipeCfg) : Store → List PipeOp → List (Res PipeOut) → Store → Prop
  | nil (S) : PipeRun c S [] [] S
  | cons {S op r S' ops rs S''} (h : PipeStep c S op r S') (hs : PipeRun c S' ops rs S'') : PipeRun c S (op :: ops) (r :: rs) S''

/-- **C59**, whole programs: started without buffers and with any contents of memory, a program returns what it may
return according to the lists, the buffers then hold the lists, and the memory in use is what they own. -/
theorem c59_runs_partial (hl : FamLawful R G ups u0) (hc : c.Wf) (m : Mem) (ops : List PipeOp)
    (hf : pipeFits c R ups ⟨u0, m, []⟩ (fun _ => false) ops) :
    PipeRun c (fun _ => none) ops (pipeRun c ups ⟨u0, m, []⟩ ops).1
      ((pipeRun c ups ⟨u0, m, []⟩ ops).2.store c (readyAfter (fun _ => false) ops)) ∧
    FReach R ups u0 (pipeRun c ups ⟨u0, m, []⟩ ops).2.res ((pipeRun c ups ⟨u0, m, []⟩ ops).2.owned c) := by
  have key : ∀ (ops : List PipeOp) (p : Pipe σ) (ready : Nat → Bool), PipeInv c R ups u0 [] p ready → pipeFits c R ups p ready ops →
      PipeRun c (p.store c ready) ops (pipeRun c ups p ops).1 ((pipeRun c ups p ops).2.store c (readyAfter ready ops)) ∧
      FReach R ups u0 (pipeRun c ups p ops).2.res ((pipeRun c ups p ops).2.owned c) := by
    intro ops
    induction ops with
    | nil => exact fun p ready h _ => ⟨.nil _, by simpa [pipeRun] using h.reach⟩
    | cons op ops ih =>
      intro p ready h hf
      obtain ⟨h1, h2, -⟩ := pipe_step hl hc h (pipe_free hf.1)
      obtain ⟨h3, h4⟩ := ih _ _ h1 hf.2
      exact ⟨.cons h2 h3, h4⟩
  exact key ops _ _ (pipe_inv hl hc (.init m)) hf

/-! ## A parallel filter -/

/-- The value of a `push_back`. -/
def pushed : ACall Elem → Elem
  | .push (.val v) => v
  | _ => []

theorem vecRun_pushed {d : Elem} {cap : Nat} {order : List (Nat × ACall Elem × Nat)} : ∀ {l l' : List Elem} {rs},
    (∀ x ∈ order, ∃ v, x.2.1 = .push (.val v)) → VecRun d cap l (order.map (·.2.1.toOp)) rs l' →
    l' = l ++ order.map fun x => pushed x.2.1 := by
  induction order with
  | nil =>
    intro l l' rs _ h
    cases h
    simp
  | cons x order ih =>
    intro l l' rs hx h
    obtain ⟨v, hv⟩ := hx x List.mem_cons_self
    rw [List.map_cons] at h
    rw [hv] at h
    cases h with
    | cons h1 h2 =>
      cases h1 with
      | push hv' =>
        cases Option.some.inj hv'
        rw [ih (fun y hy => hx y (List.mem_cons_of_mem _ hy)) h2, List.map_cons, hv, List.append_assoc]
        rfl

theorem filter_lt_succ {β : Type} (key : β → Nat) (n : Nat) (l : List β) :
    (l.filter fun x => key x < n + 1).Perm ((l.filter fun x => key x < n) ++ l.filter fun x => key x = n) := by
  induction l with
  | nil => exact .nil
  | cons x l ih =>
    rcases Nat.lt_trichotomy (key x) n with h | h | h
    · simpa [List.filter_cons, h, Nat.lt_succ_of_lt h, Nat.ne_of_lt h] using ih
    · simp only [List.filter_cons, h, Nat.lt_irrefl, Nat.lt_succ_self, decide_true, decide_false, if_true, Bool.false_eq_true, if_false]
      exact (ih.cons x).trans List.perm_middle.symm
    · simpa [List.filter_cons, Nat.not_lt.2 h, Nat.not_lt.2 (Nat.le_of_lt h), Nat.ne_of_gt h] using ih

theorem perm_byKey {β : Type} (key : β → Nat) (l : List β) (n : Nat) :
    (l.filter fun x => key x < n).Perm ((List.range n).flatMap fun i => l.filter fun x => key x = i) := by
  induction n with
  | zero => simp
  | succ n ih =>
    rw [List.range_succ, List.flatMap_append]
    refine (filter_lt_succ key n l).trans ?_
    simpa using ih.append_right _

/-- The kernel of the example: a thread for each element of the input, which appends a value to the output if the element
satisfies a condition. -/
def filterKernel (q : Elem → Bool) (g : Elem → Elem) (ls : List (List Elem)) : List (List (ACall Elem)) :=
  (ls.headD []).map fun e => if q e then [.push (.val (g e))] else []

theorem filterKernel_count (q : Elem → Bool) (g : Elem → Elem) (xs : List Elem) :
    totalCount (filterKernel q g [xs]) = (xs.filter q).length := by
  unfold totalCount filterKernel
  simp only [List.headD_cons, List.map_map]
  induction xs with
  | nil => rfl
  | cons x xs ih =>
    rw [List.map_cons, List.sum_cons, ih, List.filter_cons]
    cases hq : q x with
    | false => simp [hq]
    | true => simp [hq, ACall.count]; omega

theorem filterKernel_values (q : Elem → Bool) (g : Elem → Elem) (xs : List Elem) :
    (filterKernel q g [xs]).flatMap (·.map pushed) = (xs.filter q).map g := by
  unfold filterKernel
  simp only [List.headD_cons]
  induction xs with
  | nil => rfl
  | cons x xs ih =>
    rw [List.map_cons, List.flatMap_cons, ih, List.filter_cons]
    cases q x <;> simp [pushed]

theorem flatMap_getD {β γ : Type} (f : List β → List γ) (L : List (List β)) :
    ((List.range L.length).flatMap fun i => f (L.getD i [])) = L.flatMap f := by
  induction L with
  | nil => rfl
  | cons x L ih =>
    rw [List.length_cons, List.range_succ_eq_map, List.flatMap_cons, List.flatMap_cons, List.flatMap_map, ← ih]
    rfl

/-- **C59**, end to end: in any state of any program, a kernel with a thread for each element of one buffer appends, under any
schedule, a value for each element that satisfies a condition to an empty resizable buffer, whose capacity is large enough.
The host vector that this buffer is then copied to holds exactly these values, in some order. -/
theorem c59_parallel_filter (hl : FamLawful R G ups u0) (hc : c.Wf) (h : PipeReach c R ups u0 p ready) (i k : Nat) (hik : k ≠ i)
    (xs : List Elem) (hi : ∃ cap r, (p.store c ready).Has i cap r xs) (cap : Nat) (hk : (p.store c ready).Has k cap true [])
    (q : Elem → Bool) (g : Elem → Elem) (hg : ∀ e ∈ xs, (g e).length = (c.ty k).size) (hroom : (xs.filter q).length ≤ cap)
    (sched : List Nat) (at_ : Nat) (hout : p.Outside at_ ((xs.filter q).length * (c.ty k).size)) :
    (∃ out, (p.exec c ups (.kernel [i] k (filterKernel q g) sched)).1 = .ok out) ∧
    ∃ l, ((p.exec c ups (.kernel [i] k (filterKernel q g) sched)).2.exec c ups (.download k at_)).1 = .ok (.vals l) ∧
      l.Perm ((xs.filter q).map g) := by
  obtain ⟨capi, ri, hi⟩ := hi
  have hall : (p.store c ready).HasAll [i] [xs] := ⟨⟨capi, ri, hi⟩, trivial⟩
  have hinv := pipe_inv hl hc h
  have hpush : ∀ pr ∈ filterKernel q g [xs], ∀ x ∈ pr, ∃ e ∈ xs, x = .push (.val (g e)) := by
    intro pr hpr x hx
    obtain ⟨e, he, rfl⟩ := List.mem_map.1 hpr
    cases hq : q e with
    | false => rw [hq] at hx; cases hx
    | true =>
      rw [hq] at hx
      exact ⟨e, he, by simpa using hx⟩
  obtain ⟨h1, h2, -⟩ := pipe_step hl hc hinv (op := .kernel [i] k (filterKernel q g) sched)
    ⟨by simpa using hik, [xs], cap, [], hall, hk, by rw [filterKernel_count]; simpa using hroom, fun pr hpr x hx => by
      obtain ⟨e, he, rfl⟩ := hpush pr hpr x hx
      exact ⟨rfl, hg e he⟩⟩
  rw [show (PipeOp.kernel [i] k (filterKernel q g) sched).ready ready = ready from rfl] at h1 h2
  have hbufs : (p.exec c ups (.kernel [i] k (filterKernel q g) sched)).2.bufs = p.bufs := by
    simp only [Pipe.exec]
    split
    · rfl
    · split <;> rfl
  have hout' : (p.exec c ups (.kernel [i] k (filterKernel q g) sched)).2.Outside at_ ((xs.filter q).length * (c.ty k).size) := by
    unfold Pipe.Outside
    rw [hbufs]
    exact hout
  generalize hp1 : (p.exec c ups (.kernel [i] k (filterKernel q g) sched)).2 = p1 at h1 h2 hout' ⊢
  generalize (p.exec c ups (.kernel [i] k (filterKernel q g) sched)).1 = out at h2 ⊢
  generalize hS : p1.store c ready = S1 at h2
  cases h2 with
  | @kernel _ _ _ _ ls cap' l0 hi' hk' order results l' ho hp hr =>
    obtain rfl : ls = [xs] := by
      match ls, hi' with
      | [l], hi' =>
        obtain ⟨⟨_, _, h3⟩, -⟩ := hi'
        unfold Store.Has at h3 hi
        rw [hi] at h3
        simp only [Option.some.injEq, VBuf.mk.injEq] at h3
        rw [h3.2.2]
    unfold Store.Has at hk hk'
    rw [hk] at hk'
    simp only [Option.some.injEq, VBuf.mk.injEq] at hk'
    obtain ⟨rfl, -, rfl⟩ := hk'
    have hlen : results.length = (filterKernel q g [xs]).length := by rw [← hp, List.length_map]
    have hkey : ∀ x ∈ order, x.1 < results.length ∧ x.2.1 ∈ (filterKernel q g [xs]).getD x.1 [] := by
      intro x hx
      have h3 := ho x.1
      have h4 : x.2 ∈ results.getD x.1 [] := by
        rw [← h3]
        exact List.mem_map.2 ⟨x, List.mem_filter.2 ⟨hx, by simp⟩, rfl⟩
      have hlt : x.1 < results.length := by
        by_contra hcon
        rw [List.getD_eq_getElem?_getD, List.getElem?_eq_none (by omega)] at h4
        cases h4
      refine ⟨hlt, ?_⟩
      rw [← hp]
      rw [List.getD_eq_getElem?_getD, List.getElem?_eq_getElem hlt] at h4
      rw [List.getD_eq_getElem?_getD, List.getElem?_map, List.getElem?_eq_getElem hlt]
      exact List.mem_map.2 ⟨x.2, h4, rfl⟩
    have hval : ∀ x ∈ order, ∃ v, x.2.1 = .push (.val v) := by
      intro x hx
      obtain ⟨h3, h4⟩ := hkey x hx
      rw [List.getD_eq_getElem?_getD, List.getElem?_eq_getElem (hlen ▸ h3)] at h4
      obtain ⟨e, -, he⟩ := hpush _ (List.getElem_mem _) _ h4
      exact ⟨g e, he⟩
    have hl' := vecRun_pushed hval hr
    rw [List.nil_append] at hl'
    have hperm : l'.Perm ((xs.filter q).map g) := by
      rw [hl', ← filterKernel_values]
      have h3 := perm_byKey (fun x : Nat × ACall Elem × Nat => x.1) order results.length
      rw [List.filter_eq_self.2 fun x hx => by simpa using (hkey x hx).1] at h3
      refine (h3.map _).trans (List.Perm.of_eq ?_)
      rw [List.map_flatMap, ← flatMap_getD, ← hlen, List.flatMap_def, List.flatMap_def]
      congr 1
      apply List.map_congr_left
      intro j _
      have h4 : (filterKernel q g [xs]).getD j [] = (results.getD j []).map (·.1) := by
        rw [← hp]
        simp only [List.getD_eq_getElem?_getD, List.getElem?_map]
        cases results[j]? <;> rfl
      rw [h4, ← ho j, List.map_map, List.map_map]
      rfl
    refine ⟨⟨_, rfl⟩, ?_⟩
    have hk1 : (p1.store c ready).Has k cap true l' := by
      unfold Store.Has
      rw [hS]
      simp [Store.put]
    obtain ⟨-, h3, -⟩ := pipe_step hl hc h1 (op := .download k at_)
      ⟨cap, true, l', hk1, by rw [hperm.length_eq, List.length_map]; exact ⟨hout', by simp⟩⟩
    generalize (p1.exec c ups (.download k at_)).1 = o2 at h3 ⊢
    generalize (p1.exec c ups (.download k at_)).2.store c _ = S2 at h3
    cases h3 with
    | @download _ _ _ _ l2 h4 =>
      unfold Store.Has at h4 hk1
      rw [hk1] at h4
      simp only [Option.some.injEq, VBuf.mk.injEq] at h4
      obtain ⟨-, -, rfl⟩ := h4
      exact ⟨l', rfl, hperm⟩

/-! ## Examples -/

/-- Bytes; one resource; assertions are enabled. -/
def demoCfg : PipeCfg := { ty := fun _ => ⟨1, 1⟩, res := fun _ => 0, dflt := fun _ => [0], dbg := true }

theorem demoCfg_wf : demoCfg.Wf := fun _ => ⟨⟨Nat.zero_lt_one, ⟨0, rfl⟩, Nat.dvd_refl 1⟩, rfl⟩

/-- A program: three bytes are copied to a buffer; a kernel with three threads appends the double of each odd one to a
resizable buffer; this is copied to a host vector. -/
def demoProgram (sched : List Nat) : List PipeOp :=
  [.create 0 3 false, .upload 100 [[1], [2], [3]] 0, .create 1 5 true, .setup 1,
    .kernel [0] 1 (filterKernel (fun e => (e.getD 0 0).toNat % 2 = 1) fun e => [2 * e.getD 0 0]) sched, .download 1 200, .destroy 0]

/-- The elements in the last host vector of a program. -/
def lastVals : List (Res PipeOut) → List Elem
  | [] => []
  | .ok (.vals l) :: _ => l
  | _ :: rs => lastVals rs

example : lastVals (pipeRun demoCfg (fun _ => demoBase) ⟨demoInit, fun _ => 7, []⟩ (demoProgram [0, 1, 2])).1 = [[2], [6]] ∧
    lastVals (pipeRun demoCfg (fun _ => demoBase) ⟨demoInit, fun _ => 7, []⟩ (demoProgram [1, 2, 2, 0, 2])).1 = [[6], [2]] := by
  decide +kernel

/-- The hypotheses of `c59_runs_partial` are met by this program. -/
example : FamLawful 64 64 (fun _ : Nat => demoBase) demoInit ∧ demoCfg.Wf ∧
    pipeFits demoCfg 64 (fun _ => demoBase) ⟨demoInit, fun _ => 7, []⟩ (fun _ => false) (demoProgram [1, 2, 2, 0, 2]) := by
  refine ⟨.same (demo_lawful 64), demoCfg_wf, ⟨rfl, by decide, ⟨by decide, by decide, 4, rfl⟩⟩,
    ⟨by decide, fun _ => ⟨by decide, by decide⟩, ?_, by decide, 3, false, [[7], [7], [7]], by rfl⟩,
    ⟨rfl, by decide, ⟨by decide, by decide, 4, rfl⟩⟩, ⟨_, rfl⟩,
    ⟨by decide, [[[1], [2], [3]]], 5, [], ⟨⟨3, false, by rfl⟩, trivial⟩, by rfl, by decide, ?_⟩,
    ⟨5, true, [[6], [2]], by rfl, ?_⟩, ⟨_, rfl⟩, trivial⟩
  · unfold Pipe.Outside
    decide +kernel
  · intro pr hpr x hx
    obtain ⟨e, he, rfl⟩ := List.mem_map.1 hpr
    simp only [List.headD_cons, List.mem_cons, List.not_mem_nil, or_false] at he
    rcases he with rfl | rfl | rfl <;> simp at hx
    all_goals (subst hx; exact ⟨rfl, rfl⟩)
  · unfold Pipe.Outside
    decide +kernel

end Props
end Vecmem
