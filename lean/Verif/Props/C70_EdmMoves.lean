import Verif.Lemmas.EdmMoves
import Verif.Props.C68_BufferMoves

/-!
# C70: moving container buffers

Vocabulary: `Verif/Spec/EdmMoves.lean` (`EdmVarStep`: what steps do to what is in variables; `EdmVarOp.Fits`: what a user may do).
-/

namespace Vecmem
namespace Props

variable {σ : Type} {R : Limits} {G : Nat} {ups : Nat → MR σ} {u0 : σ} {c : EdmVarCfg} {s : EdmVars σ} {q : EReady}

theorem edm_var_step (hl : FamLawful R G ups u0) (hc : c.Wf) (h : EdmVInv c R G ups u0 s q) {op : EdmVarOp}
    (hf : op.Fits c R G s.Outside (s.store c q)) : EdmVStepOk c R G ups u0 s q op := by
  cases op with
  | use => exact evstep_use hl hc h hf
  | empty => exact evstep_empty h hf
  | create => exact evstep_create hl hc h hf
  | move => exact evstep_move h hf
  | assign => exact evstep_assign hl h hf
  | destroy => exact evstep_destroy hl h hf

theorem edm_var_inv (hl : FamLawful R G ups u0) (hc : c.Wf) (h : EdmVarReach c R G ups u0 s q) : EdmVInv c R G ups u0 s q := by
  induction h with
  | init m => exact ⟨.init, List.nodup_nil, by simp, by simp, by simp⟩
  | step _ hf ih => exact (edm_var_step hl hc ih hf).1

/-- **C70**: whatever a program has done with any number of variables for container buffers, of any schemas, made with any resources,
default-constructed, moved from, moved to and used as in C65: the next step does to what is in the variables, and returns, what
it may do and return according to `EdmVarStep`.  In particular, a move takes the table from one variable to the other, whatever this
one held before, and leaves everything else as it is; and a variable that has been moved from, or was default-constructed, may be
destroyed, assigned to, and moved from.

Missing: what C65 leaves out; uses of a variable that has been moved from or was default-constructed (`c70_moved_view`, `c70_dangling`,
`c70_indeterminate`). -/
theorem c70_moves_partial (hl : FamLawful R G ups u0) (hc : c.Wf) (h : EdmVarReach c R G ups u0 s q) (op : EdmVarOp)
    (hf : op.Fits c R G s.Outside (s.store c q)) :
    EdmVarStep c (s.store c q) op (s.exec c ups op).1 ((s.exec c ups op).2.store c (op.ready q)) :=
  (edm_var_step hl hc (edm_var_inv hl hc h) hf).2

/-- **C70**, memory: at any point of any program, the memory in use is exactly what the variables own, each block to be given back to the
resource that it is from; no block is owned twice; and it all has been given back when no variable holds a buffer. -/
theorem c70_memory (hl : FamLawful R G ups u0) (hc : c.Wf) (h : EdmVarReach c R G ups u0 s q) :
    FReach R ups u0 s.res s.owned ∧ s.owned.Pairwise (fun e f => e.2.Disjoint f.2) ∧
    ((∀ x, (s.store c q).bufs x = none) → s.owned = []) := by
  have hi := edm_var_inv hl hc h
  refine ⟨hi.reach, (hl.live hi.reach).2, fun h1 => ?_⟩
  rw [EdmVars.owned, List.flatMap_eq_nil_iff]
  intro e he
  have := h1 e.1
  rw [store_bufsE, lookup_of_mem hi.nodup (k := e.1) (b := e.2) he] at this
  simp only [Option.bind_some, EdmVar.val] at this
  by_cases h0 : e.2.mem.mem.ptr = 0
  · simp [EdmVar.owners, Owner.blocks, h0, hi.dead e he h0]
  · rw [if_neg h0] at this; cases this

/-- **C70**, nothing moves in memory: moving a buffer to a new variable neither allocates nor gives back memory, nor does it change a
byte; the new variable describes the memory that the old one described, so that pointers and views to it stay valid. -/
theorem c70_in_place (x y : Nat) (v : EdmVar) (hv : s.vars.lookup y = some v) :
    (s.exec c ups (.move x y)).2.res = s.res ∧ (s.exec c ups (.move x y)).2.mem = s.mem ∧
    (s.exec c ups (.move x y)).2.vars.lookup x = some v ∧
    ∀ i, i ≠ x → i ≠ y → (s.exec c ups (.move x y)).2.vars.lookup i = s.vars.lookup i := by
  simp only [EdmVars.exec, hv, lookup_putVar, if_true, true_and]
  intro i h1 h2
  rw [if_neg h1, if_neg h2]

/-- **C70**, assignment: what the variable held before the assignment is given back, and nothing else; no byte is written; and the variable
describes the memory that the other one described. -/
theorem c70_assign (hl : FamLawful R G ups u0) (hc : c.Wf) (h : EdmVarReach c R G ups u0 s q) (x y : Nat) (hxy : x ≠ y) (w v : EdmVar)
    (hw : s.vars.lookup x = some w) (hv : s.vars.lookup y = some v) :
    s.owned.Perm (w.owners.flatMap Owner.blocks ++ (s.exec c ups (.assign x y)).2.owned) ∧
    (s.exec c ups (.assign x y)).2.mem = s.mem ∧ (s.exec c ups (.assign x y)).2.vars.lookup x = some v := by
  have hi := edm_var_inv hl hc h
  simp only [EdmVars.exec, hw, hv, if_neg hxy, lookup_putVar, if_true, and_true]
  simp only [EdmVars.owned]
  have hp := (perm_two hi.nodup hw hv hxy).flatMap_right fun e => e.2.owners.flatMap Owner.blocks
  simp only [putVar_two s.vars hxy, List.flatMap_cons] at hp ⊢
  rw [EdmVar.moved_blocks, List.nil_append]
  exact hp

/-- Run a program. -/
def edmVarRun (c : EdmVarCfg) (ups : Nat → MR σ) (s : EdmVars σ) : List EdmVarOp → List (Res EdmOut) × EdmVars σ
  | [] => ([], s)
  | op :: ops => let r := s.exec c ups op; let rs := edmVarRun c ups r.2 ops; (r.1 :: rs.1, rs.2)

/-- Which buffers are set up after a program. -/
def edmVarReadyAfter (q : EReady) : List EdmVarOp → EReady
  | [] => q
  | op :: ops => edmVarReadyAfter (op.ready q) ops

/-- Every step of the program may be made when it is made. -/
def edmVarFits (c : EdmVarCfg) (R : Limits) (G : Nat) (ups : Nat → MR σ) (s : EdmVars σ) (q : EReady) : List EdmVarOp → Prop
  | [] => True
  | op :: ops => op.Fits c R G s.Outside (s.store c q) ∧ edmVarFits c R G ups (s.exec c ups op).2 (op.ready q) ops

/-- A run of a program on tables. -/
inductive EdmVarProgramRun (c : EdmVarCfg) : EdmVarStore → List EdmVarOp → List (Res EdmOut) → EdmVarStore → Prop
  | nil (S) : EdmVarProgramRun c S [] [] S
  | cons {S op r S' ops rs S''} (h : EdmVarStep c S op r S') (hs : EdmVarProgramRun c S' ops rs S'') :
      EdmVarProgramRun c S (op :: ops) (r :: rs) S''

theorem edm_var_runs (hl : FamLawful R G ups u0) (hc : c.Wf) : ∀ (ops : List EdmVarOp) (s : EdmVars σ) (q : EReady),
    EdmVInv c R G ups u0 s q → edmVarFits c R G ups s q ops →
    EdmVarProgramRun c (s.store c q) ops (edmVarRun c ups s ops).1 ((edmVarRun c ups s ops).2.store c (edmVarReadyAfter q ops)) ∧
    FReach R ups u0 (edmVarRun c ups s ops).2.res (edmVarRun c ups s ops).2.owned := by
  intro ops
  induction ops with
  | nil => exact fun s q h _ => ⟨.nil _, h.reach⟩
  | cons op ops ih =>
    intro s q h hf
    obtain ⟨h1, h2⟩ := edm_var_step hl hc h hf.1
    obtain ⟨h3, h4⟩ := ih _ _ h1 hf.2
    exact ⟨.cons h2 h3, h4⟩

/-- **C70**, whole programs: started without variables and with any contents of memory, a program returns what it may return according
to the tables, the variables then hold the tables, and the memory in use is what they own. -/
theorem c70_runs_partial (hl : FamLawful R G ups u0) (hc : c.Wf) (m : Mem) (ops : List EdmVarOp)
    (hf : edmVarFits c R G ups ⟨u0, m, []⟩ ⟨fun _ => false, fun _ => false⟩ ops) :
    EdmVarProgramRun c ⟨fun _ => none, fun _ => false⟩ ops (edmVarRun c ups ⟨u0, m, []⟩ ops).1
      ((edmVarRun c ups ⟨u0, m, []⟩ ops).2.store c (edmVarReadyAfter ⟨fun _ => false, fun _ => false⟩ ops)) ∧
    FReach R ups u0 (edmVarRun c ups ⟨u0, m, []⟩ ops).2.res (edmVarRun c ups ⟨u0, m, []⟩ ops).2.owned :=
  edm_var_runs hl hc ops _ _ (edm_var_inv hl hc (.init m)) hf

/-! ## Swapping -/

/-- `std::swap(x, y)`, with the variable `t` for its local variable. -/
def swapEdms (t x y : Nat) : List EdmVarOp := [.move t x, .assign x y, .assign y t, .destroy t]

theorem edm_moved_null (v : EdmVar) : ∀ o ∈ v.moved.owners, o.mem.ptr = 0 := by
  intro o ho
  simp only [EdmVar.moved, EdmVar.owners, List.mem_cons, List.not_mem_nil, or_false] at ho
  rcases ho with rfl | rfl <;> rfl

/-- **C70**, `std::swap`: in every state, two variables of one type exchange their contents; every step succeeds, everything else is as
it was, and no memory is allocated, given back or written. -/
theorem c70_swap {t x y : Nat} (hxy : x ≠ y) (hx : (s.store c q).vars x = true) (hy : (s.store c q).vars y = true)
    (ht : (s.store c q).vars t = false) (h1 : c.schema x = c.schema y) :
    (edmVarRun c ups s (swapEdms t x y)).1 = [.ok .unit, .ok .unit, .ok .unit, .ok .unit] ∧
    (edmVarRun c ups s (swapEdms t x y)).2.store c (edmVarReadyAfter q (swapEdms t x y)) =
      ((s.store c q).put x ((s.store c q).bufs y)).put y ((s.store c q).bufs x) ∧
    (edmVarRun c ups s (swapEdms t x y)).2.res = s.res ∧ (edmVarRun c ups s (swapEdms t x y)).2.mem = s.mem := by
  obtain ⟨vx, hvx⟩ := exists_varE.1 hx
  obtain ⟨vy, hvy⟩ := exists_varE.1 hy
  have hvt := absent_varE.1 ht
  have htx : t ≠ x := by rintro rfl; rw [hvt] at hvx; cases hvx
  have hty : t ≠ y := by rintro rfl; rw [hvt] at hvy; cases hvy
  have hd : ∀ (v : EdmVar) (u : σ), Owner.destroyAll ups v.moved.owners u = (.ok (), u) := fun v u =>
    destroyAll_null ups _ u (edm_moved_null v)
  have hd' : ∀ (v : EdmVar) (u : σ), Owner.destroyAll ups v.moved.owners.reverse u = (.ok (), u) := fun v u =>
    destroyAll_null ups _ u fun o ho => edm_moved_null v o (List.mem_reverse.1 ho)
  have hrun : edmVarRun c ups s (swapEdms t x y) = ([.ok .unit, .ok .unit, .ok .unit, .ok .unit],
      { s with vars := (putVar (putVar (putVar (putVar (putVar (putVar s.vars x vx.moved) t vx) y vy.moved) x vy) t vx.moved) y vx).filter (fun e => e.1 != t) }) := by
    simp only [swapEdms, edmVarRun, EdmVars.exec, lookup_putVar, hvx, hvy, hvt, if_neg htx.symm, if_neg hty.symm, if_neg hxy, if_neg hxy.symm,
      if_neg htx, if_neg hty, if_true, hd, hd', Res.map]
  rw [hrun]
  refine ⟨rfl, ?_, rfl, rfl⟩
  refine EdmVarStore.ext_of (fun i => ?_) fun i => ?_
  · rw [store_bufsE]
    simp only [EdmVarStore.put, EStore.put, lookup_filter, lookup_putVar, swapEdms, edmVarReadyAfter, EdmVarOp.ready]
    by_cases i1 : i = y
    · subst i1
      simp only [if_neg hty.symm, if_neg hty, if_true, if_neg hxy.symm, store_bufsE, hvx, h1, if_neg htx, if_neg htx.symm]
    · by_cases i2 : i = x
      · subst i2
        simp only [if_neg htx.symm, if_neg htx, if_true, if_neg hxy, store_bufsE, hvy, h1, if_neg hty, if_neg hty.symm, if_neg i1]
      · by_cases i3 : i = t
        · subst i3
          simp only [if_true, if_neg i1, if_neg i2, store_bufsE, hvt, Option.bind_none]
        · simp only [if_neg i1, if_neg i2, if_neg i3, store_bufsE]
  · rw [store_varsE]
    simp only [EdmVarStore.put, lookup_filter, lookup_putVar, store_varsE]
    by_cases i1 : i = y
    · subst i1; simp [hty.symm]
    · by_cases i2 : i = x
      · subst i2; simp [htx.symm, hxy]
      · by_cases i3 : i = t
        · subst i3; simp [i1, i2, hvt]
        · simp [i1, i2, i3, beq_eq_false_iff_ne.2 i1, beq_eq_false_iff_ne.2 i2]

/-! ## What a variable that has been moved from looks like -/

/-- **C70** would be false of uses of a variable that has been moved from: it is not empty.  Its capacity, its pointers and what it says of
its payload and layouts are what they were. -/
theorem c70_moved_view (x y : Nat) (hxy : x ≠ y) (v : EdmVar) (hv : s.vars.lookup y = some v) :
    ∃ w, (s.exec c ups (.move x y)).2.vars.lookup y = some w ∧ w.view = v.view ∧ ∀ o ∈ w.owners, o.mem.ptr = 0 := by
  refine ⟨v.moved, ?_, rfl, edm_moved_null v⟩
  simp only [EdmVars.exec, hv, lookup_putVar, if_true, if_neg hxy.symm]

/-- **C70** would be false of uses of a default-constructed variable: it may have any capacity, and any pointers, as the constructor
does not initialise these. -/
theorem c70_indeterminate (x : Nat) (view : EdmView) : (EdmVarOp.empty x view).Fits c R G s.Outside ⟨fun _ => none, fun _ => false⟩ ∧
    ∃ w, (s.exec c ups (.empty x view)).2.vars.lookup x = some w ∧ w.view = view ∧ ∀ o ∈ w.owners, o.mem.ptr = 0 := by
  refine ⟨rfl, { view }, ?_, rfl, ?_⟩
  · simp only [EdmVars.exec, lookup_putVar, if_true]
  · intro o ho
    simp only [EdmVar.owners, List.mem_cons, List.not_mem_nil, or_false] at ho
    rcases ho with rfl | rfl <;> rfl

/-! ## Examples -/

/-- Containers with even numbers have two vectors and a scalar; those with odd numbers have a vector and a jagged vector. -/
def demoEdmVarCfg : EdmVarCfg := { schema := demoEdmCfg.schema, dflt := demoEdmCfg.dflt, align := 8, dbg := true }

theorem demoEdmVarCfg_wf : demoEdmVarCfg.Wf := demoEdmCfg_wf

/-- What might be in a default-constructed buffer. -/
def demoJunk : EdmView := ⟨3, [], ⟨0, 0, 0⟩, ⟨12, 0, 5000⟩, ⟨0, 0, 0⟩, ⟨0, 0, 0⟩⟩

/-- A program: a container is copied from the host to a buffer, which is moved to a new variable, and from there to a
default-constructed one; the other two are destroyed, and the container is copied to the host.  A buffer with a jagged vector is made in
one variable, moved to another, and only then set up; a kernel appends to its rows.  Everything is destroyed. -/
def demoEdmVarProgram (sched : List Nat) : List EdmVarOp :=
  [.create 0 0 none [0, 0, 0] false, .use (.upload [[100], [110], [120]] demoTable 0), .move 2 0, .destroy 0, .empty 4 demoJunk, .assign 4 2,
    .destroy 2, .use (.download 4 [[200], [210], [220]]), .create 1 0 (some 1) [2, 1] true, .move 3 1, .destroy 1, .use (.setup 3),
    .use (.rows [4] 3 1 (fun _ => [[(0, .push (.val [3]))], [(1, .push (.val [5])), (0, .push (.val [4]))]]) sched), .destroy 4, .destroy 3]

example : lastTable (edmVarRun demoEdmVarCfg (fun _ => demoBase) ⟨demoInit, fun _ => 7, []⟩ (demoEdmVarProgram [1, 0, 1])).1 = demoTable ∧
    (edmVarRun demoEdmVarCfg (fun _ => demoBase) ⟨demoInit, fun _ => 7, []⟩ (demoEdmVarProgram [1, 0, 1])).2.owned = [] := by
  decide +kernel

set_option maxRecDepth 20000 in
/-- The hypotheses of `c70_runs_partial` are met by this program. -/
example : FamLawful 64 64 (fun _ : Nat => demoBase) demoInit ∧ demoEdmVarCfg.Wf ∧
    edmVarFits demoEdmVarCfg 64 64 (fun _ => demoBase) ⟨demoInit, fun _ => 7, []⟩ ⟨fun _ => false, fun _ => false⟩
      (demoEdmVarProgram [1, 0, 1]) := by
  refine ⟨.same (demo_lawful 64), demoEdmVarCfg_wf,
    ⟨rfl, rfl, demoEdm_ok 0 [0, 0, 0] (by decide) (by decide) (by decide), ⟨by decide, by decide, 4, rfl⟩, by decide⟩,
    ⟨trivial, demoEdm_host (by decide) (by decide) rfl rfl ?_, ⟨3, rfl, by decide, ?_⟩, ⟨rfl, ?_⟩,
      [0, 0, 0], false, true, [[[[7], [7], [7]]], [[[7, 7], [7, 7], [7, 7]]], [[[7]]]], by unfold EStore.Has; decide +kernel⟩,
    ⟨by decide +kernel, by decide +kernel, rfl⟩, by unfold EdmVarOp.Fits; decide +kernel, by unfold EdmVarOp.Fits; decide +kernel,
    ⟨by decide +kernel, by decide +kernel, rfl⟩, by unfold EdmVarOp.Fits; decide +kernel,
    ⟨trivial, [0, 0, 0], false, true, demoTable, by unfold EStore.Has; decide +kernel, demoEdm_host (by decide) (by decide) rfl rfl ?_⟩,
    ⟨by decide +kernel, by show _ = none; decide +kernel, demoEdm_ok 1 [2, 1] (by decide) (by decide) (by decide),
      ⟨by decide, by decide, 4, rfl⟩, by decide⟩,
    ⟨by decide +kernel, by decide +kernel, rfl⟩, by unfold EdmVarOp.Fits; decide +kernel,
    ⟨trivial, ⟨[2, 1], true, none, false⟩, by decide +kernel, by decide⟩,
    ⟨trivial, by decide, [demoTable], [2, 1], [[[[7], [7]]], [[], []]], ⟨.jagged, ⟨1, 1⟩⟩, [[], []],
      ⟨⟨[0, 0, 0], false, by unfold EStore.Has; decide +kernel⟩, trivial⟩, by unfold EStore.Has; decide +kernel, rfl, rfl, rfl, ?_, ?_⟩,
    by unfold EdmVarOp.Fits; decide +kernel, by unfold EdmVarOp.Fits; decide +kernel, trivial⟩
  · unfold EdmVars.Outside
    decide +kernel
  · intro i v ns hv hns
    match i, hv, hns with
    | 0, hv, hns => cases hv; cases hns; exact ⟨by simp, fun _ => rfl, by simp⟩
    | 1, hv, hns => cases hv; cases hns; exact ⟨by simp, fun _ => rfl, by simp⟩
    | 2, hv, hns => cases hv; cases hns; exact ⟨fun _ => rfl, by simp, by simp⟩
  · intro i v rows hv hr
    match i, hv, hr with
    | 0, hv, hr => cases hv; cases hr; decide
    | 1, hv, hr => cases hv; cases hr; decide
    | 2, hv, hr => cases hv; cases hr; decide
  · unfold EdmVars.Outside
    decide +kernel
  · intro pr hpr x hx
    simp only [List.mem_cons, List.not_mem_nil, or_false] at hpr
    rcases hpr with rfl | rfl <;> simp only [List.mem_cons, List.not_mem_nil, or_false] at hx
    · subst hx
      exact ⟨[], rfl, rfl, rfl⟩
    · rcases hx with rfl | rfl <;> exact ⟨[], rfl, rfl, rfl⟩
  · intro i l cap h1 h2
    match i, h1, h2 with
    | 0, h1, h2 => cases h1; cases h2; decide
    | 1, h1, h2 => cases h1; cases h2; decide

/-- The hypotheses of `c70_swap` are met by a buffer and a default-constructed one. -/
example :
    let p : List EdmVarOp := [.create 0 0 none [0, 0] false, .use (.memset 0 5), .empty 2 demoJunk]
    let s := (edmVarRun demoEdmVarCfg (fun _ => demoBase) ⟨demoInit, fun _ => 7, []⟩ p).2
    let q := edmVarReadyAfter ⟨fun _ => false, fun _ => false⟩ p
    (s.store demoEdmVarCfg q).vars 0 = true ∧ (s.store demoEdmVarCfg q).vars 2 = true ∧ (s.store demoEdmVarCfg q).vars 4 = false ∧
    (s.store demoEdmVarCfg q).bufs 0 = some ⟨[0, 0], false, some [[[[5], [5]]], [[[5, 5], [5, 5]]], [[[5]]]], true⟩ ∧
    (s.store demoEdmVarCfg q).bufs 2 = none := by
  decide +kernel

/-- The program of `c70_dangling`: a buffer is made in variable 0 and moved to variable 2, which is then destroyed. -/
def edmDanglingProgram : List EdmVarOp := [.create 0 0 none [0, 0, 0] false, .move 2 0, .destroy 2]

/-- **C70** would be false of uses of a variable that has been moved from: this one still says that it has three elements, at addresses
that no variable owns memory at. -/
theorem c70_dangling :
    (edmVarRun demoEdmVarCfg (fun _ => demoBase) ⟨demoInit, fun _ => 7, []⟩ edmDanglingProgram).1 = [.ok .unit, .ok .unit, .ok .unit] ∧
    (edmVarRun demoEdmVarCfg (fun _ => demoBase) ⟨demoInit, fun _ => 7, []⟩ edmDanglingProgram).2.owned = [] ∧
    ((edmVarRun demoEdmVarCfg (fun _ => demoBase) ⟨demoInit, fun _ => 7, []⟩ edmDanglingProgram).2.vars.lookup 0).map
      (fun v => (v.view.capacity, v.view.payload.ptr)) = some (3, 4096) := by
  refine ⟨by rfl, by decide +kernel, by decide +kernel⟩

end Props
end Vecmem
