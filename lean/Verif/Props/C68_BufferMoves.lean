import Verif.Lemmas.BufferMovesJag

/-!
# C68: moving buffers

Vocabulary: `Verif/Spec/BufferMoves.lean` (`VarStep`: what steps do to what is in variables; `VarOp.Fits`: what a user may do).
-/

namespace Vecmem
namespace Props

variable {σ : Type} {R : Limits} {G : Nat} {ups : Nat → MR σ} {u0 : σ} {c : VarCfg} {s : Vars σ} {q : JReady}

theorem var_step (hl : FamLawful R G ups u0) (hc : c.Wf) (h : VInv c R ups u0 s q) {op : VarOp}
    (hf : op.Fits c R s.Outside (s.store c q)) : VStepOk c R ups u0 s q op := by
  cases op with
  | use => exact vstep_use hl hc h hf
  | vecEmpty => exact vstep_vecEmpty h hf
  | vecCreate => exact vstep_vecCreate hl hc h hf
  | vecMove => exact vstep_vecMove h hf
  | vecAssign => exact vstep_vecAssign hl h hf
  | vecDestroy => exact vstep_vecDestroy hl h hf
  | jagEmpty => exact vstep_jagEmpty h hf
  | jagCreate => exact vstep_jagCreate hl hc h hf
  | jagMove => exact vstep_jagMove h hf
  | jagAssign => exact vstep_jagAssign hl h hf
  | jagDestroy => exact vstep_jagDestroy hl h hf

theorem var_inv (hl : FamLawful R G ups u0) (hc : c.Wf) (h : VarReach c R ups u0 s q) : VInv c R ups u0 s q := by
  induction h with
  | init m => exact ⟨.init, List.nodup_nil, List.nodup_nil, by simp, by simp, by simp⟩
  | step _ hf ih => exact (var_step hl hc ih hf).1

/-- **C68**: whatever a program has done with any numbers of variables for vector buffers and jagged buffers, made with any
resources, default-constructed, moved from, moved to and used as in C62: the next step does to what is in the variables, and
returns, what it may do and return according to `VarStep`.  In particular, a move takes the elements or rows from one variable to the
other, whatever this one held before, and leaves everything else as it is; and a variable that has been moved from may be destroyed,
assigned to, and moved from again.

Missing: what C62 leaves out; uses of a variable that has been moved from (`c68_moved_view`, `c68_dangling`). -/
theorem c68_moves_partial (hl : FamLawful R G ups u0) (hc : c.Wf) (h : VarReach c R ups u0 s q) (op : VarOp)
    (hf : op.Fits c R s.Outside (s.store c q)) :
    VarStep c (s.store c q) op (s.exec c ups op).1 ((s.exec c ups op).2.store c (op.ready q)) :=
  (var_step hl hc (var_inv hl hc h) hf).2

/-- **C68**, memory: at any point of any program, the memory in use is exactly what the variables own, each block to be given back to the
resource that it is from; no block is owned twice; and it all has been given back when no variable holds a buffer. -/
theorem c68_memory (hl : FamLawful R G ups u0) (hc : c.Wf) (h : VarReach c R ups u0 s q) :
    FReach R ups u0 s.res s.owned ∧ s.owned.Pairwise (fun e f => e.2.Disjoint f.2) ∧
    ((∀ x, (s.store c q).bufs.vec x = none) → (∀ x, (s.store c q).bufs.jag x = none) → s.owned = []) := by
  have hi := var_inv hl hc h
  refine ⟨hi.reach, (hl.live hi.reach).2, fun h1 h2 => ?_⟩
  rw [owned_eq, List.append_eq_nil_iff, List.flatMap_eq_nil_iff, List.flatMap_eq_nil_iff]
  constructor
  · intro e he
    have := h1 e.1
    rw [store_vec, lookup_of_mem hi.vnodup (k := e.1) (b := e.2) he] at this
    simp only [Option.bind_some, VecVar.val] at this
    by_cases hh : e.2.holds = true
    · rw [if_pos hh] at this; cases this
    · simp only [VecVar.holds, Bool.or_eq_true, bne_iff_ne, ne_eq, not_or, Decidable.not_not] at hh
      simp [Owner.blocks, hh.2]
  · intro e he
    have := h2 e.1
    rw [store_jag, lookup_of_mem hi.jnodup (k := e.1) (b := e.2) he] at this
    simp only [Option.bind_some, JagVar.val] at this
    by_cases hh : e.2.holds = true
    · rw [if_pos hh] at this; cases this
    · simp only [JagVar.holds, Bool.or_eq_true, List.isEmpty_iff, bne_iff_ne, ne_eq, not_or, Decidable.not_not] at hh
      rw [List.flatMap_eq_nil_iff]
      intro o ho
      simp [Owner.blocks, (hi.side e he).none (.inr hh.2) o ho]

/-- **C68**, nothing moves in memory: moving a buffer to a new variable neither allocates nor gives back memory, nor does it change a
byte; the new variable describes the memory that the old one described, so that pointers and views to it stay valid. -/
theorem c68_in_place (x y : Nat) :
    (∀ v, s.vecs.lookup y = some v →
      (s.exec c ups (.vecMove x y)).2.res = s.res ∧ (s.exec c ups (.vecMove x y)).2.mem = s.mem ∧
      (s.exec c ups (.vecMove x y)).2.vecs.lookup x = some v ∧
      ∀ i, i ≠ x → i ≠ y → (s.exec c ups (.vecMove x y)).2.vecs.lookup i = s.vecs.lookup i) ∧
    (∀ v, s.jags.lookup y = some v →
      (s.exec c ups (.jagMove x y)).2.res = s.res ∧ (s.exec c ups (.jagMove x y)).2.mem = s.mem ∧
      (s.exec c ups (.jagMove x y)).2.jags.lookup x = some v ∧
      ∀ i, i ≠ x → i ≠ y → (s.exec c ups (.jagMove x y)).2.jags.lookup i = s.jags.lookup i) := by
  constructor
  · intro v hv
    simp only [Vars.exec, hv, lookup_putVar, if_true, true_and]
    intro i h1 h2
    rw [if_neg h1, if_neg h2]
  · intro v hv
    simp only [Vars.exec, hv, lookup_putVar, if_true, true_and]
    intro i h1 h2
    rw [if_neg h1, if_neg h2]

/-- **C68**, assignment: what the variable held before the assignment is given back, and nothing else. -/
theorem c68_assign (hl : FamLawful R G ups u0) (hc : c.Wf) (h : VarReach c R ups u0 s q) (x y : Nat) (hxy : x ≠ y) :
    (∀ w v, s.vecs.lookup x = some w → s.vecs.lookup y = some v → c.vecTy x = c.vecTy y →
      s.owned.Perm (w.own.blocks ++ (s.exec c ups (.vecAssign x y)).2.owned)) ∧
    (∀ w v, s.jags.lookup x = some w → s.jags.lookup y = some v → c.jagTy x = c.jagTy y →
      s.owned.Perm (w.owners.flatMap Owner.blocks ++ (s.exec c ups (.jagAssign x y)).2.owned)) := by
  have hi := var_inv hl hc h
  constructor
  · intro w v hw hv _
    simp only [Vars.exec, hw, hv, if_neg hxy]
    rw [owned_eq, owned_eq]
    have hp := (perm_two hi.vnodup hw hv hxy).flatMap_right fun e => e.2.own.blocks
    simp only [putVar_two s.vecs hxy, List.flatMap_cons] at hp ⊢
    rw [show v.moved.own.blocks = [] from Owner.moved_blocks _, List.nil_append, ← List.append_assoc]
    exact hp.append_right _
  · intro w v hw hv _
    simp only [Vars.exec, hw, hv, if_neg hxy]
    rw [owned_eq, owned_eq]
    have hp := (perm_two hi.jnodup hw hv hxy).flatMap_right fun e => e.2.owners.flatMap Owner.blocks
    simp only [putVar_two s.jags hxy, List.flatMap_cons] at hp ⊢
    rw [JagVar.moved_blocks, List.nil_append]
    refine (hp.append_left _).trans ?_
    exact List.perm_append_comm_assoc ..

/-- Run a program. -/
def varRun (c : VarCfg) (ups : Nat → MR σ) (s : Vars σ) : List VarOp → List (Res JagOut) × Vars σ
  | [] => ([], s)
  | op :: ops => let r := s.exec c ups op; let rs := varRun c ups r.2 ops; (r.1 :: rs.1, rs.2)

/-- Which buffers are set up after a program. -/
def varReadyAfter (q : JReady) : List VarOp → JReady
  | [] => q
  | op :: ops => varReadyAfter (op.ready q) ops

/-- Every step of the program may be made when it is made. -/
def varFits (c : VarCfg) (R : Limits) (ups : Nat → MR σ) (s : Vars σ) (q : JReady) : List VarOp → Prop
  | [] => True
  | op :: ops => op.Fits c R s.Outside (s.store c q) ∧ varFits c R ups (s.exec c ups op).2 (op.ready q) ops

/-- A run of a program on lists. -/
inductive VarProgramRun (c : VarCfg) : VarStore → List VarOp → List (Res JagOut) → VarStore → Prop
  | nil (S) : VarProgramRun c S [] [] S
  | cons {S op r S' ops rs S''} (h : VarStep c S op r S') (hs : VarProgramRun c S' ops rs S'') :
      VarProgramRun c S (op :: ops) (r :: rs) S''

theorem var_runs (hl : FamLawful R G ups u0) (hc : c.Wf) : ∀ (ops : List VarOp) (s : Vars σ) (q : JReady), VInv c R ups u0 s q →
    varFits c R ups s q ops →
    VarProgramRun c (s.store c q) ops (varRun c ups s ops).1 ((varRun c ups s ops).2.store c (varReadyAfter q ops)) ∧
    FReach R ups u0 (varRun c ups s ops).2.res (varRun c ups s ops).2.owned := by
  intro ops
  induction ops with
  | nil => exact fun s q h _ => ⟨.nil _, h.reach⟩
  | cons op ops ih =>
    intro s q h hf
    obtain ⟨h1, h2⟩ := var_step hl hc h hf.1
    obtain ⟨h3, h4⟩ := ih _ _ h1 hf.2
    exact ⟨.cons h2 h3, h4⟩

/-- **C68**, whole programs: started without variables and with any contents of memory, a program returns what it may return according
to the lists, the variables then hold the lists, and the memory in use is what they own. -/
theorem c68_runs_partial (hl : FamLawful R G ups u0) (hc : c.Wf) (m : Mem) (ops : List VarOp)
    (hf : varFits c R ups ⟨u0, m, [], []⟩ ⟨fun _ => false, fun _ => false⟩ ops) :
    VarProgramRun c ⟨⟨fun _ => none, fun _ => none⟩, fun _ => false, fun _ => false⟩ ops (varRun c ups ⟨u0, m, [], []⟩ ops).1
      ((varRun c ups ⟨u0, m, [], []⟩ ops).2.store c (varReadyAfter ⟨fun _ => false, fun _ => false⟩ ops)) ∧
    FReach R ups u0 (varRun c ups ⟨u0, m, [], []⟩ ops).2.res (varRun c ups ⟨u0, m, [], []⟩ ops).2.owned :=
  var_runs hl hc ops _ _ (var_inv hl hc (.init m)) hf

/-! ## Swapping -/

/-- `std::swap(x, y)`, with the variable `t` for its local variable. -/
def swapVecs (t x y : Nat) : List VarOp := [.vecMove t x, .vecAssign x y, .vecAssign y t, .vecDestroy t]
@[inherit_doc swapVecs]
def swapJags (t x y : Nat) : List VarOp := [.jagMove t x, .jagAssign x y, .jagAssign y t, .jagDestroy t]

theorem destroyAll_null (ups : Nat → MR σ) : ∀ (os : List Owner) (u : σ), (∀ o ∈ os, o.mem.ptr = 0) →
    Owner.destroyAll ups os u = (.ok (), u) := by
  intro os
  induction os with
  | nil => exact fun _ _ => rfl
  | cons o os ih =>
    intro u h
    unfold Owner.destroyAll
    rw [UniqueAlloc.destroy, if_pos (h o List.mem_cons_self)]
    exact ih u fun o ho => h o (List.mem_cons_of_mem _ ho)

theorem jag_moved_null (v : JagVar) : ∀ o ∈ v.moved.owners, o.mem.ptr = 0 := by
  intro o ho
  simp only [JagVar.moved, JagVar.owners, List.mem_cons, List.not_mem_nil, or_false] at ho
  rcases ho with rfl | rfl | rfl <;> rfl

/-- **C68**, `std::swap`: in every state, two variables of one type exchange their contents; every step succeeds, everything else is as
it was, and no memory is allocated, given back or written. -/
theorem c68_swap_vec {t x y : Nat} (hxy : x ≠ y)
    (hx : (s.store c q).vecs x = true) (hy : (s.store c q).vecs y = true) (ht : (s.store c q).vecs t = false)
    (h1 : c.vecTy x = c.vecTy y) :
    (varRun c ups s (swapVecs t x y)).1 = [.ok (.vec .unit), .ok (.vec .unit), .ok (.vec .unit), .ok (.vec .unit)] ∧
    (varRun c ups s (swapVecs t x y)).2.store c (varReadyAfter q (swapVecs t x y)) =
      ((s.store c q).putVec x ((s.store c q).bufs.vec y)).putVec y ((s.store c q).bufs.vec x) ∧
    (varRun c ups s (swapVecs t x y)).2.res = s.res ∧ (varRun c ups s (swapVecs t x y)).2.mem = s.mem := by
  obtain ⟨vx, hvx⟩ := exists_vec.1 hx
  obtain ⟨vy, hvy⟩ := exists_vec.1 hy
  have hvt := absent_vec.1 ht
  have htx : t ≠ x := by rintro rfl; rw [hvt] at hvx; cases hvx
  have hty : t ≠ y := by rintro rfl; rw [hvt] at hvy; cases hvy
  have hd : ∀ (v : VecVar) (u : σ), Owner.destroyAll ups [v.moved.own] u = (.ok (), u) := fun v u =>
    destroyAll_null ups _ u (by intro o ho; rw [List.mem_singleton.1 ho]; rfl)
  have hrun : varRun c ups s (swapVecs t x y) = ([.ok (.vec .unit), .ok (.vec .unit), .ok (.vec .unit), .ok (.vec .unit)],
      { s with vecs := (putVar (putVar (putVar (putVar (putVar (putVar s.vecs x vx.moved) t vx) y vy.moved) x vy) t vx.moved) y vx).filter (fun e => e.1 != t) }) := by
    simp only [swapVecs, varRun, Vars.exec, lookup_putVar, hvx, hvy, hvt, if_neg htx.symm, if_neg hty.symm, if_neg hxy, if_neg hxy.symm,
      if_neg htx, if_neg hty, if_true, hd, Res.map]
  rw [hrun]
  refine ⟨rfl, ?_, rfl, rfl⟩
  refine VarStore.ext_of (fun i => ?_) (fun i => rfl) (fun i => ?_) fun i => rfl
  · rw [store_vec]
    simp only [VarStore.putVec, Store.put, lookup_filter, lookup_putVar, swapVecs, varReadyAfter, VarOp.ready]
    by_cases i1 : i = y
    · subst i1
      simp only [if_neg hty.symm, if_neg hty, if_true, if_neg hxy.symm, store_vec, hvx, h1, if_neg htx, if_neg htx.symm]
    · by_cases i2 : i = x
      · subst i2
        simp only [if_neg htx.symm, if_neg htx, if_true, if_neg hxy, store_vec, hvy, h1, if_neg hty, if_neg hty.symm, if_neg i1]
      · by_cases i3 : i = t
        · subst i3
          simp only [if_true, if_neg i1, if_neg i2, store_vec, hvt, Option.bind_none]
        · simp only [if_neg i1, if_neg i2, if_neg i3, store_vec]
  · rw [store_vecs]
    simp only [VarStore.putVec, lookup_filter, lookup_putVar, store_vecs]
    by_cases i1 : i = y
    · subst i1; simp [hty.symm]
    · by_cases i2 : i = x
      · subst i2; simp [htx.symm, hxy]
      · by_cases i3 : i = t
        · subst i3; simp [i1, i2, hvt]
        · simp [i1, i2, i3, beq_eq_false_iff_ne.2 i1, beq_eq_false_iff_ne.2 i2]

@[inherit_doc c68_swap_vec]
theorem c68_swap_jag {t x y : Nat} (hxy : x ≠ y)
    (hx : (s.store c q).jags x = true) (hy : (s.store c q).jags y = true) (ht : (s.store c q).jags t = false)
    (h1 : c.jagTy x = c.jagTy y) :
    (varRun c ups s (swapJags t x y)).1 = [.ok (.vec .unit), .ok (.vec .unit), .ok (.vec .unit), .ok (.vec .unit)] ∧
    (varRun c ups s (swapJags t x y)).2.store c (varReadyAfter q (swapJags t x y)) =
      ((s.store c q).putJag x ((s.store c q).bufs.jag y)).putJag y ((s.store c q).bufs.jag x) ∧
    (varRun c ups s (swapJags t x y)).2.res = s.res ∧ (varRun c ups s (swapJags t x y)).2.mem = s.mem := by
  obtain ⟨vx, hvx⟩ := exists_jag.1 hx
  obtain ⟨vy, hvy⟩ := exists_jag.1 hy
  have hvt := absent_jag.1 ht
  have htx : t ≠ x := by rintro rfl; rw [hvt] at hvx; cases hvx
  have hty : t ≠ y := by rintro rfl; rw [hvt] at hvy; cases hvy
  have hd : ∀ (v : JagVar) (u : σ), Owner.destroyAll ups v.moved.owners u = (.ok (), u) := fun v u =>
    destroyAll_null ups _ u (jag_moved_null v)
  have hd' : ∀ (v : JagVar) (u : σ), Owner.destroyAll ups v.moved.owners.reverse u = (.ok (), u) := fun v u =>
    destroyAll_null ups _ u fun o ho => jag_moved_null v o (List.mem_reverse.1 ho)
  have hrun : varRun c ups s (swapJags t x y) = ([.ok (.vec .unit), .ok (.vec .unit), .ok (.vec .unit), .ok (.vec .unit)],
      { s with jags := (putVar (putVar (putVar (putVar (putVar (putVar s.jags x vx.moved) t vx) y vy.moved) x vy) t vx.moved) y vx).filter (fun e => e.1 != t) }) := by
    simp only [swapJags, varRun, Vars.exec, lookup_putVar, hvx, hvy, hvt, if_neg htx.symm, if_neg hty.symm, if_neg hxy, if_neg hxy.symm,
      if_neg htx, if_neg hty, if_true, hd, hd', Res.map]
  rw [hrun]
  refine ⟨rfl, ?_, rfl, rfl⟩
  refine VarStore.ext_of (fun i => rfl) (fun i => ?_) (fun i => rfl) fun i => ?_
  · rw [store_jag]
    simp only [VarStore.putJag, JStore.put, lookup_filter, lookup_putVar, swapJags, varReadyAfter, VarOp.ready]
    by_cases i1 : i = y
    · subst i1
      simp only [if_neg hty.symm, if_neg hty, if_true, if_neg hxy.symm, store_jag, hvx, h1, if_neg htx, if_neg htx.symm]
    · by_cases i2 : i = x
      · subst i2
        simp only [if_neg htx.symm, if_neg htx, if_true, if_neg hxy, store_jag, hvy, h1, if_neg hty, if_neg hty.symm, if_neg i1]
      · by_cases i3 : i = t
        · subst i3
          simp only [if_true, if_neg i1, if_neg i2, store_jag, hvt, Option.bind_none]
        · simp only [if_neg i1, if_neg i2, if_neg i3, store_jag]
  · rw [store_jags]
    simp only [VarStore.putJag, lookup_filter, lookup_putVar, store_jags]
    by_cases i1 : i = y
    · subst i1; simp [hty.symm]
    · by_cases i2 : i = x
      · subst i2; simp [htx.symm, hxy]
      · by_cases i3 : i = t
        · subst i3; simp [i1, i2, hvt]
        · simp [i1, i2, i3, beq_eq_false_iff_ne.2 i1, beq_eq_false_iff_ne.2 i2]

/-! ## What a variable that has been moved from looks like -/

/-- **C68** would be false of uses of a variable that has been moved from: it is not empty.  Its capacity, its pointer to the elements and
its pointer to the size are what they were; so are the number of rows and the row views of a jagged buffer. -/
theorem c68_moved_view (x y : Nat) (hxy : x ≠ y) :
    (∀ v, s.vecs.lookup y = some v →
      ∃ w, (s.exec c ups (.vecMove x y)).2.vecs.lookup y = some w ∧ w.view = v.view ∧ w.own.mem.ptr = 0) ∧
    (∀ v, s.jags.lookup y = some v →
      ∃ w, (s.exec c ups (.jagMove x y)).2.jags.lookup y = some w ∧ w.views = v.views ∧ w.ptr = v.ptr ∧ w.hostPtr = v.hostPtr ∧
        ∀ o ∈ w.owners, o.mem.ptr = 0) := by
  constructor
  · intro v hv
    refine ⟨v.moved, ?_, rfl, rfl⟩
    simp only [Vars.exec, hv, lookup_putVar, if_true, if_neg hxy.symm]
  · intro v hv
    refine ⟨v.moved, ?_, rfl, rfl, rfl, jag_moved_null v⟩
    simp only [Vars.exec, hv, lookup_putVar, if_true, if_neg hxy.symm]

/-! ## Examples -/

namespace Moves
deriving instance DecidableEq for VBuf
deriving instance DecidableEq for JBuf
end Moves

/-- Bytes everywhere. -/
def demoVarCfg : VarCfg :=
  { vecTy := fun _ => ⟨1, 1⟩, vecDflt := fun _ => [0], jagTy := fun _ => ⟨1, 1⟩, jagDflt := fun _ => [0], dbg := true }

theorem demoVarCfg_wf : demoVarCfg.Wf :=
  ⟨fun _ => ⟨⟨Nat.zero_lt_one, ⟨0, rfl⟩, Nat.dvd_refl 1⟩, rfl⟩, fun _ => ⟨⟨Nat.zero_lt_one, ⟨0, rfl⟩, Nat.dvd_refl 1⟩, rfl⟩⟩

/-- A program: four bytes are copied to a vector buffer, which is moved to a new variable, and from there to a default-constructed one;
the other two are destroyed.  A jagged buffer is made in one variable, moved to another, and only then set up.  A kernel with a
thread for each of the bytes appends the double of each to one of two rows, depending on its parity; the rows are copied to host
vectors; everything is destroyed. -/
def demoVarProgram (sched : List Nat) : List VarOp :=
  [.vecCreate 0 0 4 false, .use (.vec (.upload 100 [[1], [2], [3], [5]] 0)), .vecMove 1 0, .vecEmpty 2, .vecAssign 2 1, .vecDestroy 1,
    .vecDestroy 0, .jagCreate 0 0 (some 1) [3, 4] true, .jagMove 1 0, .jagDestroy 0, .use (.setup 1),
    .use (.kernel [2] [] 1 (binKernel (fun e => (e.getD 0 0).toNat % 2) fun e => [2 * e.getD 0 0]) sched),
    .use (.download 1 [200, 210]), .jagDestroy 1, .vecDestroy 2]

example : lastRows (varRun demoVarCfg (fun _ => demoBase) ⟨demoInit, fun _ => 7, [], []⟩ (demoVarProgram [3, 2, 2, 0, 2, 3])).1 =
      [[[4]], [[10], [6], [2]]] ∧
    (varRun demoVarCfg (fun _ => demoBase) ⟨demoInit, fun _ => 7, [], []⟩ (demoVarProgram [3, 2, 2, 0, 2, 3])).2.owned = [] := by
  decide +kernel

set_option maxRecDepth 20000 in
/-- The hypotheses of `c68_runs_partial` are met by this program. -/
example : FamLawful 64 64 (fun _ : Nat => demoBase) demoInit ∧ demoVarCfg.Wf ∧
    varFits demoVarCfg 64 (fun _ => demoBase) ⟨demoInit, fun _ => 7, [], []⟩ ⟨fun _ => false, fun _ => false⟩
      (demoVarProgram [3, 2, 2, 0, 2, 3]) := by
  refine ⟨.same (demo_lawful 64), demoVarCfg_wf, ⟨rfl, rfl, by decide, ⟨by decide, by decide, 4, rfl⟩⟩,
    ⟨trivial, by decide, fun _ => ⟨by decide, by decide⟩, ?_, by decide, 4, false, [[7], [7], [7], [7]], by unfold Store.Has; decide +kernel⟩,
    ⟨by decide +kernel, by decide +kernel, rfl⟩, by unfold VarOp.Fits; decide +kernel, ⟨by decide +kernel, by decide +kernel, rfl⟩,
    by unfold VarOp.Fits; decide +kernel, by unfold VarOp.Fits; decide +kernel,
    ⟨by decide +kernel, by show _ = none; decide +kernel, by decide, ⟨by decide, by decide, 4, rfl⟩, ⟨by decide, by decide, 4, rfl⟩⟩,
    ⟨by decide +kernel, by decide +kernel, rfl⟩, by unfold VarOp.Fits; decide +kernel,
    ⟨trivial, ⟨[3, 4], true, none, false⟩, by decide +kernel⟩,
    ⟨trivial, by decide, [[[1], [2], [3], [5]]], [], [3, 4], [[], []], ⟨⟨4, false, by unfold Store.Has; decide +kernel⟩, trivial⟩, trivial,
      by unfold JStore.Has; decide +kernel, ?_, ?_⟩,
    ⟨trivial, [3, 4], true, true, [[[4]], [[10], [6], [2]]], by unfold JStore.Has; decide +kernel, rfl, ?_, ?_⟩,
    by unfold VarOp.Fits; decide +kernel, by unfold VarOp.Fits; decide +kernel, trivial⟩
  · unfold Vars.Outside
    decide +kernel
  · intro pr hpr x hx
    obtain ⟨e, he, rfl⟩ := List.mem_map.1 hpr
    simp only [List.headD_cons, List.mem_cons, List.not_mem_nil, or_false] at he
    rcases he with rfl | rfl | rfl | rfl <;> simp at hx <;> subst hx
    all_goals exact ⟨[], by decide, rfl, rfl⟩
  · intro i l cap h1 h2
    match i, h1, h2 with
    | 0, h1, h2 => cases h1; cases h2; decide
    | 1, h1, h2 => cases h1; cases h2; decide
  · intro i a l h1 h2
    match i, h1, h2 with
    | 0, h1, h2 =>
      cases h1; cases h2
      exact ⟨by unfold Vars.Outside; decide +kernel, by decide⟩
    | 1, h1, h2 =>
      cases h1; cases h2
      exact ⟨by unfold Vars.Outside; decide +kernel, by decide⟩
  · intro i j a b l l' hij h1 h2 h3 h4
    match i, j, h1, h2, h3, h4 with
    | 0, 1, h1, h2, h3, h4 => cases h1; cases h2; cases h3; cases h4; decide
    | 1, 1, _, _, _, _ => omega

/-- The hypotheses of `c68_swap_vec` are met by a buffer and a default-constructed one. -/
example :
    let s := (varRun demoVarCfg (fun _ => demoBase) ⟨demoInit, fun _ => 7, [], []⟩ [.vecCreate 0 0 4 false, .vecEmpty 1]).2
    let q := varReadyAfter ⟨fun _ => false, fun _ => false⟩ [.vecCreate 0 0 4 false, .vecEmpty 1]
    (s.store demoVarCfg q).vecs 0 = true ∧ (s.store demoVarCfg q).vecs 1 = true ∧ (s.store demoVarCfg q).vecs 2 = false ∧
    (s.store demoVarCfg q).bufs.vec 0 = some ⟨4, false, some [[7], [7], [7], [7]]⟩ ∧
    (s.store demoVarCfg q).bufs.vec 1 = some ⟨0, false, some []⟩ := by
  decide +kernel

/-- The hypotheses of `c68_swap_jag` are met by a buffer and a default-constructed one. -/
example :
    let s := (varRun demoVarCfg (fun _ => demoBase) ⟨demoInit, fun _ => 7, [], []⟩ [.jagCreate 0 0 (some 1) [1, 2] false, .jagEmpty 1]).2
    let q := varReadyAfter ⟨fun _ => false, fun _ => false⟩ [.jagCreate 0 0 (some 1) [1, 2] false, .jagEmpty 1]
    (s.store demoVarCfg q).jags 0 = true ∧ (s.store demoVarCfg q).jags 1 = true ∧ (s.store demoVarCfg q).jags 2 = false ∧
    (s.store demoVarCfg q).bufs.jag 0 = some ⟨[1, 2], false, some [[[7]], [[7], [7]]], false⟩ ∧
    (s.store demoVarCfg q).bufs.jag 1 = some ⟨[], false, some [], true⟩ := by
  decide +kernel

/-- The program of `c68_dangling`: a buffer is made in variable 1 and moved to variable 0, which is then destroyed. -/
def danglingProgram : List VarOp := [.vecCreate 1 0 4 false, .vecMove 0 1, .vecDestroy 0]

/-- **C68** would be false of uses of a variable that has been moved from: this one still says that it has four elements, at an
address that no variable owns memory at. -/
theorem c68_dangling :
    (varRun demoVarCfg (fun _ => demoBase) ⟨demoInit, fun _ => 7, [], []⟩ danglingProgram).1 =
      [.ok (.vec .unit), .ok (.vec .unit), .ok (.vec .unit)] ∧
    (varRun demoVarCfg (fun _ => demoBase) ⟨demoInit, fun _ => 7, [], []⟩ danglingProgram).2.owned = [] ∧
    ∃ v, (varRun demoVarCfg (fun _ => demoBase) ⟨demoInit, fun _ => 7, [], []⟩ danglingProgram).2.vecs.lookup 1 = some v ∧
      v.view.capacity = 4 ∧ v.view.ptr ≠ 0 := by
  refine ⟨by rfl, by decide +kernel, ⟨⟨4, 0, 4096⟩, ⟨⟨0, 12⟩, 0⟩⟩, by decide +kernel, rfl, by decide⟩

end Props
end Vecmem
