import Verif.Lemmas.BufferMovesUse

/-!
# Lemmas: steps of programs with variables
-/

namespace Vecmem

open Props

variable {σ : Type} {R : Limits} {G : Nat} {ups : Nat → MR σ} {u0 : σ} {c : VarCfg} {s : Vars σ} {q : JReady}

/-- The step does what it should, and everything is as it should be after it. -/
def VStepOk (c : VarCfg) (R : Limits) (ups : Nat → MR σ) (u0 : σ) (s : Vars σ) (q : JReady) (op : VarOp) : Prop :=
  VInv c R ups u0 (s.exec c ups op).2 (op.ready q) ∧
  VarStep c (s.store c q) op (s.exec c ups op).1 ((s.exec c ups op).2.store c (op.ready q))

theorem VarCfg.cfg_eq (c : VarCfg) (res : Nat) (host : Option Nat) : c.cfg res host = c.at (fun _ => res) (fun _ => res) fun _ => host := rfl

theorem vstep_use (hl : FamLawful R G ups u0) (hc : c.Wf) (h : VInv c R ups u0 s q) {op : JagOp}
    (hf : (VarOp.use op).Fits c R s.Outside (s.store c q)) : VStepOk c R ups u0 s q (.use op) := by
  obtain ⟨hu, hf⟩ := hf
  obtain ⟨vres, jres, host, ha⟩ := h.agrees
  have hj := h.to ha
  have hse := h.store_eq ha
  have hf' : op.Fits (c.at vres jres host) R (s.held.Outside (c.at vres jres host)) (s.held.store (c.at vres jres host) q) := by
    rw [hse]
    exact JagOp.Fits.at (v := fun _ => 0) (j := fun _ => 0) (h := fun _ => none) hf fun a n ho => h.outside ha ho
  obtain ⟨k1, k2⟩ := JagOp.Fits.keys hu hf
  have hk1 : ∀ k ∈ op.vecs, s.pipe.vec.bufs.lookup k = s.held.vec.bufs.lookup k := by
    intro k hk
    have := k1 k hk
    rw [held_lookup_vec h]
    simp only [Vars.pipe]
    rw [lookup_map_snd]
    simp only [Vars.store] at this
    cases hv : s.vecs.lookup k with
    | none => rfl
    | some v =>
      rw [hv] at this
      simp only [Option.bind_some] at this
      by_cases hh : v.holds = true
      · simp [hh]
      · rw [if_neg hh] at this; exact absurd rfl this
  have hk2 : ∀ k ∈ op.jags, s.pipe.jags.lookup k = s.held.jags.lookup k := by
    intro k hk
    have := k2 k hk
    rw [held_lookup_jag h]
    simp only [Vars.pipe]
    rw [lookup_map_snd]
    simp only [Vars.store] at this
    cases hv : s.jags.lookup k with
    | none => rfl
    | some v =>
      rw [hv] at this
      simp only [Option.bind_some] at this
      by_cases hh : v.holds = true
      · simp [hh]
      · rw [if_neg hh] at this; exact absurd rfl this
  obtain ⟨j1, j2⟩ := jag_step (p := s.held) hl (c := c.at vres jres host) hc hj hf'
  obtain ⟨e1, e2⟩ := JPipe.exec_local (c := c) (ups := ups) (v := fun _ => 0) (j := fun _ => 0) (h := fun _ => none)
    (v' := vres) (j' := jres) (h' := host) (u := s.res) (m := s.mem) hu hk1 hk2
  obtain ⟨-, e3⟩ := JPipe.exec_local (c := c) (ups := ups) (v := vres) (j := jres) (h := host)
    (v' := vres) (j' := jres) (h' := host) (u := s.res) (m := s.mem) (B := s.held.vec.bufs) (J := s.held.jags)
    (B' := s.held.vec.bufs) (J' := s.held.jags) hu (fun _ _ => rfl) (fun _ _ => rfl)
  have he : s.exec c ups (.use op) = ((s.held.exec (c.at vres jres host) ups op).1,
      { s with res := (s.held.exec (c.at vres jres host) ups op).2.vec.res
               mem := (s.held.exec (c.at vres jres host) ups op).2.vec.mem }) := by
    simp only [Vars.exec, VarCfg.cfg_eq]
    have e1' : (s.pipe.exec (c.at (fun _ => 0) (fun _ => 0) fun _ => none) ups op).1 = (s.held.exec (c.at vres jres host) ups op).1 := e1
    have e2' : (s.pipe.exec (c.at (fun _ => 0) (fun _ => 0) fun _ => none) ups op).2 =
        ⟨⟨(s.held.exec (c.at vres jres host) ups op).2.vec.res, (s.held.exec (c.at vres jres host) ups op).2.vec.mem, s.pipe.vec.bufs⟩,
          s.pipe.jags⟩ := e2
    rw [e1', e2']
  have e3' : (s.held.exec (c.at vres jres host) ups op).2 =
      Vars.held { s with res := (s.held.exec (c.at vres jres host) ups op).2.vec.res
                         mem := (s.held.exec (c.at vres jres host) ups op).2.vec.mem } := e3
  unfold VStepOk
  rw [he]
  rw [e3'] at j1
  have ha' : Agrees { s with res := (s.held.exec (c.at vres jres host) ups op).2.vec.res
                             mem := (s.held.exec (c.at vres jres host) ups op).2.vec.mem } vres jres host :=
    ⟨ha.vec, ha.inner, ha.outer, ha.outerHost, ha.host⟩
  have hinv := VInv.of (s := { s with res := (s.held.exec (c.at vres jres host) ups op).2.vec.res
                                      mem := (s.held.exec (c.at vres jres host) ups op).2.vec.mem }) j1 ha' h.vnodup h.jnodup h.side h.same_ptr
  refine ⟨hinv, ?_⟩
  rw [hse] at j2
  have j3 : JagStep c.cfg (s.store c q).bufs op (s.held.exec (c.at vres jres host) ups op).1
      ((s.held.exec (c.at vres jres host) ups op).2.store (c.at vres jres host) (op.ready q)) :=
    j2.at (by rintro k caps rz rfl; cases hu)
  have hb := hinv.store_eq ha'
  rw [← e3'] at hb
  rw [hb] at j3
  exact .use op j3

theorem VarStore.ext_of {A B : VarStore} (h1 : ∀ i, A.bufs.vec i = B.bufs.vec i) (h2 : ∀ i, A.bufs.jag i = B.bufs.jag i)
    (h3 : ∀ i, A.vecs i = B.vecs i) (h4 : ∀ i, A.jags i = B.jags i) : A = B := by
  obtain ⟨⟨a1, a2⟩, a3, a4⟩ := A
  obtain ⟨⟨b1, b2⟩, b3, b4⟩ := B
  cases (funext h1 : a1 = b1)
  cases (funext h2 : a2 = b2)
  cases (funext h3 : a3 = b3)
  cases (funext h4 : a4 = b4)
  rfl

/-- What is in a variable. -/
def VecVar.val (v : VecVar) (m : Mem) (t : Nat) (ready : Bool) : Option VBuf :=
  if v.holds then some ⟨v.view.capacity, v.view.sizePtr != 0, if ready then some (v.view.elems m t) else none⟩ else none
@[inherit_doc VecVar.val]
def JagVar.val (v : JagVar) (m : Mem) (t : Nat) (ready : Bool) : Option JBuf :=
  if v.holds then
    some ⟨v.views.map (·.capacity), v.views.any fun w => w.sizePtr != 0,
      if !(v.views.any fun w => w.sizePtr != 0) || ready then some (v.views.map fun w => w.elems m t) else none,
      v.outer.mem.ptr == 0 || ready⟩
  else none

theorem store_vec (s : Vars σ) (q : JReady) (x : Nat) :
    (s.store c q).bufs.vec x = (s.vecs.lookup x).bind fun v => v.val s.mem (c.vecTy x).size (q.vec x) := rfl
theorem store_jag (s : Vars σ) (q : JReady) (x : Nat) :
    (s.store c q).bufs.jag x = (s.jags.lookup x).bind fun v => v.val s.mem (c.jagTy x).size (q.jag x) := rfl
theorem store_vecs (s : Vars σ) (q : JReady) (x : Nat) : (s.store c q).vecs x = (s.vecs.lookup x).isSome := rfl
theorem store_jags (s : Vars σ) (q : JReady) (x : Nat) : (s.store c q).jags x = (s.jags.lookup x).isSome := rfl

/-! ## Giving memory back -/

theorem Owner.destroyAll_ok (hl : FamLawful R G ups u0) {T : List (Nat × Blk)} : ∀ (os : List Owner) (u : σ),
    FReach R ups u0 u (os.flatMap Owner.blocks ++ T) → ∃ u', Owner.destroyAll ups os u = (.ok (), u') ∧ FReach R ups u0 u' T := by
  intro os
  induction os with
  | nil => exact fun u hu => ⟨u, rfl, hu⟩
  | cons o os ih =>
    intro u hu
    rw [List.flatMap_cons, List.append_assoc] at hu
    unfold Owner.destroyAll
    by_cases h0 : o.mem.ptr = 0
    · rw [UniqueAlloc.destroy, if_pos h0]
      simp only [Owner.blocks, h0, if_true, List.nil_append] at hu
      exact ih u hu
    · simp only [Owner.blocks, h0, if_false, List.singleton_append] at hu
      obtain ⟨u1, d1, d2⟩ := hl.destroy (m := o.mem) hu h0
      rw [d1]
      exact ih u1 d2

theorem Owner.moved_blocks (o : Owner) : o.moved.blocks = [] := by simp [Owner.moved, Owner.blocks]

theorem perm_two {α : Type} {l : List (Nat × α)} (hn : (l.map (·.1)).Nodup) {x y : Nat} {w v : α} (hx : l.lookup x = some w)
    (hy : l.lookup y = some v) (hxy : x ≠ y) :
    l.Perm ((x, w) :: (y, v) :: (l.filter fun e => e.1 != y).filter fun e => e.1 != x) := by
  refine (perm_filter hn (mem_of_lookup hy)).trans ?_
  refine List.Perm.trans ?_ (List.Perm.swap ..)
  refine List.Perm.cons _ (perm_filter (hn.sublist (List.filter_sublist.map _)) (mem_of_lookup ?_))
  rw [lookup_filter, if_neg hxy]
  exact hx

theorem putVar_two {α : Type} (l : List (Nat × α)) {x y : Nat} (hxy : x ≠ y) (v m : α) :
    putVar (putVar l y m) x v = (x, v) :: (y, m) :: (l.filter fun e => e.1 != y).filter fun e => e.1 != x := by
  unfold putVar
  rw [List.filter_cons, if_pos (by simpa using Ne.symm hxy)]

theorem owned_eq (s : Vars σ) :
    s.owned = s.vecs.flatMap (fun e => e.2.own.blocks) ++ s.jags.flatMap fun e => e.2.owners.flatMap Owner.blocks := rfl

/-! ## Vector buffers -/

theorem VecOk.empty {t : CType} {m : Mem} : VecOk t m true VecVar.empty.buf where
  ok := by
    have hno : ∀ x, ¬ (View.mk 0 0 0).Has t.size x := by
      rintro x (⟨_, h⟩ | ⟨h, _⟩)
      · simp at h
      · exact h rfl
    refine ⟨⟨?_, ?_, ?_, ?_⟩, fun x hx => absurd hx (hno x), fun h => absurd rfl h⟩
    all_goals simp [VecVar.empty, VecVar.buf, View.HasWord]
  len := by simp [VecVar.empty, VecVar.buf, View.len]
  fixed := fun _ => rfl

theorem VecOk.moved {t : CType} {m : Mem} {r : Bool} {v : VecVar} (h : VecOk t m r v.buf) (h0 : v.view.capacity = 0) :
    VecOk t m r v.moved.buf where
  ok := by
    have hs : v.view.sizePtr = 0 := by
      by_cases hs : v.view.sizePtr = 0
      · exact hs
      · exact absurd h0 (h.ok.word hs)
    refine ⟨h.ok.placed, ?_, h.ok.word⟩
    intro x hx
    exfalso
    rcases hx with ⟨h1, h2⟩ | ⟨h1, _⟩
    · simp only [VecVar.moved, VecVar.buf] at h1 h2
      rw [h0] at h2
      omega
    · exact h1 hs
  len := h.len
  fixed := h.fixed

theorem VecVar.moved_holds (v : VecVar) : v.moved.holds = true ↔ v.view.capacity = 0 := by
  simp [VecVar.moved, VecVar.holds, Owner.moved]

theorem VecVar.moved_val (v : VecVar) (m : Mem) (t : Nat) (r : Bool) : v.moved.val m t r = (v.val m t r).bind VBuf.left := by
  unfold VecVar.val
  by_cases h3 : v.view.capacity = 0
  · have h4 : v.holds = true := by simp [VecVar.holds, h3]
    rw [if_pos h4, if_pos ((VecVar.moved_holds v).2 h3)]
    simp [VBuf.left, h3, VecVar.moved]
  · rw [if_neg (fun hc => h3 ((VecVar.moved_holds v).1 hc))]
    split
    · simp [VBuf.left, h3]
    · rfl

/-- What moving does to the lists. -/
theorem move_vec_store (s : Vars σ) (u : σ) {x y : Nat} {v : VecVar} (hx : x ≠ y) (hy : s.vecs.lookup y = some v)
    (hty : c.vecTy x = c.vecTy y) :
    Vars.store c { s with res := u, vecs := putVar (putVar s.vecs y v.moved) x v }
      { q with vec := fun i => if i = x then q.vec y else q.vec i } = (s.store c q).moveVec x y := by
  unfold VarStore.moveVec
  rw [if_neg hx]
  refine VarStore.ext_of (fun i => ?_) (fun i => rfl) (fun i => ?_) fun i => rfl
  · rw [store_vec]
    simp only [VarStore.putVec, Store.put, lookup_putVar]
    by_cases h1 : i = x
    · rw [if_pos h1, if_pos h1, store_vec, hy, h1, hty, if_pos rfl]
    · rw [if_neg h1, if_neg h1, if_neg h1]
      by_cases h2 : i = y
      · rw [if_pos h2, if_pos h2, store_vec, hy, h2]
        exact v.moved_val _ _ _
      · rw [if_neg h2, if_neg h2, store_vec]
  · rw [store_vecs]
    simp only [VarStore.putVec, lookup_putVar, store_vecs]
    by_cases h1 : i = x
    · simp [h1]
    · by_cases h2 : i = y
      · rw [if_neg h1, if_pos h2, h2]; simp
      · rw [if_neg h1, if_neg h2, beq_eq_false_iff_ne.2 h1, beq_eq_false_iff_ne.2 h2]; simp

/-- The variables after moving. -/
theorem move_vec_inv (h : VInv c R ups u0 s q) {u : σ} {x y : Nat} {v : VecVar} (hx : x ≠ y) (hy : s.vecs.lookup y = some v)
    (hty : c.vecTy x = c.vecTy y)
    (hr : FReach R ups u0 u (v.own.blocks ++ (((s.vecs.filter fun e => e.1 != y).filter fun e => e.1 != x).flatMap (fun e => e.2.own.blocks) ++
      s.jags.flatMap fun e => e.2.owners.flatMap Owner.blocks))) :
    VInv c R ups u0 { s with res := u, vecs := putVar (putVar s.vecs y v.moved) x v }
      { q with vec := fun i => if i = x then q.vec y else q.vec i } where
  reach := by
    rw [owned_eq]
    simp only [putVar_two s.vecs hx]
    simpa [VecVar.moved, Owner.moved_blocks] using hr
  vnodup := nodup_putVar (nodup_putVar h.vnodup _ _) _ _
  jnodup := h.jnodup
  vec := by
    have hm := mem_of_lookup hy
    intro e he hh
    rcases mem_putVar.1 he with rfl | ⟨he, h1⟩
    · simp only [if_true]
      rw [hty]
      exact h.vec _ hm hh
    · rcases mem_putVar.1 he with rfl | ⟨he, h2⟩
      · have h0 := (VecVar.moved_holds v).1 hh
        simp only [if_neg h1]
        exact (h.vec _ hm (by simp [VecVar.holds, h0])).moved h0
      · simp only [if_neg h1]
        exact h.vec e he hh
  side := h.side
  jag := h.jag

theorem exists_vec {x : Nat} : (s.store c q).vecs x = true ↔ ∃ v, s.vecs.lookup x = some v := Option.isSome_iff_exists
theorem absent_vec {x : Nat} : (s.store c q).vecs x = false ↔ s.vecs.lookup x = none := Option.isSome_eq_false_iff.trans Option.isNone_iff_eq_none
theorem exists_jag {x : Nat} : (s.store c q).jags x = true ↔ ∃ v, s.jags.lookup x = some v := Option.isSome_iff_exists
theorem absent_jag {x : Nat} : (s.store c q).jags x = false ↔ s.jags.lookup x = none := Option.isSome_eq_false_iff.trans Option.isNone_iff_eq_none

theorem vstep_vecEmpty (h : VInv c R ups u0 s q) {x : Nat} (hf : (VarOp.vecEmpty x).Fits c R s.Outside (s.store c q)) :
    VStepOk c R ups u0 s q (.vecEmpty x) := by
  have hx := absent_vec.1 hf
  unfold VStepOk
  simp only [Vars.exec, VarOp.ready]
  refine ⟨⟨?_, nodup_putVar h.vnodup _ _, h.jnodup, ?_, h.side, h.jag⟩, ?_⟩
  · rw [owned_eq]
    simp only [putVar, filter_absent hx, List.flatMap_cons]
    exact h.reach
  · intro e he hh
    rcases mem_putVar.1 he with rfl | ⟨he, h1⟩
    · simp only [BEq.rfl, Bool.true_or]
      exact .empty
    · simp only [beq_eq_false_iff_ne.2 h1, Bool.false_or]
      exact h.vec e he hh
  · have : Vars.store c { s with vecs := putVar s.vecs x .empty } { q with vec := fun i => i == x || q.vec i } =
        (s.store c q).putVec x (some ⟨0, false, some []⟩) := by
      refine VarStore.ext_of (fun i => ?_) (fun i => rfl) (fun i => ?_) fun i => rfl
      · rw [store_vec]
        simp only [VarStore.putVec, Store.put, lookup_putVar]
        by_cases h1 : i = x
        · simp [h1, VecVar.empty, VecVar.val, VecVar.holds, View.elems, View.len]
        · rw [if_neg h1, if_neg h1, store_vec, beq_eq_false_iff_ne.2 h1]
          rfl
      · rw [store_vecs]
        simp only [VarStore.putVec, lookup_putVar, store_vecs]
        by_cases h1 : i = x
        · simp [h1]
        · rw [if_neg h1, beq_eq_false_iff_ne.2 h1]; simp
    rw [this]
    exact .vecEmpty x

theorem vstep_vecMove (h : VInv c R ups u0 s q) {x y : Nat} (hf : (VarOp.vecMove x y).Fits c R s.Outside (s.store c q)) :
    VStepOk c R ups u0 s q (.vecMove x y) := by
  obtain ⟨hx, hy, hty⟩ := hf
  have hx := absent_vec.1 hx
  obtain ⟨v, hv⟩ := exists_vec.1 hy
  have hxy : x ≠ y := by
    rintro rfl
    rw [hx] at hv; cases hv
  unfold VStepOk
  simp only [Vars.exec, VarOp.ready, hv]
  refine ⟨move_vec_inv h hxy hv hty (u := s.res) ?_, ?_⟩
  · refine h.reach.perm ?_
    rw [owned_eq, ← List.append_assoc]
    refine List.Perm.append_right _ ?_
    have hp := (perm_filter h.vnodup (mem_of_lookup hv)).flatMap_right fun e => e.2.own.blocks
    have : ((s.vecs.filter fun e => e.1 != y).filter fun e => e.1 != x) = s.vecs.filter fun e => e.1 != y := by
      apply filter_absent
      rw [lookup_filter, if_neg hxy]; exact hx
    rw [this]
    exact hp
  · rw [move_vec_store s s.res hxy hv hty]
    exact .vecMove x y

theorem vstep_vecAssign (hl : FamLawful R G ups u0) (h : VInv c R ups u0 s q) {x y : Nat}
    (hf : (VarOp.vecAssign x y).Fits c R s.Outside (s.store c q)) : VStepOk c R ups u0 s q (.vecAssign x y) := by
  obtain ⟨hx, hy, hty⟩ := hf
  obtain ⟨w, hw⟩ := exists_vec.1 hx
  obtain ⟨v, hv⟩ := exists_vec.1 hy
  unfold VStepOk
  simp only [Vars.exec, VarOp.ready, hw, hv]
  by_cases hxy : x = y
  · subst hxy
    have hq : (JReady.mk (fun i => if i = x then q.vec x else q.vec i) q.jag) = q := by
      cases q
      simp only [JReady.mk.injEq, and_true]
      funext i
      by_cases hi : i = x <;> simp [hi]
    simp only [if_true, hq]
    refine ⟨h, ?_⟩
    have : (s.store c q).moveVec x x = s.store c q := by unfold VarStore.moveVec; rw [if_pos rfl]
    conv => rhs; rw [← this]
    exact .vecAssign x x
  · simp only [if_neg hxy]
    have hr := h.reach
    rw [owned_eq] at hr
    have hp := (perm_two h.vnodup hw hv hxy).flatMap_right fun e => e.2.own.blocks
    have hr := hr.perm (hp.append_right _)
    simp only [List.flatMap_cons, List.append_assoc] at hr
    obtain ⟨u', d1, d2⟩ := Owner.destroyAll_ok hl [w.own] s.res (T := v.own.blocks ++
      (((s.vecs.filter fun e => e.1 != y).filter fun e => e.1 != x).flatMap (fun e => e.2.own.blocks) ++
        s.jags.flatMap fun e => e.2.owners.flatMap Owner.blocks)) (by simpa using hr)
    rw [d1]
    refine ⟨move_vec_inv h hxy hv hty d2, ?_⟩
    rw [move_vec_store s u' hxy hv hty]
    exact .vecAssign x y

theorem vstep_vecDestroy (hl : FamLawful R G ups u0) (h : VInv c R ups u0 s q) {x : Nat}
    (hf : (VarOp.vecDestroy x).Fits c R s.Outside (s.store c q)) : VStepOk c R ups u0 s q (.vecDestroy x) := by
  obtain ⟨v, hv⟩ := exists_vec.1 hf
  unfold VStepOk
  simp only [Vars.exec, VarOp.ready, hv]
  have hr := h.reach
  rw [owned_eq] at hr
  have hp := (perm_filter h.vnodup (mem_of_lookup hv)).flatMap_right fun e => e.2.own.blocks
  have hr := hr.perm (hp.append_right _)
  simp only [List.flatMap_cons, List.append_assoc] at hr
  obtain ⟨u', d1, d2⟩ := Owner.destroyAll_ok hl [v.own] s.res (T := (s.vecs.filter fun e => e.1 != x).flatMap (fun e => e.2.own.blocks) ++
    s.jags.flatMap fun e => e.2.owners.flatMap Owner.blocks) (by simpa using hr)
  rw [d1]
  refine ⟨⟨d2, h.vnodup.sublist (List.filter_sublist.map _), h.jnodup, fun e he => h.vec e (List.mem_filter.1 he).1, h.side, h.jag⟩, ?_⟩
  have : Vars.store c { s with res := u', vecs := s.vecs.filter fun e => e.1 != x } q = (s.store c q).dropVec x := by
    refine VarStore.ext_of (fun i => ?_) (fun i => rfl) (fun i => ?_) fun i => rfl
    · rw [store_vec]
      simp only [VarStore.dropVec, Store.put, lookup_filter, store_vec]
      by_cases h1 : i = x <;> simp [h1]
    · rw [store_vecs]
      simp only [VarStore.dropVec, lookup_filter, store_vecs]
      by_cases h1 : i = x
      · simp [h1]
      · simp [h1, bne, beq_eq_false_iff_ne.2 h1]
  rw [this]
  exact .vecDestroy x

end Vecmem
