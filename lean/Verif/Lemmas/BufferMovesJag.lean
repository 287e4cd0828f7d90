import Verif.Lemmas.BufferMovesSteps

/-!
# Lemmas: steps of programs with variables, on jagged buffers, and creation
-/

namespace Vecmem

open Props IntMath

variable {σ : Type} {R : Limits} {G : Nat} {ups : Nat → MR σ} {u0 : σ} {c : VarCfg} {s : Vars σ} {q : JReady}

/-! ## Jagged buffers -/

theorem JagVar.Side.moved (v : JagVar) : v.moved.Side where
  none := by
    intro _ o ho
    simp only [JagVar.moved, JagVar.owners, List.mem_cons, List.not_mem_nil, or_false] at ho
    rcases ho with rfl | rfl | rfl <;> rfl
  inner := fun h => absurd rfl h

theorem Owner.moved_self {o : Owner} (h : o.mem.ptr = 0) : o.moved = o := by
  obtain ⟨⟨p, n⟩, r⟩ := o
  cases h
  rfl

theorem JagVar.moved_self {v : JagVar} (h : v.Side) (h0 : v.views = []) : v.moved = v := by
  have hn := h.none (.inl h0)
  unfold JagVar.moved
  rw [Owner.moved_self (hn v.outer (by simp [JagVar.owners])), Owner.moved_self (hn v.outerHost (by simp [JagVar.owners])),
    Owner.moved_self (hn v.inner (by simp [JagVar.owners]))]

theorem JagVar.moved_holds (v : JagVar) : v.moved.holds = true ↔ v.views = [] := by
  simp [JagVar.moved, JagVar.holds, Owner.moved]

theorem JagVar.moved_val (v : JagVar) (hs : v.Side) (m : Mem) (t : Nat) (r : Bool) :
    v.moved.val m t r = (v.val m t r).bind JBuf.left := by
  by_cases h3 : v.views = []
  · rw [JagVar.moved_self hs h3]
    unfold JagVar.val
    have h4 : v.holds = true := by simp [JagVar.holds, h3]
    rw [if_pos h4]
    simp [JBuf.left, h3]
  · unfold JagVar.val
    rw [if_neg (fun hc => h3 ((JagVar.moved_holds v).1 hc))]
    split
    · simp [JBuf.left, h3]
    · rfl

theorem JagVar.moved_blocks (v : JagVar) : v.moved.owners.flatMap Owner.blocks = [] := by
  simp [JagVar.moved, JagVar.owners, Owner.moved_blocks]

/-- What moving does to the rows. -/
theorem move_jag_store (h : VInv c R ups u0 s q) (u : σ) {x y : Nat} {v : JagVar} (hx : x ≠ y) (hy : s.jags.lookup y = some v)
    (hty : c.jagTy x = c.jagTy y) :
    Vars.store c { s with res := u, jags := putVar (putVar s.jags y v.moved) x v }
      { q with jag := fun i => if i = x then q.jag y else q.jag i } = (s.store c q).moveJag x y := by
  unfold VarStore.moveJag
  rw [if_neg hx]
  refine VarStore.ext_of (fun i => rfl) (fun i => ?_) (fun i => rfl) fun i => ?_
  · rw [store_jag]
    simp only [VarStore.putJag, JStore.put, lookup_putVar]
    by_cases h1 : i = x
    · rw [if_pos h1, if_pos h1, store_jag, hy, h1, hty, if_pos rfl]
    · rw [if_neg h1, if_neg h1, if_neg h1]
      by_cases h2 : i = y
      · rw [if_pos h2, if_pos h2, store_jag, hy, h2]
        exact v.moved_val (h.side _ (mem_of_lookup hy)) _ _ _
      · rw [if_neg h2, if_neg h2, store_jag]
  · rw [store_jags]
    simp only [VarStore.putJag, lookup_putVar, store_jags]
    by_cases h1 : i = x
    · simp [h1]
    · by_cases h2 : i = y
      · rw [if_neg h1, if_pos h2, h2]; simp
      · rw [if_neg h1, if_neg h2, beq_eq_false_iff_ne.2 h1, beq_eq_false_iff_ne.2 h2]; simp

/-- The variables after moving. -/
theorem move_jag_inv (h : VInv c R ups u0 s q) {u : σ} {x y : Nat} {v : JagVar} (hx : x ≠ y) (hy : s.jags.lookup y = some v)
    (hty : c.jagTy x = c.jagTy y)
    (hr : FReach R ups u0 u (s.vecs.flatMap (fun e => e.2.own.blocks) ++ (v.owners.flatMap Owner.blocks ++
      ((s.jags.filter fun e => e.1 != y).filter fun e => e.1 != x).flatMap fun e => e.2.owners.flatMap Owner.blocks))) :
    VInv c R ups u0 { s with res := u, jags := putVar (putVar s.jags y v.moved) x v }
      { q with jag := fun i => if i = x then q.jag y else q.jag i } where
  reach := by
    rw [owned_eq]
    simp only [putVar_two s.jags hx, List.flatMap_cons, JagVar.moved_blocks, List.nil_append]
    exact hr
  vnodup := h.vnodup
  jnodup := nodup_putVar (nodup_putVar h.jnodup _ _) _ _
  vec := h.vec
  side := by
    intro e he
    rcases mem_putVar.1 he with rfl | ⟨he, h1⟩
    · have := h.side _ (mem_of_lookup hy)
      exact this
    · rcases mem_putVar.1 he with rfl | ⟨he, h2⟩
      · exact .moved v
      · exact h.side e he
  jag := by
    have hm := mem_of_lookup hy
    intro e he hh
    rcases mem_putVar.1 he with rfl | ⟨he, h1⟩
    · simp only [if_true]
      rw [hty]
      exact h.jag _ hm hh
    · rcases mem_putVar.1 he with rfl | ⟨he, h2⟩
      · have h0 := (JagVar.moved_holds v).1 hh
        simp only [if_neg h1]
        rw [JagVar.moved_self (h.side _ hm) h0]
        exact h.jag _ hm (by simp [JagVar.holds, h0])
      · simp only [if_neg h1]
        exact h.jag e he hh

theorem RowsOk.empty {t : CType} {m : Mem} {r : Bool} : RowsOk t (JagVar.empty.outer.mem.ptr != 0) m r JagVar.empty.buf where
  ok := by
    refine ⟨⟨by simp [JagVar.empty, JagVar.buf], by simp [JagVar.empty, JagVar.buf], .inl (by simp [JagVar.empty, JagVar.buf]),
      by simp [JagVar.empty, JagVar.buf]⟩, ?_, .inl (by simp [JagVar.empty, JagVar.buf]), by simp [JagVar.empty, JagVar.buf],
      by simp [JagVar.empty, JagVar.buf], fun _ => rfl, by simp [JagVar.empty, JagVar.buf], by simp [JagVar.empty, JagVar.buf]⟩
    rintro x ⟨v, hv, -⟩
    cases hv
  sizes := fun _ v hv => by cases hv
  host := fun i v hv => by simp [JagVar.empty, JagVar.buf] at hv
  dev := fun _ i v hv => by simp [JagVar.empty, JagVar.buf] at hv

theorem JagVar.Side.empty : JagVar.empty.Side where
  none := by
    intro _ o ho
    simp only [JagVar.empty, JagVar.owners, List.mem_cons, List.not_mem_nil, or_false] at ho
    rcases ho with rfl | rfl | rfl <;> rfl
  inner := fun h => absurd rfl h

theorem vstep_jagEmpty (h : VInv c R ups u0 s q) {x : Nat} (hf : (VarOp.jagEmpty x).Fits c R s.Outside (s.store c q)) :
    VStepOk c R ups u0 s q (.jagEmpty x) := by
  have hx := absent_jag.1 hf
  unfold VStepOk
  simp only [Vars.exec, VarOp.ready]
  refine ⟨⟨?_, h.vnodup, nodup_putVar h.jnodup _ _, h.vec, ?_, ?_⟩, ?_⟩
  · rw [owned_eq]
    simp only [putVar, filter_absent hx, List.flatMap_cons]
    exact h.reach
  · intro e he
    rcases mem_putVar.1 he with rfl | ⟨he, h1⟩
    · exact .empty
    · exact h.side e he
  · intro e he hh
    rcases mem_putVar.1 he with rfl | ⟨he, h1⟩
    · exact .empty
    · exact h.jag e he hh
  · have : Vars.store c { s with jags := putVar s.jags x .empty } q = (s.store c q).putJag x (some ⟨[], false, some [], true⟩) := by
      refine VarStore.ext_of (fun i => rfl) (fun i => ?_) (fun i => rfl) fun i => ?_
      · rw [store_jag]
        simp only [VarStore.putJag, JStore.put, lookup_putVar]
        by_cases h1 : i = x
        · simp [h1, JagVar.empty, JagVar.val, JagVar.holds]
        · rw [if_neg h1, if_neg h1, store_jag]
      · rw [store_jags]
        simp only [VarStore.putJag, lookup_putVar, store_jags]
        by_cases h1 : i = x
        · simp [h1]
        · rw [if_neg h1, beq_eq_false_iff_ne.2 h1]; simp
    rw [this]
    exact .jagEmpty x

theorem vstep_jagMove (h : VInv c R ups u0 s q) {x y : Nat} (hf : (VarOp.jagMove x y).Fits c R s.Outside (s.store c q)) :
    VStepOk c R ups u0 s q (.jagMove x y) := by
  obtain ⟨hx, hy, hty⟩ := hf
  have hx := absent_jag.1 hx
  obtain ⟨v, hv⟩ := exists_jag.1 hy
  have hxy : x ≠ y := by
    rintro rfl
    rw [hx] at hv; cases hv
  unfold VStepOk
  simp only [Vars.exec, VarOp.ready, hv]
  refine ⟨move_jag_inv h hxy hv hty (u := s.res) ?_, ?_⟩
  · refine h.reach.perm ?_
    rw [owned_eq]
    refine List.Perm.append_left _ ?_
    have hp := (perm_filter h.jnodup (mem_of_lookup hv)).flatMap_right fun e => e.2.owners.flatMap Owner.blocks
    have : ((s.jags.filter fun e => e.1 != y).filter fun e => e.1 != x) = s.jags.filter fun e => e.1 != y := by
      apply filter_absent
      rw [lookup_filter, if_neg hxy]; exact hx
    rw [this]
    exact hp
  · rw [move_jag_store h s.res hxy hv hty]
    exact .jagMove x y

theorem vstep_jagAssign (hl : FamLawful R G ups u0) (h : VInv c R ups u0 s q) {x y : Nat}
    (hf : (VarOp.jagAssign x y).Fits c R s.Outside (s.store c q)) : VStepOk c R ups u0 s q (.jagAssign x y) := by
  obtain ⟨hx, hy, hty⟩ := hf
  obtain ⟨w, hw⟩ := exists_jag.1 hx
  obtain ⟨v, hv⟩ := exists_jag.1 hy
  unfold VStepOk
  simp only [Vars.exec, VarOp.ready, hw, hv]
  by_cases hxy : x = y
  · subst hxy
    have hq : (JReady.mk q.vec (fun i => if i = x then q.jag x else q.jag i)) = q := by
      cases q
      simp only [JReady.mk.injEq, true_and]
      funext i
      by_cases hi : i = x <;> simp [hi]
    simp only [if_true, hq]
    refine ⟨h, ?_⟩
    have : (s.store c q).moveJag x x = s.store c q := by unfold VarStore.moveJag; rw [if_pos rfl]
    conv => rhs; rw [← this]
    exact .jagAssign x x
  · simp only [if_neg hxy]
    have hr := h.reach
    rw [owned_eq] at hr
    have hp := (perm_two h.jnodup hw hv hxy).flatMap_right fun e => e.2.owners.flatMap Owner.blocks
    have hr := hr.perm ((hp.append_left _).trans List.perm_append_comm)
    simp only [List.flatMap_cons, List.append_assoc] at hr
    obtain ⟨u', d1, d2⟩ := Owner.destroyAll_ok hl w.owners s.res hr
    rw [d1]
    refine ⟨move_jag_inv h hxy hv hty (d2.perm ?_), ?_⟩
    · rw [← List.append_assoc]
      exact List.perm_append_comm
    rw [move_jag_store h u' hxy hv hty]
    exact .jagAssign x y

theorem vstep_jagDestroy (hl : FamLawful R G ups u0) (h : VInv c R ups u0 s q) {x : Nat}
    (hf : (VarOp.jagDestroy x).Fits c R s.Outside (s.store c q)) : VStepOk c R ups u0 s q (.jagDestroy x) := by
  obtain ⟨v, hv⟩ := exists_jag.1 hf
  unfold VStepOk
  simp only [Vars.exec, VarOp.ready, hv]
  have hr := h.reach
  rw [owned_eq] at hr
  have hp := (perm_filter h.jnodup (mem_of_lookup hv)).flatMap_right fun e => e.2.owners.flatMap Owner.blocks
  have hr := hr.perm ((hp.append_left _).trans List.perm_append_comm)
  simp only [List.flatMap_cons, List.append_assoc] at hr
  have hr := hr.perm (((List.reverse_perm v.owners).symm.flatMap_right Owner.blocks).append_right _)
  obtain ⟨u', d1, d2⟩ := Owner.destroyAll_ok hl v.owners.reverse s.res hr
  rw [d1]
  refine ⟨⟨d2.perm List.perm_append_comm, h.vnodup, h.jnodup.sublist (List.filter_sublist.map _), h.vec,
    fun e he => h.side e (List.mem_filter.1 he).1, fun e he => h.jag e (List.mem_filter.1 he).1⟩, ?_⟩
  have : Vars.store c { s with res := u', jags := s.jags.filter fun e => e.1 != x } q = (s.store c q).dropJag x := by
    refine VarStore.ext_of (fun i => rfl) (fun i => ?_) (fun i => rfl) fun i => ?_
    · rw [store_jag]
      simp only [VarStore.dropJag, JStore.put, lookup_filter, store_jag]
      by_cases h1 : i = x <;> simp [h1]
    · rw [store_jags]
      simp only [VarStore.dropJag, lookup_filter, store_jags]
      by_cases h1 : i = x
      · simp [h1]
      · simp [h1, bne, beq_eq_false_iff_ne.2 h1]
  rw [this]
  exact .jagDestroy x

/-! ## Creation -/

theorem absent_ne {α : Type} {l : List (Nat × α)} {x : Nat} (h : l.lookup x = none) {e : Nat × α} (he : e ∈ l) : e.1 ≠ x := by
  rintro rfl
  exact lookup_none h (List.mem_map.2 ⟨e, he, rfl⟩)

theorem jagStep_vecCreate {C : JagCfg} {S B : JStore} {x cap : Nat} {rz : Bool} {r : Res JagOut}
    (hs : JagStep C S (.vec (.create x cap rz)) r B) : r = .badAlloc ∨ r = .ok (.vec .unit) := by
  cases hs with
  | vec op hp => cases hp with
    | createFail => exact .inl rfl
    | createFixed => exact .inr rfl
    | createResizable => exact .inr rfl

theorem jagStep_create {C : JagCfg} {S B : JStore} {x : Nat} {caps : List Nat} {rz : Bool} {r : Res JagOut}
    (hs : JagStep C S (.create x caps rz) r B) : r = .badAlloc ∨ r = .ok (.vec .unit) := by
  cases hs with
  | createFail => exact .inl rfl
  | createFixed => exact .inr rfl
  | createResizable => exact .inr rfl

theorem jagStep_create_put {C : JagCfg} {S B : JStore} {x : Nat} {caps : List Nat} {rz : Bool}
    (hs : JagStep C S (.create x caps rz) (.ok (.vec .unit)) B) : (∃ d, B.jag x = some d ∧ d.caps = caps) ∧ B = S.put x (B.jag x) := by
  have : ∀ o, (S.put x o).jag x = o := fun o => if_pos rfl
  cases hs with
  | createFixed => rw [this]; exact ⟨⟨_, rfl, rfl⟩, rfl⟩
  | createResizable => rw [this]; exact ⟨⟨_, rfl, rfl⟩, rfl⟩

theorem vstep_vecCreate (hl : FamLawful R G ups u0) (hc : c.Wf) (h : VInv c R ups u0 s q) {x res cap : Nat} {rz : Bool}
    (hf : (VarOp.vecCreate x res cap rz).Fits c R s.Outside (s.store c q)) : VStepOk c R ups u0 s q (.vecCreate x res cap rz) := by
  obtain ⟨hx, hf⟩ := hf
  have hx := absent_vec.1 hx
  obtain ⟨vres, jres, host, ha0⟩ := h.agrees
  have ha : Agrees s (fun i => if i = x then res else vres i) jres host :=
    ⟨fun e he h0 => by
      show (if e.1 = x then res else vres e.1) = _
      rw [if_neg (absent_ne hx he)]; exact ha0.vec e he h0, ha0.inner, ha0.outer, ha0.outerHost, ha0.host⟩
  generalize hg : (fun i => if i = x then res else vres i) = vr at ha
  have hrx : vr x = res := by rw [← hg]; simp
  have hj := h.to ha
  have hse := h.store_eq ha
  have hf' : (JagOp.vec (.create x cap rz)).Fits (c.at vr jres host) R (s.held.Outside (c.at vr jres host))
      (s.held.store (c.at vr jres host) q) := by
    rw [hse]
    exact JagOp.Fits.at (v := fun _ => 0) (j := fun _ => 0) (h := fun _ => none) hf fun a n ho => h.outside ha ho
  obtain ⟨j1, j2⟩ := jag_step (p := s.held) hl (c := c.at vr jres host) hc hj hf'
  rw [hse] at j2
  have hex : s.held.exec (c.at vr jres host) ups (.vec (.create x cap rz)) =
      s.held.lift (match VecBuffer.create (ups res) s.res (c.vecTy x) cap rz with
        | (.ok b, u) => (.ok .unit, ⟨u, s.mem, (x, b) :: s.held.vec.bufs⟩)
        | (e, u) => (e.map fun _ => .unit, ⟨u, s.mem, s.held.vec.bufs⟩)) := by
    show s.held.lift (s.held.vec.exec (c.at vr jres host).vec ups (.create x cap rz)) = _
    rw [← hrx]
    rfl
  rw [hex] at j1 j2
  unfold VStepOk
  simp only [Vars.exec, VarOp.ready]
  have hq : ∀ i, i ≠ x → ((JagOp.vec (.create x cap rz)).ready q).vec i = q.vec i := fun i hi => if_neg hi
  rcases hcr : VecBuffer.create (ups res) s.res (c.vecTy x) cap rz with ⟨r, u⟩
  rw [hcr] at j1 j2
  -- construction has failed
  have hfail : ∀ (e : Res VecBuffer), (∀ b, e ≠ .ok b) →
      JInv (c.at vr jres host) R ups u0 (s.held.lift (e.map fun _ => PipeOut.unit, ⟨u, s.mem, s.held.vec.bufs⟩)).2
        ((JagOp.vec (.create x cap rz)).ready q) →
      JagStep (c.at vr jres host) (s.store c q).bufs (.vec (.create x cap rz))
        (s.held.lift (e.map fun _ => PipeOut.unit, ⟨u, s.mem, s.held.vec.bufs⟩)).1
        ((s.held.lift (e.map fun _ => PipeOut.unit, ⟨u, s.mem, s.held.vec.bufs⟩)).2.store (c.at vr jres host)
          ((JagOp.vec (.create x cap rz)).ready q)) →
      VInv c R ups u0 { s with res := u } ((JagOp.vec (.create x cap rz)).ready q) ∧
      VarStep c (s.store c q) (.vecCreate x res cap rz) (e.map fun _ => JagOut.vec .unit)
        (Vars.store c { s with res := u } ((JagOp.vec (.create x cap rz)).ready q)) := by
    intro e he j1 j2
    have hinv : VInv c R ups u0 { s with res := u } ((JagOp.vec (.create x cap rz)).ready q) :=
      VInv.of (s := { s with res := u }) j1 ⟨ha.vec, ha.inner, ha.outer, ha.outerHost, ha.host⟩ h.vnodup h.jnodup h.side h.same_ptr
    refine ⟨hinv, ?_⟩
    have hst : Vars.store c { s with res := u } ((JagOp.vec (.create x cap rz)).ready q) = s.store c q := by
      refine VarStore.ext_of (fun i => ?_) (fun i => rfl) (fun i => rfl) fun i => rfl
      rw [store_vec, store_vec]
      by_cases hi : i = x
      · rw [hi]
        show (s.vecs.lookup x).bind _ = _
        rw [hx]; rfl
      · rw [hq i hi]
    rw [hst]
    have hb := hinv.store_eq (vres := vr) (jres := jres) (host := host) ⟨ha.vec, ha.inner, ha.outer, ha.outerHost, ha.host⟩
    rw [hst] at hb
    have hb' : ((s.held.lift (e.map fun _ => PipeOut.unit, ⟨u, s.mem, s.held.vec.bufs⟩)).2.store (c.at vr jres host)
          ((JagOp.vec (.create x cap rz)).ready q)) = (s.store c q).bufs := hb
    rw [hb'] at j2
    have j3 : JagStep c.cfg (s.store c q).bufs (.vec (.create x cap rz)) _ _ :=
      JagStep.at (v' := fun _ => 0) (j' := fun _ => 0) (h' := fun _ => none) j2 (by intro k caps rz h; cases h)
    cases e with
    | ok b => exact absurd rfl (he b)
    | badAlloc => exact .vecCreateFail x res cap rz j3
    | _ =>
      exfalso
      rcases jagStep_vecCreate j2 with h | h <;> cases h
  cases r with
  | ok b =>
    simp only at j1 j2 ⊢
    have hbo : BufOk (c.vecTy x) b := j1.vec.bufs (x, b) List.mem_cons_self
    have hholds : (VecVar.mk b.view ⟨b.mem, res⟩).holds = true := by
      by_cases h0 : b.view.capacity = 0
      · simp [VecVar.holds, h0]
      · have ht : 0 < (c.vecTy x).size := (hc.1 x).1.1
        have := (hbo.inside b.view.ptr (.inl ⟨Nat.le_refl _, by have := Nat.mul_pos (Nat.pos_of_ne_zero h0) ht; omega⟩)).1
        simp [VecVar.holds, this]
    have hheld : Vars.held { s with res := u, vecs := putVar s.vecs x ⟨b.view, b.mem, res⟩ } =
        ⟨⟨u, s.mem, (x, b) :: s.held.vec.bufs⟩, s.held.jags⟩ := by
      simp only [Vars.held, putVar, filter_absent hx]
      rw [List.filter_cons, if_pos hholds]
      rfl
    have ha' : Agrees { s with res := u, vecs := putVar s.vecs x ⟨b.view, b.mem, res⟩ } vr jres host := by
      refine ⟨?_, ha.inner, ha.outer, ha.outerHost, ha.host⟩
      intro e he h0
      rcases mem_putVar.1 he with rfl | ⟨he, _⟩
      · exact hrx
      · exact ha.vec e he h0
    have hinv : VInv c R ups u0 { s with res := u, vecs := putVar s.vecs x ⟨b.view, b.mem, res⟩ }
        ((JagOp.vec (.create x cap rz)).ready q) :=
      VInv.of (by rw [hheld]; exact j1) ha' (nodup_putVar h.vnodup _ _) h.jnodup h.side h.same_ptr
    refine ⟨hinv, ?_⟩
    have hb := hinv.store_eq ha'
    rw [hheld] at hb
    have hb' : ((s.held.lift (Res.ok PipeOut.unit, ⟨u, s.mem, (x, b) :: s.held.vec.bufs⟩)).2.store (c.at vr jres host)
          ((JagOp.vec (.create x cap rz)).ready q)) = _ := hb
    rw [hb'] at j2
    have j3 : JagStep c.cfg (s.store c q).bufs (.vec (.create x cap rz)) _ _ :=
      JagStep.at (v' := fun _ => 0) (j' := fun _ => 0) (h' := fun _ => none) j2 (by intro k caps rz h; cases h)
    have hst : Vars.store c { s with res := u, vecs := putVar s.vecs x ⟨b.view, b.mem, res⟩ } ((JagOp.vec (.create x cap rz)).ready q) =
        (s.store c q).putVec x ((Vars.store c { s with res := u, vecs := putVar s.vecs x ⟨b.view, b.mem, res⟩ }
          ((JagOp.vec (.create x cap rz)).ready q)).bufs.vec x) := by
      refine VarStore.ext_of (fun i => ?_) (fun i => rfl) (fun i => ?_) fun i => rfl
      · simp only [VarStore.putVec, Store.put]
        by_cases hi : i = x
        · rw [if_pos hi, hi]
        · rw [if_neg hi, store_vec, store_vec]
          simp only [lookup_putVar]
          rw [if_neg hi, hq i hi]
      · rw [store_vecs]
        simp only [VarStore.putVec, lookup_putVar, store_vecs]
        by_cases h1 : i = x
        · simp [h1]
        · rw [if_neg h1, beq_eq_false_iff_ne.2 h1]; simp
    rw [hst]
    exact .vecCreate x res cap rz j3
  | _ =>
    refine hfail _ ?_ j1 j2
    intro b hb; cases hb

theorem jagCreate_nil (src : Bool → MR σ) (u : σ) (t : CType) (hasHost rz : Bool) :
    JagBuffer.create src u t [] hasHost rz = (.ok ⟨0, 0, [], {}, {}, {}⟩, u) := by
  unfold JagBuffer.create allocOuter jagInner
  cases hasHost <;> cases rz <;> simp [wrap64, jagViews]

theorem unwind_not_ok {α : Type} {e : Res α} (he : ∀ a, e ≠ .ok a) : ∀ (ms : List (MR σ × UniqueAlloc)) (u : σ) (a : α),
    (unwind e ms u).1 ≠ .ok a := by
  intro ms
  induction ms with
  | nil => exact fun u a => he a
  | cons m ms ih =>
    intro u a
    unfold unwind
    split
    · exact ih _ _
    · intro h; cases h

theorem map_not_ok {α β : Type} {e : Res α} (he : ∀ a, e ≠ .ok a) (f : α → β) : ∀ b, e.map f ≠ .ok b := by
  intro b h
  cases e with
  | ok a => exact he a rfl
  | _ => cases h

theorem jagCreate_noHost {src : Bool → MR σ} {u u' : σ} {t : CType} {caps : List Nat} {rz : Bool} {b : JagBuffer}
    (h : JagBuffer.create src u t caps false rz = (.ok b, u')) : b.outer.ptr = 0 := by
  have h1 : (JagBuffer.create src u t caps false rz).1 = .ok b := by rw [h]
  unfold JagBuffer.create at h1
  have ha : allocOuter (src false) u (if false = true then caps.length else 0) = (.ok {}, u) := rfl
  rw [ha] at h1
  simp only at h1
  split at h1
  · split at h1
    · cases h1; rfl
    · rename_i e he
      exact absurd h1 (unwind_not_ok (map_not_ok (fun a ha => he a.1 a.2.1 a.2.2 ha) _) _ _ _)
  · rename_i e he
    exact absurd h1 (unwind_not_ok (map_not_ok (fun a ha => he a ha) _) _ _ _)

theorem vstep_jagCreate (hl : FamLawful R G ups u0) (hc : c.Wf) (h : VInv c R ups u0 s q) {x res : Nat} {hst : Option Nat}
    {caps : List Nat} {rz : Bool} (hf : (VarOp.jagCreate x res hst caps rz).Fits c R s.Outside (s.store c q)) :
    VStepOk c R ups u0 s q (.jagCreate x res hst caps rz) := by
  obtain ⟨hx, hf⟩ := hf
  have hx := absent_jag.1 hx
  obtain ⟨vres, jres, host, ha0⟩ := h.agrees
  have ha : Agrees s vres (fun i => if i = x then res else jres i) (fun i => if i = x then hst else host i) := by
    refine ⟨ha0.vec, ?_, ?_, ?_, ?_⟩ <;> intro e he <;> simp only [if_neg (absent_ne hx he)]
    · exact ha0.inner e he
    · exact ha0.outer e he
    · exact ha0.outerHost e he
    · exact ha0.host e he
  generalize hg : (fun i => if i = x then res else jres i) = jr at ha
  generalize hg' : (fun i => if i = x then hst else host i) = hr at ha
  have hjx : jr x = res := by rw [← hg]; simp
  have hhx : hr x = hst := by rw [← hg']; simp
  have hj := h.to ha
  have hse := h.store_eq ha
  have hf' : (JagOp.create x caps rz).Fits (c.at vres jr hr) R (s.held.Outside (c.at vres jr hr))
      (s.held.store (c.at vres jr hr) q) := by
    rw [hse]
    exact JagOp.Fits.at (v := fun _ => 0) (j := fun _ => 0) (h := fun _ => none) hf fun a n ho => h.outside ha ho
  obtain ⟨j1, j2⟩ := jag_step (p := s.held) hl (c := c.at vres jr hr) hc hj hf'
  rw [hse] at j2
  have hex : s.held.exec (c.at vres jr hr) ups (.create x caps rz) =
      (match JagBuffer.create (fun h => ups (if h then hst.getD 0 else res)) s.res (c.jagTy x) caps hst.isSome rz with
        | (.ok b, u) => (.ok (.vec .unit), ⟨⟨u, writeViews s.mem b.hostPtr b.views, s.held.vec.bufs⟩, (x, b) :: s.held.jags⟩)
        | (e, u) => (e.map fun _ => .vec .unit, ⟨⟨u, s.mem, s.held.vec.bufs⟩, s.held.jags⟩)) := by
    rw [← hjx, ← hhx]
    rfl
  rw [hex] at j1 j2
  unfold VStepOk
  simp only [Vars.exec, VarOp.ready]
  have hq : ∀ i, i ≠ x → ((JagOp.create x caps rz).ready q).jag i = q.jag i := fun i hi => by
    show (i != x && q.jag i) = q.jag i
    simp [hi]
  rcases hcr : JagBuffer.create (fun h => ups (if h then hst.getD 0 else res)) s.res (c.jagTy x) caps hst.isSome rz with ⟨r, u⟩
  rw [hcr] at j1 j2
  have hfail : ∀ (e : Res JagBuffer), (∀ b, e ≠ .ok b) →
      JInv (c.at vres jr hr) R ups u0 ⟨⟨u, s.mem, s.held.vec.bufs⟩, s.held.jags⟩ ((JagOp.create x caps rz).ready q) →
      JagStep (c.at vres jr hr) (s.store c q).bufs (.create x caps rz) (e.map fun _ => JagOut.vec .unit)
        (JPipe.store (c.at vres jr hr) ⟨⟨u, s.mem, s.held.vec.bufs⟩, s.held.jags⟩ ((JagOp.create x caps rz).ready q)) →
      VInv c R ups u0 { s with res := u } ((JagOp.create x caps rz).ready q) ∧
      VarStep c (s.store c q) (.jagCreate x res hst caps rz) (e.map fun _ => JagOut.vec .unit)
        (Vars.store c { s with res := u } ((JagOp.create x caps rz).ready q)) := by
    intro e he j1 j2
    have hinv : VInv c R ups u0 { s with res := u } ((JagOp.create x caps rz).ready q) :=
      VInv.of (s := { s with res := u }) j1 ⟨ha.vec, ha.inner, ha.outer, ha.outerHost, ha.host⟩ h.vnodup h.jnodup h.side h.same_ptr
    refine ⟨hinv, ?_⟩
    have hst' : Vars.store c { s with res := u } ((JagOp.create x caps rz).ready q) = s.store c q := by
      refine VarStore.ext_of (fun i => rfl) (fun i => ?_) (fun i => rfl) fun i => rfl
      rw [store_jag, store_jag]
      by_cases hi : i = x
      · rw [hi]
        show (s.jags.lookup x).bind _ = _
        rw [hx]; rfl
      · rw [hq i hi]
    rw [hst']
    have hb := hinv.store_eq (vres := vres) (jres := jr) (host := hr) ⟨ha.vec, ha.inner, ha.outer, ha.outerHost, ha.host⟩
    rw [hst'] at hb
    have hb' : (JPipe.store (c.at vres jr hr) ⟨⟨u, s.mem, s.held.vec.bufs⟩, s.held.jags⟩ ((JagOp.create x caps rz).ready q)) =
        (s.store c q).bufs := hb
    rw [hb'] at j2
    have j3 : JagStep (c.cfg 0 hst) (s.store c q).bufs (.create x caps rz) _ _ :=
      JagStep.at (v' := fun _ => 0) (j' := fun _ => 0) (h' := fun _ => hst) j2 (by intro k caps rz h; cases h; rw [hhx])
    cases e with
    | ok b => exact absurd rfl (he b)
    | badAlloc => exact .jagCreateFail x res hst caps rz j3
    | _ =>
      exfalso
      rcases jagStep_create j2 with h | h <;> cases h
  cases r with
  | ok b =>
    simp only at j1 j2 ⊢
    have hbo : JagOk (c.jagTy x) hst.isSome b := by
      have := j1.bufs (x, b) List.mem_cons_self
      rw [← hhx]
      exact this
    generalize hv : (JagVar.mk b.ptr b.hostPtr b.views ⟨b.outer, res⟩ ⟨b.outerHost, hst.getD res⟩ ⟨b.inner, res⟩) = v
    have hvb : v.buf = b := by rw [← hv]; rfl
    have hvv : v.views = b.views := by rw [← hv]
    have hholds : v.holds = true := by
      by_cases h0 : b.views = []
      · simp [JagVar.holds, hvv, h0]
      · have := (hbo.host h0).2.1
        rw [← hv]
        simp [JagVar.holds, this]
    have hnil : b.views = [] → b = ⟨0, 0, [], {}, {}, {}⟩ := by
      intro h0
      have hcaps : caps = [] := by
        obtain ⟨⟨d, hd1, hd2⟩, -⟩ := jagStep_create_put j2
        simp only [JPipe.store, List.lookup_cons, BEq.rfl, Option.map_some, Option.some.injEq] at hd1
        rw [← hd1] at hd2
        have hcl : b.views.map (·.capacity) = caps := hd2
        rw [h0] at hcl
        exact hcl.symm
      rw [hcaps, jagCreate_nil] at hcr
      cases hcr
      rfl
    have hnoHost : hst = none → b.outer.ptr = 0 := by
      intro h0
      rw [h0] at hcr
      exact jagCreate_noHost hcr
    have hside : v.Side := by
      rw [← hv]
      constructor
      · intro hh
        have hn : b.views = [] := by
          rcases hh with hh | hh
          · exact hh
          · by_cases h0 : b.views = []
            · exact h0
            · exact absurd hh (hbo.host h0).2.1
        rw [hnil hn]
        intro o ho
        simp only [JagVar.owners, List.mem_cons, List.not_mem_nil, or_false] at ho
        rcases ho with rfl | rfl | rfl <;> rfl
      · intro h0
        unfold JagVar.home
        by_cases h1 : b.outer.ptr = 0
        · simp only [h1, if_true]
          cases hst with
          | none => rfl
          | some hh =>
            exfalso
            by_cases h2 : b.views = []
            · rw [hnil h2] at h0; exact h0 rfl
            · exact (hbo.dev h2 rfl).2.1 h1
        · simp only [h1, if_false]
    have hheld : Vars.held { s with res := u, mem := writeViews s.mem b.hostPtr b.views, jags := putVar s.jags x v } =
        ⟨⟨u, writeViews s.mem b.hostPtr b.views, s.held.vec.bufs⟩, (x, b) :: s.held.jags⟩ := by
      simp only [Vars.held, putVar, filter_absent hx]
      rw [List.filter_cons, if_pos hholds, List.map_cons, hvb]
    have ha' : Agrees { s with res := u, mem := writeViews s.mem b.hostPtr b.views, jags := putVar s.jags x v } vres jr hr := by
      refine ⟨ha.vec, ?_, ?_, ?_, ?_⟩ <;> intro e he <;> rcases mem_putVar.1 he with rfl | ⟨he, _⟩
      · intro _; rw [← hv]; exact hjx
      · exact ha.inner e he
      · intro _; rw [← hv]; exact hjx
      · exact ha.outer e he
      · intro _
        rw [← hv]
        simp only [hjx, hhx]
        cases hst <;> rfl
      · exact ha.outerHost e he
      · intro hne _
        simp only [hhx]
        rw [hvv] at hne
        cases hst with
        | none => rw [← hv]; simp [hnoHost rfl]
        | some hh => rw [← hv]; simp [(hbo.dev hne rfl).2.1]
      · exact ha.host e he
    have hsame : ∀ e ∈ putVar s.jags x v, e.2.views = [] → e.2.ptr = e.2.hostPtr := by
      intro e he h0
      rcases mem_putVar.1 he with rfl | ⟨he, _⟩
      · rw [← hv] at h0 ⊢
        have := hnil h0
        rw [this]
      · exact h.same_ptr e he h0
    have hsides : ∀ e ∈ putVar s.jags x v, e.2.Side := by
      intro e he
      rcases mem_putVar.1 he with rfl | ⟨he, _⟩
      · exact hside
      · exact h.side e he
    have hinv : VInv c R ups u0 { s with res := u, mem := writeViews s.mem b.hostPtr b.views, jags := putVar s.jags x v }
        ((JagOp.create x caps rz).ready q) :=
      VInv.of (by rw [hheld]; exact j1) ha' h.vnodup (nodup_putVar h.jnodup _ _) hsides hsame
    refine ⟨hinv, ?_⟩
    have hb := hinv.store_eq ha'
    rw [hheld] at hb
    rw [hb] at j2
    have j3 : JagStep (c.cfg 0 hst) (s.store c q).bufs (.create x caps rz) _ _ :=
      JagStep.at (v' := fun _ => 0) (j' := fun _ => 0) (h' := fun _ => hst) j2 (by intro k caps rz h; cases h; rw [hhx])
    obtain ⟨-, hput⟩ := jagStep_create_put j3
    generalize hs' : ({ s with res := u, mem := writeViews s.mem b.hostPtr b.views, jags := putVar s.jags x v } : Vars σ) = s' at *
    have hst' : s'.store c ((JagOp.create x caps rz).ready q) =
        (s.store c q).putJag x ((s'.store c ((JagOp.create x caps rz).ready q)).bufs.jag x) := by
      refine VarStore.ext_of (fun i => ?_) (fun i => ?_) (fun i => ?_) fun i => ?_
      · exact congrFun (congrArg JStore.vec hput) i
      · exact congrFun (congrArg JStore.jag hput) i
      · rw [← hs']; rfl
      · rw [store_jags, ← hs']
        simp only [VarStore.putJag, lookup_putVar, store_jags]
        by_cases h1 : i = x
        · simp [h1]
        · rw [if_neg h1, beq_eq_false_iff_ne.2 h1]; simp
    rw [hst']
    exact .jagCreate x res hst caps rz j3
  | badAlloc => exact hfail .badAlloc (fun _ hb => by cases hb) j1 j2
  | logicError => exact hfail .logicError (fun _ hb => by cases hb) j1 j2
  | lengthError => exact hfail .lengthError (fun _ hb => by cases hb) j1 j2
  | invalidArgument => exact hfail .invalidArgument (fun _ hb => by cases hb) j1 j2
  | outOfRange => exact hfail .outOfRange (fun _ hb => by cases hb) j1 j2
  | runtimeError => exact hfail .runtimeError (fun _ hb => by cases hb) j1 j2
  | ub => exact hfail .ub (fun _ hb => by cases hb) j1 j2

end Vecmem
