import Verif.Lemmas.EdmPipeline

/-! # Lemmas for C65: construction, destruction, `setup` and `memset` -/

namespace Vecmem

open IntMath Props

variable {σ : Type} {R : Limits} {G : Nat} {ups : Nat → MR σ} {u0 : σ} {c : EdmCfg} {p : EPipe σ} {q : EReady}

/-- A step keeps the invariant, and does what the specification says. -/
def EStepOk (c : EdmCfg) (R : Limits) (G : Nat) (ups : Nat → MR σ) (u0 : σ) (p : EPipe σ) (q : EReady) (op : EdmOp) : Prop :=
  EInv c R G ups u0 (p.exec c ups op).2 (op.ready q) ∧
  EdmStep c (p.store c q) op (p.exec c ups op).1 ((p.exec c ups op).2.store c (op.ready q))

/-! ## The views written by the constructor -/

/-- The byte at `x` is in the host's array of views of the variable. -/
def VarView.InHost (x : VarView) (a : Nat) : Prop :=
  match x with
  | .jagged j => j.hostPtr ≤ a ∧ a < j.hostPtr + j.views.length * viewSize
  | _ => False

theorem writeLayouts_other : ∀ {xs : List VarView} {m : Mem} {a : Nat}, (∀ x ∈ xs, ¬ x.InHost a) → writeLayouts m xs a = m a := by
  intro xs
  induction xs with
  | nil => intros; rfl
  | cons x xs ih =>
    intro m a h
    have h1 := h x List.mem_cons_self
    have h2 : ∀ y ∈ xs, ¬ y.InHost a := fun y hy => h y (List.mem_cons_of_mem _ hy)
    cases x with
    | scalar p => exact ih h2
    | vector v => exact ih h2
    | jagged j =>
      simp only [writeLayouts]
      rw [ih h2]
      exact writeViews_other h1

theorem writeLayouts_described : ∀ {xs : List VarView} {m : Mem},
    xs.Pairwise (fun x y => ∀ a, ¬ (x.InHost a ∧ y.InHost a)) →
    (∀ j, VarView.jagged j ∈ xs → ∀ v ∈ j.views, v.capacity < 2 ^ 32 ∧ v.sizePtr < 2 ^ 64 ∧ (v.capacity ≠ 0 → v.ptr < 2 ^ 64)) →
    ∀ j, VarView.jagged j ∈ xs → DescribedAt (writeLayouts m xs) j.hostPtr j.views := by
  intro xs
  induction xs with
  | nil => intro m _ _ j hj; cases hj
  | cons x xs ih =>
    intro m hp hs j hj
    rw [List.pairwise_cons] at hp
    have hs' : ∀ j, VarView.jagged j ∈ xs → ∀ v ∈ j.views, v.capacity < 2 ^ 32 ∧ v.sizePtr < 2 ^ 64 ∧ (v.capacity ≠ 0 → v.ptr < 2 ^ 64) :=
      fun j hj => hs j (List.mem_cons_of_mem _ hj)
    rcases List.mem_cons.1 hj with rfl | hj'
    · simp only [writeLayouts]
      refine described_congr (writeViews_described (m := m) (hs j List.mem_cons_self)) fun y hy => writeLayouts_other ?_
      intro z hz hc
      exact hp.1 z hz _ ⟨⟨by omega, by omega⟩, hc⟩
    · cases x with
      | scalar p => exact ih hp.2 hs' j hj'
      | vector v => exact ih hp.2 hs' j hj'
      | jagged j' => exact ih hp.2 hs' j hj'

/-- The host's arrays of views of different variables share no memory. -/
theorem EdmOk.host_pairwise {S : Schema} {A : Nat} {hasHost : Bool} {b : EBuffer} (h : EdmOk σ R G S A hasHost b) :
    b.buf.view.vars.Pairwise (fun x y => ∀ a, ¬ (x.InHost a ∧ y.InHost a)) := by
  cases hh : hasHost with
  | true =>
    have := h.placed.hostDisjoint hh
    unfold EdmView.hostLayouts at this
    rw [List.pairwise_filterMap] at this
    refine this.imp ?_
    intro x y hxy a ⟨hx, hy⟩
    cases x with
    | scalar _ => exact hx
    | vector _ => exact hx
    | jagged j =>
      cases y with
      | scalar _ => exact hy
      | vector _ => exact hy
      | jagged j' =>
        have := hxy _ rfl _ rfl
        refine this.at a ⟨?_, ?_⟩
        · simpa only [Blk.At, CType.region, CType.view, VarView.InHost] using hx
        · simpa only [Blk.At, CType.region, CType.view, VarView.InHost] using hy
  | false =>
    have hd := h.placed.disjoint
    unfold EdmView.regions at hd
    rw [List.pairwise_append, List.pairwise_flatMap] at hd
    have hd := hd.2.1.2
    rw [List.pairwise_iff_getElem] at hd ⊢
    intro i i' hi hi' hlt a ⟨hx, hy⟩
    have hlen : (S.zip b.buf.view.vars).length = b.buf.view.vars.length := by simp [h.placed.count]
    have := hd i i' (by omega) (by omega) hlt
    simp only [List.getElem_zip] at this
    have hmx : b.buf.view.vars[i] ∈ b.buf.view.vars := List.getElem_mem _
    have hmy : b.buf.view.vars[i'] ∈ b.buf.view.vars := List.getElem_mem _
    generalize b.buf.view.vars[i] = x at *
    generalize b.buf.view.vars[i'] = y at *
    cases x with
    | scalar _ => exact hx
    | vector _ => exact hx
    | jagged j =>
      cases y with
      | scalar _ => exact hy
      | vector _ => exact hy
      | jagged j' =>
        have h1 := ((h.jagged_facts hmx).2 (EdmOk.views_ne hx)).2
        have h2 := ((h.jagged_facts hmy).2 (EdmOk.views_ne hy)).2
        rw [hh, if_neg (by simp)] at h1 h2
        have h3 := this _ (by simp only [VarView.regions]; exact List.mem_cons_self) _
          (by simp only [VarView.regions]; exact List.mem_cons_self)
        refine h3.at a ⟨?_, ?_⟩
        · simp only [VarView.InHost, h1] at hx
          simpa only [Blk.At, CType.region, CType.view] using hx
        · simp only [VarView.InHost, h2] at hy
          simpa only [Blk.At, CType.region, CType.view] using hy

/-- What cannot grow is as long as it can be. -/
theorem rowsFull {S : Schema} {A : Nat} {hasHost : Bool} {b : EBuffer} (h : EdmOk σ R G S A hasHost b) (m : Mem)
    {i : Nat} {v : Var} {x : VarView} (hv : S[i]? = some v) (hx : b.buf.view.vars[i]? = some x)
    (hg : S.grows b.resizable v = false) : RowsFull v.type.size (v.rowCaps b.caps) (x.rows.map fun r => r.elems m v.type.size) := by
  obtain ⟨-, h1, h2⟩ := h.row_facts hv hx
  constructor
  · rw [← h1, List.map_map]
    apply List.map_congr_left
    intro w hw
    simp only [Function.comp, elems_length]
    have : w.sizePtr = 0 := by
      by_cases h0 : w.sizePtr = 0
      · exact h0
      · rw [(h2 w hw).1 h0] at hg
        cases hg
    simp [View.len, this]
  · intro l hl e he
    obtain ⟨w, -, rfl⟩ := List.mem_map.1 hl
    exact elems_sized m v.type.size w e he

theorem tableOf_length {S : Schema} {A : Nat} {hasHost : Bool} {b : EBuffer} (h : EdmOk σ R G S A hasHost b) (m : Mem) :
    (tableOf m S b.buf.view.vars).length = S.length := by
  simp [tableOf, h.placed.count]

/-- The variables of the table of a buffer. -/
theorem tableOf_at {S : Schema} {A : Nat} {hasHost : Bool} {b : EBuffer} (h : EdmOk σ R G S A hasHost b) {m : Mem} {i : Nat} {v : Var}
    (hv : S[i]? = some v) : ∃ x, b.buf.view.vars[i]? = some x ∧
      (tableOf m S b.buf.view.vars)[i]? = some (x.rows.map fun r => r.elems m v.type.size) := by
  have hlt : i < b.buf.view.vars.length := by rw [h.placed.count]; exact (List.getElem?_eq_some_iff.1 hv).1
  have hx := List.getElem?_eq_getElem hlt
  exact ⟨_, hx, tableOf_get hv hx⟩

/-- The construction of a buffer. -/
theorem FamLawful.edmCreate (hl : FamLawful R G ups u0) {u : σ} {T : List (Nat × Blk)} (h : FReach R ups u0 u T) (src : Bool → Nat)
    {S : Schema} (hS : S ≠ []) {caps : List Nat} (ho : S.Ok caps) {A : Nat} (hA : ∀ v ∈ S, v.type.align ≤ A) (hA8 : 8 ≤ A)
    (hq : IsReq R (S.room caps A) maxAlign) (hsm : S.room caps A < 2 ^ 32) (hasHost r : Bool) :
    (∃ b u', EdmBuffer.create (fun h => ups (src h)) u S caps hasHost r = (.ok b, u') ∧
      EdmOk σ R G S A hasHost ⟨b, caps, r⟩ ∧ FReach R ups u0 u' ((⟨b, caps, r⟩ : EBuffer).blocks src ++ T)) ∨
    (∃ u', EdmBuffer.create (fun h => ups (src h)) u S caps hasHost r = (.badAlloc, u') ∧ FReach R ups u0 u' T) := by
  have hl' := hl.after h src
  have := c42_edm_buffer_partial (fun h => ups (src h)) u u [] hl' .init S hS caps ho hasHost r A hA hA8 hq
  cases e : EdmBuffer.create (fun h => ups (src h)) u S caps hasHost r with
  | mk res u' =>
    rw [e] at this
    cases res with
    | ok b =>
      simp only [List.append_nil] at this
      exact .inl ⟨b, u', rfl, ⟨hS, ho, hA, hA8, hq, hsm, _, u, u, u', hl', .init, e⟩, h.after this.1⟩
    | badAlloc => exact .inr ⟨u', rfl, h.after this⟩
    | _ => exact this.elim

theorem EdmCfg.Wf.schema_ne (hw : c.Wf) (k : Nat) : c.schema k ≠ [] := by
  obtain ⟨v, hv, -⟩ := (hw.2 k).1
  exact List.ne_nil_of_mem hv

theorem EdmCfg.Wf.aligns (hw : c.Wf) (k : Nat) : ∀ v ∈ c.schema k, v.type.align ≤ c.align := by
  intro v hv
  obtain ⟨i, hi⟩ := List.mem_iff_getElem?.1 hv
  exact ((hw.2 k).2 i v hi).2.1

theorem lookup_ne {β : Type} {l : List (Nat × β)} {k : Nat} (h : l.lookup k = none) : ∀ e ∈ l, e.1 ≠ k :=
  fun e he hc => lookup_none h (hc ▸ List.mem_map.2 ⟨e, he, rfl⟩)

theorem estep_create (hw : c.Wf) (hl : FamLawful R G ups u0) (h : EInv c R G ups u0 p q) {k : Nat} {caps : List Nat} {r : Bool}
    {out : Nat → Nat → Prop} (hf : (EdmOp.create k caps r).Fits c R G out (p.store c q)) : EStepOk c R G ups u0 p q (.create k caps r) := by
  obtain ⟨f1, f2, f3, f4⟩ := hf
  have hnone := EPipe.store_none f1
  have hne := lookup_ne hnone
  unfold EStepOk
  rcases hl.edmCreate h.reach (c.source k) (hw.schema_ne k) f2 (hw.aligns k) hw.1 f3 f4 (c.hasHost k) r with
    ⟨b, u', e, ho, hr⟩ | ⟨u', e, hr⟩
  · have hex : p.exec c ups (.create k caps r) = (.ok .unit, ⟨u', writeLayouts p.mem b.view.vars, (k, ⟨b, caps, r⟩) :: p.bufs⟩) := by
      simp only [EPipe.exec, e]
    rw [hex]
    -- other buffers do not change
    have hfar : ∀ e ∈ p.bufs, ∀ x, e.2.Owns x → writeLayouts p.mem b.view.vars x = p.mem x := by
      intro e he x hx
      apply writeLayouts_other
      intro y hy hc
      have hown : (⟨b, caps, r⟩ : EBuffer).Owns x := by
        cases y with
        | scalar _ => exact hc.elim
        | vector _ => exact hc.elim
        | jagged j => exact ho.host_in ⟨j, hy, hc⟩
      rw [EBuffer.owns_iff (src := c.source k)] at hown
      rw [EBuffer.owns_iff (src := c.source e.1)] at hx
      obtain ⟨f, hf, f1, f2⟩ := hown
      obtain ⟨g, hg, g1, g2⟩ := hx
      have := (List.pairwise_append.1 (hl.live hr).2).2.2 f hf g (by rw [EPipe.owned_eq]; exact List.mem_flatMap.2 ⟨e, he, hg⟩)
      unfold Blk.Disjoint at this
      omega
    have hkn : ∀ i, i ≠ k → ((EdmOp.create k caps r).ready q).known i = q.known i := fun i hi => by simp [EdmOp.ready, hi]
    have hdn : ∀ i, i ≠ k → ((EdmOp.create k caps r).ready q).dev i = q.dev i := fun i hi => by simp [EdmOp.ready, hi]
    have hkk : ((EdmOp.create k caps r).ready q).known k = false := by simp [EdmOp.ready]
    have hdk : ((EdmOp.create k caps r).ready q).dev k = false := by simp [EdmOp.ready]
    have hinv : EInv c R G ups u0 ⟨u', writeLayouts p.mem b.view.vars, (k, ⟨b, caps, r⟩) :: p.bufs⟩ ((EdmOp.create k caps r).ready q) := by
      refine ⟨?_, ?_, ?_, ?_⟩
      · exact hr
      · exact List.nodup_cons.2 ⟨lookup_none hnone, h.nodup⟩
      · intro e he
        rcases List.mem_cons.1 he with rfl | he'
        · exact ho
        · exact h.bufs e he'
      · intro e he
        rcases List.mem_cons.1 he with rfl | he'
        · rw [hkk, hdk]
          refine ⟨?_, ?_, fun hd => by cases hd⟩
          · intro hr x hx v hv
            simp only [Bool.or_false, Bool.not_eq_true'] at hr
            obtain ⟨i, w, hw, hi, -⟩ := ho.var_at hx
            have := (ho.row_facts hw hi).2.2 v hv
            have h0 : v.sizePtr = 0 := by
              by_cases h0 : v.sizePtr = 0
              · exact h0
              · have := this.1 h0
                simp [Schema.grows, hr] at this
            simp [View.len, h0]
          · exact fun j hj => writeLayouts_described ho.host_pairwise (fun j hj => ho.small_views hj) j hj
        · rw [hkn _ (hne e he'), hdn _ (hne e he')]
          exact (h.good e he').congr (h.bufs e he') (hfar e he')
    refine ⟨hinv, ?_⟩
    have hstore : EPipe.store c ⟨u', writeLayouts p.mem b.view.vars, (k, ⟨b, caps, r⟩) :: p.bufs⟩ ((EdmOp.create k caps r).ready q) =
        (p.store c q).put k (some ⟨caps, r, if !r then some (tableOf (writeLayouts p.mem b.view.vars) (c.schema k) b.view.vars) else none,
          !((c.schema k).hasJagged && c.hasHost k)⟩) := by
      funext i
      unfold EStore.put
      by_cases hik : i = k
      · subst hik
        simp only [EPipe.store, List.lookup_cons, beq_self_eq_true, if_true, hkk, hdk, Bool.or_false, Option.map_some]
      · rw [if_neg hik]
        have hb : (i == k) = false := by simpa using hik
        simp only [EPipe.store, List.lookup_cons, hb, hkn i hik, hdn i hik]
        cases hbi : p.bufs.lookup i with
        | none => rfl
        | some b' =>
          have hbm' := mem_of_lookup hbi
          simp only [Option.map_some, Option.some.injEq, EBuf.mk.injEq, true_and, and_true]
          split
          · rename_i hkn
            rw [tableOf_congr (h.bufs _ hbm') ((h.good _ hbm').sizes hkn) fun x hx => hfar _ hbm' x ((h.bufs _ hbm').data_in hx)]
          · rfl
    rw [hstore]
    cases r with
    | true => exact .createResizable k caps
    | false =>
      refine .createFixed k caps _ ⟨tableOf_length ho _, ?_⟩
      intro i v rows hv hr
      obtain ⟨x, hx, hx'⟩ := tableOf_at ho (m := writeLayouts p.mem b.view.vars) hv
      rw [hx'] at hr
      cases hr
      exact rowsFull ho _ hv hx (by simp [Schema.grows])
  · have hex : p.exec c ups (.create k caps r) = (.badAlloc, { p with res := u' }) := by
      simp only [EPipe.exec, e, Res.map]
    rw [hex]
    have hkn : ∀ e ∈ p.bufs, ((EdmOp.create k caps r).ready q).known e.1 = q.known e.1 := fun e he => by simp [EdmOp.ready, hne e he]
    have hdn : ∀ e ∈ p.bufs, ((EdmOp.create k caps r).ready q).dev e.1 = q.dev e.1 := fun e he => by simp [EdmOp.ready, hne e he]
    refine ⟨⟨hr, h.nodup, h.bufs, fun e he => ?_⟩, ?_⟩
    · rw [hkn e he, hdn e he]
      exact h.good e he
    · have : EPipe.store c { p with res := u' } ((EdmOp.create k caps r).ready q) = p.store c q := by
        funext i
        simp only [EPipe.store]
        cases hbi : p.bufs.lookup i with
        | none => rfl
        | some b' =>
          have hbm' := mem_of_lookup hbi
          rw [hkn _ hbm', hdn _ hbm']
      rw [this]
      exact .createFail k caps r

/-! ## Destruction -/

theorem EBuffer.blocks_eq (src : Bool → Nat) (b : EBuffer) :
    b.blocks src = heldBy [(src true, b.buf.hostMem), (src false, b.buf.mem)] := by
  simp only [EBuffer.blocks, EdmBuffer.owned, heldBy, List.filter_cons, List.filter_nil]
  by_cases z1 : b.buf.hostMem.ptr = 0 <;> by_cases z2 : b.buf.mem.ptr = 0 <;> simp [z1, z2, UniqueAlloc.blk]

theorem FamLawful.edmDestroy (hl : FamLawful R G ups u0) (src : Bool → Nat) {u : σ} {b : EBuffer} {T : List (Nat × Blk)}
    (h1 : FReach R ups u0 u (b.blocks src ++ T)) :
    ∃ u', b.buf.destroy (fun h => ups (src h)) u = (.ok (), u') ∧ FReach R ups u0 u' T := by
  rw [EBuffer.blocks_eq] at h1
  exact unwind_ok hl (.ok ()) _ u h1

theorem estep_destroy (hl : FamLawful R G ups u0) (h : EInv c R G ups u0 p q) {k : Nat}
    {out : Nat → Nat → Prop} (hf : (EdmOp.destroy k).Fits c R G out (p.store c q)) : EStepOk c R G ups u0 p q (.destroy k) := by
  obtain ⟨v, hv⟩ := hf
  obtain ⟨b, hb⟩ := EPipe.store_exists hv
  have hbm := mem_of_lookup hb
  have hperm := perm_filter h.nodup hbm
  have hreach : FReach R ups u0 p.res (b.blocks (c.source k) ++
      (p.bufs.filter fun e => e.1 != k).flatMap fun e => e.2.blocks (c.source e.1)) := by
    refine .perm h.reach ?_
    rw [EPipe.owned_eq]
    exact hperm.flatMap_right _
  obtain ⟨u', d1, d2⟩ := hl.edmDestroy (c.source k) hreach
  have hex : p.exec c ups (.destroy k) = (.ok .unit, { p with res := u', bufs := p.bufs.filter fun e => e.1 != k }) := by
    simp only [EPipe.exec, hb, d1, Res.map]
  unfold EStepOk
  rw [hex]
  refine ⟨⟨d2, ?_, ?_, ?_⟩, ?_⟩
  · exact (h.nodup.sublist ((List.filter_sublist).map _))
  · exact fun e he => h.bufs e (List.mem_filter.1 he).1
  · exact fun e he => h.good e (List.mem_filter.1 he).1
  · have : EPipe.store c { p with res := u', bufs := p.bufs.filter fun e => e.1 != k } ((EdmOp.destroy k).ready q) =
        (p.store c q).put k none := by
      funext i
      simp only [EPipe.store, EStore.put, EdmOp.ready, lookup_filter]
      by_cases hik : i = k
      · simp [hik]
      · simp [hik]
    rw [this]
    exact .destroy k

/-! ## `setup` -/

theorem caps_nil {S : Schema} {A : Nat} {hasHost : Bool} {b : EBuffer} (ho : EdmOk σ R G S A hasHost b) (h : b.caps = []) :
    ∀ j, VarView.jagged j ∈ b.buf.view.vars → j.views = [] := by
  intro j hj
  have := (ho.jagged_facts hj).1
  rw [h] at this
  exact List.length_eq_zero_iff.1 this

theorem estep_setup (hl : FamLawful R G ups u0) (h : EInv c R G ups u0 p q) {k : Nat}
    {out : Nat → Nat → Prop} (hf : (EdmOp.setup k).Fits c R G out (p.store c q)) : EStepOk c R G ups u0 p q (.setup k) := by
  obtain ⟨⟨caps, r, t, d⟩, hv, hcr⟩ := hf
  obtain ⟨b, hb, hbm, rfl, rfl, ho, hg, ht, hd⟩ := h.get hv
  simp only at hcr
  -- what is in memory afterwards
  have key : ∃ m', (setupEdm c.dbg b.buf.view).result p.mem = (.ok (), m') ∧
      (∀ x ∈ b.buf.view.vars, ∀ v ∈ x.rows, v.sizePtr ≠ 0 → v.len m' = 0) ∧
      (∀ j, VarView.jagged j ∈ b.buf.view.vars → DescribedAt m' j.hostPtr j.views ∧ DescribedAt m' j.ptr j.views) ∧
      (∀ a, ¬ b.Owns a → m' a = p.mem a) ∧
      (∀ (i : Nat) (v : Var) (x : VarView), (c.schema k)[i]? = some v → b.buf.view.vars[i]? = some x →
        ∀ a, x.HasPayload v.type.size a → m' a = p.mem a) := by
    by_cases hc : b.caps = []
    · have hr := hcr hc
      refine ⟨p.mem, ?_, ?_, ?_, fun _ _ => rfl, fun _ _ _ _ _ _ _ => rfl⟩
      · have hcap : b.buf.view.capacity = 0 := by rw [ho.placed.capacity, hc]; rfl
        have : setupEdm c.dbg b.buf.view = Prog.retNoEvent := by simp [setupEdm, hcap]
        rw [this]
        rfl
      · intro x hx v hv h0
        obtain ⟨i, w, hw, hi, -⟩ := ho.var_at hx
        have := ((ho.row_facts hw hi).2.2 v hv).1 h0
        simp [Schema.grows, hr] at this
      · intro j hj
        rw [caps_nil ho hc j hj]
        constructor <;> (intro i v hi; simp at hi)
    · obtain ⟨ups', u0', hone⟩ := ho.one
      obtain ⟨m', e1, e2, e3, e4, e5⟩ := c40_setup_container_partial ups' u0' _ _ _ _ _ hone hc c.dbg p.mem
      have hbytes : ∀ {m1 m2 : Mem} {a b n : Nat}, bytesAt m1 a n = bytesAt m2 b n → ∀ y, y < n → m1 (a + y) = m2 (b + y) := by
        intro m1 m2 a b n he y hy
        have := congrArg (·[y]?) he
        simp only [bytesAt_get hy, Option.some.injEq] at this
        exact this
      refine ⟨m', e1, e2, ?_, ?_, e5⟩
      · intro j hj
        obtain ⟨f1, f2⟩ := e3 j hj
        exact ⟨described_congr (hg.host j hj) fun y hy => hbytes f2 y hy, described_congr (hg.host j hj) fun y hy => hbytes f1 y hy⟩
      · intro a ha
        refine e4 a (fun hs => ha (ho.data_in (ho.data_iff.2 (.inr hs)))) (fun hs => ha (ho.owns_blk ?_))
        refine EdmOk.at_inside (ho.blocks.inside _ (by simp) ?_) hs
        have := hs.1
        have := hs.2
        omega
  obtain ⟨m', e1, e2, e3, e4, e5⟩ := key
  have hex : p.exec c ups (.setup k) = (.ok .unit, { p with mem := m' }) := by
    simp only [EPipe.exec, hb, EPipe.onMem, e1, Res.map]
  have hsz : EdmSizes m' b.buf.view := by
    intro x hx v hv
    by_cases h0 : v.sizePtr = 0
    · simp [View.len, h0]
    · rw [e2 x hx v hv h0]
      exact Nat.zero_le _
  obtain ⟨i1, i2⟩ := h.change hl hb e4 (q' := (EdmOp.setup k).ready q) (fun i hi => by simp [EdmOp.ready, hi])
    (fun i hi => by simp [EdmOp.ready, hi]) ⟨fun _ => hsz, fun j hj => (e3 j hj).1, fun _ j hj => (e3 j hj).2⟩
  unfold EStepOk
  rw [hex]
  refine ⟨i1, ?_⟩
  rw [i2]
  have hk : ((EdmOp.setup k).ready q).known k = true := by simp [EdmOp.ready]
  have hdk : ((EdmOp.setup k).ready q).dev k = true := by simp [EdmOp.ready]
  rw [hk, hdk, Bool.or_true, Bool.or_true, if_pos rfl]
  refine .setup k hv ?_
  -- the new table
  have hgrow : ∀ (i : Nat) (v : Var) (x : VarView), (c.schema k)[i]? = some v → b.buf.view.vars[i]? = some x →
      (c.schema k).grows b.resizable v = true → (x.rows.map fun r => r.elems m' v.type.size) = (v.rowCaps b.caps).map fun _ => [] := by
    intro i v x hv hx hgr
    obtain ⟨-, h1, h2⟩ := ho.row_facts hv hx
    rw [← h1, List.map_map]
    apply List.map_congr_left
    intro w hw
    have := e2 x (List.mem_of_getElem? hx) w hw ((h2 w hw).2 hgr)
    exact List.length_eq_zero_iff.1 (by rw [elems_length, this])
  cases ht' : t with
  | none =>
    refine ⟨tableOf_length ho _, ?_⟩
    intro i v rows hv hr
    obtain ⟨x, hx, hx'⟩ := tableOf_at ho (m := m') hv
    rw [hx'] at hr
    cases hr
    cases hgr : (c.schema k).grows b.resizable v with
    | true => rw [if_pos rfl]; exact hgrow i v x hv hx hgr
    | false => rw [if_neg (by simp)]; exact rowsFull ho _ hv hx hgr
  | some t0 =>
    rw [ht'] at ht
    split at ht
    · cases ht
      refine ⟨tableOf_length ho _, tableOf_length ho _, ?_⟩
      intro i v rows rows' hv hr hr'
      obtain ⟨x, hx, hx'⟩ := tableOf_at ho (m := m') hv
      rw [tableOf_get hv hx] at hr
      rw [hx'] at hr'
      cases hr
      cases hr'
      cases hgr : (c.schema k).grows b.resizable v with
      | true => rw [if_pos rfl]; exact hgrow i v x hv hx hgr
      | false =>
        rw [if_neg (by simp)]
        apply List.map_congr_left
        intro w hw
        have h0 : w.sizePtr = 0 := by
          by_cases h0 : w.sizePtr = 0
          · exact h0
          · rw [((ho.row_facts hv hx).2.2 w hw).1 h0] at hgr
            cases hgr
        refine elems_congr (by simp [View.len, h0]) ?_
        rintro y (hy | hy)
        · exact e5 i v x hv hx y ⟨w, hw, hy⟩
        · exact absurd h0 hy.1
    · cases ht

/-! ## `memset` -/

theorem fill_elems {m' : Mem} {t : Nat} {w : View} {value : UInt8} {n : Nat} (hn : n ≤ w.capacity) (h : ∀ a, w.HasPayload t a → m' a = value) :
    ((List.range n).map fun i => bytesAt m' (w.ptr + i * t) t) = (List.range n).map fun _ => List.replicate t value := by
  apply List.map_congr_left
  intro i hi
  have hi := List.mem_range.1 hi
  apply List.ext_getElem?
  intro j
  by_cases hj : j < t
  · rw [bytesAt_get hj, List.getElem?_replicate, if_pos hj, h _ ⟨by omega, ?_⟩]
    have : (i + 1) * t ≤ w.capacity * t := Nat.mul_le_mul_right t (by omega)
    rw [Nat.succ_mul] at this
    omega
  · rw [List.getElem?_eq_none (by rw [bytesAt_length]; omega), List.getElem?_eq_none (by simp; omega)]

theorem estep_memset (hl : FamLawful R G ups u0) (h : EInv c R G ups u0 p q) {k : Nat} {value : UInt8}
    {out : Nat → Nat → Prop} (hf : (EdmOp.memset k value).Fits c R G out (p.store c q)) : EStepOk c R G ups u0 p q (.memset k value) := by
  obtain ⟨⟨caps, r, t, d⟩, hv, hcr⟩ := hf
  obtain ⟨b, hb, hbm, rfl, rfl, ho, hg, ht, hd⟩ := h.get hv
  obtain ⟨ups', u0', hone⟩ := ho.one
  obtain ⟨m', e1, e2, e3, e4⟩ := c40_memset_container_partial ups' u0' _ _ _ _ _ hone hcr value p.mem
  have hex : p.exec c ups (.memset k value) = (.ok .unit, { p with mem := m' }) := by
    simp only [EPipe.exec, hb, EPipe.onMem, e1, Res.map]
  obtain ⟨i1, i2⟩ := h.changeData hl hb (m' := m') (fun x hx => e3 x fun hc => hx (.inr (.inl hc))) (q' := q) (fun _ _ => rfl) rfl
    (fun hk x hx v hv => by rw [e4 x hx v hv]; exact hg.sizes hk x hx v hv)
  unfold EStepOk
  rw [hex]
  refine ⟨i1, ?_⟩
  show EdmStep c (p.store c q) (.memset k value) (.ok .unit) (EPipe.store c { p with mem := m' } q)
  rw [i2]
  have hst : (if (!b.resizable || q.known k) = true then some (tableOf m' (c.schema k) b.buf.view.vars) else none) =
      t.map (Table.fill (c.schema k) value) := by
    rw [ht]
    split
    · rename_i hk
      simp only [Option.map_some, Option.some.injEq]
      apply List.ext_getElem?
      intro i
      cases hvi : (c.schema k)[i]? with
      | none => simp [tableOf, Table.fill, List.getElem?_zipWith, hvi]
      | some v =>
        obtain ⟨x, hx, hx'⟩ := tableOf_at ho (m := m') hvi
        rw [hx']
        simp only [Table.fill, List.getElem?_zipWith, hvi, tableOf_get (m := p.mem) hvi hx, List.map_map, Option.some.injEq]
        apply List.map_congr_left
        intro w hw
        have hlen := e4 x (List.mem_of_getElem? hx) w hw
        have hle := hg.sizes hk x (List.mem_of_getElem? hx) w hw
        simp only [Function.comp, View.elems, List.map_map, hlen]
        exact fill_elems hle fun a ha => e2 i v x hvi hx a ⟨w, hw, ha⟩
    · rfl
  rw [hst, ← hd]
  exact .memset k value hv

end Vecmem
