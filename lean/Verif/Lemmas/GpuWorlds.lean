import Verif.Lemmas.GpuPrograms
import Verif.Lemmas.World

/-! # Programs over base resources that throw `runtime_error` -/

namespace Vecmem

theorem KindSpec.passes {K : Kind} {P : K.ι → Port} {q : Port} {J : K.τ → List Blk → List (K.ι × Blk) → Prop}
    (h : KindSpec K P q J) (hp : K.PassesOn) : KindSpecE true K P q J where
  create := by
    intro σ ups I hf u hI
    have := h.create hf hI
    simp only [errs] at this
    rw [hp.create] at this
    exact this
  serves := by
    intro σ ups I hf
    have := h.serves hf
    simp only [errs] at this
    rw [hp.mr] at this
    exact this
  gap := fun hf => h.gap hf
  inside := fun hf => h.inside hf
  destroy := by
    intro σ ups I hf t u H hJ hI
    have := h.destroy hf hJ hI
    simp only [errs] at this
    rw [hp.destroy] at this
    exact this

/-- How a resource answers whose answers are correct with the exception exchanged. -/
theorem allocate_of_asBad {σ : Type} {m : MR σ} {s s' : σ} {n a : Nat} {r : Res Nat}
    (h : (errs true m).allocate s n a = (r, s')) (hr : r ≠ .badAlloc) : m.allocate s n a = (r, s') := by
  simp only [errs, asBadAlloc] at h
  rcases hx : m.allocate s n a with ⟨x, s1⟩
  rw [hx] at h
  obtain ⟨h1, rfl⟩ := Prod.mk.inj h
  cases x <;> simp only [Res.runtimeAsBad] at h1 <;> first | rw [h1] | exact absurd h1.symm hr

theorem allocate_of_asBad' {σ : Type} {m : MR σ} {s s' : σ} {n a : Nat}
    (h : (errs true m).allocate s n a = (.badAlloc, s')) :
    m.allocate s n a = (.badAlloc, s') ∨ m.allocate s n a = (.runtimeError, s') := by
  simp only [errs, asBadAlloc] at h
  rcases hx : m.allocate s n a with ⟨x, s1⟩
  rw [hx] at h
  obtain ⟨h1, rfl⟩ := Prod.mk.inj h
  cases x <;> simp [Res.runtimeAsBad] at h1 ⊢

theorem asBad_allocate {σ : Type} {m : MR σ} {s s' : σ} {n a : Nat} {r : Res Nat} (h : m.allocate s n a = (r, s')) :
    (errs true m).allocate s n a = (r.runtimeAsBad, s') := by
  simp only [errs, asBadAlloc, h]

theorem Kind.instrumenting_specE {η : Type} {pre : List (η → Nat → Nat → η)}
    {post del : List (η → Nat → Nat → Nat → η)} {h0 : η} {q : Port} :
    KindSpecE true (.instrumenting pre post del h0) (fun _ => q) q (fun t L H => (H.map (·.2)).Perm L ∧ True) := by
  refine KindSpecE.of_forward (Z := true) (K := .instrumenting pre post del h0) (fun _ _ => True) ([], h0)
    (fun _ _ => trivial) trivial
    (fun _ _ _ => rfl) (fun _ _ => rfl) (fun _ _ _ => rfl) ?_ (fun _ _ _ => rfl) ?_ (fun _ _ _ _ => rfl)
  · intro σ ups I h t u H n a _ hI hq hn
    have hn' := Nat.pos_iff_ne_zero.1 hn
    have hpre : ∀ w : σ × η, ((pre.map fun f (w : σ × η) n a => (w.1, f w.2 n a)).foldl
        (fun w f => f w n a) w).1 = w.1 := by
      intro w
      rw [List.foldl_map]
      exact foldl_hooks (fun (f : η → Nat → Nat → η) (w : σ × η) => (w.1, f w.2 n a)) (fun _ _ => rfl) _ w
    have hpost : ∀ (p : Nat) (w : σ × η), ((post.map fun f (w : σ × η) n a p => (w.1, f w.2 n a p)).foldl
        (fun w f => f w n a p) w).1 = w.1 := by
      intro p w
      rw [List.foldl_map]
      exact foldl_hooks (fun (f : η → Nat → Nat → Nat → η) (w : σ × η) => (w.1, f w.2 n a p)) (fun _ _ => rfl) _ w
    have key : ∀ {r u'}, (ups ()).allocate u n a = (r, u') →
        (r = .badAlloc ∨ r = .runtimeError ∨ ∃ p, p ≠ 0 ∧ r = .ok p) →
        ∃ t', ((Kind.instrumenting pre post del h0).mr ups).allocate (t, u) n a = (r, (t', u')) := by
      rintro r u' e (rfl | rfl | ⟨p, hp, rfl⟩)
      · simp only [Kind.instrumenting, MR.via, instrumentingMR, pimpl, hn', if_false, Instr.allocate, liftFst, hpre,
          e, Instr.finish, if_true, hpost]
        exact ⟨_, rfl⟩
      · simp only [Kind.instrumenting, MR.via, instrumentingMR, pimpl, hn', if_false, Instr.allocate, liftFst, hpre, e]
        exact ⟨_, rfl⟩
      · simp only [Kind.instrumenting, MR.via, instrumentingMR, pimpl, hn', if_false, Instr.allocate, liftFst, hpre,
          e, Instr.finish, hp, hpost]
        exact ⟨_, rfl⟩
    rcases (h.mem ()).alloc hI hq hn with ⟨p, u', e, h'⟩ | ⟨u', e, h'⟩
    · obtain ⟨t', e'⟩ := key (allocate_of_asBad e (by simp))
        (.inr (.inr ⟨p, (h.tidy.wf h' _ List.mem_cons_self).1, rfl⟩))
      exact .inl ⟨(), p, t', u', asBad_allocate e', trivial, h'⟩
    · rcases allocate_of_asBad' e with e | e
      · obtain ⟨t', e'⟩ := key e (.inl rfl)
        exact .inr ⟨t', u', asBad_allocate e', trivial, h'⟩
      · obtain ⟨t', e'⟩ := key e (.inr (.inl rfl))
        exact .inr ⟨t', u', asBad_allocate e', trivial, h'⟩
  · intro σ ups I h t u H i b _ hI
    have hb : b.addr ≠ 0 := (h.tidy.wf hI _ List.mem_cons_self).1
    have hdel : ∀ w : σ × η, ((del.map fun f (w : σ × η) p n a => (w.1, f w.2 p n a)).foldl
        (fun w f => f w b.addr b.size b.align) w).1 = w.1 := by
      intro w
      rw [List.foldl_map]
      exact foldl_hooks (fun (f : η → Nat → Nat → Nat → η) (w : σ × η) => (w.1, f w.2 b.addr b.size b.align)) (fun _ _ => rfl) _ w
    obtain ⟨u', e, h'⟩ := (h.mem ()).free hI
    have e : (ups ()).deallocate u b.addr b.size b.align = (.ok (), u') := e
    simp only [errs, asBadAlloc, Kind.instrumenting, MR.via, instrumentingMR, pimpl, hb, if_false, Instr.deallocate,
      liftFst, hdel, e]
    exact ⟨_, u', rfl, trivial, h'⟩

theorem Kind.coalescing_specE {ι : Type} {order : List ι} {R : Limits} {G : Nat} :
    KindSpecE true (.coalescing order) (fun _ => ⟨R, G, false⟩) ⟨R, G, false⟩
      (fun t L H => (H.map (·.2)).Perm L ∧ RecInv t H) := by
  refine KindSpecE.of_forward (Z := true) (K := .coalescing order)
    (fun t H => RecInv t H) [] (fun h hp => h.perm hp) ⟨by simp, by simp⟩
    (fun h => by simp at h) (fun _ _ => rfl) (fun _ _ _ => rfl) ?_ (fun _ _ _ => rfl) ?_ (fun _ _ _ _ => rfl)
  · intro σ ups I h t u H n a hE hI hq hn
    have key : ∀ (is : List ι) (u : σ), I u H →
        (∃ i p t' u', Coalescing.tryAll ups n a is ⟨t, u⟩ = (.ok p, ⟨t', u'⟩) ∧ RecInv t' ((i, ⟨p, n, a⟩) :: H) ∧
          I u' ((i, ⟨p, n, a⟩) :: H)) ∨
        ∃ r u', (r = .badAlloc ∨ r = .runtimeError) ∧ Coalescing.tryAll ups n a is ⟨t, u⟩ = (r, ⟨t, u'⟩) ∧ I u' H := by
      intro is
      induction is with
      | nil => intro u hI; exact .inr ⟨_, u, .inl rfl, rfl, hI⟩
      | cons i is ih =>
        intro u hI
        rcases (h.mem i).alloc hI hq hn with ⟨p, u', e, h'⟩ | ⟨u', e, h'⟩
        · left
          have e := allocate_of_asBad e (by simp)
          refine ⟨i, p, _, u', ?_, hE.add _ ⟨p, n, a⟩ ?_, h'⟩
          · simp only [Coalescing.tryAll, e]
          · intro x hx
            exact addr_ne_of_disjoint ((List.pairwise_cons.1 (h.tidy.disj h')).1 x hx) hn
              (h.tidy.wf hI x hx).2.2.2.1
        · rcases allocate_of_asBad' e with e | e
          · simp only [Coalescing.tryAll, e]
            exact ih u' h'
          · simp only [Coalescing.tryAll, e]
            exact .inr ⟨_, u', .inr rfl, rfl, h'⟩
    have hc : ∀ {r c}, Coalescing.tryAll ups n a order ⟨t, u⟩ = (r, c) →
        (errs true ((Kind.coalescing order).mr ups)).allocate (t, u) n a = (r.runtimeAsBad, (c.allocations, c.up)) := by
      intro r c e
      refine asBad_allocate ?_
      simp only [Kind.coalescing, MR.via, coalescingMR, pimpl, Nat.pos_iff_ne_zero.1 hn, if_false, e]
    rcases key order u hI with ⟨i, p, t', u', e, h1, h2⟩ | ⟨r, u', hr, e, h2⟩
    · exact .inl ⟨i, p, t', u', hc e, h1, h2⟩
    · refine .inr ⟨t, u', ?_, hE, h2⟩
      rw [hc e]
      rcases hr with rfl | rfl <;> rfl
  · intro σ ups I h t u H i b hE hI
    have hw := h.tidy.wf hI _ List.mem_cons_self
    obtain ⟨u', e, h'⟩ := (h.mem i).free hI
    have e : (ups i).deallocate u b.addr b.size b.align = (.ok (), u') := e
    simp only [errs, asBadAlloc, Kind.coalescing, MR.via, coalescingMR, pimpl, hw.1, if_false,
      recordedDeallocate_eq hE List.mem_cons_self hw.1, e]
    refine ⟨_, u', rfl, hE.remove ?_, h'⟩
    intro x hx
    exact addr_ne_of_disjoint ((List.pairwise_cons.1 (h.tidy.disj hI)).1 x hx) hw.2.2.2.1
      (h.tidy.wf h' x hx).2.2.2.1

theorem Works.specE {K : Kind} {P : K.ι → Port} {q : Port} (h : Works K P q) : ∃ J, KindSpecE true K P q J := by
  have go : ∀ {K : Kind} {P : K.ι → Port} {q : Port}, (∃ J, KindSpec K P q J) → K.PassesOn →
      ∃ J, KindSpecE true K P q J := fun ⟨J, h⟩ hp => ⟨J, h.passes hp⟩
  induction h with
  | pool h1 h2 h3 h4 h5 => exact go (Kind.pool_spec h1 h2 h3 h4 h5) (pool_passes _ _)
  | binaryPage h => exact go (Kind.binaryPage_spec h) (binaryPage_passes _)
  | arena h1 h2 h3 h4 h5 h6 h7 => exact go (Kind.arena_spec h1 h2 h3 h4 h5 h6 h7) (arena_passes _ _)
  | contiguous h1 h2 => exact go (Kind.contiguous_spec h1 h2) (contiguous_passes _)
  | identity => exact go Kind.identity_spec identity_passes
  | debug => exact go Kind.debug_spec debug_passes
  | conditional => exact go Kind.conditional_spec (conditional_passes _ _)
  | instrumenting => exact ⟨_, Kind.instrumenting_specE⟩
  | choice => exact go Kind.choice_spec (choice_passes _ _)
  | coalescing => exact ⟨_, Kind.coalescing_specE⟩
  | terminal => exact go Kind.terminal_spec terminal_passes
  | weaken _ h1 h2 ih =>
    obtain ⟨J, hJ⟩ := ih
    exact ⟨_, hJ.weaken h1 h2⟩

section

variable {β σ : Type} {bases : β → MR σ} {g : (k : Nat) → Decl β k} {P : β ⊕ Nat → Port}

/-- All states of correct programs satisfy the invariant. -/
theorem ProgReachE.inv {I : World σ g → List ((β ⊕ Nat) × Blk) → Prop} {s0 : σ} (hS : ProgSpecE true bases g P I)
    (h0 : I ⟨s0, fun _ => none⟩ []) {w T} (h : ProgReachE bases g P s0 w T) : I w T := by
  have step : ∀ {w w' : World σ g} {T x n a r}, I w T → Exists w x → IsReq (P x).R n a → 0 < n →
      (worldMR bases g x).allocate w n a = (r, w') →
      (∃ p, r = .ok p ∧ I w' ((x, ⟨p, n, a⟩) :: T)) ∨ ((r = .badAlloc ∨ r = .runtimeError) ∧ I w' T) := by
    intro w w' T x n a r hI hx hq hn he
    obtain ⟨I', i1, i2, i3⟩ := hS.mem hI x hx
    rcases i3.alloc i1 hq hn with ⟨p, w', e, h'⟩ | ⟨w', e, h'⟩
    · have e := allocate_of_asBad e (by simp)
      rw [e] at he; obtain ⟨rfl, rfl⟩ := Prod.mk.inj he
      exact .inl ⟨p, rfl, (i2 h').1⟩
    · rcases allocate_of_asBad' e with e | e
      · rw [e] at he; obtain ⟨rfl, rfl⟩ := Prod.mk.inj he
        exact .inr ⟨.inl rfl, (i2 h').1⟩
      · rw [e] at he; obtain ⟨rfl, rfl⟩ := Prod.mk.inj he
        exact .inr ⟨.inr rfl, (i2 h').1⟩
  induction h with
  | init => exact h0
  | create k _ hk hu he ih =>
    rcases hS.create ih k hk hu with ⟨w', e, h', _⟩ | ⟨w', e, h', _⟩
    · rw [he] at e; obtain ⟨_, rfl⟩ := Prod.mk.inj e; exact h'
    · rw [he] at e; obtain ⟨_, rfl⟩ := Prod.mk.inj e; exact h'
  | destroy k _ hk hd hT he ih =>
    obtain ⟨w', e, h', _⟩ := hS.destroy ih k hk hd hT
    rw [e] at he; obtain ⟨_, rfl⟩ := Prod.mk.inj he; exact h'
  | alloc x _ hx hq hn he ih =>
    rcases step ih hx hq hn he with ⟨p, e, h'⟩ | ⟨e, h'⟩
    · cases e; exact h'
    · simp at e
  | refuse x _ hx hq hn he ih =>
    rcases step ih hx hq hn he with ⟨p, e, h'⟩ | ⟨e, h'⟩
    · simp at e
    · exact h'
  | error x _ hx hq hn he ih =>
    rcases step ih hx hq hn he with ⟨p, e, h'⟩ | ⟨e, h'⟩
    · simp at e
    · exact h'
  | zero x _ hx hq he ih =>
    obtain ⟨I', i1, i2, i3⟩ := hS.mem ih x hx
    obtain ⟨r, w', e, _, h'⟩ := i3.zero i1 hq
    rw [asBad_allocate he] at e; obtain ⟨e1, rfl⟩ := Prod.mk.inj e; exact (i2 h').1
  | @free w w' T b x _ he ih =>
    obtain ⟨I', i1, i2, i3⟩ := hS.mem ih x (hS.tags ih _ List.mem_cons_self)
    obtain ⟨w', e, h'⟩ := i3.free i1
    have e : (worldMR bases g x).deallocate w b.addr b.size b.align = (.ok (), w') := e
    rw [e] at he; obtain ⟨e1, rfl⟩ := Prod.mk.inj he; exact (i2 h').1
  | @freeNull w _ _ n a _ x _ hx he ih =>
    obtain ⟨I', i1, i2, i3⟩ := hS.mem ih x hx
    obtain ⟨w', e, h'⟩ := i3.null n a i1
    have e : (worldMR bases g x).deallocate w 0 n a = (.ok (), w') := e
    rw [e] at he; obtain ⟨e1, rfl⟩ := Prod.mk.inj he; exact (i2 h').1
  | perm _ hp ih => exact hS.tidy.perm ih hp

end

end Vecmem
