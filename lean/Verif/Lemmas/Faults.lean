import Verif.Spec.Faults
import Verif.Lemmas.Kinds
import Verif.Lemmas.World

/-!
# Failures of bookkeeping: invariants
-/

namespace Vecmem

open IntMath

variable {σ ι : Type}

/-- Blocks that nobody will give back. -/
theorem FServes.frame {P : ι → Port} {ups : ι → MR σ} {I : σ → List (ι × Blk) → Prop} (h : FServes P ups I)
    (X : List (ι × Blk)) : FServes P ups (fun u H => I u (H ++ X)) := by
  refine ⟨⟨?_, ?_, ?_, ?_⟩, fun i => ⟨?_, ?_, ?_, ?_⟩⟩
  · intro s T hI e he; exact h.tidy.wf hI e (List.mem_append_left _ he)
  · intro s T hI; exact (List.pairwise_append.1 (h.tidy.disj hI)).1
  · intro s T hI i hi b c hb hc
    exact h.tidy.gap hI hi (List.mem_append_left _ hb) (List.mem_append_left _ hc)
  · intro s T T' hI hp; exact h.tidy.perm hI (hp.append_right _)
  · intro s T n a hI hq hn; exact (h.mem i).alloc hI hq hn
  · intro s T a hI hq; exact (h.mem i).zero hI hq
  · intro s T b hI; exact (h.mem i).free hI
  · intro s T n a hI; exact (h.mem i).null n a hI

/-- What a call with failures does. -/
structure FKSpec (K : FaultyKind) (P : K.ι → Port) (q : Port) (J : K.τ → List Blk → List (K.ι × Blk) → Prop)
    (w : OnFree) (c : Nat) : Prop where
  kind : KindSpec K.toKind P q J
  alloc : ∀ {σ : Type} {ups : K.ι → MR σ} {I}, FServes P ups I → ∀ (f : Faults) {t u L H n a}, J t L H → I u H →
    IsReq q.R n a → 0 < n →
    ∃ r t' u' H' X, (K.fmr f ups).allocate (t, u) n a = (r, (t', u')) ∧ I u' (H' ++ X) ∧
      X.length ≤ c * f.count true ∧
      ((∃ p, r = .ok p ∧ J t' (⟨p, n, a⟩ :: L) H') ∨ (r = .badAlloc ∧ J t' L H'))
  zero : ∀ {σ : Type} (ups : K.ι → MR σ) (f : Faults) x a, (K.fmr f ups).allocate x 0 a = (.ok 0, x)
  free : ∀ {σ : Type} {ups : K.ι → MR σ} {I}, FServes P ups I → ∀ (f : Faults) {t u L H b}, J t (b :: L) H → I u H →
    ∃ r t' u', (K.fmr f ups).deallocate (t, u) b.addr b.size b.align = (r, (t', u')) ∧
      ((r = .ok () ∧ ∃ H', J t' L H' ∧ I u' H') ∨
        (r = .badAlloc ∧ w = .keeps ∧ t' = t ∧ u' = u) ∨
        (r = .badAlloc ∧ w = .drops ∧ ∃ H', J t' L H' ∧ I u' H'))
  null : ∀ {σ : Type} (ups : K.ι → MR σ) (f : Faults) x n a, (K.fmr f ups).deallocate x 0 n a = (.ok (), x)

section

variable {K : FaultyKind} {P : K.ι → Port} {q : Port} {J : K.τ → List Blk → List (K.ι × Blk) → Prop} {w : OnFree}
  {c : Nat}

/-- The invariant of histories with failures. -/
def FInv (J : K.τ → List Blk → List (K.ι × Blk) → Prop) (I : σ → List (K.ι × Blk) → Prop) (c : Nat) (s : K.τ × σ)
    (L : List Blk) (k : Nat) : Prop :=
  ∃ X : List (K.ι × Blk), X.length ≤ c * k ∧ ∃ H, J s.1 L H ∧ I s.2 (H ++ X)

variable {ups : K.ι → MR σ} {I : σ → List (K.ι × Blk) → Prop}

theorem FKSpec.step (h : FKSpec K P q J w c) (hF : FServes P ups I) (f : Faults) {s : K.τ × σ} {L : List Blk} {k n a : Nat}
    (hs : FInv J I c s L k) (hq : IsReq q.R n a) (hn : 0 < n) :
    (∃ p s', (K.fmr f ups).allocate s n a = (.ok p, s') ∧ FInv J I c s' (⟨p, n, a⟩ :: L) (k + f.count true)) ∨
    ∃ s', (K.fmr f ups).allocate s n a = (.badAlloc, s') ∧ FInv J I c s' L (k + f.count true) := by
  obtain ⟨t, u⟩ := s
  obtain ⟨X, hX, H, hJ, hI⟩ := hs
  obtain ⟨r, t', u', H', X', e, h1, h2, h3⟩ := h.alloc (hF.frame X) f hJ hI hq hn
  have hlen : (X' ++ X).length ≤ c * (k + f.count true) := by
    rw [List.length_append, Nat.mul_add]; omega
  have hI' : I u' (H' ++ (X' ++ X)) := by rw [← List.append_assoc]; exact h1
  rcases h3 with ⟨p, rfl, h3⟩ | ⟨rfl, h3⟩
  · exact .inl ⟨p, _, e, _, hlen, H', h3, hI'⟩
  · exact .inr ⟨_, e, _, hlen, H', h3, hI'⟩

theorem FInv.mono {s : K.τ × σ} {L : List Blk} {k k' : Nat} (h : FInv J I c s L k) (hk : k ≤ k') :
    FInv J I c s L k' := by
  obtain ⟨X, hX, h⟩ := h
  exact ⟨X, Nat.le_trans hX (Nat.mul_le_mul_left _ hk), h⟩

theorem FKSpec.stepFree (h : FKSpec K P q J w c) (hF : FServes P ups I) (f : Faults) {s : K.τ × σ} {L : List Blk}
    {k : Nat} {b : Blk} (hs : FInv J I c s (b :: L) k) :
    ∃ r s', (K.fmr f ups).deallocate s b.addr b.size b.align = (r, s') ∧
      ((r = .ok () ∧ FInv J I c s' L k) ∨ (r = .badAlloc ∧ w = .keeps ∧ s' = s) ∨
        (r = .badAlloc ∧ w = .drops ∧ FInv J I c s' L k)) := by
  obtain ⟨t, u⟩ := s
  obtain ⟨X, hX, H, hJ, hI⟩ := hs
  obtain ⟨r, t', u', e, h1⟩ := h.free (hF.frame X) f hJ hI
  refine ⟨r, _, e, ?_⟩
  rcases h1 with ⟨h1, H', h2, h3⟩ | ⟨h1, h2, rfl, rfl⟩ | ⟨h1, h2, H', h3, h4⟩
  · exact .inl ⟨h1, X, hX, H', h2, h3⟩
  · exact .inr (.inl ⟨h1, h2, rfl⟩)
  · exact .inr (.inr ⟨h1, h2, X, hX, H', h3, h4⟩)

theorem FKSpec.live (h : FKSpec K P q J w c) (hF : FServes P ups I) {s : K.τ × σ} {L : List Blk} {k : Nat}
    (hs : FInv J I c s L k) : Live q.R q.G L := by
  obtain ⟨X, _, H, hJ, hI⟩ := hs
  exact (h.kind.serves (hF.frame X)).live (s := s) ⟨H, hJ, hI⟩

theorem FKSpec.perm (h : FKSpec K P q J w c) (hF : FServes P ups I) {s : K.τ × σ} {L L' : List Blk} {k : Nat}
    (hs : FInv J I c s L k) (hp : L.Perm L') : FInv J I c s L' k := by
  obtain ⟨X, hX, H, hJ, hI⟩ := hs
  obtain ⟨H', h1, h2⟩ := (h.kind.serves (hF.frame X)).perm (s := s) ⟨H, hJ, hI⟩ hp
  exact ⟨X, hX, H', h1, h2⟩

theorem FKSpec.reach (h : FKSpec K P q J w c) (hF : FServes P ups I) {s0 s : K.τ × σ} {L : List Blk} {k : Nat}
    (h0 : FInv J I c s0 [] 0) (hr : FaultReach q.R w (fun f => K.fmr f ups) s0 s L k) : FInv J I c s L k := by
  induction hr with
  | init => exact h0
  | alloc f _ hq hn e ih =>
    rcases h.step hF f ih hq hn with ⟨p, s', e', h'⟩ | ⟨s', e', h'⟩
    · rw [e'] at e; cases e; exact h'
    · rw [e'] at e; cases e
  | refuse f _ hq hn e ih =>
    rcases h.step hF f ih hq hn with ⟨p, s', e', h'⟩ | ⟨s', e', h'⟩
    · rw [e'] at e; cases e
    · rw [e'] at e; cases e; exact h'
  | zero f _ hq e ih =>
    rw [h.zero] at e; cases e; exact ih.mono (Nat.le_add_right _ _)
  | free f _ e ih =>
    obtain ⟨r, s', e', h'⟩ := h.stepFree hF f ih
    rw [e'] at e; cases e
    rcases h' with ⟨_, h'⟩ | ⟨h', _⟩ | ⟨h', _⟩
    · exact h'.mono (Nat.le_add_right _ _)
    · cases h'
    · cases h'
  | throw f _ e ih =>
    obtain ⟨r, s', e', h'⟩ := h.stepFree hF f ih
    rw [e'] at e; cases e
    rcases h' with ⟨h', _⟩ | ⟨_, h', rfl⟩ | ⟨_, h', h''⟩
    · cases h'
    · rw [if_neg (by rw [h']; simp)]; exact ih.mono (Nat.le_add_right _ _)
    · rw [if_pos h']; exact h''.mono (Nat.le_add_right _ _)
  | freeNull f _ e ih =>
    rw [h.null] at e; cases e; exact ih.mono (Nat.le_add_right _ _)
  | perm _ hp ih => exact h.perm hF ih hp

end

/-! ## The kinds -/

/-- Resources whose calls either do what they do without failures, or refuse and leave everything as it was. -/
theorem FKSpec.of_same {K : FaultyKind} {P : K.ι → Port} {q : Port} {J : K.τ → List Blk → List (K.ι × Blk) → Prop}
    (h : KindSpec K.toKind P q J)
    (halloc : ∀ {σ : Type} (ups : K.ι → MR σ) (f : Faults) x n a,
      (K.fmr f ups).allocate x n a = (K.mr ups).allocate x n a ∨ (K.fmr f ups).allocate x n a = (.badAlloc, x))
    (hfree : ∀ {σ : Type} (ups : K.ι → MR σ) (f : Faults) x p n a,
      (K.fmr f ups).deallocate x p n a = (K.mr ups).deallocate x p n a)
    (hzero : ∀ {σ : Type} (ups : K.ι → MR σ) (f : Faults) x a, (K.fmr f ups).allocate x 0 a = (.ok 0, x))
    (hnull : ∀ {σ : Type} (ups : K.ι → MR σ) (f : Faults) x n a,
      (K.fmr f ups).deallocate x 0 n a = (.ok (), x)) :
    FKSpec K P q J .quiet 0 := by
  refine ⟨h, ?_, hzero, ?_, hnull⟩
  · intro σ ups I hF f t u L H n a hJ hI hq hn
    rcases halloc ups f (t, u) n a with he | he
    · rw [he]
      rcases (h.serves hF).acts.alloc (s := (t, u)) ⟨H, hJ, hI⟩ hq hn with
        ⟨p, s', e, H', h1, h2⟩ | ⟨s', e, H', h1, h2⟩
      · exact ⟨_, s'.1, s'.2, H', [], e, by simpa using h2, Nat.le_of_eq (by simp), .inl ⟨p, rfl, h1⟩⟩
      · exact ⟨_, s'.1, s'.2, H', [], e, by simpa using h2, Nat.le_of_eq (by simp), .inr ⟨rfl, h1⟩⟩
    · exact ⟨_, t, u, H, [], he, by simpa using hI, Nat.le_of_eq (by simp), .inr ⟨rfl, hJ⟩⟩
  · intro σ ups I hF f t u L H b hJ hI
    obtain ⟨s', e, H', h1, h2⟩ := (h.serves hF).acts.free (s := (t, u)) ⟨H, hJ, hI⟩
    exact ⟨_, s'.1, s'.2, (hfree ups f _ _ _ _).trans e, .inl ⟨rfl, H', h1, h2⟩⟩

/-- Resources that forward calls and record blocks. -/
theorem FKSpec.of_forward {K : FaultyKind} {q : Port} {w : OnFree} (E : K.τ → List (K.ι × Blk) → Prop)
    (hE : ∀ {t H H'}, E t H → H.Perm H' → E t H')
    (h : KindSpec K.toKind (fun _ => q) q (fun t L H => (H.map (·.2)).Perm L ∧ E t H))
    (halloc : ∀ {σ : Type} {ups : K.ι → MR σ} {I}, FServes (fun _ => q) ups I → ∀ (f : Faults) {t u H n a}, E t H →
      I u H → IsReq q.R n a → 0 < n →
      (∃ i p t' u' X, (K.fmr f ups).allocate (t, u) n a = (.ok p, (t', u')) ∧ X.length ≤ f.count true ∧
        E t' ((i, ⟨p, n, a⟩) :: H) ∧ I u' ((i, ⟨p, n, a⟩) :: H ++ X)) ∨
      ∃ t' u' X, (K.fmr f ups).allocate (t, u) n a = (.badAlloc, (t', u')) ∧ X.length ≤ f.count true ∧
        E t' H ∧ I u' (H ++ X))
    (hzero : ∀ {σ : Type} (ups : K.ι → MR σ) (f : Faults) x a, (K.fmr f ups).allocate x 0 a = (.ok 0, x))
    (hfree : ∀ {σ : Type} {ups : K.ι → MR σ} {I}, FServes (fun _ => q) ups I → ∀ (f : Faults) {t u H i b},
      E t ((i, b) :: H) → I u ((i, b) :: H) →
      ∃ r t' u', (K.fmr f ups).deallocate (t, u) b.addr b.size b.align = (r, (t', u')) ∧ E t' H ∧ I u' H ∧
        (r = .ok () ∨ (r = .badAlloc ∧ w = .drops)))
    (hnull : ∀ {σ : Type} (ups : K.ι → MR σ) (f : Faults) x n a,
      (K.fmr f ups).deallocate x 0 n a = (.ok (), x)) :
    FKSpec K (fun _ => q) q (fun t L H => (H.map (·.2)).Perm L ∧ E t H) w 1 := by
  refine ⟨h, ?_, hzero, ?_, hnull⟩
  · rintro σ ups I hF f t u L H n a ⟨hJ, hJ'⟩ hI hq hn
    rcases halloc hF f hJ' hI hq hn with ⟨i, p, t', u', X, e, h1, h2, h3⟩ | ⟨t', u', X, e, h1, h2, h3⟩
    · exact ⟨_, t', u', _, X, e, h3, by omega, .inl ⟨p, rfl, by simpa using hJ, h2⟩⟩
    · exact ⟨_, t', u', _, X, e, h3, by omega, .inr ⟨rfl, hJ, h2⟩⟩
  · rintro σ ups I hF f t u L H b ⟨hJ, hJ'⟩ hI
    have hm : b ∈ H.map (·.2) := hJ.symm.subset List.mem_cons_self
    obtain ⟨⟨i, b'⟩, he, rfl⟩ := List.mem_map.1 hm
    obtain ⟨T1, T2, rfl⟩ := List.append_of_mem he
    have hp : (T1 ++ (i, b') :: T2).Perm ((i, b') :: (T1 ++ T2)) := List.perm_middle
    obtain ⟨r, t', u', e, e1, e2, e3⟩ := hfree hF f (hE hJ' hp) (hF.tidy.perm hI hp)
    have h4 := (hp.map (·.2)).symm.trans hJ
    simp only [List.map_cons] at h4
    refine ⟨r, t', u', e, ?_⟩
    rcases e3 with e3 | ⟨e3, e4⟩
    · exact .inl ⟨e3, _, ⟨h4.cons_inv, e1⟩, e2⟩
    · exact .inr (.inr ⟨e3, e4, _, ⟨h4.cons_inv, e1⟩, e2⟩)

theorem Faults.now_count {f : Faults} (h : f.now = true) : 1 ≤ f.count true := by
  cases f with
  | nil => simp [Faults.now] at h
  | cons b f => simp [Faults.now] at h; subst h; simp

/-- A block that gets lost. -/
theorem FServes.lose {q : Port} {ups : ι → MR σ} {I : σ → List (ι × Blk) → Prop} (h : FServes (fun _ => q) ups I)
    {i : ι} {b : Blk} {H : List (ι × Blk)} {u : σ} (hI : I u ((i, b) :: H)) : I u (H ++ [(i, b)]) :=
  h.tidy.perm hI (List.perm_append_comm (l₁ := [(i, b)]))

theorem FaultyKind.debug_spec {q : Port} :
    FKSpec .debug (fun _ => q) q (fun t L H => (H.map (·.2)).Perm L ∧ DebugRec t H) .quiet 1 := by
  refine FKSpec.of_forward (K := .debug) DebugRec ?_ Kind.debug_inv ?_ (fun _ _ _ _ => rfl) ?_ (fun _ _ _ _ _ => rfl)
  · rintro t H H' ⟨acc, h1, h2⟩ hp; exact ⟨acc, h1.trans (hp.map _), h2⟩
  · rintro σ ups I h f t u H n a ⟨acc, h1, rfl⟩ hI hq hn
    have hl := (h.tidy.live (fun _ => rfl) hI).perm h1.symm
    have hD : Debug.Inv (⟨acc.map Debug.enc, u⟩ : Debug σ) acc := ⟨rfl, hl.2, fun b hb => (hl.1 b hb).2.2.2.1⟩
    obtain ⟨d1, d2⟩ := Debug.allocate_eq (up := ups ()) hD hn a
    have hfm : f.now = false → ((FaultyKind.debug).fmr f ups).allocate (acc.map Debug.enc, u) n a =
        ((Kind.debug).mr ups).allocate (acc.map Debug.enc, u) n a := by
      intro hf
      simp only [Kind.debug, MR.via, debugMRF, debugMR, pimpl, Debug.allocateF, Debug.allocate, hf]
      rfl
    rcases (h.mem ()).alloc hI hq hn with ⟨p, u', e, h'⟩ | ⟨u', e, h'⟩
    · simp only [e] at d1
      have hdj : ∀ b ∈ acc, Blk.Disjoint ⟨p, n, a⟩ b := by
        intro b hb
        obtain ⟨x, hx, rfl⟩ := List.mem_map.1 (h1.subset hb)
        exact (List.pairwise_cons.1 (h.tidy.disj h')).1 x hx
      cases hf : f.now with
      | false =>
        rw [hfm hf]
        simp only [Kind.debug, MR.via]
        rw [(d1 p rfl).2 hdj]
        exact .inl ⟨(), p, _, u', [], rfl, by simp, ⟨⟨p, n, a⟩ :: acc, h1.cons _, rfl⟩, by simpa using h'⟩
      | true =>
        right
        have hov : ¬ (acc.map Debug.enc).any (Debug.overlaps p n) = true := by
          rw [Debug.any_overlaps_iff hD hn a]; rintro ⟨b, hb, hnd⟩; exact hnd (hdj b hb)
        refine ⟨acc.map Debug.enc, u', [((), ⟨p, n, a⟩)], ?_, by simpa using Faults.now_count hf, ⟨acc, h1, rfl⟩,
          h.lose h'⟩
        simp only [MR.via, debugMRF, pimpl, Debug.allocateF, Nat.pos_iff_ne_zero.1 hn, if_false, e, hf, hov,
          if_true]
        rfl
    · right
      refine ⟨acc.map Debug.enc, u', [], ?_, by simp, ⟨acc, h1, rfl⟩, by simpa using h'⟩
      simp only [MR.via, debugMRF, pimpl, Debug.allocateF, Nat.pos_iff_ne_zero.1 hn, if_false, e]
  · rintro σ ups I h f t u H i b ⟨acc, h1, rfl⟩ hI
    have hl := (h.tidy.live (fun _ => rfl) hI).perm h1.symm
    have hD : Debug.Inv (⟨acc.map Debug.enc, u⟩ : Debug σ) acc := ⟨rfl, hl.2, fun b hb => (hl.1 b hb).2.2.2.1⟩
    have hb : b.addr ≠ 0 := (h.tidy.wf hI _ List.mem_cons_self).1
    have hm : b ∈ acc := h1.symm.subset (by simp)
    obtain ⟨e1, e2, e3⟩ := (Debug.deallocate_eq (up := ups ()) hD hb b.size b.align).2 hm
    obtain ⟨u', e, h'⟩ := (h.mem ()).free hI
    rw [e] at e1 e2 e3
    simp only [if_true] at e1 e2 e3
    have hfm : ((FaultyKind.debug).fmr f ups).deallocate (acc.map Debug.enc, u) b.addr b.size b.align =
        ((Kind.debug).mr ups).deallocate (acc.map Debug.enc, u) b.addr b.size b.align := rfl
    rw [hfm]
    simp only [Kind.debug, MR.via]
    rw [e1, e2, e3]
    refine ⟨_, _, u', rfl, ⟨acc.erase b, ?_, Debug.erase_enc hl.2 hD.2.2 hm⟩, h', .inl rfl⟩
    have := h1.erase b
    simpa using this

theorem FaultyKind.instrumenting_spec {η : Type} {pre : List (η → Nat → Nat → η)}
    {post del : List (η → Nat → Nat → Nat → η)} {h0 : η} {q : Port} :
    FKSpec (.instrumenting pre post del h0) (fun _ => q) q (fun _ L H => (H.map (·.2)).Perm L ∧ True) .drops 1 := by
  refine FKSpec.of_forward (K := .instrumenting pre post del h0) (fun _ _ => True) (fun _ _ => trivial)
    Kind.instrumenting_inv ?_ (fun _ _ _ _ => rfl) ?_ (fun _ _ _ _ _ => rfl)
  · intro σ ups I h f t u H n a _ hI hq hn
    have hn' := Nat.pos_iff_ne_zero.1 hn
    have hpre : ∀ w : σ × η, ((pre.map fun f (w : σ × η) n a => (w.1, f w.2 n a)).foldl
        (fun w f => f w n a) w).1 = w.1 := by
      intro w
      rw [List.foldl_map]
      exact foldl_hooks (fun (f : η → Nat → Nat → η) (w : σ × η) => (w.1, f w.2 n a)) (fun _ _ => rfl) _ w
    have hpost : ∀ (p : Nat) (w : σ × η), ((post.map fun f (w : σ × η) n a p => (w.1, f w.2 n a p)).foldl
        (fun w f => f w n a p) w).1 = w.1 := by
      intro p w
      rw [List.foldl_map]
      exact foldl_hooks (fun (f : η → Nat → Nat → Nat → η) (w : σ × η) => (w.1, f w.2 n a p)) (fun _ _ => rfl) _ w
    simp only [MR.via, instrumentingMRF, pimpl, hn', if_false, Instr.allocateF, liftFst, hpre]
    rcases (h.mem ()).alloc hI hq hn with ⟨p, u', e, h'⟩ | ⟨u', e, h'⟩
    · have hp : p ≠ 0 := (h.tidy.wf h' _ List.mem_cons_self).1
      simp only [e, Instr.finishF]
      cases hf : f.now with
      | false =>
        simp only [Bool.false_eq_true, if_false, Instr.finish, hp, hpost]
        exact .inl ⟨(), p, _, u', [], rfl, by simp, trivial, by simpa using h'⟩
      | true =>
        simp only [if_true]
        exact .inr ⟨_, u', [((), ⟨p, n, a⟩)], rfl, by simpa using Faults.now_count hf, trivial, h.lose h'⟩
    · simp only [e, Instr.finishF]
      cases hf : f.now with
      | false =>
        simp only [Bool.false_eq_true, if_false, Instr.finish, if_true, hpost]
        exact .inr ⟨_, u', [], rfl, by simp, trivial, by simpa using h'⟩
      | true =>
        simp only [if_true]
        exact .inr ⟨_, u', [], rfl, by simp, trivial, by simpa using h'⟩
  · intro σ ups I h f t u H i b _ hI
    have hb : b.addr ≠ 0 := (h.tidy.wf hI _ List.mem_cons_self).1
    have hdel : ∀ w : σ × η, ((del.map fun f (w : σ × η) p n a => (w.1, f w.2 p n a)).foldl
        (fun w f => f w b.addr b.size b.align) w).1 = w.1 := by
      intro w
      rw [List.foldl_map]
      exact foldl_hooks (fun (f : η → Nat → Nat → Nat → η) (w : σ × η) => (w.1, f w.2 b.addr b.size b.align)) (fun _ _ => rfl) _ w
    simp only [MR.via, instrumentingMRF, pimpl, hb, if_false, Instr.deallocateF, liftFst, hdel]
    obtain ⟨u', e, h'⟩ := (h.mem ()).free hI
    simp only [e]
    cases hf : f.now with
    | false => exact ⟨_, _, u', rfl, trivial, h', .inl rfl⟩
    | true => exact ⟨_, _, u', rfl, trivial, h', .inr ⟨rfl, trivial⟩⟩

theorem FaultyKind.choice_spec {ι π : Type} {decision : π → Nat → Nat → ι × π} {d : π} {R : Limits} {G : Nat} :
    FKSpec (.choice decision d) (fun _ => ⟨R, G, false⟩) ⟨R, G, false⟩
      (fun t L H => (H.map (·.2)).Perm L ∧ RecInv t.2 H) .quiet 1 := by
  refine FKSpec.of_forward (K := .choice decision d) (fun t H => RecInv t.2 H) (fun h hp => h.perm hp)
    Kind.choice_inv ?_ (fun _ _ _ _ => rfl) ?_ (fun _ _ _ _ _ => rfl)
  · intro σ ups I h f t u H n a hE hI hq hn
    simp only [MR.via, choiceMRF, pimpl, Nat.pos_iff_ne_zero.1 hn, if_false, Choice.allocateF]
    rcases (h.mem (decision t.1 n a).1).alloc hI hq hn with ⟨p, u', e, h'⟩ | ⟨u', e, h'⟩
    · simp only [e]
      cases hf : f.now with
      | false =>
        refine .inl ⟨_, p, _, u', [], rfl, by simp, hE.add _ ⟨p, n, a⟩ ?_, by simpa using h'⟩
        intro x hx
        exact addr_ne_of_disjoint ((List.pairwise_cons.1 (h.tidy.disj h')).1 x hx) hn
          (h.tidy.wf hI x hx).2.2.2.1
      | true =>
        exact .inr ⟨_, u', [(_, ⟨p, n, a⟩)], rfl, by simpa using Faults.now_count hf, hE, h.lose h'⟩
    · simp only [e]; exact .inr ⟨_, u', [], rfl, by simp, hE, by simpa using h'⟩
  · intro σ ups I h f t u H i b hE hI
    have hw := h.tidy.wf hI _ List.mem_cons_self
    simp only [MR.via, choiceMRF, pimpl, hw.1, if_false,
      recordedDeallocate_eq hE List.mem_cons_self hw.1]
    obtain ⟨u', e, h'⟩ := (h.mem i).free hI
    simp only [e]
    refine ⟨_, _, u', rfl, hE.remove ?_, h', .inl rfl⟩
    intro x hx
    exact addr_ne_of_disjoint ((List.pairwise_cons.1 (h.tidy.disj hI)).1 x hx) hw.2.2.2.1
      (h.tidy.wf h' x hx).2.2.2.1

theorem Faults.count_tail {f : Faults} (h : f.now = true) : f.tail.count true + 1 = f.count true := by
  cases f with
  | nil => simp [Faults.now] at h
  | cons b f => simp [Faults.now] at h; subst h; simp

theorem FaultyKind.coalescing_spec {ι : Type} {order : List ι} {R : Limits} {G : Nat} :
    FKSpec (.coalescing order) (fun _ => ⟨R, G, false⟩) ⟨R, G, false⟩
      (fun t L H => (H.map (·.2)).Perm L ∧ RecInv t H) .quiet 1 := by
  refine FKSpec.of_forward (K := .coalescing order) (fun t H => RecInv t H) (fun h hp => h.perm hp)
    Kind.coalescing_inv ?_ (fun _ _ _ _ => rfl) ?_ (fun _ _ _ _ _ => rfl)
  · intro σ ups I h f t u H n a hE hI hq hn
    simp only [MR.via, coalescingMRF, pimpl, Nat.pos_iff_ne_zero.1 hn, if_false]
    have key : ∀ (is : List ι) (f : Faults) (u : σ) (Y : List (ι × Blk)), I u (H ++ Y) →
        (∃ i p t' u' X, Coalescing.tryAllF ups n a is f ⟨t, u⟩ = (.ok p, ⟨t', u'⟩) ∧
          X.length ≤ Y.length + f.count true ∧ RecInv t' ((i, ⟨p, n, a⟩) :: H) ∧
          I u' ((i, ⟨p, n, a⟩) :: H ++ X)) ∨
        ∃ u' X, Coalescing.tryAllF ups n a is f ⟨t, u⟩ = (.badAlloc, ⟨t, u'⟩) ∧
          X.length ≤ Y.length + f.count true ∧ I u' (H ++ X) := by
      intro is
      induction is with
      | nil => intro f u Y hI; exact .inr ⟨u, Y, rfl, by omega, hI⟩
      | cons i is ih =>
        intro f u Y hI
        rcases (h.mem i).alloc hI hq hn with ⟨p, u', e, h'⟩ | ⟨u', e, h'⟩
        · cases hf : f.now with
          | false =>
            left
            refine ⟨i, p, _, u', Y, ?_, by omega, hE.add _ ⟨p, n, a⟩ ?_, by simpa using h'⟩
            · simp only [Coalescing.tryAllF, e, hf]; rfl
            · intro x hx
              have hx' : x ∈ H ++ Y := List.mem_append_left _ hx
              exact addr_ne_of_disjoint ((List.pairwise_cons.1 (h.tidy.disj h')).1 x hx') hn
                (h.tidy.wf hI x hx').2.2.2.1
          | true =>
            have hc := Faults.count_tail hf
            have h'' : I u' (H ++ (Y ++ [(i, ⟨p, n, a⟩)])) := by
              rw [← List.append_assoc]; exact h.lose h'
            simp only [Coalescing.tryAllF, e, hf, if_true]
            rcases ih f.tail u' _ h'' with ⟨i', p', t', u'', X, h1, h2, h3⟩ | ⟨u'', X, h1, h2, h3⟩
            · refine .inl ⟨i', p', t', u'', X, h1, ?_, h3⟩
              simp only [List.length_append, List.length_singleton] at h2; omega
            · refine .inr ⟨u'', X, h1, ?_, h3⟩
              simp only [List.length_append, List.length_singleton] at h2; omega
        · simp only [Coalescing.tryAllF, e]
          exact ih f u' Y h'
    rcases key order f u [] (by simpa using hI) with ⟨i, p, t', u', X, e, h1, h2, h3⟩ | ⟨u', X, e, h1, h2⟩
    · rw [e]; exact .inl ⟨i, p, t', u', X, rfl, by simpa using h1, h2, h3⟩
    · rw [e]; exact .inr ⟨t, u', X, rfl, by simpa using h1, hE, h2⟩
  · intro σ ups I h f t u H i b hE hI
    have hw := h.tidy.wf hI _ List.mem_cons_self
    simp only [MR.via, coalescingMRF, pimpl, hw.1, if_false,
      recordedDeallocate_eq hE List.mem_cons_self hw.1]
    obtain ⟨u', e, h'⟩ := (h.mem i).free hI
    simp only [e]
    refine ⟨_, _, u', rfl, hE.remove ?_, h', .inl rfl⟩
    intro x hx
    exact addr_ne_of_disjoint ((List.pairwise_cons.1 (h.tidy.disj hI)).1 x hx) hw.2.2.2.1
      (h.tidy.wf h' x hx).2.2.2.1

theorem BinPage.allocateF_eq (f : Faults) (dbg : Bool) (up : MR σ) (s : List Superpage × σ) (n : Nat) :
    BinPage.allocateF f dbg up s n = BinPage.allocate dbg up s n ∨
      BinPage.allocateF f dbg up s n = (.badAlloc, s) := by
  by_cases hf : (f.now || Faults.now f.tail) = true
  · cases h1 : BinPage.roundUp? dbg n with
    | none => left; simp only [BinPage.allocateF, BinPage.allocate, h1]
    | some r =>
      cases h2 : BinPage.findFreePage s.1 (max minPageSize r) with
      | none => left; simp only [BinPage.allocateF, BinPage.allocate, h1, h2]
      | some c =>
        cases c with
        | some c => left; simp only [BinPage.allocateF, BinPage.allocate, h1, h2]
        | none =>
          right
          simp only [BinPage.allocateF, h1, h2, BinPage.allocateFreshF, BinPage.allocateUpstreamF, hf, if_true]
          rfl
  · left
    simp only [BinPage.allocateF, BinPage.allocate, BinPage.allocateFreshF, BinPage.allocateFresh,
      BinPage.allocateUpstreamF, hf]
    rfl

theorem FaultyKind.binaryPage_spec {R : Limits} {dbg : Bool} (hR : PageLimits R) :
    FKSpec (.binaryPage dbg) (fun _ => ⟨R, maxAlign, false⟩) ⟨R, maxAlign, false⟩
      (fun t L H => BinPage.Inv R (fun (_ : Unit) H' => H = one H') (t, ()) L ∧ Live R maxAlign L) .quiet 0 := by
  refine FKSpec.of_same (Kind.binaryPage_inv hR) ?_ (fun _ _ _ _ _ _ => rfl) (fun _ _ _ _ => rfl) (fun _ _ _ _ _ => rfl)
  intro σ ups f x n a
  rcases BinPage.allocateF_eq f dbg (ups ()) x n with h | h
  · left
    show (if n = 0 then _ else _) = (if n = 0 then _ else _)
    split
    · rfl
    · exact h
  · by_cases hn : n = 0
    · left; subst hn; rfl
    · right
      show (if n = 0 then _ else _) = _
      rw [if_neg hn]; exact h

/-! ## Pools -/

theorem Faults.run_le (f : Faults) (n : Nat) : (f.run n).1 ≤ n := by
  induction n generalizing f with
  | zero => cases f <;> simp [Faults.run]
  | succ n ih =>
    cases f with
    | nil => simp [Faults.run]
    | cons b f =>
      cases b with
      | true => simp [Faults.run]
      | false => simp only [Faults.run]; have := ih f; omega

theorem Faults.run_all (f : Faults) (n : Nat) (h : (f.run n).2 = true) : (f.run n).1 = n := by
  induction n generalizing f with
  | zero => cases f <;> simp [Faults.run]
  | succ n ih =>
    cases f with
    | nil => simp [Faults.run]
    | cons b f =>
      cases b with
      | true => simp [Faults.run] at h
      | false => simp only [Faults.run] at h ⊢; rw [ih f h]

namespace Pool

variable {R : Limits} {o : PoolOpts} {k0 k1 : Nat} {up : MR σ} {RR : σ → List Blk → Prop}

/-- Blocks that are not in a bucket any more. -/
theorem Inv.shrink {s : Pool × σ} {L : List Blk} (h : Inv R o k0 k1 RR s L) {j : Nat} {b : Bucket}
    (hb : s.1.buckets[j]? = some b) {free : List Nat} (hs : free.Sublist b.free) :
    Inv R o k0 k1 RR ({ s.1 with buckets := s.1.buckets.set j { free := free, prev := b.prev } }, s.2) L := by
  obtain ⟨rest, hr1, hr2⟩ := freeSlots_split o.alignment s.1.buckets k0 j b hb
  have hr3 := hr2 { free := free, prev := b.prev }
  have hsub : (free.map (slot o.alignment (k0 + j)) ++ rest).Sublist
      (b.free.map (slot o.alignment (k0 + j)) ++ rest) := (hs.map _).append (.refl _)
  refine ⟨h.slog, by simpa using h.len, ?_, h.reach, ?_, ?_, h.big1, h.big2, h.big3, h.big4, h.wf, h.sorted⟩
  · intro i c hc
    simp only [List.getElem?_set] at hc
    split at hc
    · rename_i hij
      subst hij
      split at hc
      · cases hc; exact h.prev _ b hb
      · cases hc
    · exact h.prev i c hc
  · have h1 := (List.Perm.append_left (clientSlots o L) hr1).pairwise h.disj (fun h => h.symm)
    have h2 := h1.sublist ((List.Sublist.refl (clientSlots o L)).append hsub)
    exact (List.Perm.append_left (clientSlots o L) hr3.symm).pairwise h2 (fun h => h.symm)
  · intro x hx
    refine h.inside x ?_
    have h1 := (List.Perm.append_left (clientSlots o L) hr3).subset hx
    exact (List.Perm.append_left (clientSlots o L) hr1.symm).subset
      (((List.Sublist.refl (clientSlots o L)).append hsub).subset h1)

/-- The outcome of an allocation with failures and its effect on the invariant: the blocks `X` get lost. -/
def AllocOkF (R : Limits) (o : PoolOpts) (k0 k1 : Nat) (RR : σ → List Blk → Prop) (f : Faults) (L : List Blk) (n a : Nat)
    (r : Res Nat × (Pool × σ)) : Prop :=
  ∃ X : List Blk, X.length ≤ f.count true ∧ AllocOk R o k0 k1 (fun u T => RR u (T ++ X)) L n a r

theorem AllocOk.keep {f : Faults} {L : List Blk} {n a : Nat} {r : Res Nat × (Pool × σ)}
    (h : AllocOk R o k0 k1 RR L n a r) : AllocOkF R o k0 k1 RR f L n a r :=
  ⟨[], by simp, by simpa using h⟩

theorem Inv.lost {s : Pool × σ} {L : List Blk} (h : Inv R o k0 k1 RR s L) (hl : Serves R R.align up RR) {m c p : Nat} {u : σ}
    (hm : 0 < m) (hq : IsReq R m c) (hup : up.allocate s.2 m c = (.ok p, u)) :
    Inv R o k0 k1 (fun u T => RR u (T ++ [⟨p, m, c⟩])) (s.1, u) L := by
  have h1 := hl.sAlloc h.reach hq hm hup
  exact { h with reach := hl.perm h1 (List.perm_append_comm (l₁ := [Blk.mk p m c])) }

theorem oversizedF_ok {s : Pool × σ} {L : List Blk} (f : Faults) (h : Inv R o k0 k1 RR s L)
    (hl : Serves R R.align up RR) (hr : o.InRange) (hSR : o.smallest ≤ R.size) {n a : Nat} (hn : 0 < n) (hq : IsReq R n a)
    (hsm : ∀ p, small o ⟨p, n, a⟩ = false) :
    AllocOkF R o k0 k1 RR f L n a (allocateOversizedF f o up s (max n o.smallest) a) := by
  have hq' : IsReq R (max n o.smallest) a :=
    ⟨by have := hr.2.2.2.2.1; have := hq.1; omega, hq.2⟩
  have hfresh : AllocOkF R o k0 k1 RR f L n a (allocateFreshF f up s (max n o.smallest) a) := by
    unfold allocateFreshF
    have hg := hl.alloc h.reach hq' (by omega)
    cases hx : up.allocate s.2 (max n o.smallest) a with
    | mk r u =>
      rw [hx] at hg
      cases r <;> simp only [GoodAnswer] at hg
      case ok p =>
        cases hf : f.now with
        | false => exact AllocOk.keep (Or.inl ⟨p, rfl, h.fresh hl hn (Nat.le_max_left _ _) hq' (hsm p) hx⟩)
        | true =>
          exact ⟨[⟨p, max n o.smallest, a⟩], by simpa using Faults.now_count hf,
            Or.inr ⟨rfl, h.lost hl (by omega) hq' hx⟩⟩
      case badAlloc =>
        exact AllocOk.keep (Or.inr ⟨rfl, h.refused hl (by omega) hq' hx⟩)
  unfold allocateOversizedF
  split
  · obtain ⟨it, hit⟩ := findCached_ok (o := o) (xs := s.1.cached) (n := max n o.smallest) hq.pos
    rw [hit]
    simp only
    cases hd : s.1.cached[it]? with
    | none => exact hfresh
    | some d =>
      obtain ⟨f1, f2, _, _⟩ := findCached_spec h.sorted hit hd
      exact AllocOk.keep (Or.inl ⟨d.ptr, rfl, h.reuse hl hn hq (hsm _) hd (by omega) f2⟩)
  · exact hfresh

theorem pooledF_ok {dbg : Bool} {s : Pool × σ} {L : List Blk} (f : Faults) (h : Inv R o k0 k1 RR s L)
    (hl : Serves R R.align up RR) (hf : o.Facts k0 k1) (hs : o.Sound dbg)
    (hAR : o.alignment ≤ R.align) (hMR : o.maxBytes ≤ R.size)
    {n a : Nat} (hn : 0 < n) (hq : IsReq R n a) (hsm : ∀ p, small o ⟨p, n, a⟩ = true) :
    AllocOkF R o k0 k1 RR f L n a (allocatePooledF f dbg o up s (max n o.smallest)) := by
  have hle : max n o.smallest ≤ o.largest := by
    have := hsm 0
    simp only [small, Bool.and_eq_true, decide_eq_true_iff] at this
    exact this.1
  obtain ⟨j, b, e1, e2, e3, e4, e5⟩ := h.bucket hf hs.range hle
  unfold allocatePooledF
  simp only [e1, e4, e5]
  by_cases hemp : b.free = []
  · rw [if_pos (by rw [hemp]; rfl)]
    have hg := chunkBlocks_spec hs.range hf hs.noOverflow hs.nonEmpty (Nat.le_add_right k0 j) e3
      (h.prev j b e5)
    have hlt : k0 + j < 64 := by have := hf.lt; omega
    have hbs : wrap64 (1 <<< (k0 + j)) = 2 ^ (k0 + j) := by
      rw [Nat.one_shiftLeft]
      exact Nat.mod_eq_of_lt (Nat.pow_lt_pow_right (by decide) hlt)
    have hby : wrap64 (chunkBlocks o (k0 + j) b.prev <<< (k0 + j)) =
        chunkBlocks o (k0 + j) b.prev * 2 ^ (k0 + j) := by
      rw [Nat.shiftLeft_eq]
      refine Nat.mod_eq_of_lt ?_
      have := hg.maxBytes; have := hs.range.2.2.2.1; omega
    obtain ⟨iA, hiA⟩ := hf.align hs.nonEmpty.1
    have hpos : 0 < chunkBlocks o (k0 + j) b.prev * 2 ^ (k0 + j) :=
      Nat.mul_pos hg.pos (Nat.two_pow_pos _)
    have hreq : IsReq R (chunkBlocks o (k0 + j) b.prev * 2 ^ (k0 + j)) o.alignment :=
      ⟨by have := hg.maxBytes; have := hs.range.2.2.2.1; omega, hAR, iA, hiA.1⟩
    unfold addChunkF
    simp only [hbs, hby]
    rw [if_neg]
    · have hgood := hl.alloc h.reach hreq hpos
      cases hx : up.allocate s.2 (chunkBlocks o (k0 + j) b.prev * 2 ^ (k0 + j)) o.alignment with
      | mk r u =>
        rw [hx] at hgood
        cases r <;> simp only [GoodAnswer] at hgood
        case ok p =>
          cases hfn : f.now with
          | true =>
            exact ⟨[⟨p, chunkBlocks o (k0 + j) b.prev * 2 ^ (k0 + j), o.alignment⟩],
              by simpa using Faults.now_count hfn, Or.inr ⟨rfl, h.lost hl hpos hreq hx⟩⟩
          | false =>
            have hI := h.chunk hl ⟨iA, hiA⟩ hAR hMR hs.range.2.2.2.1 e5 hg hx
            have hj : j < s.1.buckets.length := by
              by_contra hc; rw [List.getElem?_eq_none (by omega)] at e5; simp at e5
            cases hrun : (Faults.run f.tail (chunkBlocks o (k0 + j) b.prev)).2 with
            | true =>
              simp only [Bool.false_eq_true, if_false, if_true, Faults.run_all _ _ hrun]
              refine AllocOk.keep (take_ok (b := Bucket.mk (b.free ++
                  (List.range (chunkBlocks o (k0 + j) b.prev)).map
                  (fun i => p + i * 2 ^ (k0 + j))) (chunkBlocks o (k0 + j) b.prev)) hI hn hq hsm e2 ?_ ?_)
              · simp [hj]
              · have := hg.pos
                simp only [ne_eq, List.append_eq_nil_iff, List.map_eq_nil_iff, List.range_eq_nil, not_and]
                intro _; omega
            | false =>
              have hsub : (b.free ++ (List.range (Faults.run f.tail (chunkBlocks o (k0 + j) b.prev)).1).map
                  (fun i => p + i * 2 ^ (k0 + j))).Sublist
                  (b.free ++ (List.range (chunkBlocks o (k0 + j) b.prev)).map (fun i => p + i * 2 ^ (k0 + j))) :=
                (List.Sublist.refl _).append ((List.range_sublist.2 (Faults.run_le _ _)).map _)
              have hI' := hI.shrink (j := j) (b := Bucket.mk (b.free ++
                  (List.range (chunkBlocks o (k0 + j) b.prev)).map
                  (fun i => p + i * 2 ^ (k0 + j))) (chunkBlocks o (k0 + j) b.prev)) (by simp [hj]) hsub
              simp only [List.set_set] at hI'
              exact AllocOk.keep (Or.inr ⟨rfl, hI'⟩)
        case badAlloc =>
          exact AllocOk.keep (Or.inr ⟨rfl, h.refused hl hpos hreq hx⟩)
    · have h1 := hg.minBlocks
      have h2 := hg.maxBlocks
      have h3 := hg.maxBytes
      cases dbg with
      | false => simp
      | true =>
        have h4 := hg.minBytes (hs.minFits rfl)
        simp [h1, h2, h3, h4]
  · rw [if_neg (by simpa using hemp)]
    exact AllocOk.keep (take_ok h hn hq hsm e2 e5 hemp)

theorem allocateF_ok {dbg : Bool} {s : Pool × σ} {L : List Blk} (f : Faults) (h : Inv R o k0 k1 RR s L)
    (hl : Serves R R.align up RR) (hf : o.Facts k0 k1) (hs : o.Sound dbg)
    (hAR : o.alignment ≤ R.align) (hMR : o.maxBytes ≤ R.size)
    (hR : R.align ≤ 2 ^ 61) {n a : Nat} (hn : 0 < n) (hq : IsReq R n a) :
    AllocOkF R o k0 k1 RR f L n a (allocateF f dbg o up s n a) := by
  unfold allocateF
  simp only [isPowerOf2_of_req hR hq, Bool.not_true, Bool.and_false, Bool.false_eq_true, if_false]
  have hsm := small_eq (o := o) n a
  split
  · rename_i hc
    rw [hc] at hsm
    exact oversizedF_ok f h hl hs.range (smallest_le_max hf hs hMR) hn hq (fun p => by simpa using hsm p)
  · rename_i hc
    simp only [Bool.not_eq_true] at hc
    rw [hc] at hsm
    exact pooledF_ok f h hl hf hs hAR hMR hn hq (fun p => by simpa using hsm p)

/-- A deallocation does what it does without failures, or throws and changes nothing. -/
theorem deallocateF_eq (f : Faults) (dbg : Bool) (o : PoolOpts) (up : MR σ) (s : Pool × σ) (p n a : Nat) :
    deallocateF f dbg o up s p n a = deallocate dbg o up s p n a ∨
      deallocateF f dbg o up s p n a = (.badAlloc, s) := by
  cases hf : f.now with
  | false => left; simp only [deallocateF, deallocate, hf, Bool.false_eq_true, if_false]; rfl
  | true =>
    unfold deallocateF deallocate
    simp only [hf, if_true]
    by_cases h1 : (dbg && !(isPowerOf2 a && isAligned p a)) = true
    · simp only [h1, if_true]; left; trivial
    simp only [h1, if_false, Bool.false_eq_true]
    by_cases h2 : (decide (max n o.smallest > o.largest) || decide (a > o.alignment)) = true
    · simp only [h2, if_true]
      cases s.1.oversized[s.1.oversized.findIdx (fun d => d.ptr == p)]? with
      | none => left; rfl
      | some d =>
        cases o.cacheOversized with
        | true => right; rfl
        | false => left; rfl
    · simp only [h2, if_false, Bool.false_eq_true]
      cases log2Ri (max n o.smallest) with
      | none => left; rfl
      | some log =>
        simp only
        cases s.1.buckets[wrap64 (log + 2 ^ 64 - s.1.smallestLog2)]? with
        | none => left; rfl
        | some b => right; rfl

end Pool

theorem FaultyKind.pool_spec {R : Limits} {dbg : Bool} {o : PoolOpts} {p : Pool} {k0 k1 : Nat}
    (hc : Pool.create o = .ok p)
    (hf : o.Facts k0 k1) (hp : p = ⟨k0, List.replicate (k1 - k0 + 1) {}, [], [], []⟩)
    (hs : o.Sound dbg) (hA : o.alignment ≤ R.align) (hM : o.maxBytes ≤ R.size) (hR : R.align ≤ 2 ^ 61) :
    FKSpec (.pool dbg o) (fun _ => ⟨R, R.align, false⟩) ⟨R, R.align, false⟩
      (fun t L H => Pool.Inv R o k0 k1 (fun (_ : Unit) H' => H = one H') (t, ()) L) .keeps 1 := by
  have hk := Kind.pool_inv hc hf hp hs hA hM hR
  refine ⟨hk, ?_, fun _ _ _ _ => rfl, ?_, fun _ _ _ _ _ => rfl⟩
  · intro σ ups I hF f t u L H n a hJ hI hq hn
    have hinv : Pool.Inv R o k0 k1 (fun u H => I u (one H)) (t, u) L := { hJ with reach := hJ.reach ▸ hI }
    obtain ⟨X, hX, h⟩ := Pool.allocateF_ok f hinv hF.single hf hs hA hM hR hn hq
    have e : ((FaultyKind.pool dbg o).fmr f ups).allocate (t, u) n a = Pool.allocateF f dbg o (ups ()) (t, u) n a := by
      simp [Pool.mrF, pimpl, Nat.pos_iff_ne_zero.1 hn]
    have hone : ∀ A B : List Blk, one (A ++ B) = one A ++ one B := fun A B => by simp [one]
    rw [e]
    rcases h with ⟨p, h1, h2⟩ | ⟨h1, h2⟩
    · refine ⟨_, _, _, _, one X, rfl, Eq.mp (congrArg (I _) (hone _ X)) h2.reach, by simpa [one] using hX, .inl ⟨p, h1, ?_⟩⟩
      exact { h2 with reach := rfl }
    · refine ⟨_, _, _, _, one X, rfl, Eq.mp (congrArg (I _) (hone _ X)) h2.reach, by simpa [one] using hX, .inr ⟨h1, ?_⟩⟩
      exact { h2 with reach := rfl }
  · intro σ ups I hF f t u L H b hJ hI
    have hb : b.addr ≠ 0 := (((hk.serves hF).live (s := (t, u)) ⟨H, hJ, hI⟩).1 b List.mem_cons_self).1
    have e : ((FaultyKind.pool dbg o).fmr f ups).deallocate (t, u) b.addr b.size b.align =
        Pool.deallocateF f dbg o (ups ()) (t, u) b.addr b.size b.align := by
      simp [Pool.mrF, pimpl, hb]
    have e' : ((Kind.pool dbg o).mr ups).deallocate (t, u) b.addr b.size b.align =
        Pool.deallocate dbg o (ups ()) (t, u) b.addr b.size b.align := by
      simp [Kind.pool, Pool.mr, Pool.impl, pimpl, hb]
    rw [e]
    rcases Pool.deallocateF_eq f dbg o (ups ()) (t, u) b.addr b.size b.align with h | h
    · obtain ⟨s', h1, H', h2, h3⟩ := (hk.serves hF).acts.free (s := (t, u)) ⟨H, hJ, hI⟩
      rw [h, ← e']
      exact ⟨_, s'.1, s'.2, h1, .inl ⟨rfl, H', h2, h3⟩⟩
    · exact ⟨_, t, u, h, .inr (.inl ⟨rfl, rfl, rfl, rfl⟩)⟩

theorem Tolerates.spec {K : FaultyKind} {P : K.ι → Port} {q : Port} {w : OnFree} {c : Nat} (h : Tolerates K P q w c) :
    ∃ J, FKSpec K P q J w c := by
  cases h with
  | pool hc hs hA hM hR =>
    obtain ⟨k0, k1, hf, hp⟩ := Pool.create_spec hs.range hc
    exact ⟨_, FaultyKind.pool_spec hc hf hp hs hA hM hR⟩
  | binaryPage hR => exact ⟨_, FaultyKind.binaryPage_spec hR⟩
  | debug => exact ⟨_, FaultyKind.debug_spec⟩
  | instrumenting => exact ⟨_, FaultyKind.instrumenting_spec⟩
  | choice => exact ⟨_, FaultyKind.choice_spec⟩
  | coalescing => exact ⟨_, FaultyKind.coalescing_spec⟩
  | contiguous h0 h1 =>
    obtain ⟨J, hJ⟩ := Kind.contiguous_spec h0 h1
    exact ⟨J, FKSpec.of_same hJ (fun _ _ _ _ _ => .inl rfl) (fun _ _ _ _ _ _ => rfl) (fun _ _ _ _ => rfl)
      (fun _ _ _ _ _ => rfl)⟩
  | identity =>
    obtain ⟨J, hJ⟩ := Kind.identity_spec
    exact ⟨J, FKSpec.of_same hJ (fun _ _ _ _ _ => .inl rfl) (fun _ _ _ _ _ _ => rfl) (fun _ _ _ _ => rfl)
      (fun _ _ _ _ _ => rfl)⟩
  | conditional =>
    obtain ⟨J, hJ⟩ := Kind.conditional_spec
    exact ⟨J, FKSpec.of_same hJ (fun _ _ _ _ _ => .inl rfl) (fun _ _ _ _ _ _ => rfl) (fun _ _ _ _ => rfl)
      (fun _ _ _ _ _ => rfl)⟩

/-- Resources whose deallocations do not throw serve their clients. -/
theorem FKSpec.script_serves {K : FaultyKind} {P : K.ι → Port} {q : Port}
    {J : K.τ → List Blk → List (K.ι × Blk) → Prop} {c : Nat} (h : FKSpec K P q J .quiet c) {ups : K.ι → MR σ}
    {I : σ → List (K.ι × Blk) → Prop} (hF : FServes P ups I) :
    Serves q.R q.G (script fun f => K.fmr f ups) (fun x L => ∃ k, FInv J I c x.2 L k) := by
  refine Serves.of_inv ?_ ?_ ?_ ?_ ?_ ?_
  · rintro s L ⟨k, hk⟩; exact h.live hF hk
  · rintro s L n a ⟨k, hk⟩ hq hn
    rcases h.step hF (s.1.headD []) hk hq hn with ⟨p, s', e, h'⟩ | ⟨s', e, h'⟩
    · simp only [script, e]
      have hl := h.live hF h'
      have hw := hl.1 _ List.mem_cons_self
      exact ⟨⟨hw.1, hw.2.1, hw.2.2.1, (List.pairwise_cons.1 hl.2).1⟩, fun _ hp => (by cases hp; exact ⟨_, h'⟩),
        by simp⟩
    · simp only [script, e]
      exact ⟨trivial, by simp, fun _ => ⟨_, h'⟩⟩
  · rintro s L a hk hq
    refine ⟨.inl ?_, ?_⟩
    · simp only [script, h.zero]
    · simp only [script, h.zero]; exact hk
  · rintro s L b ⟨k, hk⟩
    obtain ⟨r, s', e, h'⟩ := h.stepFree hF (s.1.headD []) hk
    simp only [script, e]
    rcases h' with ⟨rfl, h'⟩ | ⟨_, h', _⟩ | ⟨_, h', _⟩
    · exact ⟨rfl, k, h'⟩
    · cases h'
    · cases h'
  · rintro s L n a hk
    simp only [script, h.null]
    exact ⟨trivial, hk⟩
  · rintro s L L' ⟨k, hk⟩ hp; exact ⟨k, h.perm hF hk hp⟩

/-! ## No failures -/

theorem Faults.run_nil (n : Nat) : Faults.run [] n = (n, true) := by cases n <;> rfl

theorem pool_none (dbg : Bool) (o : PoolOpts) (up : MR σ) : Pool.mrF [] dbg o up = Pool.mr dbg o up := by
  unfold Pool.mrF Pool.mr
  congr 1
  have h : ∀ s log idx b, Pool.addChunkF [] dbg o up s log idx b = Pool.addChunk dbg o up s log idx b := by
    intro s log idx b
    simp only [Pool.addChunkF, Pool.addChunk, List.tail_nil, Faults.run_nil]
    rfl
  have h2 : ∀ s n, Pool.allocatePooledF [] dbg o up s n = Pool.allocatePooled dbg o up s n := by
    intro s n
    simp only [Pool.allocatePooledF, Pool.allocatePooled, h]
    rfl
  have h3 : ∀ s n a, Pool.allocateF [] dbg o up s n a = Pool.allocate dbg o up s n a := by
    intro s n a
    simp only [Pool.allocateF, Pool.allocate, h2]
    rfl
  unfold Pool.impl
  congr 1
  funext s n a
  exact h3 s n a

theorem coalescing_none {ι : Type} (order : List ι) (ups : ι → MR σ) :
    (FaultyKind.coalescing order).fmr [] ups = (Kind.coalescing order).mr ups := by
  have h : ∀ n a (is : List ι) s, Coalescing.tryAllF ups n a is [] s = Coalescing.tryAll ups n a is s := by
    intro n a is
    induction is with
    | nil => intro s; rfl
    | cons i is ih =>
      intro s
      simp only [Coalescing.tryAllF, Coalescing.tryAll, ih]
      rfl
  simp only [Kind.coalescing, coalescingMRF, coalescingMR, h]

theorem arena_none (up : MR σ) : Arena.mrF [] up = Arena.mr up := by
  have h1 : ∀ (free : List ABlock) n, Arena.firstFitF [] free n =
      (.ok (Arena.firstFit free n).1, (Arena.firstFit free n).2, []) := by
    intro free n
    unfold Arena.firstFitF Arena.firstFit
    cases free.find? (fun b => n ≤ b.size) with
    | none => rfl
    | some b =>
      simp only
      split
      · rfl
      · rfl
  have h2 : ∀ (free : List ABlock) b, Arena.coalesceF [] free b =
      match Arena.coalesce free b with
      | none => (.ub, free, [])
      | some free' => (.ok (), free', []) := by
    intro free b
    unfold Arena.coalesceF Arena.coalesce
    by_cases hb : b.ptr = 0
    · simp only [hb, if_true]
    · simp only [hb, if_false]
      cases (List.takeWhile (fun c => decide (c.ptr < b.ptr)) free).getLast?.or
          (List.dropWhile (fun c => decide (c.ptr < b.ptr)) free).head? with
      | none => rfl
      | some pb =>
        show (match Arena.coalesceAt _ _ pb b with
          | none => (Res.ub, free, ([] : Faults))
          | some free' => (.ok (), free', [])) = _
        rfl
  have h3 : ∀ (s : Arena × σ) n, Arena.expandF [] up s n = Arena.expand up s n := fun _ _ => rfl
  have h4 : ∀ (s : Arena × σ) n, Arena.expandAndFitF [] up s n =
      ((Arena.expandAndFit up s n).1, (Arena.expandAndFit up s n).2, []) := by
    intro s n
    simp only [Arena.expandAndFitF, Arena.expandAndFit, h3, List.tail_nil, h2]
    cases (Arena.expand up s n).1 with
    | ok b =>
      simp only
      cases Arena.coalesce (Arena.expand up s n).2.1.free b with
      | none => rfl
      | some free => simp only [h1]
    | _ => rfl
  have h5 : ∀ (s : Arena × σ) n, Arena.getBlockF [] up s n =
      ((Arena.getBlock up s n).1, (Arena.getBlock up s n).2, []) := by
    intro s n
    simp only [Arena.getBlockF, Arena.getBlock, h1, h4]
    split
    · split
      · rfl
      · rfl
    · rfl
  unfold Arena.mrF Arena.mr Arena.impl
  congr 2
  · funext s n _
    simp only [Arena.allocateF, Arena.allocate, h5]
    rfl
  · funext s p _ _
    have : Arena.deallocateF [] s.1 p = Arena.deallocate s.1 p := by
      unfold Arena.deallocateF Arena.deallocate
      cases s.1.allocated.find? (fun b => b.ptr == p) with
      | none => rfl
      | some b =>
        simp only [h2]
        split
        · rfl
        · cases Arena.coalesce s.1.free b with
          | none => rfl
          | some free => rfl
    rw [this]

end Vecmem
