import Verif.Lemmas.Buffers
import Verif.Props.C01_C02_Contiguous
import Verif.Props.C14_C15_Routing

/-!
# C26, C27, C28 — placement of several arrays in one allocation; vector and jagged vector buffers
-/

namespace Vecmem.Props

open Vecmem

variable {σ : Type} {R : Limits} {G : Nat}

/-- **C26.**  For every well-behaved resource in every reachable state (so: every base address it may return) and
every non-empty list of types and counts whose total is a legal request: the call makes one allocation, of the total
size, or fails with `bad_alloc` and no effect.  The regions are aligned, inside this block, disjoint and in order, the
empty ones null; the assertion never fails; destroying the owner gives the block back. -/
theorem c26_placement (up : MR σ) (u0 u : σ) (U : List Blk) (h : Lawful R G up u0) (hu : Reach R up u0 u U)
    (ts : List (CType × Nat)) (hne : ts ≠ []) (hw : ∀ e ∈ ts, e.1.Wf)
    (A : Nat) (hA : ∃ e ∈ ts, e.1.align = A) (hmax : ∀ e ∈ ts, e.1.align ≤ A)
    (hq : IsReq R (neededBytes A ts) maxAlign) :
    match placement up u ts with
    | (.ok (m, ps), u') =>
        m.ptr ≠ 0 ∧ m.size = neededBytes A ts ∧ m.ptr + m.size ≤ 2 ^ 64 ∧
        (∀ b ∈ U, Blk.Disjoint ⟨m.ptr, m.size, maxAlign⟩ b) ∧
        Reach R up u0 u' (⟨m.ptr, m.size, maxAlign⟩ :: U) ∧
        PlacedIn ⟨m.ptr, m.size, maxAlign⟩ ts ps ∧
        ∃ u'', m.destroy up u' = (.ok (), u'') ∧ Reach R up u0 u'' U
    | (.badAlloc, u') => Reach R up u0 u' U
    | _ => False := by
  have hAe : maxAlignOf ts = A := by
    obtain ⟨e, he, rfl⟩ := hA
    apply Nat.le_antisymm
    · have : ∀ (l : List Nat) (a b : Nat), a ≤ b → (∀ x ∈ l, x ≤ b) → l.foldl max a ≤ b := by
        intro l
        induction l with
        | nil => intro a b h _; exact h
        | cons y l ih =>
          intro a b h1 h2
          exact ih _ _ (Nat.max_le.2 ⟨h1, h2 y List.mem_cons_self⟩) (fun x hx => h2 x (List.mem_cons_of_mem _ hx))
      apply this _ _ _ (Nat.zero_le _)
      intro x hx
      obtain ⟨f, hf, rfl⟩ := List.mem_map.1 hx
      exact hmax f hf
    · exact (foldl_max_ge _ 0).2 _ (List.mem_map.2 ⟨e, he, rfl⟩)
  have hfl : FamLawful R G (fun _ : Unit => up) u0 := .same h
  rcases hfl.placement hu.fam () hne hw (by rw [hAe]; exact hq) with ⟨m, ps, u', h1, h2, h3, h4, h5⟩ | ⟨u', h1, h2⟩
  · rw [h1]
    rw [map_snd_unit] at h5
    simp only [GoodAnswer] at h5
    have h4' := h4.same
    simp only [List.map_cons, map_snd_unit] at h4'
    obtain ⟨u'', d1, d2⟩ := hfl.destroy h4 h5.1
    have d2' := d2.same
    rw [map_snd_unit] at d2'
    exact ⟨h5.1, by rw [h2, hAe], h5.2.1, h5.2.2.2, h4', h3, u'', d1, d2'⟩
  · rw [h1]
    have := h2.same
    rwa [map_snd_unit] at this

/-- The hypotheses of `c26_placement` are met, and the result is what one expects: three regions, one of them empty,
the last one over-aligned, from a resource that is at an odd address. -/
example : Reach 64 demoBase demoInit (⟨2 ^ 62, 4096, 4097⟩, ()) [⟨4096, 1, 1⟩] ∧
    (∀ e ∈ [(CType.mk 1 1, 3), (CType.mk 8 8, 0), (CType.mk 64 32, 2)], e.1.Wf) ∧
    IsReq 64 (neededBytes 32 [(CType.mk 1 1, 3), (CType.mk 8 8, 0), (CType.mk 64 32, 2)]) maxAlign ∧
    (placement demoBase (⟨2 ^ 62, 4096, 4097⟩, ()) [(CType.mk 1 1, 3), (CType.mk 8 8, 0), (CType.mk 64 32, 2)]).1 =
      .ok (⟨4112, 227⟩, [4112, 0, 4128]) := by
  refine ⟨?_, ?_, ⟨by decide, by decide, 4, rfl⟩, by decide +kernel⟩
  · exact Reach.alloc (s := demoInit) .init ⟨by decide, by decide, 0, rfl⟩ (by decide) (by decide +kernel)
  · intro e he
    simp only [List.mem_cons, List.not_mem_nil, or_false] at he
    rcases he with rfl | rfl | rfl
    · exact ⟨by decide, ⟨0, rfl⟩, by decide⟩
    · exact ⟨by decide, ⟨3, rfl⟩, by decide⟩
    · exact ⟨by decide, ⟨5, rfl⟩, by decide⟩

/-- **C27.**  For every element type, capacity and kind of buffer, and every well-behaved resource in every reachable
state: an empty buffer has only null pointers, and the resource is not used; otherwise the buffer makes one allocation
(or fails with `bad_alloc` and no effect), and its view has the given capacity, an aligned payload inside this
allocation, and, exactly if it is resizable, an aligned size word inside the allocation and disjoint from the payload.
Destroying the buffer returns its memory. -/
theorem c27_vector_buffer (up : MR σ) (u0 u : σ) (U : List Blk) (h : Lawful R G up u0) (hu : Reach R up u0 u U)
    (t : CType) (ht : t.Wf) (capacity : Nat) (resizable : Bool)
    (hq : IsReq R (neededBytes (max 4 t.align) [(.uint, if resizable then 1 else 0), (t, capacity)]) maxAlign) :
    match VecBuffer.create up u t capacity resizable with
    | (.ok b, u') =>
        b.view.capacity = capacity ∧
        (capacity = 0 → b.view.sizePtr = 0 ∧ b.view.ptr = 0 ∧ u' = u) ∧
        (capacity ≠ 0 → ∃ m : Blk,
          Reach R up u0 u' (m :: U) ∧ m.addr ≠ 0 ∧ (∀ x ∈ U, m.Disjoint x) ∧
          (b.view.payload t).Aligned ∧ (b.view.payload t).Inside m ∧ b.view.ptr ≠ 0 ∧
          (if resizable then
            b.view.sizePtr ≠ 0 ∧ b.view.sizeWord.Aligned ∧ b.view.sizeWord.Inside m ∧
            b.view.sizeWord.Disjoint (b.view.payload t)
          else b.view.sizePtr = 0)) ∧
        ∃ u'', b.destroy up u' = (.ok (), u'') ∧ Reach R up u0 u'' U
    | (.badAlloc, u') => capacity ≠ 0 ∧ Reach R up u0 u' U
    | _ => False := by
  unfold VecBuffer.create
  by_cases h0 : capacity = 0
  · rw [if_pos h0]
    exact ⟨rfl, fun _ => ⟨rfl, rfl, rfl⟩, fun h => absurd h0 h, u, rfl, hu⟩
  · rw [if_neg h0]
    have hfl : FamLawful R G (fun _ : Unit => up) u0 := .same h
    have hmax : maxAlignOf [(CType.uint, if resizable then 1 else 0), (t, capacity)] = max 4 t.align := by
      simp [maxAlignOf, CType.uint]
    rcases hfl.placement hu.fam () (ts := [(CType.uint, if resizable then 1 else 0), (t, capacity)]) (by simp)
      (by
        intro e he
        simp only [List.mem_cons, List.not_mem_nil, or_false] at he
        rcases he with rfl | rfl
        · exact uint_wf
        · exact ht) (by rw [hmax]; exact hq) with ⟨m, ps, u', h1, h2, h3, h4, h5⟩ | ⟨u', h1, h2⟩
    · obtain ⟨a, b, rfl⟩ : ∃ a b, ps = [a, b] := by
        have hl := h3.length
        match ps, hl with
        | [a, b], _ => exact ⟨a, b, rfl⟩
      rw [map_snd_unit] at h5
      simp only [GoodAnswer] at h5
      have h4' := h4.same
      simp only [List.map_cons, map_snd_unit] at h4'
      obtain ⟨u'', d1, d2⟩ := hfl.destroy h4 h5.1
      have d2' := d2.same
      rw [map_snd_unit] at d2'
      obtain ⟨k1, k2⟩ := h3.inside t capacity b (by simp) h0
      simp only [h1]
      refine ⟨trivial, fun h => absurd h h0, fun _ => ⟨m.blk, h4', h5.1, h5.2.2.2, k1, k2, ?_, ?_⟩, u'', d1, d2'⟩
      · have := k2.1
        simp only [CType.region, UniqueAlloc.blk] at this
        simp only [List.getD_cons_succ, List.getD_cons_zero]
        omega
      · cases resizable with
        | false => simp only [Bool.false_eq_true, if_false]; exact h3.empty CType.uint 0 a (by simp) rfl
        | true =>
          obtain ⟨l1, l2⟩ := h3.inside CType.uint 1 a (by simp) (by decide)
          simp only [if_true]
          refine ⟨?_, l1, l2, Or.inl ?_⟩
          · have := l2.1
            simp only [CType.region, UniqueAlloc.blk] at this
            simp only [List.getD_cons_zero]
            omega
          · have hp := List.pairwise_cons.1 h3.order
            exact hp.1 ((t, capacity), b) (by simp) (by simp) h0
    · simp only [h1, Res.map]
      have := h2.same
      rw [map_snd_unit] at this
      exact ⟨h0, this⟩

/-- The hypotheses of `c27_vector_buffer` are met; 10 elements of 12 bytes. -/
example : (CType.mk 12 4).Wf ∧
    IsReq 64 (neededBytes (max 4 4) [(.uint, if true then 1 else 0), (CType.mk 12 4, 10)]) maxAlign ∧
    (VecBuffer.create demoBase demoInit ⟨12, 4⟩ 10 true).1 = .ok ⟨⟨10, 4096, 4100⟩, ⟨4096, 132⟩⟩ :=
  ⟨⟨by decide, ⟨2, rfl⟩, by decide⟩, ⟨by decide, by decide, 4, rfl⟩, by decide +kernel⟩

/-- The bound in `c27_vector_buffer` is no restriction in practice: with a 32-bit
capacity it holds for all element types of up to 2³¹ bytes, if the resource accepts all sizes. -/
theorem c27_bound {t : CType} (h1 : t.size ≤ 2 ^ 31) (h2 : t.align ≤ 2 ^ 31) {capacity : Nat}
    (hc : capacity < 2 ^ 32) (resizable : Bool) (hR : maxAlign ≤ R.align) (hS : 2 ^ 64 - 1 ≤ R.size) :
    IsReq R (neededBytes (max 4 t.align) [(.uint, if resizable then 1 else 0), (t, capacity)]) maxAlign := by
  have h3 : capacity * t.size ≤ 2 ^ 32 * 2 ^ 31 := Nat.mul_le_mul (Nat.le_of_lt hc) h1
  have h4 : neededBytes (max 4 t.align) [(.uint, if resizable then 1 else 0), (t, capacity)] < 2 ^ 64 := by
    unfold neededBytes
    cases resizable <;> simp only [List.map_cons, List.map_nil, List.sum_cons, List.sum_nil, CType.uint,
      List.length_cons, List.length_nil, if_true, Bool.false_eq_true, if_false] <;> omega
  exact ⟨⟨by omega, h4⟩, hR, 4, rfl⟩

/-- **C28, partial.**  For every element type, list of capacities and kind of buffer, and any two well-behaved
resources with a common address space (one resource, if there is no host resource): construction fails with
`bad_alloc` and returns everything allocated so far, or the buffer owns disjoint blocks, disjoint from all other
live blocks; its inner vectors are as `InnerVectors` says; the array of views has one entry per capacity and room for
it; destruction gives all memory back.  The payloads are aligned if the buffer is resizable, or if the element type is
not over-aligned.

Missing: capacities of 2³² and more are truncated (`c28_capacity_truncated`), and payloads of over-aligned types in
fixed size buffers are not aligned (`c28_fixed_misaligned`). -/
theorem c28_jagged_buffer_partial (ups : Bool → MR σ) (u0 u : σ) (T : List (Bool × Blk)) (h : FamLawful R G ups u0)
    (hu : FReach R ups u0 u T) (t : CType) (ht : t.Wf) (caps : List Nat) (hasHost resizable : Bool)
    (hc : ∀ c ∈ caps, c < 2 ^ 32) (hqo : IsReq R (caps.length * viewSize) maxAlign)
    (hq : IsReq R (neededBytes (max 4 t.align) [(.uint, caps.length), (t, caps.sum)]) maxAlign) :
    match JagBuffer.create ups u t caps hasHost resizable with
    | (.ok b, u') =>
        FReach R ups u0 u' (b.owned hasHost ++ T) ∧
        (b.owned hasHost ++ T).Pairwise (fun e f => e.2.Disjoint f.2) ∧
        InnerVectors ⟨b.inner.ptr, b.inner.size, maxAlign⟩ t caps resizable b.views ∧
        ((resizable = true ∨ t.align ≤ maxAlign ∧ maxAlign ≤ G) → ∀ v ∈ b.views, (v.payload t).Aligned) ∧
        b.views.length = caps.length ∧
        b.hostPtr = b.outerHost.ptr ∧ (b.ptr = if hasHost then b.outer.ptr else b.hostPtr) ∧
        (caps ≠ [] → b.outerHost.ptr ≠ 0 ∧ b.outerHost.size = caps.length * viewSize ∧
          (hasHost = true → b.outer.ptr ≠ 0 ∧ b.outer.size = caps.length * viewSize)) ∧
        (caps = [] → b.ptr = 0 ∧ b.hostPtr = 0 ∧ b.owned hasHost = []) ∧
        ∃ u'', b.destroy ups hasHost u' = (.ok (), u'') ∧ FReach R ups u0 u'' T
    | (.badAlloc, u') => FReach R ups u0 u' T
    | _ => False := by
  have hq1 : IsReq R ((if hasHost then caps.length else 0) * viewSize) maxAlign := by
    cases hasHost
    · exact ⟨⟨by simp, by simp⟩, hqo.2⟩
    · exact hqo
  unfold JagBuffer.create
  rcases allocOuter_ok h hu false hq1 with ⟨m1, u1, a1, a2, a3, a4⟩ | ⟨u1, a1, a2⟩
  · simp only [a1]
    rcases allocOuter_ok h a2 hasHost hqo with ⟨m2, u2, b1, b2, b3, b4⟩ | ⟨u2, b1, b2⟩
    · simp only [b1]
      rcases jagInner_ok h b2 false ht hc hq (resizable := resizable) with ⟨m3, hdr, data, u3, c1, c2, c3, c4, -⟩ | ⟨u3, c1, c2⟩
      · simp only [c1]
        have hown : ∀ b : JagBuffer, b.inner = m3 → b.outerHost = m2 → b.outer = m1 →
            b.owned hasHost ++ T = heldBy [(false, m3)] ++ (heldBy [(hasHost, m2)] ++ (heldBy [(false, m1)] ++ T)) := by
          intro b e1 e2 e3
          simp only [JagBuffer.owned, e1, e2, e3, heldBy, List.filter_cons, List.filter_nil]
          by_cases z3 : m3.ptr = 0 <;> by_cases z2 : m2.ptr = 0 <;> by_cases z1 : m1.ptr = 0 <;>
            simp [z1, z2, z3, UniqueAlloc.blk]
        refine ⟨?_, ?_, c3, ?_, jagViews_length _ _ _ _ _ _, trivial, trivial, ?_, ?_, ?_⟩
        · rw [hown _ rfl rfl rfl]; exact c2
        · rw [hown _ rfl rfl rfl]; exact (h.live c2).2
        · intro hal v hv
          obtain ⟨i, hi⟩ := List.mem_iff_getElem?.1 hv
          rw [jagViews_get] at hi
          cases hx : caps[i]? with
          | none => rw [hx] at hi; simp at hi
          | some c =>
            rw [hx] at hi
            simp only [Option.map_some, Option.some.injEq] at hi
            subst hi
            simp only [View.payload, CType.region, Blk.Aligned]
            exact Nat.dvd_add (c4 hal) (Nat.dvd_trans ht.2.2 (Nat.dvd_mul_right _ _))
        · intro hne
          have hl : caps.length ≠ 0 := fun h => hne (List.length_eq_zero_iff.1 h)
          refine ⟨(b4 hl).1, (b4 hl).2.1, ?_⟩
          intro hh
          subst hh
          exact ⟨(a4 hl).1, (a4 hl).2.1⟩
        · intro hnil
          subst hnil
          have e1 : m1 = {} := a3 (by simp)
          have e2 : m2 = {} := b3 rfl
          have e3 : m3 = {} := by
            unfold jagInner at c1
            cases resizable <;> simp [IntMath.wrap64] at c1 <;> exact c1.1.1.symm
          subst e1 e2 e3
          cases hasHost <;> exact ⟨rfl, rfl, rfl⟩
        · have c2' : FReach R ups u0 u3 (heldBy [(false, m3), (hasHost, m2), (false, m1)] ++ T) := by
            have : heldBy [(false, m3), (hasHost, m2), (false, m1)] ++ T
                = heldBy [(false, m3)] ++ (heldBy [(hasHost, m2)] ++ (heldBy [(false, m1)] ++ T)) := by
              simp only [heldBy_cons]
              by_cases z3 : m3.ptr = 0 <;> by_cases z2 : m2.ptr = 0 <;> by_cases z1 : m1.ptr = 0 <;>
                simp [z1, z2, z3, heldBy]
            rw [this]; exact c2
          exact unwind_ok h (.ok ()) _ u3 c2'
      · simp only [c1, Res.map]
        have c2' : FReach R ups u0 u3 (heldBy [(hasHost, m2), (false, m1)] ++ T) := by
          have : heldBy [(hasHost, m2), (false, m1)] ++ T
              = heldBy [(hasHost, m2)] ++ (heldBy [(false, m1)] ++ T) := by
            simp only [heldBy_cons]
            by_cases z2 : m2.ptr = 0 <;> by_cases z1 : m1.ptr = 0 <;> simp [z1, z2, heldBy]
          rw [this]; exact c2
        obtain ⟨u4, d1, d2⟩ := unwind_ok h (.badAlloc : Res JagBuffer) _ u3 c2'
        simp only [List.map_cons, List.map_nil] at d1
        rw [d1]; exact d2
    · simp only [b1, Res.map]
      obtain ⟨u4, d1, d2⟩ := unwind_ok h (.badAlloc : Res JagBuffer) [(false, m1)] u2 b2
      simp only [List.map_cons, List.map_nil] at d1
      rw [d1]; exact d2
  · simp only [a1, Res.map]; exact a2

/-- The size words of different inner vectors do not overlap, nor do size words and payloads, nor payloads: read off
`InnerVectors`. -/
theorem c28_disjoint {m : Blk} {t : CType} {caps : List Nat} {views : List View} (h : InnerVectors m t caps true views) :
    views.Pairwise (fun v w => v.sizeWord.Disjoint w.sizeWord ∧ (v.payload t).Disjoint (w.payload t)) ∧
    ∀ v ∈ views, ∀ w ∈ views, w.capacity ≠ 0 → v.sizeWord.Disjoint (w.payload t) := by
  obtain ⟨hd, hh⟩ := h.adjacent rfl
  refine ⟨?_, ?_⟩
  · rw [List.pairwise_iff_getElem]
    intro i j hi hj hij
    have e1 := hh i _ (List.getElem?_eq_getElem hi)
    have e2 := hh j _ (List.getElem?_eq_getElem hj)
    refine ⟨Or.inl ?_, Or.inl ?_⟩
    · simp only [View.sizeWord, CType.region, CType.uint, e1, e2]; omega
    · exact List.pairwise_iff_getElem.1 h.payloads i j hi hj hij
  · intro v hv w hw h0
    exact Or.inl (h.before rfl v hv w hw h0)

/-- The hypotheses of `c28_jagged_buffer_partial` are met: three inner vectors, one of them empty, in a resizable
buffer with separate host memory. -/
example : (CType.mk 8 8).Wf ∧ IsReq 64 (3 * viewSize) maxAlign ∧
    IsReq 64 (neededBytes (max 4 8) [(.uint, [2, 0, 5].length), (⟨8, 8⟩, [2, 0, 5].sum)]) maxAlign ∧
    (JagBuffer.create demoFam demoFamInit ⟨8, 8⟩ [2, 0, 5] true true).1.map (·.views) =
      .ok [⟨2, 4176, 4192⟩, ⟨0, 4180, 4208⟩, ⟨5, 4184, 4208⟩] :=
  ⟨⟨by decide, ⟨3, rfl⟩, by decide⟩, ⟨by decide, by decide, 4, rfl⟩, ⟨by decide, by decide, 4, rfl⟩, by decide +kernel⟩

/-- A capacity of 2³² is accepted (it needs 4 GiB for one-byte elements), and the inner vector has capacity 0. -/
theorem c28_capacity_truncated :
    (JagBuffer.create (fun _ => demoBase) demoInit ⟨1, 1⟩ [2 ^ 32] false false).1.map (fun b => (b.inner.size, b.views)) =
      .ok (2 ^ 32, [⟨0, 0, 4128⟩]) := by decide +kernel

/-- In a fixed size buffer of 64-byte aligned elements, the payload need not be 64-byte aligned, even if the resource
serves every alignment asked for. -/
theorem c28_fixed_misaligned :
    Lawful 64 64 demoBase demoInit ∧
    (JagBuffer.create (fun _ => demoBase) demoInit ⟨64, 64⟩ [1] false false).1.map (·.views) = .ok [⟨1, 0, 4128⟩] ∧
    ¬ (View.payload ⟨64, 64⟩ ⟨1, 0, 4128⟩).Aligned :=
  ⟨demo_lawful 64, by decide +kernel, by decide⟩

end Vecmem.Props
