import Verif.Lemmas.CopyJagged
import Verif.Props.C37_Copy

/-!
# C38–C40: copying jagged vectors, their sizes, `setup` and `memset`
-/

namespace Vecmem
namespace Props

open IntMath Prog

variable {σ : Type}

/-! ## C38 -/

/-- **C38**: for jagged views with as many rows, which share no memory: the copy throws `length_error` if a row of the
target has too small a capacity, and then changes nothing; otherwise every row of the target holds the elements of the row
of the source, and nothing but bytes of the target (its payload and its size words) changes.  This covers all combinations
of resizable or fixed size and contiguous or scattered sources and targets. -/
theorem c38_copy (dbg : Bool) (m : Mem) (t : Nat) (ht : 0 < t) (src dst : JagView) (hs : JagValid m t src.views)
    (hd : JagValid m t dst.views) (hsep : ∀ x, ¬ (JagHas t src.views x ∧ JagHas t dst.views x))
    (hl : src.views.length = dst.views.length) :
    ((∃ (i : Nat) (v w : View), src.views[i]? = some v ∧ dst.views[i]? = some w ∧ w.capacity < v.len m) ∧
      (copyJag dbg t src dst).result m = (.lengthError, m)) ∨
    ∃ m', (copyJag dbg t src dst).result m = (.ok (), m') ∧
      (∀ (i : Nat) (v w : View), src.views[i]? = some v → dst.views[i]? = some w →
        v.len m ≤ w.capacity ∧ v.HoldsRow m m' t w) ∧
      ∀ x, ¬ JagHas t dst.views x → m' x = m x := by
  rcases copyJag_acts dbg m t ht src dst hs hd hsep hl with ⟨h1, h2⟩ | ⟨m', h1, h2⟩
  · exact .inl ⟨h1, h2.result⟩
  · exact .inr ⟨m', h1.result, h2⟩

/-- A resizable jagged vector with two rows of capacity 3 (sizes 2 and 0), and a fixed size one. -/
def demoJagSrc : JagView := ⟨[⟨3, 100, 200⟩, ⟨3, 104, 203⟩], 0, 0⟩
def demoJagDst : JagView := ⟨[⟨3, 0, 300⟩, ⟨4, 0, 310⟩], 0, 0⟩

theorem demoJagSrc_valid : JagValid demoMem 1 demoJagSrc.views := by
  refine ⟨⟨?_, ?_, .inr ⟨100, by decide, ?_⟩, by decide⟩, ?_⟩
  · intro v hv
    simp only [demoJagSrc, List.mem_cons, List.not_mem_nil, or_false] at hv
    rcases hv with rfl | rfl <;> refine ⟨by decide, by decide, by decide, ?_⟩ <;> rintro x ⟨⟨h1, h2⟩, h3, h4, h5⟩ <;>
      simp only at * <;> omega
  · simp only [demoJagSrc, List.pairwise_cons, List.mem_singleton, forall_eq, List.not_mem_nil, false_implies, implies_true,
      List.Pairwise.nil, and_true]
    rintro x ⟨⟨h1, h2⟩ | ⟨h1, h2, h3⟩, ⟨h4, h5⟩ | ⟨h4, h5, h6⟩⟩ <;> simp only at * <;> omega
  · intro i v h
    match i, h with
    | 0, h => simp only [demoJagSrc, List.getElem?_cons_zero, Option.some.injEq] at h; subst h; rfl
    | 1, h => simp only [demoJagSrc, List.getElem?_cons_succ, List.getElem?_cons_zero, Option.some.injEq] at h; subst h; rfl
    | i + 2, h => simp [demoJagSrc] at h
  · decide

theorem demoJagDst_valid : JagValid demoMem 1 demoJagDst.views := by
  refine ⟨⟨?_, ?_, .inl (by decide), by decide⟩, by decide⟩
  · intro v hv
    simp only [demoJagDst, List.mem_cons, List.not_mem_nil, or_false] at hv
    rcases hv with rfl | rfl <;> exact ⟨by decide, by decide, by decide, fun x hx => hx.2.1 rfl⟩
  · simp only [demoJagDst, List.pairwise_cons, List.mem_singleton, forall_eq, List.not_mem_nil, false_implies, implies_true,
      List.Pairwise.nil, and_true]
    rintro x ⟨⟨h1, h2⟩ | ⟨h1, h2, h3⟩, ⟨h4, h5⟩ | ⟨h4, h5, h6⟩⟩ <;> simp only at * <;> omega

/-- The hypotheses of `c38_copy` are met by these, and this is the result, in both directions (in the second one the sizes
of the rows of the target become 3 and 4, which is too much for the second row). -/
example : (∀ x, ¬ (JagHas 1 demoJagSrc.views x ∧ JagHas 1 demoJagDst.views x)) ∧
    (demoJagDst.views.map fun v => v.elems ((copyJag true 1 demoJagSrc demoJagDst).result demoMem).2 1) =
      [[[200], [201], [46]], [[54], [55], [56], [57]]] ∧
    ((copyJag true 1 demoJagDst demoJagSrc).result demoMem).1 = .lengthError := by
  refine ⟨?_, by decide +kernel, by decide +kernel⟩
  rintro x ⟨⟨v, hv, h1⟩, ⟨w, hw, h2⟩⟩
  simp only [demoJagSrc, demoJagDst, List.mem_cons, List.not_mem_nil, or_false] at hv hw
  rcases hv with rfl | rfl <;> rcases hw with rfl | rfl <;> rcases h1 with ⟨h1, h3⟩ | ⟨h1, h3, h5⟩ <;>
    rcases h2 with ⟨h2, h4⟩ | ⟨h2, h4, h6⟩ <;> simp only at * <;> omega

/-- **C38**, for views with different numbers of rows: the copy throws `length_error` and changes nothing, unless the
source has no rows, in which case it does nothing. -/
theorem c38_copy_unequal (dbg : Bool) (m : Mem) (t : Nat) (src dst : JagView) (hs : JagValid m t src.views)
    (hl : src.views.length ≠ dst.views.length) :
    (copyJag dbg t src dst).result m = (if src.views = [] then .ok () else .lengthError, m) := by
  have h := copyViewJag_unequal dbg hs hl
  by_cases h0 : src.views = []
  · rw [if_pos h0] at h ⊢
    exact (h.bindActs (acts_retNoEvent m)).result
  · rw [if_neg h0] at h ⊢
    exact (Does.bindErr h (fun _ => by simp) (fun _ => 0)).acts.result

example : ((copyJag true 1 demoJagSrc ⟨demoJagDst.views ++ [⟨1, 0, 320⟩], 0, 0⟩).result demoMem).1 = .lengthError := by
  decide +kernel

/-- The elements of a fixed size row behind the copied ones may be overwritten: with contiguous views of equal capacities
the whole payload is copied, whatever the sizes of the rows of the source are.  (C38 only speaks about the elements that
are copied.) -/
theorem c38_fast_path_copies_capacity :
    (demoJagSrc.views.map fun v => v.len demoMem) = [2, 0] ∧
    ((⟨[⟨3, 0, 300⟩, ⟨3, 0, 303⟩], 0, 0⟩ : JagView).views.map fun v =>
      v.elems ((copyJag true 1 demoJagSrc ⟨[⟨3, 0, 300⟩, ⟨3, 0, 303⟩], 0, 0⟩).result demoMem).2 1) =
      [[[200], [201], [202]], [[203], [204], [205]]] := by decide +kernel

/-- **C38**, copies to a `std::vector` of `std::vector`s: wherever the resized inner vectors have their arrays (`ps`), if
these share no memory with each other or with the source, each of them then holds the elements of the row of the source,
and nothing else is changed. -/
theorem c38_to_std (dbg : Bool) (m : Mem) (t : Nat) (ht : 0 < t) (src : JagView) (hs : JagValid m t src.views)
    (resize : List Nat → List Nat) (ps : List Nat) (hps : resize (src.views.map (·.len m)) = ps)
    (hl : ps.length = src.views.length) (rows : List View)
    (hr : rows = List.zipWith (fun (v : View) p => ⟨v.len m, 0, p⟩) src.views ps)
    (hp : ∀ r ∈ rows, r.capacity ≠ 0 → r.ptr ≠ 0 ∧ r.ptr + r.capacity * t ≤ 2 ^ 64)
    (hd : rows.Pairwise (View.Separate t)) (hsep : ∀ x, ¬ (JagHas t src.views x ∧ JagHas t rows x)) :
    ∃ m', (copyJagToStd dbg t src resize).result m = (.ok (), m') ∧
      (∀ (i : Nat) (v r : View), src.views[i]? = some v → rows[i]? = some r → r.elems m' t = v.elems m t) ∧
      ∀ x, ¬ JagHas t rows x → m' x = m x := by
  have hrows : List.zipWith (fun n p => (⟨n % 2 ^ 32, 0, p⟩ : View)) (src.views.map (·.len m)) (resize (src.views.map (·.len m)))
      = rows := by
    rw [hps, hr, List.zipWith_map_left]
    apply List.ext_getElem?
    intro i
    rw [List.getElem?_zipWith, List.getElem?_zipWith]
    cases hi : src.views[i]? with
    | none => rfl
    | some v =>
      cases ps[i]? with
      | none => rfl
      | some p =>
        simp only [Option.some.injEq, View.mk.injEq, and_true]
        exact Nat.mod_eq_of_lt (View.len_lt (hs.inner v (List.mem_iff_getElem?.2 ⟨i, hi⟩)))
  have hget : ∀ (i : Nat) (r : View), rows[i]? = some r → ∃ v p, src.views[i]? = some v ∧ r = ⟨v.len m, 0, p⟩ := by
    intro i r h
    rw [hr, List.getElem?_zipWith] at h
    cases hi : src.views[i]? with
    | none => rw [hi] at h; simp at h
    | some v =>
      cases hj : ps[i]? with
      | none => rw [hi, hj] at h; simp at h
      | some p => rw [hi, hj] at h; simp only [Option.some.injEq] at h; exact ⟨v, p, rfl, h.symm⟩
  have hmem : ∀ r ∈ rows, ∃ v ∈ src.views, ∃ p, r = ⟨v.len m, 0, p⟩ := by
    intro r h
    obtain ⟨i, hi⟩ := List.mem_iff_getElem?.1 h
    obtain ⟨v, p, hv, e⟩ := hget i r hi
    exact ⟨v, List.mem_iff_getElem?.2 ⟨i, hv⟩, p, e⟩
  have hlen : rows.length = src.views.length := by rw [hr]; simp [hl]
  have hval : JagValid m t rows := by
    refine ⟨⟨fun r h => ?_, hd, .inl fun r h => ?_, by rw [hlen]; exact hs.count⟩, fun r h => ?_⟩
    · obtain ⟨v, hv, p, e⟩ := hmem r h
      refine ⟨fun h0 => (hp r h h0).1, fun h0 => (hp r h h0).2, ?_, fun x hx => hx.2.1 (by rw [e])⟩
      rw [e]
      exact View.len_lt (hs.inner v hv)
    · obtain ⟨v, hv, p, e⟩ := hmem r h
      rw [e]
    · obtain ⟨v, hv, p, e⟩ := hmem r h
      rw [e]
      simp [View.len]
  rcases copyJag_acts dbg m t ht src ⟨rows, 0, 0⟩ hs hval hsep hlen.symm with ⟨⟨i, v, w, h1, h2, h3⟩, -⟩ | ⟨m', h1, h2, h3⟩
  · obtain ⟨v', p, hv, e⟩ := hget i w h2
    rw [h1] at hv
    cases hv
    rw [e] at h3
    simp at h3
  · refine ⟨m', ?_, ?_, h3⟩
    · unfold copyJagToStd
      refine ((getSizes_does hs).bindActs ?_).result
      rw [hrows]
      exact h1
    · intro i v r hv hr'
      have hrow := h2 i v r hv hr'
      obtain ⟨v', p, hv', e⟩ := hget i r hr'
      rw [hv] at hv'
      cases hv'
      unfold View.HoldsRow at hrow
      rw [if_pos (by rw [e])] at hrow
      refine (hrow.2.eq_of_length ?_).symm
      rw [e]
      simp [View.elems, View.len]

example : (List.zipWith (fun (v : View) p => (⟨v.len demoMem, 0, p⟩ : View)) demoJagSrc.views [300, 0]).map
    (fun r => r.elems ((copyJagToStd true 1 demoJagSrc fun _ => [300, 0]).result demoMem).2 1) = [[[200], [201]], []] := by
  decide +kernel

/-- **C38**, `to`: with any two well-behaved resources with a common address space (one resource, if there is no host
resource), if the source's memory is part of memory in use (`T`), then `to` either throws `bad_alloc` and changes nothing,
or returns a buffer whose rows have the source's elements.  The buffer's memory is the only memory that changes, and both
its descriptor arrays describe its rows. -/
theorem c38_to (dbg : Bool) (ups : Bool → MR σ) (R : Limits) (G : Nat) (u0 u : σ) (T : List (Bool × Blk))
    (h : FamLawful R G ups u0) (hu : FReach R ups u0 u T) (hasHost : Bool) (t : CType) (ht : t.Wf) (m : Mem) (src : JagView)
    (hs : JagValid m t.size src.views)
    (hT : ∀ x, JagHas t.size src.views x → ∃ e ∈ T, e.2.addr ≤ x ∧ x < e.2.addr + e.2.size)
    (hqo : IsReq R (src.views.length * viewSize) maxAlign)
    (hq : IsReq R (neededBytes (max 4 t.align) [(.uint, src.views.length), (t, (src.views.map (·.len m)).sum)]) maxAlign) :
    match copyToJag dbg ups hasHost t src u m with
    | (.ok b, u', m') =>
        (b.views.map fun w => w.elems m' t.size) = (src.views.map fun v => v.elems m t.size) ∧
        DescribedAt m' b.hostPtr b.views ∧ DescribedAt m' b.ptr b.views ∧
        FReach R ups u0 u' (b.owned hasHost ++ T) ∧
        (∀ x, (∀ e ∈ b.owned hasHost, ¬ (e.2.addr ≤ x ∧ x < e.2.addr + e.2.size)) → m' x = m x) ∧
        ∃ u'', b.destroy ups hasHost u' = (.ok (), u'') ∧ FReach R ups u0 u'' T
    | (.badAlloc, u', m') => m' = m ∧ FReach R ups u0 u' T
    | _ => False := by
  unfold copyToJag
  have hsz : (src.views.map fun v => if v.sizePtr = 0 then v.capacity else readLE m v.sizePtr 4) = src.views.map (·.len m) := rfl
  simp only [hsz]
  have h32 : ∀ c ∈ src.views.map (·.len m), c < 2 ^ 32 := by
    intro c hc
    obtain ⟨v, hv, rfl⟩ := List.mem_map.1 hc
    exact View.len_lt (hs.inner v hv)
  have hc := c28_jagged_buffer_partial ups u0 u T h hu t ht (src.views.map (·.len m)) hasHost false h32
    (by simpa using hqo) (by simpa using hq)
  cases hx : JagBuffer.create ups u t (src.views.map (·.len m)) hasHost false with
  | mk r u' =>
    rw [hx] at hc
    cases r with
    | badAlloc => exact ⟨rfl, hc⟩
    | logicError => exact hc.elim
    | lengthError => exact hc.elim
    | invalidArgument => exact hc.elim
    | outOfRange => exact hc.elim
    | runtimeError => exact hc.elim
    | ub => exact hc.elim
    | ok b =>
      simp only at hc ⊢
      obtain ⟨c1, c2, c3, -, c4, c5, c6, c7, c8, c9⟩ := hc
      rw [List.length_map] at c4 c7
      have hwf := (h.live c1).1
      -- the memory of the buffer
      have hfix : ∀ v ∈ b.views, v.sizePtr = 0 := fun v hv => by simpa using c3.words v hv
      have hown1 : ∀ v ∈ b.views, v.capacity ≠ 0 → (false, (⟨b.inner.ptr, b.inner.size, maxAlign⟩ : Blk)) ∈ b.owned hasHost := by
        intro v hv h0
        have p0 := (c3.payload v hv h0).1
        simp only [JagBuffer.owned, List.mem_map, List.mem_filter]
        exact ⟨(false, b.inner), ⟨by simp, by simpa using p0⟩, rfl⟩
      have hown2 : b.views ≠ [] → (hasHost, (⟨b.hostPtr, src.views.length * viewSize, maxAlign⟩ : Blk)) ∈ b.owned hasHost := by
        intro h0
        obtain ⟨q1, q2, -⟩ := c7 (fun he => h0 (List.length_eq_zero_iff.1 (by
          rw [c4]; simpa using congrArg List.length he)))
        simp only [JagBuffer.owned, List.mem_map, List.mem_filter]
        exact ⟨(hasHost, b.outerHost), ⟨by simp, by simpa using q1⟩, by rw [q2, c5]⟩
      have hown3 : b.views ≠ [] → hasHost = true →
          (false, (⟨b.ptr, src.views.length * viewSize, maxAlign⟩ : Blk)) ∈ b.owned hasHost := by
        intro h0 hh
        obtain ⟨-, -, q3⟩ := c7 (fun he => h0 (List.length_eq_zero_iff.1 (by
          rw [c4]; simpa using congrArg List.length he)))
        obtain ⟨q1, q2⟩ := q3 hh
        simp only [JagBuffer.owned, List.mem_map, List.mem_filter]
        exact ⟨(false, b.outer), ⟨by simp, by simpa using q1⟩, by rw [q2, c6, if_pos hh]⟩
      have hpl : JagPlaced t.size b.views := by
        by_cases hsum : (src.views.map (·.len m)).sum = 0
        · exact c3.placed (fun h => absurd hsum h) h32 (by simpa using hs.count)
        · refine c3.placed (fun _ => ?_) h32 (by simpa using hs.count)
          obtain ⟨c, hc, hc0⟩ : ∃ c ∈ src.views.map (·.len m), c ≠ 0 := by
            by_contra hno
            apply hsum
            rw [List.sum_eq_zero_iff_forall_eq_nat] 
            intro c hc
            by_contra h0
            exact hno ⟨c, hc, h0⟩
          rw [← c3.capacities] at hc
          obtain ⟨v, hv, rfl⟩ := List.mem_map.1 hc
          exact (hwf _ (List.mem_append_left _ (hown1 v hv hc0))).2.1
      -- the blocks of the buffer are apart from each other and from those in use before
      have hdT : ∀ e ∈ b.owned hasHost, ∀ f ∈ T, e.2.Disjoint f.2 := (List.pairwise_append.1 c2).2.2
      have hdO := (List.pairwise_append.1 c2).1
      have hd12 : ∀ v ∈ b.views, v.capacity ≠ 0 → Blk.Disjoint ⟨b.inner.ptr, b.inner.size, maxAlign⟩
          ⟨b.hostPtr, src.views.length * viewSize, maxAlign⟩ := by
        intro v hv h0
        have p0 : b.inner.ptr ≠ 0 := (c3.payload v hv h0).1
        obtain ⟨q1, q2, -⟩ := c7 (fun he => List.ne_nil_of_mem hv (List.length_eq_zero_iff.1 (by
          rw [c4]; simpa using congrArg List.length he)))
        rw [JagBuffer.owned, List.filter_cons_of_pos (by simpa using p0), List.filter_cons_of_pos (by simpa using q1)] at hdO
        have := (List.pairwise_cons.1 hdO).1 (hasHost, ⟨b.outerHost.ptr, b.outerHost.size, maxAlign⟩) (by simp)
        rw [q2] at this
        rw [c5]
        exact this
      have hd13 : ∀ v ∈ b.views, v.capacity ≠ 0 → hasHost = true → Blk.Disjoint ⟨b.inner.ptr, b.inner.size, maxAlign⟩
          ⟨b.ptr, src.views.length * viewSize, maxAlign⟩ := by
        intro v hv h0 hh
        have p0 : b.inner.ptr ≠ 0 := (c3.payload v hv h0).1
        obtain ⟨q1, q2, q3⟩ := c7 (fun he => List.ne_nil_of_mem hv (List.length_eq_zero_iff.1 (by
          rw [c4]; simpa using congrArg List.length he)))
        obtain ⟨q4, q5⟩ := q3 hh
        rw [JagBuffer.owned, List.filter_cons_of_pos (by simpa using p0), List.filter_cons_of_pos (by simpa using q1),
          List.filter_cons_of_pos (by simpa using q4)] at hdO
        have := (List.pairwise_cons.1 hdO).1 (false, ⟨b.outer.ptr, b.outer.size, maxAlign⟩) (by simp)
        rw [q5] at this
        rw [c6, if_pos hh]
        exact this
      have hd23 : b.views ≠ [] → hasHost = true → Blk.Disjoint ⟨b.hostPtr, src.views.length * viewSize, maxAlign⟩
          ⟨b.ptr, src.views.length * viewSize, maxAlign⟩ := by
        intro h0 hh
        obtain ⟨q1, q2, q3⟩ := c7 (fun he => h0 (List.length_eq_zero_iff.1 (by
          rw [c4]; simpa using congrArg List.length he)))
        obtain ⟨q4, q5⟩ := q3 hh
        rw [JagBuffer.owned, List.filter_cons] at hdO
        have hdO' : ([(hasHost, b.outerHost), (false, b.outer)].map
            fun e => (e.1, (⟨e.2.ptr, e.2.size, maxAlign⟩ : Blk))).Pairwise (fun e f => e.2.Disjoint f.2) := by
          refine hdO.sublist (List.Sublist.map _ ?_)
          rw [List.filter_cons_of_pos (by simpa using q1), List.filter_cons_of_pos (by simpa using q4)]
          simp only [List.filter_nil]
          split
          · exact List.sublist_cons_self ..
          · exact List.Sublist.refl _
        have := (List.pairwise_cons.1 hdO').1 (false, ⟨b.outer.ptr, b.outer.size, maxAlign⟩) (by simp)
        simp only [q2, q5] at this
        rw [c5, c6, if_pos hh]
        exact this
      have hpay : ∀ v ∈ b.views, ∀ x, v.HasPayload t.size x →
          v.capacity ≠ 0 ∧ b.inner.ptr ≤ x ∧ x < b.inner.ptr + b.inner.size := by
        rintro v hv x ⟨x1, x2⟩
        have h0 : v.capacity ≠ 0 := fun h => by rw [h] at x2; omega
        obtain ⟨-, p1, p2⟩ := c3.payload v hv h0
        simp only [View.payload, CType.region] at p1 p2
        exact ⟨h0, by omega, by omega⟩
      have hhas : ∀ v ∈ b.views, ∀ x, v.Has t.size x → v.HasPayload t.size x := fun v hv x hx =>
        hx.resolve_right fun hw => hw.1 (hfix v hv)
      have hhost : b.views = [] ∨ b.hostPtr ≠ 0 := by
        by_cases h0 : b.views = []
        · exact .inl h0
        · exact .inr (hwf _ (List.mem_append_left _ (hown2 h0))).1
      -- the source is not touched by what is written to the buffer's arrays
      have hsrcOwn : ∀ x, JagHas t.size src.views x → ∀ e ∈ b.owned hasHost, ¬ (e.2.addr ≤ x ∧ x < e.2.addr + e.2.size) := by
        intro x hx e he ⟨e1, e2⟩
        obtain ⟨f, hf, f1, f2⟩ := hT x hx
        have := hdT e he f hf
        unfold Blk.Disjoint at this
        omega
      have harr : ∀ x, (∀ e ∈ b.owned hasHost, ¬ (e.2.addr ≤ x ∧ x < e.2.addr + e.2.size)) →
          ¬ (b.hostPtr ≤ x ∧ x < b.hostPtr + b.views.length * viewSize) ∧ ¬ (b.ptr ≤ x ∧ x < b.ptr + b.views.length * viewSize) := by
        intro x hx
        by_cases h0 : b.views = []
        · rw [h0]; simp only [List.length_nil, Nat.zero_mul]; omega
        · have h1 : ¬ (b.hostPtr ≤ x ∧ x < b.hostPtr + b.views.length * viewSize) := by
            rw [c4]; exact hx _ (hown2 h0)
          refine ⟨h1, ?_⟩
          by_cases hh : hasHost = true
          · rw [c4]; exact hx _ (hown3 h0 hh)
          · rw [c6, if_neg hh]; exact h1
      -- set up
      obtain ⟨m1, e1, -, e2, e3⟩ := setupJag_acts (m := writeViews m b.hostPtr b.views) (t := t.size) (j := b.view) hpl
        (by show b.views.length * viewSize < 2 ^ 64
            rw [c4]; exact hqo.1.2)
        (fun v hv x hx => absurd (hfix v hv) hx.1) (fun v hv x hx => absurd (hfix v hv) hx.1)
        (by
          intro hne
          show ¬ overlap (b.views.length * viewSize) b.hostPtr b.ptr
          have hh : hasHost = true := by
            by_contra hh
            exact hne (by show b.ptr = b.hostPtr; rw [c6, if_neg hh])
          by_cases h0 : b.views = []
          · rw [h0]; unfold overlap; simp only [List.length_nil, Nat.zero_mul]; omega
          · have := hd23 h0 hh
            unfold Blk.Disjoint at this
            unfold overlap
            rw [c4]
            simp only at this
            omega)
      simp only [JagBuffer.view] at e2 e3
      have hm1 : ∀ x, ¬ (b.hostPtr ≤ x ∧ x < b.hostPtr + b.views.length * viewSize) →
          ¬ (b.ptr ≤ x ∧ x < b.ptr + b.views.length * viewSize) → m1 x = m x := by
        intro x x1 x2
        rw [e3 x (fun v hv hw => hw.1 (hfix v hv)) x2, writeViews_other x1]
      have hsrc1 : ∀ x, JagHas t.size src.views x → m1 x = m x := fun x hx =>
        hm1 x (harr x (hsrcOwn x hx)).1 (harr x (hsrcOwn x hx)).2
      have hs1 : JagValid m1 t.size src.views := hs.congr hsrc1
      have hlen1 : ∀ v ∈ src.views, v.len m1 = v.len m := fun v hv => len_of_word fun x hx => hsrc1 x ⟨v, hv, .inr hx⟩
      have hdst : JagValid m1 t.size b.view.views := ⟨hpl, fun v hv => by simp [View.len, hfix v hv]⟩
      have hcap : ∀ (i : Nat) (v w : View), src.views[i]? = some v → b.views[i]? = some w → w.capacity = v.len m := by
        intro i v w hv hw
        have h1 : (b.views.map (·.capacity))[i]? = some w.capacity := by rw [List.getElem?_map, hw]; rfl
        rw [c3.capacities, List.getElem?_map, hv] at h1
        simpa using h1.symm
      rcases copyJag_acts dbg m1 t.size ht.1 src b.view hs1 hdst
        (by
          rintro x ⟨hx, ⟨w, hw, hy⟩⟩
          obtain ⟨w0, w1, w2⟩ := hpay w hw x (hhas w hw x hy)
          exact hsrcOwn x hx _ (hown1 w hw w0) ⟨w1, w2⟩) c4.symm with ⟨⟨i, v, w, k1, k2, k3⟩, -⟩ | ⟨m2, f1, f2, f3⟩
      · exfalso
        rw [hcap i v w k1 k2, hlen1 v (List.mem_iff_getElem?.2 ⟨i, k1⟩)] at k3
        omega
      have hrun : ((setupJag b.view).bind fun e => Prog.wait e <| (copyJag dbg t.size src b.view).bind fun e =>
          Prog.wait e (.ret (.ok ()))).result (writeViews m b.hostPtr b.views) = (.ok (), m2) := by
        refine Acts.result fun L d => ?_
        obtain ⟨x1, d1, r1, hx1⟩ := e1 L d
        obtain ⟨x2, d2, r2, hx2⟩ := f1 L d1
        cases x1 with
        | ok a =>
          cases x2 with
          | ok a' =>
            refine ⟨.ok (), d2, ?_, rfl⟩
            rw [run_bind_ok r1]
            simp only [run]
            rw [run_bind_ok r2]
            rfl
          | _ => simp [Res.map] at hx2
        | _ => simp [Res.map] at hx1
      rw [hrun]
      have harr2 : ∀ x, (b.hostPtr ≤ x ∧ x < b.hostPtr + b.views.length * viewSize) ∨
          (b.ptr ≤ x ∧ x < b.ptr + b.views.length * viewSize) → m2 x = m1 x := by
        intro x hx
        refine f3 x ?_
        rintro ⟨w, hw, hy⟩
        obtain ⟨w0, w1, w2⟩ := hpay w hw x (hhas w hw x hy)
        have h12 := hd12 w hw w0
        unfold Blk.Disjoint at h12
        rw [c4] at hx
        by_cases hh : hasHost = true
        · have h13 := hd13 w hw w0 hh
          unfold Blk.Disjoint at h13
          simp only at h12 h13
          omega
        · rw [c6, if_neg hh] at hx
          simp only at h12
          omega
      have hdesc : DescribedAt (writeViews m b.hostPtr b.views) b.hostPtr b.views := by
        refine writeViews_described fun v hv => ⟨(hpl.placed v hv).word32, ?_, fun h0 => ?_⟩
        · rw [hfix v hv]; decide
        · have := (hpl.placed v hv).space h0
          have := Nat.mul_pos (Nat.pos_of_ne_zero h0) ht.1
          omega
      refine ⟨?_, ?_, ?_, c1, ?_, c9⟩
      · apply List.ext_getElem?
        intro i
        rw [List.getElem?_map, List.getElem?_map]
        cases hi : b.views[i]? with
        | none =>
          rw [List.getElem?_eq_none_iff, c4] at hi
          rw [List.getElem?_eq_none hi]
          rfl
        | some w =>
          obtain ⟨hlt, -⟩ := List.getElem?_eq_some_iff.1 hi
          have hi2 := List.getElem?_eq_getElem (l := src.views) (i := i) (by omega)
          rw [hi2]
          simp only [Option.map_some, Option.some.injEq]
          have hmem := List.mem_iff_getElem?.2 ⟨i, hi2⟩
          have hrow := f2 i _ w hi2 hi
          unfold View.HoldsRow at hrow
          rw [if_pos (hfix w (List.mem_iff_getElem?.2 ⟨i, hi⟩)), elems_congr (hs.sizes _ hmem)
            (fun x hx => hsrc1 x ⟨_, hmem, hx⟩)] at hrow
          refine (hrow.2.eq_of_length ?_).symm
          simp only [View.elems, List.length_map, List.length_range]
          have : w.len m2 = w.capacity := by simp [View.len, hfix w (List.mem_iff_getElem?.2 ⟨i, hi⟩)]
          rw [this, hcap i _ w hi2 hi]
      · refine described_congr hdesc fun q hq => ?_
        rw [harr2 _ (.inl ⟨by omega, by omega⟩), (e2 q hq).2]
      · refine described_congr hdesc fun q hq => ?_
        rw [harr2 _ (.inr ⟨by omega, by omega⟩), (e2 q hq).1]
      · intro x hx
        obtain ⟨x1, x2⟩ := harr x hx
        rw [f3 x, hm1 x x1 x2]
        rintro ⟨w, hw, hy⟩
        obtain ⟨w0, w1, w2⟩ := hpay w hw x (hhas w hw x hy)
        exact hx _ (hown1 w hw w0) ⟨w1, w2⟩

/-- The hypotheses of `c38_to` are met after 16 bytes were allocated from the first of two resources, with a source of two
rows in this memory, and this is the result. -/
example : FReach 64 demoFam demoFamInit (⟨1024, 4096, 4112⟩, ⟨2 ^ 20, 2 ^ 32, 2 ^ 32⟩) [(false, ⟨4096, 16, 8⟩)] ∧
    JagValid demoMem 1 [⟨3, 0, 4097⟩, ⟨2, 0, 4102⟩] ∧
    (∀ x, JagHas 1 [⟨3, 0, 4097⟩, ⟨2, 0, 4102⟩] x → 4096 ≤ x ∧ x < 4096 + 16) ∧
    IsReq 64 (2 * viewSize) maxAlign ∧ IsReq 64 (neededBytes (max 4 1) [(.uint, 2), (⟨1, 1⟩, 5)]) maxAlign ∧
    (match copyToJag true demoFam true ⟨1, 1⟩ ⟨[⟨3, 0, 4097⟩, ⟨2, 0, 4102⟩], 0, 0⟩
        (⟨1024, 4096, 4112⟩, ⟨2 ^ 20, 2 ^ 32, 2 ^ 32⟩) demoMem with
      | (.ok b, _, m') => some (b.view, b.views.map fun w => w.elems m' 1)
      | _ => none) = some (⟨[⟨3, 0, 4160⟩, ⟨2, 0, 4163⟩], 4112, 2 ^ 32⟩, [[[1], [2], [3]], [[6], [7]]]) := by
  refine ⟨FReach.alloc (s := demoFamInit) false .init ⟨by decide, by decide, 3, rfl⟩ (by decide) (by decide +kernel),
    ⟨⟨?_, ?_, .inl (by decide), by decide⟩, by decide⟩, ?_, ⟨by decide, by decide, 4, rfl⟩, ⟨by decide, by decide, 4, rfl⟩,
    by decide +kernel⟩
  · intro v hv
    simp only [List.mem_cons, List.not_mem_nil, or_false] at hv
    rcases hv with rfl | rfl <;> exact ⟨by decide, by decide, by decide, fun x hx => hx.2.1 rfl⟩
  · simp only [List.pairwise_cons, List.mem_singleton, forall_eq, List.not_mem_nil, false_implies, implies_true,
      List.Pairwise.nil, and_true]
    rintro x ⟨⟨h1, h2⟩ | ⟨h1, h2, h3⟩, ⟨h4, h5⟩ | ⟨h4, h5, h6⟩⟩ <;> simp only at * <;> omega
  · rintro x ⟨v, hv, h⟩
    simp only [List.mem_cons, List.not_mem_nil, or_false] at hv
    rcases hv with rfl | rfl <;> rcases h with ⟨h1, h2⟩ | ⟨h1, h2⟩ <;> simp only at * <;> omega

/-! ## C39 -/

/-- **C39**, reading: `get_sizes` returns the sizes of all rows, and changes nothing. -/
theorem c39_get_sizes (m : Mem) (t : Nat) (vs : List View) (h : JagValid m t vs) :
    (getSizes vs).value m = .ok (vs.map (·.len m)) ∧ ((getSizes vs).result m).2 = m :=
  (getSizes_does h).value

example : (getSizes demoJagSrc.views).value demoMem = .ok [2, 0] := by decide +kernel

/-- **C39**, setting: for a resizable jagged vector and sizes within the capacities, `set_sizes` succeeds, `get_sizes` then
returns these sizes, and nothing but the size words changed. -/
theorem c39_set_get (m : Mem) (t : Nat) (vs : List View) (h : JagPlaced t vs) (hr : ∀ v ∈ vs, v.sizePtr ≠ 0) (ns : List Nat)
    (hl : ns.length = vs.length)
    (hc : ∀ (i : Nat) (v : View) (n : Nat), vs[i]? = some v → ns[i]? = some n → n ≤ v.capacity) :
    ∃ m', (setSizesAndWait ns vs).result m = (.ok (), m') ∧ JagValid m' t vs ∧ (getSizes vs).value m' = .ok ns ∧
      ∀ x, (∀ v ∈ vs, ¬ v.HasWord x) → m' x = m x := by
  have h32 : ∀ n ∈ ns, n < 2 ^ 32 := by
    intro n hn
    obtain ⟨i, hi⟩ := List.mem_iff_getElem?.1 hn
    obtain ⟨hlt, -⟩ := List.getElem?_eq_some_iff.1 hi
    have h1 := List.getElem?_eq_getElem (l := vs) (i := i) (by omega)
    have := hc i _ n h1 hi
    have := (h.placed _ (List.mem_iff_getElem?.2 ⟨i, h1⟩)).word32
    omega
  obtain ⟨s1, s2⟩ := sizesSet_spec (m := m) hl.symm h.words h32
  have htl : ¬ TooLarge vs ns := by
    rintro ⟨i, v, n, h1, h2, h3⟩
    have := hc i v n h1 h2
    omega
  have hlens : vs.map (·.len (sizesSet m vs ns)) = ns := by
    apply List.ext_getElem?
    intro i
    rw [List.getElem?_map]
    cases hi : vs[i]? with
    | none =>
      rw [List.getElem?_eq_none_iff] at hi
      rw [List.getElem?_eq_none (by omega)]
      rfl
    | some v =>
      obtain ⟨hlt, -⟩ := List.getElem?_eq_some_iff.1 hi
      have h1 := List.getElem?_eq_getElem (l := ns) (i := i) (by omega)
      rw [h1, Option.map_some, s1 i v _ hi h1 (hr v (List.mem_iff_getElem?.2 ⟨i, hi⟩))]
  have hv : JagValid (sizesSet m vs ns) t vs := by
    refine ⟨h, fun v hv => ?_⟩
    obtain ⟨i, hi⟩ := List.mem_iff_getElem?.1 hv
    obtain ⟨hlt, -⟩ := List.getElem?_eq_some_iff.1 hi
    have h1 := List.getElem?_eq_getElem (l := ns) (i := i) (by omega)
    rw [s1 i v _ hi h1 (hr v hv)]
    exact hc i v _ hi h1
  refine ⟨sizesSet m vs ns, ?_, hv, ?_, s2⟩
  · refine Acts.result fun L d => ?_
    obtain ⟨e, d', h1⟩ := setSizes_ok (m := m) hl.symm h.words h.count htl L d
    refine ⟨.ok (), d', run_scope (l' := Local.uints ns) ?_ (by simp), rfl⟩
    rw [run_bind_ok h1]
    rfl
  · rw [(c39_get_sizes _ t vs hv).1, hlens]

example : (getSizes demoJagSrc.views).value ((setSizesAndWait [1, 3] demoJagSrc.views).result demoMem).2 = .ok [1, 3] := by
  decide +kernel

/-- **C39**, refusing: whatever the views are, if the numbers of rows differ, or a size is larger than the capacity and
the views are all resizable or all of fixed size, `set_sizes` throws `length_error` and changes nothing. -/
theorem c39_set_refused (m : Mem) (vs : List View) (ns : List Nat)
    (h : ns.length ≠ vs.length ∨ ns.length = vs.length ∧ ((∀ v ∈ vs, v.sizePtr = 0) ∨ ∀ v ∈ vs, v.sizePtr ≠ 0) ∧
      ∃ (i : Nat) (v : View) (n : Nat), vs[i]? = some v ∧ ns[i]? = some n ∧ v.capacity < n) :
    (setSizesAndWait ns vs).result m = (.lengthError, m) := by
  have key : ∀ slot, (setSizes slot ns vs).Does m .lengthError m := by
    intro slot
    unfold setSizes
    rcases h with h | ⟨h, hw, i, v, n, h1, h2, h3⟩
    · rw [if_neg (by omega), if_pos h]
      exact does_ret _ _
    · have : vs.length ≠ 0 := fun h0 => by
        rw [List.length_eq_zero_iff] at h0
        subst h0
        simp at h1
      rw [if_neg (by omega), if_neg (by omega),
        (checkSizes_large vs ns true h.symm (hw.imp id fun h => ⟨rfl, h⟩)).1 ⟨i, v, n, h1, h2, h3⟩]
      exact does_ret _ _
  refine Acts.result fun L d => ?_
  obtain ⟨d', e⟩ := key L.length (L ++ [Local.uints ns]) d
  exact ⟨.lengthError, d', run_scope (run_bind_err e (fun _ => by simp) (fun _ => ())) (by simp), rfl⟩

example : (setSizesAndWait [1, 4] demoJagSrc.views).result demoMem = (.lengthError, demoMem) :=
  c39_set_refused _ _ _ (.inr ⟨rfl, .inr (by decide), 1, ⟨3, 104, 203⟩, 4, rfl, rfl, by decide⟩)

/-- **C39**, any views at all: `set_sizes` changes nothing unless all rows are resizable and all sizes are within the
capacities. -/
theorem c39_set_changes (m : Mem) (vs : List View) (ns : List Nat) (h : ((setSizesAndWait ns vs).result m).2 ≠ m) :
    ns.length = vs.length ∧ (∀ v ∈ vs, v.sizePtr ≠ 0) ∧
      ∀ (i : Nat) (v : View) (n : Nat), vs[i]? = some v → ns[i]? = some n → n ≤ v.capacity := by
  have hchk : ∀ (vs : List View) (ns : List Nat) (p : Bool), vs.length = ns.length → checkSizes p vs ns = .ok true →
      (∀ v ∈ vs, v.sizePtr ≠ 0) ∧ ∀ (i : Nat) (v : View) (n : Nat), vs[i]? = some v → ns[i]? = some n → n ≤ v.capacity := by
    intro vs
    induction vs with
    | nil => intro ns p _ _; exact ⟨by simp, fun i v n h => by simp at h⟩
    | cons v vs ih =>
      intro ns p hl hok
      cases ns with
      | nil => simp at hl
      | cons n ns =>
        have hfalse : ∀ (vs : List View) (ns : List Nat), checkSizes false vs ns ≠ .ok true := by
          intro vs
          induction vs with
          | nil => intro ns; simp [checkSizes]
          | cons v vs ih =>
            intro ns
            cases ns with
            | nil => simp [checkSizes]
            | cons n ns =>
              unfold checkSizes
              split
              · simp
              · split
                · exact ih ns
                · simp
        unfold checkSizes at hok
        by_cases h1 : v.capacity < n
        · rw [if_pos h1] at hok; simp at hok
        · rw [if_neg h1] at hok
          by_cases h2 : v.sizePtr = 0
          · rw [if_pos h2] at hok; exact absurd hok (hfalse _ _)
          · rw [if_neg h2] at hok
            by_cases h3 : p = true
            · rw [if_pos h3] at hok
              obtain ⟨i1, i2⟩ := ih ns p (by simpa using hl) hok
              refine ⟨fun w hw => ?_, fun i w k hw hk => ?_⟩
              · rcases List.mem_cons.1 hw with rfl | hw
                · exact h2
                · exact i1 w hw
              · cases i with
                | zero =>
                  simp only [List.getElem?_cons_zero, Option.some.injEq] at hw hk
                  subst hw hk
                  omega
                | succ i => exact i2 i w k (by simpa using hw) (by simpa using hk)
            · rw [if_neg h3] at hok; simp at hok
  by_cases hl : ns.length = vs.length
  · cases hc : checkSizes true vs ns with
    | ok b =>
      cases b with
      | true => exact ⟨hl, hchk vs ns true hl.symm hc⟩
      | false =>
        exfalso
        apply h
        have : (setSizesAndWait ns vs).Acts m (.ok ()) m := by
          intro L d
          refine ⟨.ok (), d, run_scope (l' := Local.uints ns) ?_ (by simp), rfl⟩
          rw [run_bind_ok (b := 0) (t := ⟨m, L ++ [Local.uints ns], d⟩)]
          · rfl
          · unfold setSizes
            split
            · rfl
            · rw [if_neg (by omega), hc]
              rfl
        rw [this.result]
    | _ =>
      exfalso
      apply h
      unfold setSizesAndWait setSizes
      by_cases h0 : ns.length = 0 ∧ vs.length = 0
      · simp only [if_pos h0]; rfl
      · simp only [if_neg h0, if_neg (show ¬ ns.length ≠ vs.length by omega), hc]
        rfl
  · exact absurd (by rw [c39_set_refused m vs ns (.inl hl)]) h

/-- **C39** is false as stated: `set_sizes` does not throw for sizes that a fixed size vector does not have; for a mixture
with a fixed size row first it throws `runtime_error`, and for a mixture with a resizable row first it accepts the sizes
and ignores them. -/
theorem c39_false :
    ((setSizesAndWait [1, 1] [⟨3, 0, 200⟩, ⟨3, 0, 203⟩]).result demoMem).1 = .ok () ∧
    ((setSizesAndWait [3, 1] [⟨3, 0, 200⟩, ⟨3, 100, 203⟩]).result demoMem).1 = .runtimeError ∧
    ((setSizesAndWait [1, 3] [⟨3, 100, 200⟩, ⟨3, 0, 203⟩]).result demoMem).1 = .ok () ∧
    readLE ((setSizesAndWait [1, 3] [⟨3, 100, 200⟩, ⟨3, 0, 203⟩]).result demoMem).2 100 4 = 2 := by decide +kernel

/-- The size words of the rows must be adjacent: `get_sizes` of two rows with size words at 104 and 100 (which are 0 and 2)
returns something else. -/
theorem c39_scattered_words : (getSizes [⟨3, 104, 203⟩, ⟨3, 100, 200⟩]).value demoMem = .ok [0, 0] := by decide +kernel

/-! ## C40 -/

/-- **C40**, vectors: whatever is in memory, after `setup` of a resizable vector (with a capacity) its size is zero, and
nothing else has changed; it may then be used. -/
theorem c40_setup_vector (m : Mem) (t : Nat) (v : View) (h : v.Placed t) (hr : v.sizePtr ≠ 0) (hc : v.capacity ≠ 0) :
    ∃ m', (setupVec v).result m = (.ok (), m') ∧ v.len m' = 0 ∧ v.Valid m' t ∧ ∀ x, ¬ v.HasWord x → m' x = m x := by
  have hl : v.len (memFill m v.sizePtr 0 4) = 0 := memFill_word (Nat.le_refl _) (Nat.le_refl _) hr
  refine ⟨memFill m v.sizePtr 0 4, ?_, hl, ⟨h, by omega⟩, fun x hx => ?_⟩
  · unfold setupVec
    rw [if_neg (by omega)]
    exact (acts_memset (acts_retEvent _)).result
  · unfold memFill
    rw [if_neg]
    exact fun hc => hx ⟨hr, hc⟩

example : demoSrc.len demoMem = 2 ∧ demoSrc.len ((setupVec demoSrc).result demoMem).2 = 0 := by decide +kernel

/-- **C40**, vectors of fixed size, and without capacity: `setup` does nothing. -/
theorem c40_setup_vector_nothing (m : Mem) (v : View) (h : v.sizePtr = 0 ∨ v.capacity = 0) :
    (setupVec v).result m = (.ok (), m) := by
  unfold setupVec
  rw [if_pos h]
  rfl

/-- A resizable view without capacity is not initialised; no buffer is like this (`c27_vector_buffer`). -/
example : (View.mk 0 100 0).len ((setupVec ⟨0, 100, 0⟩).result demoMem).2 = 2 := by decide +kernel

/-- **C40**, jagged vectors: whatever is in memory, after `setup` the sizes of all resizable rows are zero, the device's
array of descriptors is a copy of the host's, and nothing but the size words and the device's array has changed; the
jagged vector may then be used. -/
theorem c40_setup_jagged (m : Mem) (t : Nat) (j : JagView) (hp : JagPlaced t j.views) (hn : j.views.length * 24 < 2 ^ 64)
    (h1 : ∀ v ∈ j.views, ∀ x, v.HasWord x → ¬ (j.hostPtr ≤ x ∧ x < j.hostPtr + j.views.length * 24))
    (h2 : ∀ v ∈ j.views, ∀ x, v.HasWord x → ¬ (j.ptr ≤ x ∧ x < j.ptr + j.views.length * 24))
    (h3 : j.ptr = j.hostPtr ∨ j.ptr + j.views.length * 24 ≤ j.hostPtr ∨ j.hostPtr + j.views.length * 24 ≤ j.ptr) :
    ∃ m', (setupJag j).result m = (.ok (), m') ∧ (∀ v ∈ j.views, v.sizePtr ≠ 0 → v.len m' = 0) ∧ JagValid m' t j.views ∧
      bytesAt m' j.ptr (j.views.length * 24) = bytesAt m j.hostPtr (j.views.length * 24) ∧
      bytesAt m' j.hostPtr (j.views.length * 24) = bytesAt m j.hostPtr (j.views.length * 24) ∧
      ∀ x, (∀ v ∈ j.views, ¬ v.HasWord x) → ¬ (j.ptr ≤ x ∧ x < j.ptr + j.views.length * 24) → m' x = m x := by
  obtain ⟨m', e1, e2, e3, e4⟩ := setupJag_acts (m := m) hp hn h1 h2 (by unfold overlap viewSize; omega)
  refine ⟨m', e1.result, e2, ⟨hp, fun v hv => ?_⟩, bytesAt_congr fun q hq => (e3 q hq).1, bytesAt_congr fun q hq => (e3 q hq).2, e4⟩
  by_cases h0 : v.sizePtr = 0
  · simp [View.len, h0]
  · rw [e2 v hv h0]
    omega

/-- The hypotheses are met with the host's array at 400 and the device's at 500. -/
example : (∀ v ∈ demoJagSrc.views, ∀ x, v.HasWord x → ¬ (400 ≤ x ∧ x < 400 + 2 * 24) ∧ ¬ (500 ≤ x ∧ x < 500 + 2 * 24)) ∧
    (demoJagSrc.views.map fun v => v.len ((setupJag ⟨demoJagSrc.views, 500, 400⟩).result demoMem).2) = [0, 0] ∧
    bytesAt ((setupJag ⟨demoJagSrc.views, 500, 400⟩).result demoMem).2 500 48 = bytesAt demoMem 400 48 := by
  refine ⟨?_, by decide +kernel, by decide +kernel⟩
  intro v hv x ⟨_, h2, h3⟩
  simp only [demoJagSrc, List.mem_cons, List.not_mem_nil, or_false] at hv
  rcases hv with rfl | rfl <;> simp only at h2 h3 <;> omega

/-- **C40**, `memset` of vectors: every byte of the payload is set, and nothing else. -/
theorem c40_memset_vector (m : Mem) (t : Nat) (v : View) (h : v.Placed t) (value : UInt8) :
    ∃ m', (memsetVec t v value).result m = (.ok (), m') ∧
      ∀ x, (v.HasPayload t x → m' x = value) ∧ (¬ v.HasPayload t x → m' x = m x) := by
  unfold memsetVec
  by_cases h0 : v.capacity = 0
  · rw [if_pos h0]
    refine ⟨m, rfl, fun x => ⟨fun hx => ?_, fun _ => rfl⟩⟩
    obtain ⟨x1, x2⟩ := hx
    rw [h0] at x2
    omega
  · rw [if_neg h0]
    refine ⟨memFill m v.ptr value (v.capacity * t), ?_, fun x => ⟨fun hx => ?_, fun hx => ?_⟩⟩
    · rw [h.wrap]
      exact (acts_memset (acts_retEvent _)).result
    · unfold memFill
      rw [if_pos ⟨hx.1, hx.2⟩]
    · unfold memFill
      rw [if_neg (fun hc => hx ⟨hc.1, hc.2⟩)]

example : bytesAt ((memsetVec 1 demoSrc 7).result demoMem).2 199 5 = [0, 7, 7, 7, 203] := by decide +kernel

/-- **C40**, `memset` of jagged vectors with at least one row, contiguous or not: every byte of the payloads is set, and
nothing else. -/
theorem c40_memset_jagged_partial (m : Mem) (t : Nat) (ht : 0 < t) (j : JagView) (h : ∀ v ∈ j.views, v.Placed t)
    (hne : j.views ≠ []) (value : UInt8) :
    ∃ m', (memsetJag t j value).result m = (.ok (), m') ∧
      ∀ x, ((∃ v ∈ j.views, v.HasPayload t x) → m' x = value) ∧ ((¬ ∃ v ∈ j.views, v.HasPayload t x) → m' x = m x) := by
  obtain ⟨m', h1, h2⟩ := memsetJag_acts (m := m) (value := value) ht h hne
  exact ⟨m', h1.result, h2⟩

example : bytesAt ((memsetJag 1 demoJagSrc 7).result demoMem).2 199 8 = [199 - 199, 7, 7, 7, 7, 7, 7, 206] ∧
    bytesAt ((memsetJag 1 demoJagDst 7).result demoMem).2 299 16 =
      [43, 7, 7, 7, 47, 48, 49, 50, 51, 52, 53, 7, 7, 7, 7, 58] := by decide +kernel

/-- What is missing in `c40_memset_jagged_partial`: `memset` of a jagged vector without rows reads an element of an empty
array. -/
theorem c40_memset_empty_jagged (m : Mem) (t : Nat) (value : UInt8) : ((memsetJag t ⟨[], 0, 0⟩ value).result m).1 = .ub := rfl

end Props
end Vecmem
