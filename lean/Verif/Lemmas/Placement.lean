import Verif.Lemmas.Buffers

/-! # More about placement: access by index, slices, and the exact addresses -/

namespace Vecmem

open IntMath

variable {σ : Type}

theorem Blk.Inside.refl (a : Blk) : a.Inside a := by unfold Blk.Inside; omega

namespace PlacedIn

variable {m : Blk} {ts : List (CType × Nat)} {ps : List Nat}

theorem mem_zip (h : PlacedIn m ts ps) {k : Nat} {e : CType × Nat} (he : ts[k]? = some e) :
    (e, ps.getD k 0) ∈ ts.zip ps ∧ (ts.zip ps)[k]? = some (e, ps.getD k 0) := by
  obtain ⟨hk, _⟩ := List.getElem?_eq_some_iff.1 he
  have hp : ps[k]? = some (ps.getD k 0) := by
    rw [List.getD_eq_getElem?_getD, List.getElem?_eq_getElem (by rw [h.length]; exact hk)]; rfl
  have : (ts.zip ps)[k]? = some (e, ps.getD k 0) := List.getElem?_zip_eq_some.2 ⟨he, hp⟩
  exact ⟨List.mem_of_getElem? this, this⟩

theorem null (h : PlacedIn m ts ps) {k : Nat} {e : CType × Nat} (he : ts[k]? = some e) (h0 : e.2 = 0) :
    ps.getD k 0 = 0 := h.empty e.1 e.2 _ (h.mem_zip he).1 h0

theorem fit (h : PlacedIn m ts ps) {k : Nat} {e : CType × Nat} (he : ts[k]? = some e) (h0 : e.2 ≠ 0) :
    (e.1.region (ps.getD k 0) e.2).Aligned ∧ (e.1.region (ps.getD k 0) e.2).Inside m :=
  h.inside e.1 e.2 _ (h.mem_zip he).1 h0

theorem nonnull (h : PlacedIn m ts ps) (hm : m.addr ≠ 0) {k : Nat} {e : CType × Nat} (he : ts[k]? = some e)
    (h0 : e.2 ≠ 0) : ps.getD k 0 ≠ 0 := by
  have := (h.fit he h0).2.1
  simp only [CType.region] at this
  omega

theorem lt (h : PlacedIn m ts ps) {k l : Nat} {e f : CType × Nat} (hkl : k < l) (he : ts[k]? = some e)
    (hf : ts[l]? = some f) (h0 : e.2 ≠ 0) (h1 : f.2 ≠ 0) : ps.getD k 0 + e.2 * e.1.size ≤ ps.getD l 0 := by
  have := List.pairwise_iff_getElem.1 h.order k l
    (List.getElem?_eq_some_iff.1 (h.mem_zip he).2).1 (List.getElem?_eq_some_iff.1 (h.mem_zip hf).2).1 hkl
  rw [(List.getElem?_eq_some_iff.1 (h.mem_zip he).2).2, (List.getElem?_eq_some_iff.1 (h.mem_zip hf).2).2] at this
  exact this h0 h1

theorem apart (h : PlacedIn m ts ps) {k l : Nat} {e f : CType × Nat} (hkl : k ≠ l) (he : ts[k]? = some e)
    (hf : ts[l]? = some f) : (e.1.region (ps.getD k 0) e.2).Disjoint (f.1.region (ps.getD l 0) f.2) := by
  by_cases h0 : e.2 = 0
  · rw [h.null he h0, h0]; exact Or.inl (by simp [CType.region])
  by_cases h1 : f.2 = 0
  · rw [h.null hf h1, h1]; exact Or.inr (by simp [CType.region])
  rcases Nat.lt_or_gt_of_ne hkl with hlt | hlt
  · exact Or.inl (h.lt hlt he hf h0 h1)
  · exact Or.inr (h.lt hlt hf he h1 h0)

theorem take (h : PlacedIn m ts ps) (k : Nat) : PlacedIn m (ts.take k) (ps.take k) := by
  have hz : (ts.take k).zip (ps.take k) = (ts.zip ps).take k := (List.take_zipWith).symm
  refine ⟨by simp [h.length], ?_, ?_, ?_⟩
  · intro t n p hm; rw [hz] at hm; exact h.empty t n p (List.mem_of_mem_take hm)
  · intro t n p hm; rw [hz] at hm; exact h.inside t n p (List.mem_of_mem_take hm)
  · rw [hz]; exact h.order.sublist (List.take_sublist _ _)

theorem drop (h : PlacedIn m ts ps) (k : Nat) : PlacedIn m (ts.drop k) (ps.drop k) := by
  have hz : (ts.drop k).zip (ps.drop k) = (ts.zip ps).drop k := (List.drop_zipWith).symm
  refine ⟨by simp [h.length], ?_, ?_, ?_⟩
  · intro t n p hm; rw [hz] at hm; exact h.empty t n p (List.mem_of_mem_drop hm)
  · intro t n p hm; rw [hz] at hm; exact h.inside t n p (List.mem_of_mem_drop hm)
  · rw [hz]; exact h.order.sublist (List.drop_sublist _ _)

end PlacedIn

/-! ## the exact addresses -/

/-- The addresses of consecutive regions, the first one starting at or after `p`. -/
def placeAt (p : Nat) : List (CType × Nat) → List Nat
  | [] => []
  | (t, n) :: ts =>
    if n = 0 then 0 :: placeAt p ts else alignUp t.align p :: placeAt (alignUp t.align p + n * t.size) ts

/-- The address after consecutive regions. -/
def placeEnd (p : Nat) : List (CType × Nat) → Nat
  | [] => p
  | (t, n) :: ts => if n = 0 then placeEnd p ts else placeEnd (alignUp t.align p + n * t.size) ts

theorem placeHelper_at (A : Nat) : ∀ (ts : List (CType × Nat)) (p q : Nat),
    (∀ e ∈ ts, 0 < e.1.size ∧ 0 < e.1.align ∧ e.1.align ≤ A) → neededBytes A ts ≤ q → q < 2 ^ 64 →
    placeHelper p q ts = .ok (placeAt p ts) := by
  intro ts
  induction ts with
  | nil => intro p q _ _ _; rfl
  | cons e ts ih =>
    obtain ⟨t, n⟩ := e
    intro p q hw hq hlt
    obtain ⟨hs, ha, hA⟩ : 0 < t.size ∧ 0 < t.align ∧ t.align ≤ A := hw (t, n) List.mem_cons_self
    have hw' : ∀ e ∈ ts, 0 < e.1.size ∧ 0 < e.1.align ∧ e.1.align ≤ A :=
      fun e he => hw e (List.mem_cons_of_mem _ he)
    have hneed : neededBytes A ((t, n) :: ts) = n * t.size + A + neededBytes A ts := by
      unfold neededBytes
      simp only [List.map_cons, List.sum_cons, List.length_cons, Nat.add_mul, Nat.one_mul]; omega
    rw [hneed] at hq
    have hsz : wrap64 (t.size * n) = n * t.size := by
      rw [Nat.mul_comm]; unfold wrap64; exact Nat.mod_eq_of_lt (by omega)
    unfold placeHelper placeAt
    simp only [hsz]
    by_cases hn : n = 0
    · subst hn
      rw [if_neg (by omega), if_pos rfl, ih p q hw' (by omega) hlt]; rfl
    · have hpos : 0 < n * t.size := Nat.mul_pos (by omega) hs
      have g1 := alignUp_lt ha p
      have g2 := alignUp_ge t.align p
      have hfit : n * t.size + (alignUp t.align p - p) ≤ q := by omega
      rw [if_pos hpos, if_neg hn, stdAlign_eq, if_pos hfit]
      simp only
      have hq' : wrap64 (q - (alignUp t.align p - p) + 2 ^ 64 - n * t.size)
          = q - (alignUp t.align p - p) - n * t.size := by unfold wrap64; omega
      rw [hq', ih _ _ hw' (by omega) (by omega)]
      rfl

theorem placement_at {up : MR σ} {u u' : σ} {ts : List (CType × Nat)} {mem : UniqueAlloc} {ps : List Nat}
    (hw : ∀ e ∈ ts, e.1.Wf) (hlt : neededBytes (maxAlignOf ts) ts < 2 ^ 64)
    (h : placement up u ts = (.ok (mem, ps), u')) : ps = placeAt mem.ptr ts := by
  have hpos : ∀ e ∈ ts, 0 < e.1.size ∧ 0 < e.1.align ∧ e.1.align ≤ maxAlignOf ts := by
    intro e he
    obtain ⟨h1, ⟨k, hk⟩, _⟩ := hw e he
    refine ⟨h1, by rw [hk]; exact Nat.two_pow_pos k, ?_⟩
    exact (foldl_max_ge _ 0).2 _ (List.mem_map.2 ⟨e, he, rfl⟩)
  have hbytes : placeBytes ts = neededBytes (maxAlignOf ts) ts := Nat.mod_eq_of_lt hlt
  unfold placement at h
  simp only [hbytes] at h
  cases hx : UniqueAlloc.make up u 1 (neededBytes (maxAlignOf ts) ts) with
  | mk r u1 =>
    rw [hx] at h
    cases r <;> simp only [Res.map, Prod.mk.injEq, reduceCtorEq, false_and] at h
    rename_i m1
    rw [placeHelper_at _ ts m1.ptr _ hpos (Nat.le_refl _) hlt] at h
    simp only [Res.ok.injEq, Prod.mk.injEq] at h
    obtain ⟨⟨rfl, rfl⟩, _⟩ := h
    rfl

theorem placeAt_append (A B : List (CType × Nat)) : ∀ p, placeAt p (A ++ B) = placeAt p A ++ placeAt (placeEnd p A) B := by
  induction A with
  | nil => intro p; rfl
  | cons e A ih =>
    obtain ⟨t, n⟩ := e
    intro p
    simp only [List.cons_append, placeAt, placeEnd]
    by_cases h : n = 0 <;> simp [h, ih]

theorem placeEnd_append (A B : List (CType × Nat)) : ∀ p, placeEnd p (A ++ B) = placeEnd (placeEnd p A) B := by
  induction A with
  | nil => intro p; rfl
  | cons e A ih =>
    obtain ⟨t, n⟩ := e
    intro p
    simp only [List.cons_append, placeEnd]
    by_cases h : n = 0 <;> simp [h, ih]

theorem placeAt_length (A : List (CType × Nat)) : ∀ p, (placeAt p A).length = A.length := by
  induction A with
  | nil => intro p; rfl
  | cons e A ih =>
    obtain ⟨t, n⟩ := e
    intro p
    simp only [placeAt]
    by_cases h : n = 0 <;> simp [h, ih]

theorem placeEnd_ge (A : List (CType × Nat)) : ∀ p, p ≤ placeEnd p A := by
  induction A with
  | nil => intro p; exact Nat.le_refl _
  | cons e A ih =>
    obtain ⟨t, n⟩ := e
    intro p
    simp only [placeEnd]
    by_cases h : n = 0
    · simp only [h, if_true]; exact ih p
    · simp only [h, if_false]
      have := ih (alignUp t.align p + n * t.size)
      have := alignUp_ge t.align p
      omega

/-- The regions are between the start and the end. -/
theorem placeAt_bounds (A : List (CType × Nat)) : ∀ (p k : Nat) (e : CType × Nat), A[k]? = some e → e.2 ≠ 0 →
    p ≤ (placeAt p A).getD k 0 ∧ (placeAt p A).getD k 0 + e.2 * e.1.size ≤ placeEnd p A := by
  induction A with
  | nil => intro p k e he; simp at he
  | cons x A ih =>
    obtain ⟨t, n⟩ := x
    intro p k e he h0
    cases k with
    | zero =>
      simp only [List.getElem?_cons_zero, Option.some.injEq] at he
      subst he
      simp only [placeAt, placeEnd, if_neg h0, List.getD_cons_zero]
      exact ⟨alignUp_ge _ _, placeEnd_ge _ _⟩
    | succ k =>
      simp only [List.getElem?_cons_succ] at he
      by_cases hn : n = 0
      · simp only [placeAt, placeEnd, if_pos hn, List.getD_cons_succ]
        exact ih p k e he h0
      · simp only [placeAt, placeEnd, if_neg hn, List.getD_cons_succ]
        have := ih (alignUp t.align p + n * t.size) k e he h0
        have := alignUp_ge t.align p
        omega

end Vecmem
