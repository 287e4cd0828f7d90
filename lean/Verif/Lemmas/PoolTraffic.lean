import Verif.Lemmas.PoolLawful
import Verif.Lemmas.Logged

namespace Vecmem

open IntMath

namespace Pool

variable {σ : Type} {o : PoolOpts} {k0 k1 : Nat} {up : MR σ}

/-- What holds of the buckets after any calls, correct or not. -/
structure Shape (o : PoolOpts) (k0 k1 : Nat) (s : Pool) : Prop where
  slog : s.smallestLog2 = k0
  len : s.buckets.length = k1 - k0 + 1
  prev : ∀ j b, s.buckets[j]? = some b → b.prev = 0 ∨ GoodCount o (k0 + j) b.prev

theorem Shape.set {s : Pool} (h : Shape o k0 k1 s) {j m : Nat} {fr : List Nat}
    (hb : m = 0 ∨ GoodCount o (k0 + j) m) (al : List (Nat × Nat)) (c v : List OvDesc) :
    Shape o k0 k1 ⟨s.smallestLog2, s.buckets.set j ⟨fr, m⟩, al, c, v⟩ := by
  refine ⟨h.slog, by simpa using h.len, ?_⟩
  intro i x hx
  simp only [List.getElem?_set] at hx
  split at hx
  · rename_i hij; subst hij
    split at hx
    · simp only [Option.some.injEq] at hx; subst hx; exact hb
    · simp at hx
  · exact h.prev i x hx

theorem Shape.take {s : Pool × σ} (h : Shape o k0 k1 s.1) (j : Nat) :
    Shape o k0 k1 (takeBlock s j).2.1 ∧ (takeBlock s j).2.2 = s.2 := by
  unfold takeBlock
  split
  · exact ⟨h, rfl⟩
  · rename_i b hb
    split
    · exact ⟨h, rfl⟩
    · exact ⟨h.set (h.prev j b hb) _ _ _, rfl⟩

/-- The bucket of a small request exists. -/
theorem Shape.bucket {s : Pool} (h : Shape o k0 k1 s) (hf : o.Facts k0 k1) (hr : o.InRange) {n : Nat}
    (hn : max n o.smallest ≤ o.largest) :
    ∃ j b, log2Ri (max n o.smallest) = some (k0 + j) ∧ clog2 (max n o.smallest) = k0 + j ∧
      k0 + j ≤ k1 ∧ wrap64 (k0 + j + 2 ^ 64 - s.smallestLog2) = j ∧ s.buckets[j]? = some b := by
  have hpos : 0 < o.smallest := by rw [hf.smallest]; exact Nat.two_pow_pos _
  have hn0 : max n o.smallest ≠ 0 := by omega
  have h1 : clog2 (max n o.smallest) ≤ k1 := clog2_le hn0 (by rw [← hf.largest]; exact hn)
  have h2 : k0 ≤ clog2 (max n o.smallest) := by
    have := clog2_mono (x := o.smallest) (y := max n o.smallest) (by omega) (by omega)
    rwa [hf.smallest, clog2_two_pow, ← hf.smallest] at this
  have hlt := hf.lt
  have hlen := h.len
  have hj : clog2 (max n o.smallest) - k0 < s.buckets.length := by omega
  refine ⟨clog2 (max n o.smallest) - k0, _, ?_, by omega, by omega, ?_, List.getElem?_eq_getElem hj⟩
  · rw [log2Ri_eq hn0 (by have := hr.2.2.2.2.2.1; omega)]; congr 1; omega
  · rw [h.slog]; unfold wrap64; omega

/-- What a small request does with upstream: nothing, or one well-sized chunk. -/
theorem pooled_traffic {dbg : Bool} {s : Pool × σ} (h : Shape o k0 k1 s.1) (hf : o.Facts k0 k1)
    (hr : o.InRange) (hno : o.NoOverflow) (hne : o.NonEmpty) {n : Nat}
    (hn : max n o.smallest ≤ o.largest) :
    Shape o k0 k1 (allocatePooled dbg o up s (max n o.smallest)).2.1 ∧
    ((allocatePooled dbg o up s (max n o.smallest)).2.2 = s.2 ∨
      ∃ cnt j, clog2 (max n o.smallest) = k0 + j ∧ GoodCount o (k0 + j) cnt ∧
        (allocatePooled dbg o up s (max n o.smallest)).2.2 =
          (up.allocate s.2 (cnt * 2 ^ (k0 + j)) o.alignment).2) := by
  obtain ⟨j, b, e1, e2, e3, e4, e5⟩ := h.bucket hf hr hn
  unfold allocatePooled
  simp only [e1, e4, e5]
  by_cases hemp : b.free = []
  · rw [if_pos (by rw [hemp]; rfl)]
    have hg := chunkBlocks_spec hr hf hno hne (Nat.le_add_right k0 j) e3 (h.prev j b e5)
    have hby : wrap64 (chunkBlocks o (k0 + j) b.prev <<< (k0 + j)) =
        chunkBlocks o (k0 + j) b.prev * 2 ^ (k0 + j) := by
      rw [Nat.shiftLeft_eq]
      refine Nat.mod_eq_of_lt ?_
      have := hg.maxBytes; have := hr.2.2.2.1; omega
    have hadd : (addChunk dbg o up s (k0 + j) j b = (.ub, s)) ∨
        (Shape o k0 k1 (addChunk dbg o up s (k0 + j) j b).2.1 ∧
          (addChunk dbg o up s (k0 + j) j b).2.2 =
            (up.allocate s.2 (chunkBlocks o (k0 + j) b.prev * 2 ^ (k0 + j)) o.alignment).2) := by
      unfold addChunk
      simp only [hby]
      split
      · exact Or.inl rfl
      · refine Or.inr ?_
        cases hx : up.allocate s.2 (chunkBlocks o (k0 + j) b.prev * 2 ^ (k0 + j)) o.alignment with
        | mk r u =>
          cases r <;> first | exact ⟨h, rfl⟩ | exact ⟨h.set (Or.inr hg) _ _ _, rfl⟩
    rcases hadd with hub | ⟨hsh, hu⟩
    · rw [hub]; exact ⟨h, Or.inl rfl⟩
    · cases hx : addChunk dbg o up s (k0 + j) j b with
      | mk r s' =>
        rw [hx] at hsh hu
        cases r with
        | ok _ =>
          have ht := hsh.take (s := s') j
          exact ⟨ht.1, Or.inr ⟨_, j, e2, hg, ht.2.trans hu⟩⟩
        | _ => exact ⟨hsh, Or.inr ⟨_, j, e2, hg, hu⟩⟩
  · rw [if_neg (by simpa using hemp)]
    have ht := h.take j
    exact ⟨ht.1, Or.inl ht.2⟩

theorem oversized_shape {s : Pool × σ} (h : Shape o k0 k1 s.1) (n a : Nat) :
    Shape o k0 k1 (allocateOversized o up s n a).2.1 := by
  have hfresh : Shape o k0 k1 (allocateFresh up s n a).2.1 := by
    unfold allocateFresh
    cases up.allocate s.2 n a with
    | mk r u => cases r <;> exact ⟨h.slog, h.len, h.prev⟩
  unfold allocateOversized
  split
  · split
    · split
      · exact ⟨h.slog, h.len, h.prev⟩
      · exact hfresh
    · exact h
  · exact hfresh

theorem allocate_shape {dbg : Bool} {s : Pool × σ} (h : Shape o k0 k1 s.1) (hf : o.Facts k0 k1)
    (hr : o.InRange) (hno : o.NoOverflow) (hne : o.NonEmpty) (n a : Nat) :
    Shape o k0 k1 ((mr dbg o up).allocate s n a).2.1 := by
  simp only [mr, pimpl, impl]
  split
  · exact h
  · unfold allocate
    simp only
    split
    · exact h
    · split
      · exact oversized_shape h _ _
      · rename_i hc
        simp only [Bool.or_eq_true, decide_eq_true_iff, not_or] at hc
        exact (pooled_traffic h hf hr hno hne (by omega)).1

theorem deallocate_shape {dbg : Bool} {s : Pool × σ} (h : Shape o k0 k1 s.1) (p n a : Nat) :
    Shape o k0 k1 ((mr dbg o up).deallocate s p n a).2.1 := by
  simp only [mr, pimpl, impl]
  split
  · exact h
  · unfold deallocate
    simp only
    split
    · exact h
    · split
      · split
        · exact h
        · split <;> exact ⟨h.slog, h.len, h.prev⟩
      · split
        · exact h
        · split
          · exact h
          · rename_i b hb
            exact h.set (h.prev _ b hb) _ _ _

theorem run_shape {dbg : Bool} (hf : o.Facts k0 k1)
    (hr : o.InRange) (hno : o.NoOverflow) (hne : o.NonEmpty) (calls : List Call) :
    ∀ {s : Pool × σ}, Shape o k0 k1 s.1 → Shape o k0 k1 ((mr dbg o up).run s calls).2.1 := by
  induction calls with
  | nil => intro s h; exact h
  | cons c cs ih =>
    intro s h
    cases c with
    | alloc n a => exact ih (allocate_shape h hf hr hno hne n a)
    | free p n a => exact ih (deallocate_shape h p n a)

theorem init_shape : Shape o k0 k1 ⟨k0, List.replicate (k1 - k0 + 1) {}, [], [], []⟩ := by
  refine ⟨rfl, by simp, ?_⟩
  intro j b hb
  simp only [List.getElem?_replicate] at hb
  split at hb
  · simp only [Option.some.injEq] at hb; subst hb; exact Or.inl rfl
  · simp at hb

/-- If every cached block is aligned enough, the one found is not too big. -/
theorem findCached_size {xs : List OvDesc} (hs : CacheSorted xs) {n a it : Nat}
    {d : OvDesc} (hf : findCached o xs n a = .ok it) (hd : xs[it]? = some d)
    (hal : ∀ e ∈ xs, a ≤ e.alignment) : d.size / n < o.sizeCutoff := by
  refine (findCached_spec hs hf hd).2.2.2 ?_
  have hlen : xs[xs.length]? = none := List.getElem?_eq_none (Nat.le_refl _)
  unfold findCached cutAlign at hf
  generalize lowerBound xs ⟨n, a, 0⟩ = i at *
  cases hi : xs[i]? with
  | none => simp only [hi, Res.ok.injEq] at hf; subst hf; rw [hi] at hd; simp at hd
  | some e =>
    simp only [hi] at hf
    by_cases hcut : e.size / n ≥ o.sizeCutoff
    · simp only [if_pos hcut, hlen, Res.ok.injEq] at hf
      subst hf; rw [hlen] at hd; simp at hd
    · have := hal e (List.mem_of_getElem? hi)
      simp only [if_neg hcut, hi, if_neg (Nat.not_lt.2 this)] at hf
      split at hf
      · simp at hf
      · split at hf
        · simp only [Res.ok.injEq] at hf; subst hf; rw [hlen] at hd; simp at hd
        · simp only [Res.ok.injEq] at hf; subst hf; rw [← hi, hd]

end Pool

end Vecmem
