import Verif.Lemmas.PoolInv

namespace Vecmem

open IntMath

namespace Pool

variable {σ : Type} {R : Limits} {o : PoolOpts} {k0 k1 : Nat} {up : MR σ} {RR : σ → List Blk → Prop}

/-- The outcome of an allocation and its effect on the invariant. -/
def AllocOk (R : Limits) (o : PoolOpts) (k0 k1 : Nat) (RR : σ → List Blk → Prop) (L : List Blk) (n a : Nat)
    (r : Res Nat × (Pool × σ)) : Prop :=
  (∃ p, r.1 = .ok p ∧ Inv R o k0 k1 RR r.2 (⟨p, n, a⟩ :: L)) ∨
    (r.1 = .badAlloc ∧ Inv R o k0 k1 RR r.2 L)

theorem small_eq (n a p : Nat) : small o ⟨p, n, a⟩ =
    !(decide (max n o.smallest > o.largest) || decide (a > o.alignment)) := by
  simp only [small, Bool.not_or]
  congr 1 <;> (rw [← decide_not]; congr 1; simp only [eq_iff_iff]; omega)

theorem smallest_le_max {dbg : Bool} (hf : o.Facts k0 k1) (hs : o.Sound dbg)
    (hMR : o.maxBytes ≤ R.size) : o.smallest ≤ R.size := by
  have h1 := hf.largeFits
  rw [wrap64, Nat.mod_eq_of_lt hs.noOverflow.1] at h1
  have h2 : o.smallest ≤ o.largest := by
    rw [hf.smallest, hf.largest]; exact Nat.pow_le_pow_right (by omega) hf.le
  have h3 := hf.minmaxBytes
  rcases hs.nonEmpty.2 with h | h
  · have : 1 * o.largest ≤ o.minBlocks * o.largest := Nat.mul_le_mul_right _ h
    omega
  · omega

theorem oversized_ok {s : Pool × σ} {L : List Blk} (h : Inv R o k0 k1 RR s L)
    (hl : Serves R R.align up RR) (hr : o.InRange) (hSR : o.smallest ≤ R.size) {n a : Nat} (hn : 0 < n) (hq : IsReq R n a)
    (hsm : ∀ p, small o ⟨p, n, a⟩ = false) :
    AllocOk R o k0 k1 RR L n a (allocateOversized o up s (max n o.smallest) a) := by
  have hq' : IsReq R (max n o.smallest) a :=
    ⟨by have := hr.2.2.2.2.1; have := hq.1; omega, hq.2⟩
  have hfresh : AllocOk R o k0 k1 RR L n a (allocateFresh up s (max n o.smallest) a) := by
    unfold allocateFresh
    have hg := hl.alloc h.reach hq' (by omega)
    cases hx : up.allocate s.2 (max n o.smallest) a with
    | mk r u =>
      rw [hx] at hg
      cases r <;> simp only [GoodAnswer] at hg
      case ok p =>
        exact Or.inl ⟨p, rfl, h.fresh hl hn (Nat.le_max_left _ _) hq' (hsm p) hx⟩
      case badAlloc =>
        exact Or.inr ⟨rfl, h.refused hl (by omega) hq' hx⟩
  unfold allocateOversized
  split
  · obtain ⟨it, hit⟩ := findCached_ok (o := o) (xs := s.1.cached) (n := max n o.smallest) hq.pos
    rw [hit]
    simp only
    cases hd : s.1.cached[it]? with
    | none => exact hfresh
    | some d =>
      obtain ⟨f1, f2, _, _⟩ := findCached_spec h.sorted hit hd
      exact Or.inl ⟨d.ptr, rfl, h.reuse hl hn hq (hsm _) hd (by omega) f2⟩
  · exact hfresh

theorem take_ok {s : Pool × σ} {L : List Blk} (h : Inv R o k0 k1 RR s L) {n a j : Nat} {b : Bucket}
    (hn : 0 < n) (hq : IsReq R n a) (hsm : ∀ p, small o ⟨p, n, a⟩ = true)
    (hcl : clog2 (max n o.smallest) = k0 + j) (hb : s.1.buckets[j]? = some b) (hne : b.free ≠ []) :
    AllocOk R o k0 k1 RR L n a (takeBlock s j) := by
  unfold takeBlock
  have hlast := List.getLast?_eq_some_getLast hne
  simp only [hb, hlast]
  exact Or.inl ⟨_, rfl, h.take hb hlast (hsm _) hcl hn hq⟩

theorem pooled_ok {dbg : Bool} {s : Pool × σ} {L : List Blk} (h : Inv R o k0 k1 RR s L)
    (hl : Serves R R.align up RR) (hf : o.Facts k0 k1) (hs : o.Sound dbg)
    (hAR : o.alignment ≤ R.align) (hMR : o.maxBytes ≤ R.size)
    {n a : Nat} (hn : 0 < n) (hq : IsReq R n a) (hsm : ∀ p, small o ⟨p, n, a⟩ = true) :
    AllocOk R o k0 k1 RR L n a (allocatePooled dbg o up s (max n o.smallest)) := by
  have hle : max n o.smallest ≤ o.largest := by
    have := hsm 0
    simp only [small, Bool.and_eq_true, decide_eq_true_iff] at this
    exact this.1
  obtain ⟨j, b, e1, e2, e3, e4, e5⟩ := h.bucket hf hs.range hle
  unfold allocatePooled
  simp only [e1, e4, e5]
  by_cases hemp : b.free = []
  · rw [if_pos (by rw [hemp]; rfl)]
    have hg := chunkBlocks_spec hs.range hf hs.noOverflow hs.nonEmpty (Nat.le_add_right k0 j) e3
      (h.prev j b e5)
    have hlt : k0 + j < 64 := by have := hf.lt; omega
    have hbs : wrap64 (1 <<< (k0 + j)) = 2 ^ (k0 + j) := by
      rw [Nat.one_shiftLeft]
      exact Nat.mod_eq_of_lt (Nat.pow_lt_pow_right (by decide) hlt)
    have hby : wrap64 (chunkBlocks o (k0 + j) b.prev <<< (k0 + j)) =
        chunkBlocks o (k0 + j) b.prev * 2 ^ (k0 + j) := by
      rw [Nat.shiftLeft_eq]
      refine Nat.mod_eq_of_lt ?_
      have := hg.maxBytes; have := hs.range.2.2.2.1; omega
    obtain ⟨iA, hiA⟩ := hf.align hs.nonEmpty.1
    have hpos : 0 < chunkBlocks o (k0 + j) b.prev * 2 ^ (k0 + j) :=
      Nat.mul_pos hg.pos (Nat.two_pow_pos _)
    have hreq : IsReq R (chunkBlocks o (k0 + j) b.prev * 2 ^ (k0 + j)) o.alignment :=
      ⟨by have := hg.maxBytes; have := hs.range.2.2.2.1; omega, hAR, iA, hiA.1⟩
    unfold addChunk
    simp only [hbs, hby]
    rw [if_neg]
    · have hgood := hl.alloc h.reach hreq hpos
      cases hx : up.allocate s.2 (chunkBlocks o (k0 + j) b.prev * 2 ^ (k0 + j)) o.alignment with
      | mk r u =>
        rw [hx] at hgood
        cases r <;> simp only [GoodAnswer] at hgood
        case ok p =>
          have hI := h.chunk hl ⟨iA, hiA⟩ hAR hMR hs.range.2.2.2.1 e5 hg hx
          have hj : j < s.1.buckets.length := by
            by_contra hc; rw [List.getElem?_eq_none (by omega)] at e5; simp at e5
          simp only
          refine take_ok (b := Bucket.mk (b.free ++ (List.range (chunkBlocks o (k0 + j) b.prev)).map
              (fun i => p + i * 2 ^ (k0 + j))) (chunkBlocks o (k0 + j) b.prev)) hI hn hq hsm e2 ?_ ?_
          · simp [hj]
          · have := hg.pos
            simp only [ne_eq, List.append_eq_nil_iff, List.map_eq_nil_iff, List.range_eq_nil, not_and]
            intro _; omega
        case badAlloc =>
          exact Or.inr ⟨rfl, h.refused hl hpos hreq hx⟩
    · have h1 := hg.minBlocks
      have h2 := hg.maxBlocks
      have h3 := hg.maxBytes
      cases dbg with
      | false => simp
      | true =>
        have h4 := hg.minBytes (hs.minFits rfl)
        simp [h1, h2, h3, h4]
  · rw [if_neg (by simpa using hemp)]
    exact take_ok h hn hq hsm e2 e5 hemp

theorem isPowerOf2_of_req (hR : R.align ≤ 2 ^ 61) {n a : Nat} (hq : IsReq R n a) :
    isPowerOf2 a = true :=
  (isPowerOf2_iff (by have := hq.2.1; omega)).2 (Or.inr hq.2.2)

theorem allocate_ok {dbg : Bool} {s : Pool × σ} {L : List Blk} (h : Inv R o k0 k1 RR s L)
    (hl : Serves R R.align up RR) (hf : o.Facts k0 k1) (hs : o.Sound dbg)
    (hAR : o.alignment ≤ R.align) (hMR : o.maxBytes ≤ R.size)
    (hR : R.align ≤ 2 ^ 61) {n a : Nat} (hn : 0 < n) (hq : IsReq R n a) :
    AllocOk R o k0 k1 RR L n a (allocate dbg o up s n a) := by
  unfold allocate
  simp only [isPowerOf2_of_req hR hq, Bool.not_true, Bool.and_false, Bool.false_eq_true, if_false]
  have hsm := small_eq (o := o) n a
  split
  · rename_i hc
    rw [hc] at hsm
    exact oversized_ok h hl hs.range (smallest_le_max hf hs hMR) hn hq (fun p => by simpa using hsm p)
  · rename_i hc
    simp only [Bool.not_eq_true] at hc
    rw [hc] at hsm
    exact pooled_ok h hl hf hs hAR hMR hn hq (fun p => by simpa using hsm p)

theorem deallocate_ok {dbg : Bool} {s : Pool × σ} {L : List Blk} {c : Blk}
    (h : Inv R o k0 k1 RR s (c :: L))
    (hl : Serves R R.align up RR) (hf : o.Facts k0 k1) (hs : o.Sound dbg) (hR : R.align ≤ 2 ^ 61) :
    (deallocate dbg o up s c.addr c.size c.align).1 = .ok () ∧
      Inv R o k0 k1 RR (deallocate dbg o up s c.addr c.size c.align).2 L := by
  obtain ⟨hn, hq⟩ := h.wf c List.mem_cons_self
  obtain ⟨iA, hiA, _⟩ := hf.align hs.nonEmpty.1
  have hal := (h.held hl ⟨iA, hiA⟩ List.mem_cons_self).2
  have hisal : isAligned c.addr c.align = true := by
    refine (isAligned_iff ?_).2 hal
    obtain ⟨_, h2, k, hk⟩ := hq
    refine ⟨k, ?_, hk⟩
    rw [hk] at h2
    exact (Nat.pow_le_pow_iff_right (a := 2) (by decide)).1 (Nat.le_trans h2 hR)
  unfold deallocate
  simp only [isPowerOf2_of_req hR hq, hisal, Bool.and_true, Bool.not_true, Bool.and_false,
    Bool.false_eq_true, if_false]
  have hsm := small_eq (o := o) c.size c.align c.addr
  split
  · rename_i hc
    rw [hc] at hsm
    have hsm' : small o c = false := by simpa using hsm
    obtain ⟨d, hd, hp, hnc, hov⟩ := h.find hl hsm'
    simp only [hd]
    split
    · exact ⟨rfl, h.cache hl hsm' hp hnc hov⟩
    · exact h.giveBack hl hsm' hp hnc hd
  · rename_i hc
    simp only [Bool.not_eq_true] at hc
    rw [hc] at hsm
    have hsm' : small o c = true := by simpa using hsm
    have hle : max c.size o.smallest ≤ o.largest := by
      have := hsm'
      simp only [small, Bool.and_eq_true, decide_eq_true_iff] at this
      exact this.1
    obtain ⟨j, b, e1, e2, e3, e4, e5⟩ := h.bucket hf hs.range hle
    simp only [e1, e4, e5]
    exact ⟨trivial, h.give e5 hsm' e2⟩

theorem init_inv {u0 : σ} (h0 : RR u0 []) :
    Inv R o k0 k1 RR (⟨k0, List.replicate (k1 - k0 + 1) {}, [], [], []⟩, u0) [] := by
  have hfree : ∀ k m, freeSlots o.alignment k (List.replicate m {}) = [] := by
    intro k m
    induction m generalizing k with
    | zero => rfl
    | succ m ih => simp [List.replicate_succ, freeSlots, ih]
  refine ⟨rfl, by simp, ?_, h0, ?_, ?_, ?_, ?_, ⟨?_, ?_⟩, ?_, ?_, ?_⟩ <;>
    simp [chunks, clientSlots, hfree, CacheSorted]
  intro j b hb
  simp only [List.getElem?_replicate] at hb
  split at hb
  · simp only [Option.some.injEq] at hb; subst hb; exact Or.inl rfl
  · simp at hb

theorem Inv.live {s : Pool × σ} (hl : Serves R R.align up RR) (ha : ∃ j, o.alignment = 2 ^ j) :
    ∀ {L : List Blk}, Inv R o k0 k1 RR s L → (∀ b ∈ L, b.Wf R R.align) ∧ L.Pairwise Blk.Disjoint := by
  intro L h
  have hwf : ∀ b ∈ L, b.Wf R R.align := by
    intro b hb
    have hg := (h.perm (List.perm_cons_erase hb)).good hl ha
    exact ⟨hg.1, hg.2.1, hg.2.2.1, h.wf b hb⟩
  exact ⟨hwf, pairwise_of_perm fun b L' hp => (h.perm hp).disjoint hl⟩

theorem serves {dbg : Bool} (hl : Serves R R.align up RR) (hf : o.Facts k0 k1) (hs : o.Sound dbg)
    (hAR : o.alignment ≤ R.align) (hMR : o.maxBytes ≤ R.size) (hR : R.align ≤ 2 ^ 61) :
    Serves R R.align (mr dbg o up) (Inv R o k0 k1 RR) := by
  obtain ⟨iA, hiA, _⟩ := hf.align hs.nonEmpty.1
  refine Serves.of_inv (fun s L h => h.live hl ⟨iA, hiA⟩) ?_ ?_ ?_ ?_ ?_
  · intro s L n a h hq hn
    have e : (mr dbg o up).allocate s n a = allocate dbg o up s n a := by
      simp [mr, pimpl, impl, Nat.pos_iff_ne_zero.1 hn]
    rw [e]
    rcases allocate_ok h hl hf hs hAR hMR hR hn hq with ⟨p, h1, h2⟩ | ⟨h1, h2⟩
    · rw [h1]
      refine ⟨h2.good hl ⟨iA, hiA⟩, ?_, by simp⟩
      rintro q ⟨⟩; exact h2
    · rw [h1]; exact ⟨trivial, by simp, fun _ => h2⟩
  · intro s L a h _
    have e : (mr dbg o up).allocate s 0 a = (.ok 0, s) := by simp [mr, pimpl]
    rw [e]; exact ⟨Or.inl rfl, h⟩
  · intro s L b h
    have hb0 : b.addr ≠ 0 := by
      obtain ⟨⟨c, hc, hin⟩, _⟩ := h.held hl ⟨iA, hiA⟩ List.mem_cons_self
      have := ((hl.live h.reach).1 c hc).1
      have := hin.1; omega
    have e : (mr dbg o up).deallocate s b.addr b.size b.align =
        deallocate dbg o up s b.addr b.size b.align := by simp [mr, pimpl, impl, hb0]
    rw [e]; exact deallocate_ok h hl hf hs hR
  · intro s L n a h
    have e : (mr dbg o up).deallocate s 0 n a = (.ok (), s) := by simp [mr, pimpl]
    rw [e]; exact ⟨rfl, h⟩
  · intro s L L' h hp; exact h.perm hp

theorem lawful_inv {u0 : σ} {dbg : Bool} (hl : Lawful R R.align up u0) (hf : o.Facts k0 k1) (hs : o.Sound dbg)
    (hAR : o.alignment ≤ R.align) (hMR : o.maxBytes ≤ R.size) (hR : R.align ≤ 2 ^ 61) :
    Lawful R R.align (mr dbg o up) (⟨k0, List.replicate (k1 - k0 + 1) {}, [], [], []⟩, u0) ∧
      ∀ s L, Reach R (mr dbg o up) (⟨k0, List.replicate (k1 - k0 + 1) {}, [], [], []⟩, u0) s L →
        Inv R o k0 k1 (Reach R up u0) s L :=
  have h := serves hl.serves hf hs hAR hMR hR
  have h0 := init_inv (R := R) (o := o) (k0 := k0) (k1 := k1) (RR := Reach R up u0) .init
  ⟨h.lawful h0, fun _ _ => h.reach h0⟩

/-- Giving blocks back to upstream one by one. -/
theorem freeAll_ok (hl : Serves R R.align up RR) : ∀ (bs L : List Blk) (u : σ),
    RR u (bs ++ L) →
    (freeAll up u (bs.map fun b => (b.addr, b.size, b.align))).1 = .ok () ∧
      RR (freeAll up u (bs.map fun b => (b.addr, b.size, b.align))).2 L := by
  intro bs
  induction bs with
  | nil => intro L u h; exact ⟨rfl, h⟩
  | cons b bs ih =>
    intro L u h
    have hok := hl.dealloc h List.mem_cons_self
    simp only [List.map_cons, freeAll]
    cases hx : up.deallocate u b.addr b.size b.align with
    | mk r u' =>
      rw [hx] at hok
      simp only at hok
      subst hok
      exact ih L u' (hl.sFree h hx)

theorem destroy_ok {s : Pool × σ} (hl : Serves R R.align up RR) (h : Inv R o k0 k1 RR s []) :
    (destroy o up s).1 = .ok () ∧ RR (destroy o up s).2 [] := by
  have hperm : s.1.cached.Perm s.1.oversized := by
    have hnd : s.1.oversized.Nodup := by
      have h2 := (List.pairwise_append.1 (hl.live h.reach).2).2.1
      rw [List.pairwise_map] at h2
      have hw := (hl.live h.reach).1
      refine List.Pairwise.imp_of_mem ?_ h2
      rintro a b ha hb hd rfl
      have := (hw (ovBlk a) (List.mem_append_right _ (List.mem_map_of_mem ha))).2.2.2.1
      simp only [Blk.Disjoint, ovBlk] at hd this
      omega
    refine (List.perm_ext_iff_of_nodup h.big3.1 hnd).2 ?_
    intro d
    refine ⟨h.big3.2 d, ?_⟩
    intro hd
    rcases h.big2 d hd with h' | ⟨b, hb, _⟩
    · exact h'
    · simp at hb
  have hr : RR s.2 ((chunks o s.1 ++ s.1.cached.map ovBlk) ++ []) := by
    rw [List.append_nil]
    exact hl.perm h.reach (List.Perm.append_left _ (hperm.map ovBlk).symm)
  have := freeAll_ok hl _ _ _ hr
  have e : (chunks o s.1 ++ s.1.cached.map ovBlk).map (fun b => (b.addr, b.size, b.align)) =
      s.1.allocated.map (fun c => (c.2, c.1, o.alignment)) ++
        s.1.cached.map (fun d => (d.ptr, d.size, d.alignment)) := by
    simp [chunks, ovBlk, List.map_map, Function.comp_def]
  rw [e] at this
  exact this

end Pool

end Vecmem
