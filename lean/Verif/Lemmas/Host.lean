import Verif.Model.Host
import Verif.Lemmas.Align
import Verif.Lemmas.Bytes
import Verif.Lemmas.Resource
import Verif.Lemmas.Tactics
import Verif.Spec.Arena

namespace Vecmem

open IntMath

variable {σ : Type} {c : CLib σ} {c0 : σ}

/-- Separate blocks of the C library. -/
def CBlk.Apart (a b : CBlk) : Prop := a.addr ≠ b.addr ∧ (a.addr + a.size ≤ b.addr ∨ b.addr + b.size ≤ a.addr)

theorem CBlk.Apart.symm {a b : CBlk} (h : a.Apart b) : b.Apart a := by
  unfold CBlk.Apart at *; omega

theorem CLib.Good.live (h : c.Good c0) {s C} (hr : CLib.Reach c c0 s C) :
    (∀ b ∈ C, b.addr ≠ 0 ∧ b.addr + b.size ≤ 2 ^ 64) ∧ C.Pairwise CBlk.Apart := by
  induction hr with
  | init => simp
  | @malloc s s' C n p h1 hn he hp ih =>
    have hg := h.malloc h1 hn (by rw [he]; exact hp)
    rw [he] at hg
    refine ⟨?_, List.pairwise_cons.2 ⟨?_, ih.2⟩⟩
    · intro b hb
      rcases List.mem_cons.1 hb with rfl | hb
      · exact ⟨hp, hg.1⟩
      · exact ih.1 b hb
    · intro b hb; exact ⟨(hg.2 b hb).1.symm, (hg.2 b hb).2⟩
  | mallocFail _ _ _ ih => exact ih
  | @aligned s s' C n a p h1 hn ha hd he hp ih =>
    have hg := (h.aligned h1 hn ha hd (by rw [he]; exact hp)).2
    rw [he] at hg
    refine ⟨?_, List.pairwise_cons.2 ⟨?_, ih.2⟩⟩
    · intro b hb
      rcases List.mem_cons.1 hb with rfl | hb
      · exact ⟨hp, hg.1⟩
      · exact ih.1 b hb
    · intro b hb; exact ⟨(hg.2 b hb).1.symm, (hg.2 b hb).2⟩
  | alignedFail _ _ _ _ _ ih => exact ih
  | free _ _ ih => exact ⟨fun b hb => ih.1 b (List.mem_cons_of_mem _ hb), (List.pairwise_cons.1 ih.2).2⟩
  | perm _ hp ih => exact ⟨fun b hb => ih.1 b (hp.symm.subset hb), hp.pairwise ih.2 (fun h => h.symm)⟩

/-- A client block and the C library block it lies in. -/
def HostPair (k : Blk × CBlk) : Prop :=
  k.2.addr + 8 ≤ k.1.addr ∧ k.1.addr + k.1.size ≤ k.2.addr + k.2.size ∧ k.1.align ∣ k.1.addr ∧ 0 < k.1.size

/-- Invariant of the resource over `malloc`. -/
def HostInv (c : CLib σ) (c0 : σ) (s : σ × Mem) (L : List Blk) : Prop :=
  ∃ K : List (Blk × CBlk), (K.map (·.1)).Perm L ∧ CLib.Reach c c0 s.1 (K.map (·.2)) ∧
    (∀ k ∈ K, HostPair k ∧ readLE s.2 (k.1.addr - 8) 8 = k.2.addr)

/-- What one successful `allocate` does. -/
theorem hostMalloc_alloc {R : Limits} (hR : R.size + R.align + 7 < 2 ^ 64) (hg : c.Good c0)
    {s : σ × Mem} {C : List CBlk} (hr : CLib.Reach c c0 s.1 C) {n a : Nat} (hq : IsReq R n a) (hn : 0 < n) :
    let r := c.malloc s.1 (n + a + 7)
    (r.1 = 0 ∧ (hostMallocMR c).allocate s n a = (.badAlloc, (r.2, s.2)) ∧ CLib.Reach c c0 r.2 C) ∨
    (r.1 ≠ 0 ∧ ∃ q, (hostMallocMR c).allocate s n a = (.ok q, (r.2, writeLE s.2 (q - 8) 8 r.1)) ∧
      HostPair (⟨q, n, a⟩, ⟨r.1, n + a + 7⟩) ∧ CLib.Reach c c0 r.2 (⟨r.1, n + a + 7⟩ :: C)) := by
  intro r
  have ha := hq.pos
  obtain ⟨⟨h1, _⟩, h2, _⟩ := hq
  have hw : wrap64 (n + a + 8 - 1) = n + a + 7 := by unfold wrap64; omega
  have hw2 : wrap64 (n + a + 7 + 2 ^ 64 - 8) = n + a - 1 := by unfold wrap64; omega
  have hlt : n + a + 7 < 2 ^ 64 := by omega
  by_cases hp : r.1 = 0
  · left
    refine ⟨hp, ?_, ?_⟩
    · simp only [hostMallocMR, Nat.pos_iff_ne_zero.1 hn, if_false, hw]
      rw [if_pos hp]
    · refine .mallocFail hr hlt (n := n + a + 7) ?_
      rw [← hp]
  · right
    refine ⟨hp, alignUp a (r.1 + 8), ?_, ?_, ?_⟩
    · simp only [hostMallocMR, Nat.pos_iff_ne_zero.1 hn, if_false, hw, hw2]
      rw [if_neg hp, stdAlign_eq, if_pos]
      have := alignUp_lt ha (r.1 + 8)
      change n + (alignUp a (r.1 + 8) - (r.1 + 8)) ≤ n + a - 1
      omega
    · have e1 := alignUp_ge a (r.1 + 8)
      have e2 := alignUp_lt ha (r.1 + 8)
      refine ⟨e1, ?_, alignUp_dvd ha _, hn⟩
      simp only
      omega
    · exact .malloc hr hlt rfl hp

theorem HostInv.perm {s : σ × Mem} {L L' : List Blk} (h : HostInv c c0 s L) (hp : L.Perm L') :
    HostInv c c0 s L' := by
  obtain ⟨K, h1, h2, h3⟩ := h
  exact ⟨K, h1.trans hp, h2, h3⟩

/-- Client blocks, with their headers, are apart from each other's. -/
theorem host_apart (hg : c.Good c0) {s : σ} {K : List (Blk × CBlk)} (hr : CLib.Reach c c0 s (K.map (·.2)))
    (hk : ∀ k ∈ K, HostPair k) :
    K.Pairwise (fun k l => k.1.addr + k.1.size + 8 ≤ l.1.addr ∨ l.1.addr + l.1.size + 8 ≤ k.1.addr) := by
  have h := List.pairwise_map.1 (hg.live hr).2
  refine h.imp_of_mem ?_
  intro a b ha hb hab
  have h1 := hk a ha
  have h2 := hk b hb
  unfold HostPair at h1 h2
  unfold CBlk.Apart at hab
  omega

theorem HostInv.alloc {R : Limits} (hR : R.size + R.align + 7 < 2 ^ 64) (hg : c.Good c0)
    {s : σ × Mem} {L : List Blk} (h : HostInv c c0 s L) {n a : Nat} (hq : IsReq R n a) (hn : 0 < n) :
    ((hostMallocMR c).allocate s n a).1 = .badAlloc ∧ HostInv c c0 ((hostMallocMR c).allocate s n a).2 L ∨
    ∃ q, ((hostMallocMR c).allocate s n a).1 = .ok q ∧
      HostInv c c0 ((hostMallocMR c).allocate s n a).2 (⟨q, n, a⟩ :: L) ∧
      q ≠ 0 ∧ q + n ≤ 2 ^ 64 ∧ a ∣ q ∧
      ∀ b ∈ L, q + n + 8 ≤ b.addr ∨ b.addr + b.size + 8 ≤ q := by
  obtain ⟨K, h1, h2, h3⟩ := h
  rcases hostMalloc_alloc hR hg h2 hq hn with ⟨e1, e2, e3⟩ | ⟨e1, q, e2, e3, e4⟩
  · left
    rw [e2]
    exact ⟨rfl, K, h1, e3, h3⟩
  · right
    rw [e2]
    have hl := (hg.live e4).1 _ List.mem_cons_self
    have hap := host_apart hg (K := (⟨q, n, a⟩, ⟨(c.malloc s.1 (n + a + 7)).1, n + a + 7⟩) :: K) e4 (by
      intro k hk
      rcases List.mem_cons.1 hk with rfl | hk
      · exact e3
      · exact (h3 k hk).1)
    have hap := (List.pairwise_cons.1 hap).1
    have e3' := e3
    unfold HostPair at e3'
    simp only at e3' hl hap
    refine ⟨q, rfl, ⟨(⟨q, n, a⟩, ⟨(c.malloc s.1 (n + a + 7)).1, n + a + 7⟩) :: K, ?_, e4, ?_⟩, by omega,
      by omega, e3'.2.2.1, ?_⟩
    · exact List.Perm.cons _ h1
    · intro k hk
      rcases List.mem_cons.1 hk with rfl | hk
      · refine ⟨e3, ?_⟩
        simp only
        rw [readLE_writeLE]
        have : (256 : Nat) ^ 8 = 2 ^ 64 := by decide
        omega
      · refine ⟨(h3 k hk).1, ?_⟩
        simp only
        have := hap k hk
        have hk1 := (h3 k hk).1
        unfold HostPair at hk1
        rw [readLE_writeLE_other (by omega)]
        exact (h3 k hk).2
    · intro b hb
      have hb' := h1.symm.subset hb
      obtain ⟨k, hk, rfl⟩ := List.mem_map.1 hb'
      have := hap k hk
      omega

theorem HostInv.free (hg : c.Good c0) {s : σ × Mem} {L : List Blk} {b : Blk} (h : HostInv c c0 s (b :: L)) :
    ((hostMallocMR c).deallocate s b.addr b.size b.align).1 = .ok () ∧
    HostInv c c0 ((hostMallocMR c).deallocate s b.addr b.size b.align).2 L := by
  classical
  obtain ⟨K, h1, h2, h3⟩ := h
  obtain ⟨k, hk, hkb⟩ := List.mem_map.1 (h1.symm.subset (List.mem_cons_self (a := b)))
  subst hkb
  have hp := List.perm_cons_erase hk
  have hk3 := h3 k hk
  have hne : k.1.addr ≠ 0 := by have := hk3.1.1; omega
  have hf := hg.free h2 (List.mem_map.2 ⟨k, hk, rfl⟩)
  have h2' : CLib.Reach c c0 s.1 (k.2 :: (K.erase k).map (·.2)) := .perm h2 (hp.map (·.2))
  simp only [hostMallocMR, if_neg hne]
  rw [hk3.2]
  refine ⟨hf, K.erase k, ?_, .free h2' (by rw [← hf]), ?_⟩
  · exact ((hp.map (·.1)).symm.trans h1).cons_inv
  · intro l hl
    exact h3 l (List.mem_of_mem_erase hl)

theorem HostInv.write {s : σ × Mem} {L : List Blk} (hg : c.Good c0) (h : HostInv c c0 s L) {mem' : Mem}
    (hm : ∀ x, (∀ b ∈ L, x < b.addr ∨ b.addr + b.size ≤ x) → mem' x = s.2 x) :
    HostInv c c0 (s.1, mem') L := by
  obtain ⟨K, h1, h2, h3⟩ := h
  refine ⟨K, h1, h2, ?_⟩
  intro k hk
  refine ⟨(h3 k hk).1, ?_⟩
  rw [← (h3 k hk).2]
  refine readLE_congr ?_
  intro x hx1 hx2
  refine hm x ?_
  intro b hb
  obtain ⟨l, hl, rfl⟩ := List.mem_map.1 (h1.symm.subset hb)
  have hk1 := (h3 k hk).1
  by_cases hkl : k = l
  · subst hkl; unfold HostPair at hk1; left; omega
  · have hap := host_apart hg h2 (fun k hk => (h3 k hk).1)
    have := List.Pairwise.forall_of_forall_of_flip
      (R := fun k l : Blk × CBlk => (k.1.addr + k.1.size + 8 ≤ l.1.addr ∨ l.1.addr + l.1.size + 8 ≤ k.1.addr) ∨ k = l)
      (fun x _ => Or.inr rfl) (hap.imp (fun h => Or.inl h)) (hap.imp (fun h => Or.inl h.symm)) hk hl
    have := this.resolve_right hkl
    unfold HostPair at hk1
    omega

theorem HostInv.of_wreach {R : Limits} (hR : R.size + R.align + 7 < 2 ^ 64) (hg : c.Good c0) {mem0 : Mem}
    {s : σ × Mem} {L : List Blk} (h : WReach R (hostMallocMR c) (c0, mem0) s L) : HostInv c c0 s L := by
  induction h with
  | init => exact ⟨[], List.Perm.refl _, .init, by simp⟩
  | alloc _ hq hn he ih =>
    rcases ih.alloc hR hg hq hn with ⟨h1, _⟩ | ⟨q, h1, h2, _⟩
    · rw [he] at h1; cases h1
    · rw [he] at h1 h2
      cases h1
      exact h2
  | refuse _ hq hn he ih =>
    rcases ih.alloc hR hg hq hn with ⟨h1, h2⟩ | ⟨q, h1, h2, _⟩
    · rw [he] at h2; exact h2
    · rw [he] at h1; cases h1
  | zero _ hq he ih =>
    simp only [hostMallocMR, if_true, Prod.mk.injEq] at he
    rw [← he.2]; exact ih
  | free _ he ih => have := (ih.free hg).2; rw [he] at this; exact this
  | freeNull _ he ih =>
    simp only [hostMallocMR, if_true, Prod.mk.injEq] at he
    rw [← he.2]; exact ih
  | perm _ hp ih => exact ih.perm hp
  | write _ hm ih => exact ih.write hg hm

theorem Reach.wreach {R : Limits} {m : MR (σ × Mem)} {s0 s : σ × Mem} {L : List Blk} (h : Reach R m s0 s L) :
    WReach R m s0 s L := by
  induction h with
  | init => exact .init
  | alloc _ hq hn he ih => exact .alloc ih hq hn he
  | refuse _ hq hn he ih => exact .refuse ih hq hn he
  | zero _ hq he ih => exact .zero ih hq he
  | free _ he ih => exact .free ih he
  | freeNull _ he ih => exact .freeNull ih he
  | perm _ hp ih => exact .perm ih hp

theorem hostMalloc_lawful {R : Limits} (hR : R.size + R.align + 7 < 2 ^ 64) (hg : c.Good c0) (mem0 : Mem)
    (G : Nat) : Lawful R G (hostMallocMR c) (c0, mem0) := by
  refine ⟨?_, ?_, ?_, ?_⟩
  · intro s L n a hr hq hn
    rcases (HostInv.of_wreach hR hg hr.wreach).alloc hR hg hq hn with ⟨h1, _⟩ | ⟨q, h1, _, h2, h3, h4, h5⟩
    · rw [h1]; trivial
    · rw [h1]
      refine ⟨h2, h3, fun _ => h4, ?_⟩
      intro b hb
      have := h5 b hb
      unfold Blk.Disjoint
      simp only
      omega
  · intro s L a hr hq; left; simp [hostMallocMR]
  · intro s L b hr hb
    exact ((HostInv.of_wreach hR hg hr.wreach).perm (List.perm_cons_erase hb)).free hg |>.1
  · intro s L n a hr; simp [hostMallocMR]

theorem hostMalloc_gapped {R : Limits} (hR : R.size + R.align + 7 < 2 ^ 64) (hg : c.Good c0) (mem0 : Mem) :
    Gapped R (hostMallocMR c) (c0, mem0) := by
  intro s L n a p s' hr hq hn he b hb
  rcases (HostInv.of_wreach hR hg hr.wreach).alloc hR hg hq hn with ⟨h1, _⟩ | ⟨q, h1, _, h2, h3, h4, h5⟩
  · rw [he] at h1; cases h1
  · rw [he] at h1; cases h1
    have := h5 b hb
    omega

/-! ## with `aligned_alloc` -/

/-- A client block is the beginning of a C library block with at least one byte more. -/
def HostPair' (k : Blk × CBlk) : Prop :=
  k.2.addr = k.1.addr ∧ k.1.size < k.2.size ∧ k.1.align ∣ k.1.addr ∧ 0 < k.1.size

/-- Invariant of the resource over `aligned_alloc`. -/
def HostInv' (c : CLib σ) (c0 : σ) (s : σ) (L : List Blk) : Prop :=
  ∃ K : List (Blk × CBlk), (K.map (·.1)).Perm L ∧ CLib.Reach c c0 s (K.map (·.2)) ∧ ∀ k ∈ K, HostPair' k

/-- The size asked of `aligned_alloc`: the least multiple of the alignment above `n`. -/
theorem host_round {n a : Nat} (ha : 0 < a) : a ∣ n + (a - n % a) ∧ n < n + (a - n % a) ∧ n + (a - n % a) ≤ n + a := by
  have h1 := Nat.mod_lt n ha
  have h2 := Nat.div_add_mod n a
  refine ⟨⟨n / a + 1, ?_⟩, by omega, by omega⟩
  rw [Nat.mul_add]; omega

theorem dvd_max_pow {k : Nat} : ∃ j, max (2 ^ k) maxAlign = 2 ^ j ∧ 2 ^ k ∣ 2 ^ j := by
  unfold maxAlign
  by_cases h : 4 ≤ k
  · have : 2 ^ 4 ≤ 2 ^ k := Nat.pow_le_pow_right (by decide) h
    exact ⟨k, by omega, Nat.dvd_refl _⟩
  · have : 2 ^ k ≤ 2 ^ 4 := Nat.pow_le_pow_right (by decide) (by omega)
    exact ⟨4, by omega, Nat.pow_dvd_pow 2 (by omega)⟩

theorem HostInv'.alloc {R : Limits} (hR : R.size + max R.align 16 < 2 ^ 64) (hg : c.Good c0)
    {s : σ} {L : List Blk} (h : HostInv' c c0 s L) {n a : Nat} (hq : IsReq R n a) (hn : 0 < n) :
    ((hostAlignedMR c).allocate s n a).1 = .badAlloc ∧ HostInv' c c0 ((hostAlignedMR c).allocate s n a).2 L ∨
    ∃ q, ((hostAlignedMR c).allocate s n a).1 = .ok q ∧
      HostInv' c c0 ((hostAlignedMR c).allocate s n a).2 (⟨q, n, a⟩ :: L) ∧
      q ≠ 0 ∧ q + n ≤ 2 ^ 64 ∧ a ∣ q ∧
      ∀ b ∈ L, q + n < b.addr ∨ b.addr + b.size < q := by
  obtain ⟨K, h1, h2, h3⟩ := h
  obtain ⟨⟨hn1, _⟩, ha1, k, rfl⟩ := hq
  obtain ⟨j, hj, hjd⟩ := dvd_max_pow (k := k)
  obtain ⟨e1, e2, e3⟩ := host_round (n := n) (Nat.two_pow_pos j)
  have hj16 : 2 ^ j ≤ max R.align 16 := by rw [← hj]; unfold maxAlign; omega
  have hw : wrap64 (n + (2 ^ j - n % 2 ^ j)) = n + (2 ^ j - n % 2 ^ j) := by
    unfold wrap64; exact Nat.mod_eq_of_lt (by omega)
  have hlt : n + (2 ^ j - n % 2 ^ j) < 2 ^ 64 := by omega
  generalize hN : n + (2 ^ j - n % 2 ^ j) = N at *
  simp only [hostAlignedMR, Nat.pos_iff_ne_zero.1 hn, if_false, hj, hN, hw]
  by_cases hp : (c.alignedAlloc s (2 ^ j) N).1 = 0
  · left
    rw [if_pos hp]
    exact ⟨rfl, K, h1, .alignedFail h2 hlt ⟨j, rfl⟩ e1 (by rw [← hp]), h3⟩
  · right
    rw [if_neg hp]
    have hgood := hg.aligned h2 hlt ⟨j, rfl⟩ e1 hp
    have hnew : CLib.Reach c c0 (c.alignedAlloc s (2 ^ j) N).2 (⟨(c.alignedAlloc s (2 ^ j) N).1, N⟩ :: K.map (·.2)) :=
      .aligned h2 hlt ⟨j, rfl⟩ e1 rfl hp
    refine ⟨_, rfl, ⟨(⟨(c.alignedAlloc s (2 ^ j) N).1, n, 2 ^ k⟩, ⟨(c.alignedAlloc s (2 ^ j) N).1, N⟩) :: K,
      h1.cons _, hnew, ?_⟩, hp, by have := hgood.2.1; omega, Nat.dvd_trans hjd hgood.1, ?_⟩
    · intro k hk
      rcases List.mem_cons.1 hk with rfl | hk
      · exact ⟨rfl, e2, Nat.dvd_trans hjd hgood.1, hn⟩
      · exact h3 k hk
    · intro b hb
      obtain ⟨l, hl, rfl⟩ := List.mem_map.1 (h1.symm.subset hb)
      have := hgood.2.2 l.2 (List.mem_map.2 ⟨l, hl, rfl⟩)
      have hl3 := h3 l hl
      unfold HostPair' at hl3
      omega

theorem HostInv'.free (hg : c.Good c0) {s : σ} {L : List Blk} {b : Blk} (h : HostInv' c c0 s (b :: L)) :
    ((hostAlignedMR c).deallocate s b.addr b.size b.align).1 = .ok () ∧
    HostInv' c c0 ((hostAlignedMR c).deallocate s b.addr b.size b.align).2 L := by
  classical
  obtain ⟨K, h1, h2, h3⟩ := h
  obtain ⟨k, hk, hkb⟩ := List.mem_map.1 (h1.symm.subset (List.mem_cons_self (a := b)))
  subst hkb
  have hp := List.perm_cons_erase hk
  have hk3 := h3 k hk
  have hm2 : k.2 ∈ K.map (·.2) := List.mem_map.2 ⟨k, hk, rfl⟩
  have hne : k.1.addr ≠ 0 := by rw [← hk3.1]; exact ((hg.live h2).1 _ hm2).1
  have hf := hg.free h2 hm2
  have h2' : CLib.Reach c c0 s (k.2 :: (K.erase k).map (·.2)) := .perm h2 (hp.map (·.2))
  simp only [hostAlignedMR, if_neg hne]
  rw [← hk3.1]
  refine ⟨hf, K.erase k, ?_, .free h2' (by rw [← hf]), ?_⟩
  · exact ((hp.map (·.1)).symm.trans h1).cons_inv
  · intro l hl
    exact h3 l (List.mem_of_mem_erase hl)

theorem hostAligned_main {R : Limits} (hR : R.size + max R.align 16 < 2 ^ 64) (hg : c.Good c0) (G : Nat) :
    Lawful R G (hostAlignedMR c) c0 ∧ ∀ s L, Reach R (hostAlignedMR c) c0 s L → HostInv' c c0 s L := by
  refine Lawful.of_inv (fun s L => HostInv' c c0 s L) ⟨[], List.Perm.refl _, .init, by simp⟩ ?_ ?_ ?_ ?_ ?_
  · intro s L n a hi hq hn
    rcases hi.alloc hR hg hq hn with ⟨h1, h1'⟩ | ⟨q, h1, h1', h2, h3, h4, h5⟩
    · rw [h1]; exact ⟨trivial, by simp, fun _ => h1'⟩
    · rw [h1]
      refine ⟨⟨h2, h3, fun _ => h4, ?_⟩, ?_, by simp⟩
      · intro b hb
        have := h5 b hb
        unfold Blk.Disjoint
        simp only
        omega
      · intro p hp; cases hp; exact h1'
  · intro s L a hi hq; simp only [hostAlignedMR, if_true]; exact ⟨Or.inl trivial, hi⟩
  · intro s L b hi; exact hi.free hg
  · intro s L n a hi; simp only [hostAlignedMR, if_true]; exact ⟨trivial, hi⟩
  · intro s L L' hi hp
    obtain ⟨K, h1, h2, h3⟩ := hi
    exact ⟨K, h1.trans hp, h2, h3⟩

theorem hostAligned_gapped {R : Limits} (hR : R.size + max R.align 16 < 2 ^ 64) (hg : c.Good c0) :
    Gapped R (hostAlignedMR c) c0 := by
  intro s L n a p s' hr hq hn he b hb
  rcases ((hostAligned_main hR hg 0).2 s L hr).alloc hR hg hq hn with ⟨h1, _⟩ | ⟨q, h1, _, h2, h3, h4, h5⟩
  · rw [he] at h1; cases h1
  · rw [he] at h1; cases h1
    have := h5 b hb
    omega

end Vecmem
