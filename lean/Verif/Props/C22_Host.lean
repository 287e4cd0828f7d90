import Verif.Lemmas.Host
import Verif.Props.C10_C12_Arena

/-!
# C22 — the host resource
-/

namespace Vecmem.Props

open Vecmem

variable {σ : Type}

/-- **C22**, without `std::aligned_alloc` (partial: requests for which `size + alignment + 7` does not wrap;
see `c22_malloc_overflow`).  Over any C library that follows the C standard, after any history of correct
calls and any writes of the clients into their own blocks:
* the live blocks `L` correspond to the blocks held from the C library, each live block lying inside its
  C library block and being aligned as requested;
* deallocating it passes the pointer of this C library block to `free`, which succeeds;
* a request is refused if `malloc` returns null, and answered well otherwise. -/
theorem c22_host_malloc_partial (c : CLib σ) (c0 : σ) (hc : c.Good c0) (R : Limits)
    (hR : R.size + R.align + 7 < 2 ^ 64) (mem0 : Mem) (s : σ × Mem) (L : List Blk)
    (hr : WReach R (hostMallocMR c) (c0, mem0) s L) :
    (∃ K : List (Blk × CBlk), (K.map (·.1)).Perm L ∧ CLib.Reach c c0 s.1 (K.map (·.2)) ∧
      ∀ b cb, (b, cb) ∈ K →
        cb.addr ≤ b.addr ∧ b.addr + b.size ≤ cb.addr + cb.size ∧ b.align ∣ b.addr ∧
        ((hostMallocMR c).deallocate s b.addr b.size b.align).1 = .ok () ∧
        ((hostMallocMR c).deallocate s b.addr b.size b.align).1 = (c.free s.1 cb.addr).1 ∧
        ((hostMallocMR c).deallocate s b.addr b.size b.align).2.1 = (c.free s.1 cb.addr).2) ∧
    L.Pairwise Blk.Disjoint ∧
    (∀ n a, IsReq R n a → 0 < n →
      ((c.malloc s.1 (n + a + 7)).1 = 0 → ((hostMallocMR c).allocate s n a).1 = .badAlloc) ∧
      ((c.malloc s.1 (n + a + 7)).1 ≠ 0 → ((hostMallocMR c).allocate s n a).1 ≠ .badAlloc ∧
        GoodAnswer R.align L n a ((hostMallocMR c).allocate s n a).1)) := by
  have hi := HostInv.of_wreach hR hc hr
  obtain ⟨K, h1, h2, h3⟩ := hi
  refine ⟨⟨K, h1, h2, ?_⟩, ?_, ?_⟩
  · intro b cb hk
    have hk3 := h3 _ hk
    have hp := hk3.1
    unfold HostPair at hp
    simp only at hp hk3
    have hne : b.addr ≠ 0 := by omega
    have hf := hc.free h2 (List.mem_map.2 ⟨_, hk, rfl⟩)
    refine ⟨by omega, hp.2.1, hp.2.2.1, ?_⟩
    simp only [hostMallocMR, if_neg hne]
    rw [hk3.2]
    exact ⟨hf, rfl, rfl⟩
  · have := host_apart hc h2 (fun k hk => (h3 k hk).1)
    refine h1.pairwise (List.pairwise_map.2 (this.imp ?_)) (fun h => h.symm)
    intro a b h
    unfold Blk.Disjoint
    omega
  · intro n a hq hn
    have hi : HostInv c c0 s L := ⟨K, h1, h2, h3⟩
    have ha := hi.alloc hR hc hq hn
    rcases hostMalloc_alloc hR hc h2 hq hn with ⟨e1, e2, e3⟩ | ⟨e1, q, e2, e3, e4⟩
    · refine ⟨fun _ => by rw [e2], fun h => absurd e1 h⟩
    · refine ⟨fun h => absurd h e1, fun _ => ?_⟩
      rw [e2] at ha ⊢
      refine ⟨by simp, ?_⟩
      rcases ha with ⟨h, _⟩ | ⟨q', h, _, g1, g2, g3, g4⟩
      · cases h
      · cases h
        refine ⟨g1, g2, fun _ => g3, ?_⟩
        intro b hb
        have := g4 b hb
        unfold Blk.Disjoint
        simp only
        omega

/-- **C22**, with `std::aligned_alloc` (partial: requests for which the size rounded up does not wrap; see
`c22_aligned_overflow`).  As above; here the pointers are those of the C library. -/
theorem c22_host_aligned_partial (c : CLib σ) (c0 : σ) (hc : c.Good c0) (R : Limits)
    (hR : R.size + max R.align 16 < 2 ^ 64) (s : σ) (L : List Blk) (hr : Reach R (hostAlignedMR c) c0 s L) :
    (∃ K : List (Blk × CBlk), (K.map (·.1)).Perm L ∧ CLib.Reach c c0 s (K.map (·.2)) ∧
      ∀ b cb, (b, cb) ∈ K →
        cb.addr = b.addr ∧ b.size ≤ cb.size ∧ b.align ∣ b.addr ∧
        (hostAlignedMR c).deallocate s b.addr b.size b.align = c.free s cb.addr ∧
        (c.free s cb.addr).1 = .ok ()) ∧
    L.Pairwise Blk.Disjoint ∧
    (∀ n a, IsReq R n a → 0 < n → GoodAnswer R.align L n a ((hostAlignedMR c).allocate s n a).1) := by
  obtain ⟨hl, hi⟩ := hostAligned_main hR hc R.align
  obtain ⟨K, h1, h2, h3⟩ := hi s L hr
  refine ⟨⟨K, h1, h2, ?_⟩, (hl.live hr).2, fun n a hq hn => hl.alloc hr hq hn⟩
  intro b cb hk
  have hk3 := h3 _ hk
  have hm2 : cb ∈ K.map (·.2) := List.mem_map.2 ⟨_, hk, rfl⟩
  have hcb := ((hc.live h2).1 _ hm2).1
  unfold HostPair' at hk3
  simp only at hk3
  refine ⟨hk3.1, by omega, hk3.2.2.1, ?_, hc.free h2 hm2⟩
  simp only [hostAlignedMR]
  rw [if_neg (by rw [← hk3.1]; exact hcb), hk3.1]

/-- The host resource is well-behaved (without writes of clients, `Reach` being a special case of `WReach`),
and never hands out touching blocks. -/
theorem c22_host_lawful_partial (c : CLib σ) (c0 : σ) (hc : c.Good c0) (R : Limits) (G : Nat) :
    (R.size + R.align + 7 < 2 ^ 64 → ∀ mem0,
      Lawful R G (hostMallocMR c) (c0, mem0) ∧ Gapped R (hostMallocMR c) (c0, mem0)) ∧
    (R.size + max R.align 16 < 2 ^ 64 →
      Lawful R G (hostAlignedMR c) c0 ∧ Gapped R (hostAlignedMR c) c0) :=
  ⟨fun h mem0 => ⟨hostMalloc_lawful h hc mem0 G, hostMalloc_gapped h hc mem0⟩,
   fun h => ⟨(hostAligned_main h hc G).1, hostAligned_gapped h hc⟩⟩

/-! ### A C library -/

/-- A C library that never reuses memory, up to address 2^40. -/
def demoLib : CLib Nat where
  malloc s n := if s + n + 16 < 2 ^ 40 then (s, s + (n + 16) / 16 * 16) else (0, s)
  alignedAlloc s a n :=
    let p := (s + a - 1) / a * a
    if p + n + 16 < 2 ^ 40 then (p, p + (n + 16) / 16 * 16) else (0, s)
  free s _ := (.ok (), s)

theorem demoLib_inv {s : Nat} {C : List CBlk} (h : CLib.Reach demoLib 4096 s C) :
    4096 ≤ s ∧ s < 2 ^ 40 ∧ ∀ b ∈ C, 0 < b.addr ∧ b.addr < s ∧ b.addr + b.size ≤ s := by
  induction h with
  | init => simp
  | @malloc s s' C n p h1 hn he hp ih =>
    obtain ⟨i1, i2, i3⟩ := ih
    simp only [demoLib] at he
    split at he
    · obtain ⟨rfl, rfl⟩ := Prod.mk.inj he
      refine ⟨by omega, by omega, ?_⟩
      intro b hb
      rcases List.mem_cons.1 hb with rfl | hb
      · simp only; omega
      · have := i3 b hb; omega
    · simp only [Prod.mk.injEq] at he; omega
  | @mallocFail s s' C n h1 hn he ih =>
    obtain ⟨i1, i2, i3⟩ := ih
    simp only [demoLib] at he
    split at he
    · simp only [Prod.mk.injEq] at he; omega
    · simp only [Prod.mk.injEq] at he; rw [← he.2]; exact ⟨i1, i2, i3⟩
  | @aligned s s' C n a p h1 hn ha hd he hp ih =>
    obtain ⟨i1, i2, i3⟩ := ih
    simp only [demoLib] at he
    have hge : s ≤ (s + a - 1) / a * a := by
      obtain ⟨k, rfl⟩ := ha
      have := Nat.div_add_mod (s + 2 ^ k - 1) (2 ^ k)
      have := Nat.mod_lt (s + 2 ^ k - 1) (Nat.two_pow_pos k)
      rw [Nat.mul_comm]; omega
    split at he
    · obtain ⟨rfl, rfl⟩ := Prod.mk.inj he
      refine ⟨by omega, by omega, ?_⟩
      intro b hb
      rcases List.mem_cons.1 hb with rfl | hb
      · simp only; omega
      · have := i3 b hb; omega
    · simp only [Prod.mk.injEq] at he; omega
  | @alignedFail s s' C n a h1 hn ha hd he ih =>
    obtain ⟨i1, i2, i3⟩ := ih
    simp only [demoLib] at he
    have hge : s ≤ (s + a - 1) / a * a := by
      obtain ⟨k, rfl⟩ := ha
      have := Nat.div_add_mod (s + 2 ^ k - 1) (2 ^ k)
      have := Nat.mod_lt (s + 2 ^ k - 1) (Nat.two_pow_pos k)
      rw [Nat.mul_comm]; omega
    split at he
    · simp only [Prod.mk.injEq] at he; omega
    · simp only [Prod.mk.injEq] at he; rw [← he.2]; exact ⟨i1, i2, i3⟩
  | @free s s' b C h1 he ih =>
    obtain ⟨i1, i2, i3⟩ := ih
    simp only [demoLib, Prod.mk.injEq] at he
    rw [← he.2]
    exact ⟨i1, i2, fun b hb => i3 b (List.mem_cons_of_mem _ hb)⟩
  | perm _ hp ih => exact ⟨ih.1, ih.2.1, fun b hb => ih.2.2 b (hp.symm.subset hb)⟩

/-- The hypotheses of C22 are met. -/
theorem demoLib_good : demoLib.Good 4096 where
  malloc := by
    intro s C n h hn hp
    obtain ⟨i1, i2, i3⟩ := demoLib_inv h
    simp only [demoLib] at hp ⊢
    split at hp
    · rename_i hs
      rw [if_pos hs]
      refine ⟨by simp only; omega, ?_⟩
      intro b hb
      have := i3 b hb
      simp only
      omega
    · exact absurd rfl hp
  aligned := by
    intro s C n a h hn ha hd hp
    obtain ⟨i1, i2, i3⟩ := demoLib_inv h
    have hge : s ≤ (s + a - 1) / a * a := by
      obtain ⟨k, rfl⟩ := ha
      have := Nat.div_add_mod (s + 2 ^ k - 1) (2 ^ k)
      have := Nat.mod_lt (s + 2 ^ k - 1) (Nat.two_pow_pos k)
      rw [Nat.mul_comm]; omega
    simp only [demoLib] at hp ⊢
    split at hp
    · rename_i hs
      rw [if_pos hs]
      refine ⟨Nat.dvd_mul_left _ _, by simp only; omega, ?_⟩
      intro b hb
      have := i3 b hb
      simp only
      omega
    · exact absurd rfl hp
  free := by intro s C b _ _; rfl

/-- Two blocks at work. -/
example : servedBlocks [.alloc 100 64, .alloc 8 8]
      ((hostMallocMR demoLib).run (4096, fun _ => 0) [.alloc 100 64, .alloc 8 8]).1 =
    [⟨4160, 100, 64⟩, ⟨4280, 8, 8⟩] := by decide +kernel

/-- An arena over the host resource is well-behaved (for requests that fit into a superblock). -/
example (A : Arena) (u1 : Nat × Mem)
    (hA : Arena.create (hostMallocMR demoLib) (4096, fun _ => 0) 1100 10000 = (.ok A, u1)) :
    Lawful ⟨16, 999⟩ 16 (Arena.mr (hostMallocMR demoLib)) (A, u1) := by
  have hl := (c22_host_lawful_partial demoLib 4096 demoLib_good ⟨16, 2 ^ 62⟩ 16).1 (by decide) (fun _ => 0)
  refine c10_arena_lawful_partial _ (4096, fun _ => 0) (4096, fun _ => 0) _ ⟨16, 2 ^ 62⟩ _ 16 [] 1100 10000
    ⟨hl.1, .init, hl.2, by decide, by decide, by decide⟩ (by decide) _ hA

/-! ### What goes wrong -/

/-- C22 fails for sizes near 2^64: with `malloc`, the assertion after `std::align` fails ... -/
theorem c22_malloc_overflow :
    ((hostMallocMR demoLib).allocate (4096, fun _ => 0) (2 ^ 64 - 1) 16).1 = .ub := by decide +kernel

/-- ... and with `aligned_alloc`, zero bytes are asked of the C library, whose non-null answer is passed on as
a block of 2^64 - 1 bytes. -/
theorem c22_aligned_overflow :
    ((hostAlignedMR demoLib).allocate 4096 (2 ^ 64 - 1) 16).1 = .ok 4096 ∧
    ¬ GoodAnswer 16 [] (2 ^ 64 - 1) 16 (.ok 4096) := by
  refine ⟨by decide +kernel, ?_⟩
  simp [GoodAnswer]

end Vecmem.Props
