import Verif.Lemmas.Contiguous

/-!
# C01, C02 — the contiguous memory resource
-/

namespace Vecmem.Props

open Vecmem

variable {σ : Type}

/-- A concrete well-behaved base resource used in the examples: memory handed out from address 4096
upwards (it is itself a contiguous resource over a fixed block of 2^62 bytes). -/
def demoBase : MR (Contig × Unit) := Contig.mr
def demoInit : Contig × Unit := (⟨2 ^ 62, 4096, 4096⟩, ())

theorem demo_lawful (R : Limits) : Lawful R R.align demoBase demoInit :=
  Contig.lawful R () rfl (by decide) (by decide) (by decide)

/-- **C01.**  Build a contiguous resource of `size` bytes over any well-behaved upstream, which serves
it the block `[p, p + size)`.  Then for *every* list of calls (sizes, power-of-two alignments and
deallocations arbitrary): each served block is aligned, lies inside `[p, p + size)`, the served blocks
(freed or not) are pairwise disjoint, and none overlaps a block `U` other clients hold from upstream. -/
theorem c01_contiguous (up : MR σ) (u0 u u' : σ) (R : Limits) (G : Nat) (U : List Blk) (h : Lawful R G up u0)
    (hr : Reach R up u0 u U) (size : Nat) (hsz : IsReq R size maxAlign) (c : Contig)
    (hnew : Contig.create up u size = (.ok c, u'))
    (calls : List Call) (ha : ∀ n a, Call.alloc n a ∈ calls → ∃ k, a = 2 ^ k) :
    ∃ p, up.allocate u size maxAlign = (.ok p, u') ∧
      let blocks := servedBlocks calls (Contig.mr.run (c, u') calls).1
      blocks.Pairwise Blk.Disjoint ∧
      ∀ b ∈ blocks, b.align ∣ b.addr ∧ b.Inside ⟨p, size, maxAlign⟩ ∧ b.addr ≠ 0 ∧
        ∀ x ∈ U, b.Disjoint x := by
  obtain ⟨p, h1, rfl, h3, h4, h5⟩ := Contig.create_spec h hr hsz hnew
  refine ⟨p, h1, ?_⟩
  have hpos : ∀ n a, Call.alloc n a ∈ calls → 0 < a := by
    intro n a hm; obtain ⟨k, rfl⟩ := ha n a hm; exact Nat.two_pow_pos k
  obtain ⟨⟨i1, i2, i3, i4⟩, i5, i6, i7, i8, _⟩ :=
    Contig.run_spec (σ := σ) hsz.1.2 calls (⟨size, p, p⟩, u')
      ⟨rfl, rfl, Nat.le_refl _, Nat.le_add_right _ _⟩ hpos
  refine ⟨i7, ?_⟩
  intro b hb
  have hb' := i8 b hb
  simp only at hb' i6
  have hin : b.Inside ⟨p, size, maxAlign⟩ := by
    refine ⟨hb'.2.1, ?_⟩
    simp only at i4 ⊢
    omega
  have hbpos : 0 < b.size := servedBlocks_pos _ _ b hb
  have hszpos : 0 < size := by have := hin.1; have := hin.2; simp only at *; omega
  refine ⟨hb'.1, hin, by have := h3 hszpos; omega, ?_⟩
  intro x hx
  have := h5 hszpos x hx
  exact this.mono hin ⟨Nat.le_refl _, Nat.le_refl _⟩

/-- The hypotheses of `c01_contiguous` are met: a 1000-byte resource over the demo upstream, which has
another client, serving three requests out of four. -/
example : ∃ U c u', Reach 64 demoBase demoInit (⟨2 ^ 62, 4096, 4106⟩, ()) U ∧ U ≠ [] ∧
    Contig.create demoBase (⟨2 ^ 62, 4096, 4106⟩, ()) 1000 = (.ok c, u') ∧
    servedBlocks [.alloc 100 8, .alloc 5000 8, .free 7 7 7, .alloc 3 64, .alloc 800 1]
      (Contig.mr.run (c, u') [.alloc 100 8, .alloc 5000 8, .free 7 7 7, .alloc 3 64,
        .alloc 800 1]).1 = [⟨4112, 100, 8⟩, ⟨4224, 3, 64⟩, ⟨4227, 800, 1⟩] := by
  refine ⟨[⟨4096, 10, 8⟩], ⟨1000, 4112, 4112⟩, (⟨2 ^ 62, 4096, 5112⟩, ()), ?_, by simp, by decide +kernel,
    by decide +kernel⟩
  exact Reach.alloc (s := demoInit) .init ⟨by decide, by decide, 3, rfl⟩ (by decide)
    (by decide +kernel)

/-- A contiguous resource over a well-behaved upstream is itself well-behaved, for all alignments. -/
theorem c01_contiguous_lawful (up : MR σ) (u0 u u' : σ) (R R' : Limits) (G : Nat) (U : List Blk)
    (h : Lawful R G up u0) (hr : Reach R up u0 u U) (size : Nat) (hsz : IsReq R size maxAlign)
    (c : Contig) (hnew : Contig.create up u size = (.ok c, u')) :
    Lawful R' R'.align Contig.mr (c, u') := by
  obtain ⟨p, h1, rfl, h3, h4, h5⟩ := Contig.create_spec h hr hsz hnew
  exact Contig.lawful R' u' rfl hsz.1.2 h3 h4

/-- The end of the last block served so far (`p`, the beginning of the memory, if none was). -/
def bumpPosition (p : Nat) (served : List Blk) : Nat :=
  match served.getLast? with
  | none => p
  | some b => b.addr + b.size

/-- **C02, exactness of failure.**  After any list of calls, a non-zero request is answered by the
first aligned address `q` behind the last served block if it fits before the end of the memory;
otherwise — exactly when *no* aligned placement behind the last served block fits — it throws
`bad_alloc`, and then the state is unchanged, so the call might as well not have been made. -/
theorem c02_contiguous_exact (up : MR σ) (u0 u u' : σ) (R : Limits) (G : Nat) (U : List Blk)
    (h : Lawful R G up u0) (hr : Reach R up u0 u U) (size : Nat) (hsz : IsReq R size maxAlign)
    (c : Contig) (hnew : Contig.create up u size = (.ok c, u'))
    (calls : List Call) (ha : ∀ n a, Call.alloc n a ∈ calls → ∃ k, a = 2 ^ k)
    (n k : Nat) (hn : 0 < n) :
    ∃ p, up.allocate u size maxAlign = (.ok p, u') ∧
      let r := Contig.mr.run (c, u') calls
      let pos := bumpPosition p (servedBlocks calls r.1)
      let fits := fun q => pos ≤ q ∧ 2 ^ k ∣ q ∧ q + n ≤ p + size
      ((∃ q, (Contig.mr.allocate r.2 n (2 ^ k)).1 = .ok q ∧ fits q ∧ ∀ q', fits q' → q ≤ q') ∨
       (Contig.mr.allocate r.2 n (2 ^ k)) = (.badAlloc, r.2) ∧ ∀ q, ¬ fits q) := by
  obtain ⟨p, h1, rfl, h3, h4, h5⟩ := Contig.create_spec h hr hsz hnew
  refine ⟨p, h1, ?_⟩
  have hpos : ∀ n a, Call.alloc n a ∈ calls → 0 < a := by
    intro n a hm; obtain ⟨k, rfl⟩ := ha n a hm; exact Nat.two_pow_pos k
  obtain ⟨hI, _, _, _, _, i6⟩ :=
    Contig.run_spec (σ := σ) hsz.1.2 calls (⟨size, p, p⟩, u')
      ⟨rfl, rfl, Nat.le_refl _, Nat.le_add_right _ _⟩ hpos
  have hpos' : (Contig.mr.run (⟨size, p, p⟩, u') calls).2.1.next =
      bumpPosition p (servedBlocks calls (Contig.mr.run (⟨size, p, p⟩, u') calls).1) := by
    unfold bumpPosition; split <;> rename_i heq <;> rw [heq] at i6 <;> exact i6
  have hk : 0 < 2 ^ k := Nat.two_pow_pos k
  simp only [Contig.mr_allocate_pos _ hn, Contig.allocate_eq hI hsz.1.2 hn, hpos']
  have hge := alignUp_ge (2 ^ k)
    (bumpPosition p (servedBlocks calls (Contig.mr.run (⟨size, p, p⟩, u') calls).1))
  split
  · rename_i hfit
    refine Or.inl ⟨_, rfl, ⟨hge, alignUp_dvd hk _, hfit⟩, ?_⟩
    intro q' hq'; exact alignUp_le hk hq'.2.1 hq'.1
  · rename_i hfit
    refine Or.inr ⟨rfl, ?_⟩
    intro q hq
    have := alignUp_le hk hq.2.1 hq.1
    omega

/-- **C02, deallocation and destruction.**  Deallocations answer normally and change nothing; no call
touches upstream; destroying the resource after any calls returns to upstream the one block it
obtained, with its size and default alignment, after which upstream holds exactly the blocks `U` of
its other clients again. -/
theorem c02_contiguous_destroy (up : MR σ) (u0 u u' : σ) (R : Limits) (G : Nat) (U : List Blk)
    (h : Lawful R G up u0) (hr : Reach R up u0 u U) (size : Nat) (hsz : IsReq R size maxAlign)
    (c : Contig) (hnew : Contig.create up u size = (.ok c, u'))
    (calls : List Call) (ha : ∀ n a, Call.alloc n a ∈ calls → ∃ k, a = 2 ^ k) :
    let s := (Contig.mr.run (c, u') calls).2
    (∀ q n a, Contig.mr.deallocate s q n a = (.ok (), s)) ∧
    ∃ p, up.allocate u size maxAlign = (.ok p, u') ∧
      Contig.destroy up s = up.deallocate u' p size maxAlign ∧
      (Contig.destroy up s).1 = .ok () ∧
      Reach R up u0 (Contig.destroy up s).2 U := by
  obtain ⟨p, h1, rfl, h3, h4, h5⟩ := Contig.create_spec h hr hsz hnew
  have hpos : ∀ n a, Call.alloc n a ∈ calls → 0 < a := by
    intro n a hm; obtain ⟨k, rfl⟩ := ha n a hm; exact Nat.two_pow_pos k
  obtain ⟨hI, i2, _, _, _, _⟩ :=
    Contig.run_spec (σ := σ) hsz.1.2 calls (⟨size, p, p⟩, u')
      ⟨rfl, rfl, Nat.le_refl _, Nat.le_add_right _ _⟩ hpos
  refine ⟨fun q n a => Contig.mr_deallocate _ q n a, p, h1, ?_⟩
  have hd : Contig.destroy up (Contig.mr.run (⟨size, p, p⟩, u') calls).2 =
      up.deallocate u' p size maxAlign := by
    simp only [Contig.destroy, hI.1, hI.2.1, i2]
  refine ⟨hd, ?_⟩
  rw [hd]
  rcases Nat.eq_zero_or_pos size with hz | hz
  · subst hz
    have hp0 : p = 0 := by
      have := h.zero hr hsz
      rw [h1] at this; simpa using this
    subst hp0
    have hr' : Reach R up u0 u' U := .zero hr hsz h1
    exact ⟨h.null hr', .freeNull hr' rfl⟩
  · have hr' : Reach R up u0 u' (⟨p, size, maxAlign⟩ :: U) := .alloc hr hsz hz h1
    have hok := h.dealloc hr' List.mem_cons_self
    refine ⟨hok, ?_⟩
    exact Reach.free hr' (by rw [← hok])

/-- `c02_contiguous_exact` at work: a 1000-byte resource after serving 100 bytes refuses 5000 bytes but
serves 800 at the next multiple of 64. -/
example :
    (Contig.mr (σ := Unit)).allocate ((Contig.mr (σ := Unit)).run (⟨1000, 4112, 4112⟩, ())
      [.alloc 100 8]).2 5000 8 = (.badAlloc, (⟨1000, 4112, 4212⟩, ())) ∧
    ((Contig.mr (σ := Unit)).allocate ((Contig.mr (σ := Unit)).run (⟨1000, 4112, 4112⟩, ())
      [.alloc 100 8]).2 800 64).1 = .ok 4224 := by decide +kernel

end Vecmem.Props
