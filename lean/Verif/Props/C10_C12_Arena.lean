import Verif.Lemmas.ArenaReach
import Verif.Lemmas.Padded
import Verif.Props.C01_C02_Contiguous

/-!
# C10 – C12 — the arena memory resource

The claims are false in general (see the witnesses at the end).  What holds, holds for upstreams that never
answer with blocks touching a live block (`Gapped`), and for requests not larger than a new superblock.
-/

namespace Vecmem.Props

open Vecmem

variable {σ : Type}

/-- The conditions under which the arena works: a well-behaved upstream (with other clients holding `U`)
that leaves gaps, an initial size it can serve, and requests (limited by `R'`) that fit into a superblock. -/
structure ArenaSetting (up : MR σ) (u0 u : σ) (R R' : Limits) (G : Nat) (U : List Blk) (initial : Nat) :
    Prop where
  lawful : Lawful R G up u0
  others : Reach R up u0 u U
  gapped : Gapped R up u0
  align : maxAlign ≤ G ∧ maxAlign ≤ R.align
  size : 0 < initial ∧ initial ≤ R.size ∧ initial < 2 ^ 64 ∧ 2 ^ 18 ≤ R.size
  fits : arenaBytes R'.size ≤ max initial (2 ^ 18)

theorem ArenaSetting.up {up : MR σ} {u0 u : σ} {R R' : Limits} {G : Nat} {U : List Blk} {S : Nat}
    (h : ArenaSetting up u0 u R R' G U S) : Arena.Up R G up (Reach R up u) S :=
  ⟨(h.lawful.restart h.others).serves, fun _ _ hr => (h.gapped.restart h.others).live hr, h.align.1, h.align.2, h.size.2.1, h.size.2.2.2,
    h.size.1, h.size.2.2.1⟩

theorem ArenaSetting.lim {up : MR σ} {u0 u : σ} {R R' : Limits} {G : Nat} {U : List Blk} {S : Nat}
    (h : ArenaSetting up u0 u R R' G U S) (n a : Nat) (hq : IsReq R' n a) :
    arenaBytes n ≤ max S Arena.minSuper := by
  refine Nat.le_trans ?_ h.fits
  have := hq.1.1
  unfold arenaBytes
  omega

theorem ArenaSetting.inv {up : MR σ} {u0 u u1 : σ} {R R' : Limits} {G : Nat} {U : List Blk} {S M : Nat}
    (h : ArenaSetting up u0 u R R' G U S) {A : Arena} (hc : Arena.create up u S M = (.ok A, u1))
    {s : Arena × σ} {L : List Blk} (hr : Reach R' (Arena.mr up) (A, u1) s L) :
    ∃ H, Arena.Inv (Reach R up u) S s L H := by
  rcases Arena.create_ok h.up .init M with ⟨e, _⟩ | ⟨A', H, e1, e2⟩
  · rw [hc] at e; cases e
  · rw [hc] at e1 e2
    cases e1
    exact Arena.reach_inv h.up e2 h.lim hr

/-- **C10** (partial: gapped upstreams, requests that fit into a superblock; alignments as in C09).  In every
state reached by correct calls without undefined behaviour, a request is answered by a block that is disjoint
from the live ones, aligned up to 16 and not null, or refused.  The blocks set aside, of the requested size
rounded up to a multiple of 256, lie in memory `H` held from upstream, off the blocks of others. -/
theorem c10_arena_partial (up : MR σ) (u0 u u1 : σ) (R R' : Limits) (G : Nat) (U : List Blk) (S M : Nat)
    (h : ArenaSetting up u0 u R R' G U S) (A : Arena) (hc : Arena.create up u S M = (.ok A, u1))
    (s : Arena × σ) (L : List Blk) (hr : Reach R' (Arena.mr up) (A, u1) s L) :
    (∀ n a, IsReq R' n a → 0 < n → GoodAnswer maxAlign L n a ((Arena.mr up).allocate s n a).1) ∧
    L.Pairwise Blk.Disjoint ∧
    ∃ H, Reach R up u0 s.2 (H ++ U) ∧ (∀ b ∈ L, ∃ c ∈ H, b.Inside c) ∧
      ∀ b ∈ L, ∀ x ∈ U, b.Disjoint x := by
  obtain ⟨H, hI⟩ := h.inv hc hr
  have hreach := h.others.trans hI.reach
  refine ⟨fun n a hq hn => hI.answer h.up hn (h.lim n a hq) hq.2.2, ?_, H, hreach,
    fun b hb => (hI.live_wf h.up hb).2.2.1, ?_⟩
  · exact hI.live_disjoint
  · intro b hb x hx
    obtain ⟨c, hc', hin⟩ := (hI.live_wf h.up hb).2.2.1
    exact ((List.pairwise_append.1 (h.lawful.live hreach).2).2.2 c hc' x hx).mono hin
      ⟨Nat.le_refl _, Nat.le_refl _⟩

/-- **C10 + C12** (partial as above): if moreover the initial size is not a multiple of 256, the arena is
well-behaved without restriction: deallocation is always defined. -/
theorem c10_arena_lawful_partial (up : MR σ) (u0 u u1 : σ) (R R' : Limits) (G : Nat) (U : List Blk)
    (S M : Nat) (h : ArenaSetting up u0 u R R' G U S) (hodd : S % 256 ≠ 0) (A : Arena)
    (hc : Arena.create up u S M = (.ok A, u1)) : Lawful R' maxAlign (Arena.mr up) (A, u1) where
  alloc := by
    intro s L n a hr hq hn
    obtain ⟨H, hI⟩ := h.inv hc hr
    exact hI.answer h.up hn (h.lim n a hq) hq.2.2
  zero := by intro s L a hr hq; rw [Arena.mr_zero]; exact .inl rfl
  dealloc := by
    intro s L b hr hb
    obtain ⟨H, hI⟩ := h.inv hc hr
    obtain ⟨s1, s2, rfl⟩ := List.append_of_mem hb
    have hI := hI.perm List.perm_middle
    rw [Arena.mr_dealloc (hI.good h.up).1]
    rcases Arena.deallocate_ok h.up hI with ⟨e, _⟩ | ⟨_, e, _⟩
    · exact absurd e (hI.free_of_odd h.up hodd)
    · exact e
  null := by intro s L n a hr; rw [Arena.mr_null]

/-- **C11** (partial: requests that fit into a superblock; the configured maximum is not enforced by the
code, see `c11_maximum_exceeded`): such a request never gives a null pointer. -/
theorem c11_arena_not_null_partial (up : MR σ) (u0 u u1 : σ) (R R' : Limits) (G : Nat) (U : List Blk)
    (S M : Nat) (h : ArenaSetting up u0 u R R' G U S) (A : Arena)
    (hc : Arena.create up u S M = (.ok A, u1)) (s : Arena × σ) (L : List Blk)
    (hr : Reach R' (Arena.mr up) (A, u1) s L) (n a : Nat) (hq : IsReq R' n a) (hn : 0 < n) :
    (∃ p, p ≠ 0 ∧ ((Arena.mr up).allocate s n a).1 = .ok p) ∨
      ((Arena.mr up).allocate s n a).1 = .badAlloc := by
  have hg := (c10_arena_partial up u0 u u1 R R' G U S M h A hc s L hr).1 n a hq hn
  cases hx : ((Arena.mr up).allocate s n a).1 with
  | ok p => rw [hx] at hg; exact .inl ⟨p, hg.1, rfl⟩
  | badAlloc => exact .inr rfl
  | _ => rw [hx] at hg; exact hg.elim

/-- **C12** (partial: gapped upstreams).  In every reachable state, deallocating a live block is defined if
and only if some byte of the memory held from upstream is not set aside for live blocks (in the code it is
undefined otherwise).  In the same circumstances, or if there is no live block, the destructor gives back
exactly what was taken: upstream is left with the blocks of its other clients. -/
theorem c12_arena_partial (up : MR σ) (u0 u u1 : σ) (R R' : Limits) (G : Nat) (U : List Blk) (S M : Nat)
    (h : ArenaSetting up u0 u R R' G U S) (A : Arena) (hc : Arena.create up u S M = (.ok A, u1))
    (s : Arena × σ) (L : List Blk) (hr : Reach R' (Arena.mr up) (A, u1) s L) :
    ∃ H, Reach R up u0 s.2 (H ++ U) ∧
      (∀ b ∈ L, ((Arena.mr up).deallocate s b.addr b.size b.align).1 = .ok () ↔
        ∃ c ∈ H, ∃ x, c.addr ≤ x ∧ x < c.addr + c.size ∧
          ∀ b ∈ L, ¬ (b.addr ≤ x ∧ x < b.addr + arenaBytes b.size)) ∧
      (((∃ c ∈ H, ∃ x, c.addr ≤ x ∧ x < c.addr + c.size ∧
          ∀ b ∈ L, ¬ (b.addr ≤ x ∧ x < b.addr + arenaBytes b.size)) ∨ L = []) →
        (Arena.destroy up s).1 = .ok () ∧ Reach R up u0 (Arena.destroy up s).2 U) := by
  obtain ⟨H, hI⟩ := h.inv hc hr
  refine ⟨H, h.others.trans hI.reach, ?_, ?_⟩
  · intro b hb
    rw [← hI.free_ne_nil]
    obtain ⟨s1, s2, rfl⟩ := List.append_of_mem hb
    have hI := hI.perm List.perm_middle
    rw [Arena.mr_dealloc (hI.good h.up).1]
    rcases Arena.deallocate_ok h.up hI with ⟨e, e'⟩ | ⟨e, e', _⟩
    · simp [e, e']
    · simp [e, e']
  · intro hx
    rw [← hI.free_ne_nil] at hx
    obtain ⟨d1, d2⟩ := Arena.destroy_ok h.up hI hx
    exact ⟨d1, by simpa using h.others.trans d2⟩

/-! ### The hypotheses are met -/

def padLimits : Limits := ⟨16, 2 ^ 62⟩

theorem pad_setting : ArenaSetting (padded demoBase) demoInit demoInit padLimits ⟨16, 999⟩ 16 [] 1100 where
  lawful := padded_lawful (demo_lawful ⟨16, 2 ^ 62 + 16⟩) (by decide)
  others := .init
  gapped := padded_gapped (demo_lawful ⟨16, 2 ^ 62 + 16⟩) (by decide)
  align := by decide
  size := by decide
  fits := by decide

/-- The arena of an initial size of 1100 bytes over the demo upstream. -/
def demoArena : Arena := ⟨1100, 10000, 1100, [⟨4096, 1100⟩], []⟩

theorem demoArena_create :
    Arena.create (padded demoBase) demoInit 1100 10000 = (.ok demoArena, (⟨2 ^ 62, 4096, 5212⟩, ())) := by
  decide +kernel

example : Lawful ⟨16, 999⟩ 16 (Arena.mr (padded demoBase)) (demoArena, (⟨2 ^ 62, 4096, 5212⟩, ())) :=
  c10_arena_lawful_partial _ _ _ _ _ _ _ _ _ _ pad_setting (by decide) _ demoArena_create

/-- Two blocks, the second superblock, reuse of the freed first block. -/
example : servedBlocks [.alloc 300 8, .alloc 600 16, .alloc 400 16, .free 4096 300 8, .alloc 100 1]
      ((Arena.mr (padded demoBase)).run (demoArena, (⟨2 ^ 62, 4096, 5212⟩, ()))
        [.alloc 300 8, .alloc 600 16, .alloc 400 16, .free 4096 300 8, .alloc 100 1]).1 =
    [⟨4096, 300, 8⟩, ⟨5216, 600, 16⟩, ⟨4608, 400, 16⟩, ⟨4096, 100, 1⟩] := by decide +kernel

/-! ### What goes wrong -/

/-- The arena with an initial size of 1024 bytes over an upstream that hands out memory contiguously. -/
def badArena : Arena := ⟨1024, 10000, 1024, [⟨4096, 1024⟩], []⟩

theorem badArena_create :
    Arena.create demoBase demoInit 1024 10000 = (.ok badArena, (⟨2 ^ 62, 4096, 5120⟩, ())) := by
  decide +kernel

/-- C10 fails if upstream hands out touching blocks (the upstream here is well-behaved, `demo_lawful`): the
second and the third block overlap. -/
theorem c10_arena_overlap :
    servedBlocks [.alloc 256 8, .alloc 1024 8, .alloc 512 8]
      ((Arena.mr demoBase).run (badArena, (⟨2 ^ 62, 4096, 5120⟩, ()))
        [.alloc 256 8, .alloc 1024 8, .alloc 512 8]).1 =
    [⟨4096, 256, 8⟩, ⟨4352, 1024, 8⟩, ⟨5120, 512, 8⟩] ∧
    ¬ Blk.Disjoint ⟨4352, 1024, 8⟩ ⟨5120, 512, 8⟩ := by
  refine ⟨by decide +kernel, by decide⟩

/-- C11 fails: a request larger than the superblocks is answered by a null pointer. -/
theorem c11_null_answer :
    ((Arena.mr (padded demoBase)).allocate (demoArena, (⟨2 ^ 62, 4096, 5212⟩, ())) 300000 8).1 = .ok 0 := by
  decide +kernel

/-- C11 fails: the arena takes more than its maximum size (here 2000 bytes) from upstream. -/
theorem c11_maximum_exceeded :
    Arena.create (logged demoBase) (demoInit, []) 1024 2000 =
      (.ok ⟨1024, 2000, 1024, [⟨4096, 1024⟩], []⟩, ((⟨2 ^ 62, 4096, 5120⟩, ()), [.alloc 1024 16])) ∧
    ((Arena.mr (logged demoBase)).run
      (⟨1024, 2000, 1024, [⟨4096, 1024⟩], []⟩, ((⟨2 ^ 62, 4096, 5120⟩, ()), [.alloc 1024 16]))
      [.alloc 1024 8, .alloc 1024 8, .alloc 1024 8]).2.2.2 =
    [.alloc 1024 16, .alloc 1024 16, .alloc 1024 16] := by
  refine ⟨by decide +kernel, by decide +kernel⟩

/-- C12 fails: when all of the memory has been handed out, deallocation is undefined. -/
theorem c12_deallocate_undefined :
    ((Arena.mr demoBase).run (badArena, (⟨2 ^ 62, 4096, 5120⟩, ()))
      [.alloc 1024 8, .free 4096 1024 8]).1 = [.alloc (.ok 4096), .free .ub] := by decide +kernel

/-- C12 fails: touching superblocks are merged, and the destructor returns them as one, a block upstream has
never handed out. -/
theorem c12_superblocks_merged :
    (Arena.destroy (logged demoBase)
      ((Arena.mr (logged demoBase)).run (badArena, ((⟨2 ^ 62, 4096, 5120⟩, ()), [.alloc 1024 16]))
        [.alloc 1024 8, .alloc 256 8, .free 4096 1024 8, .free 5120 256 8]).2).2.2 =
    [.alloc 1024 16, .alloc 1024 16, .free 4096 2048 16] := by decide +kernel

end Vecmem.Props
