import Verif.Lemmas.BinaryPageMerge
import Verif.Lemmas.Logged
import Verif.Props.C01_C02_Contiguous

/-!
# C07 – C09, C51 — the binary page memory resource
-/

namespace Vecmem.Props

open Vecmem

variable {σ : Type}

/-- **C07.**  A binary page resource over a well-behaved upstream, which may already have clients holding
`U`.  In *every* state reached by correct calls (all histories, sizes up to `R.size`, e.g. 2^63): every
request is answered by a block off all live blocks, or refused; freeing works; no assertion fails and
nothing is undefined (`Lawful`; alignment: see C09).  And the live blocks lie inside blocks `H` held from
upstream, hence off the blocks `U` of others. -/
theorem c07_binary_page (dbg : Bool) (up : MR σ) (u0 u : σ) (R : Limits) (G : Nat) (U : List Blk)
    (hl : Lawful R G up u0) (hG : maxAlign ≤ G) (hu : Reach R up u0 u U) (hR : PageLimits R) :
    Lawful R maxAlign (BinPage.mr dbg up) ([], u) ∧
    ∀ s L, Reach R (BinPage.mr dbg up) ([], u) s L →
      ∃ H, Reach R up u0 s.2 (H ++ U) ∧ (∀ b ∈ L, ∃ c ∈ H, b.Inside c) ∧
        ∀ b ∈ L, ∀ x ∈ U, b.Disjoint x := by
  have hl' := hl.restart hu
  obtain ⟨h1, h2⟩ := BinPage.lawful_inv (dbg := dbg) hl' hG hR
  refine ⟨h1, ?_⟩
  intro s L hr
  have hI := h2 s L hr
  have hreach := hu.trans hI.reach
  have hheld : ∀ b ∈ L, ∃ c ∈ s.1.map BinPage.spBlk, b.Inside c := by
    intro b hb
    obtain ⟨k, sp, g, hh⟩ := hI.held b hb
    have hsp := hI.sps sp (List.mem_of_getElem? hh.1)
    have h511 := hsp.tree.le (g := g) (by rw [hh.2.2.1]; simp)
    exact ⟨_, List.mem_map.2 ⟨sp, List.mem_of_getElem? hh.1, rfl⟩,
      (hh.inside (hI.wf b hb).2).trans (BinPage.pageBlk_inside hsp.wf hh.2.1 h511)⟩
  refine ⟨_, hreach, hheld, ?_⟩
  intro b hb x hx
  obtain ⟨c, hc, hin⟩ := hheld b hb
  exact ((List.pairwise_append.1 (hl.live hreach).2).2.2 c hc x hx).mono hin
    ⟨Nat.le_refl _, Nat.le_refl _⟩

/-- Limits used in the examples: alignments up to 16, sizes up to 2^40. -/
def demoLimits : Limits := ⟨16, 2 ^ 40⟩

theorem demo_pageLimits : PageLimits demoLimits := ⟨by decide, 40, rfl, by decide, by decide⟩

/-- The hypotheses of `c07_binary_page` are met by the demo upstream … -/
example : Lawful demoLimits 16 (BinPage.mr true demoBase) ([], demoInit) :=
  (c07_binary_page true demoBase demoInit demoInit demoLimits 16 [] (demo_lawful demoLimits) (by decide)
    .init demo_pageLimits).1

/-- … and this is what some requests are answered by: the freed page of 512 bytes at 4096+512 is split
again, its free neighbour is used, and a large request gets a chunk of its own. -/
example : servedBlocks
      [.alloc 100 8, .alloc 300 16, .free 4608 300 16, .alloc 10 1, .alloc 200 8, .alloc (2 ^ 21 - 5) 16]
      ((BinPage.mr true demoBase).run ([], demoInit)
        [.alloc 100 8, .alloc 300 16, .free 4608 300 16, .alloc 10 1, .alloc 200 8,
          .alloc (2 ^ 21 - 5) 16]).1 =
    [⟨4096, 100, 8⟩, ⟨4608, 300, 16⟩, ⟨4352, 10, 1⟩, ⟨4608, 200, 8⟩, ⟨69632, 2 ^ 21 - 5, 16⟩] := by
  decide +kernel

/-- Beyond C07: for sizes above 2^63 a build without assertions serves the request with a page of 256 bytes,
so the blocks it hands out overlap. -/
theorem c07_huge_requests_overlap :
    servedBlocks [.alloc (2 ^ 63 + 1) 8, .alloc 10 8]
      ((BinPage.mr false demoBase).run ([], demoInit) [.alloc (2 ^ 63 + 1) 8, .alloc 10 8]).1 =
    [⟨4096, 2 ^ 63 + 1, 8⟩, ⟨4352, 10, 8⟩] := by decide +kernel

/-- **C51.**  When a binary page resource is destroyed, whatever blocks its clients still hold, upstream
is left with exactly the blocks `U` of its other clients: every chunk has been given back once, with the
size and alignment it was requested with. -/
theorem c51_binary_page_returns_everything (dbg : Bool) (up : MR σ) (u0 u : σ) (R : Limits) (G : Nat)
    (U : List Blk) (hl : Lawful R G up u0) (hG : maxAlign ≤ G) (hu : Reach R up u0 u U)
    (hR : PageLimits R) (s : List Superpage × σ) (L : List Blk)
    (hr : Reach R (BinPage.mr dbg up) ([], u) s L) :
    (BinPage.destroy up s.1 s.2).1 = .ok () ∧ Reach R up u0 (BinPage.destroy up s.1 s.2).2 U := by
  have hl' := hl.restart hu
  have hI := (BinPage.lawful_inv (dbg := dbg) hl' hG hR).2 s L hr
  exact BinPage.destroy_ok hl.serves _ U s.2 (hu.trans hI.reach)

/-- Two chunks are given back here. -/
example : (BinPage.destroy (logged demoBase)
      ((BinPage.mr true (logged demoBase)).run ([], (demoInit, []))
        [.alloc 100 8, .alloc (2 ^ 21 - 5) 16]).2.1
      ((BinPage.mr true (logged demoBase)).run ([], (demoInit, []))
        [.alloc 100 8, .alloc (2 ^ 21 - 5) 16]).2.2).2.2 =
    [.alloc (2 ^ 16) 16, .alloc (2 ^ 21) 16, .free 4096 (2 ^ 16) 16, .free 69632 (2 ^ 21) 16] := by
  decide +kernel

/-- **C08** (partial: a chunk serves only requests whose page is at least 1/256 of the chunk; the code
then goes to upstream, see `c08_small_request_goes_upstream`).  In every reachable state, for every chunk
`c` held from upstream: if the aligned part number `j` of `2^g` bytes of `c`, large enough for a request of
`n` bytes, is not in use by any live block, then the request is served and upstream is not called (its
state is the same, whatever it records). -/
theorem c08_free_memory_is_used_partial (dbg : Bool) (up : MR σ) (u0 u : σ) (R : Limits) (G : Nat)
    (U : List Blk) (hl : Lawful R G up u0) (hG : maxAlign ≤ G) (hu : Reach R up u0 u U)
    (hR : PageLimits R) (s : List Superpage × σ) (L : List Blk)
    (hr : Reach R (BinPage.mr dbg up) ([], u) s L) :
    ∃ H, Reach R up u0 s.2 (H ++ U) ∧
      ∀ c ∈ H, ∀ n a g j, IsReq R n a → 0 < n → c.size ≤ 2 ^ 16 ∨ c.size < 512 * n →
        256 ≤ 2 ^ g → n ≤ 2 ^ g → (j + 1) * 2 ^ g ≤ c.size →
        (∀ b ∈ L, Blk.Disjoint ⟨c.addr + j * 2 ^ g, 2 ^ g, 1⟩ (pageOf b)) →
        ∃ p s', (BinPage.mr dbg up).allocate s n a = (.ok p, s') ∧ s'.2 = s.2 := by
  have hl' := hl.restart hu
  have hI := (BinPage.lawful_inv (dbg := dbg) hl' hG hR).2 s L hr
  refine ⟨_, hu.trans hI.reach, ?_⟩
  intro c hc n a g j hq hn hsz hg8 hng hj hfree
  obtain ⟨sp, hsp, rfl⟩ := List.mem_map.1 hc
  obtain ⟨k, hk⟩ := List.getElem?_of_mem hsp
  have hw := (hI.sps sp hsp).wf
  simp only [BinPage.spBlk] at hsz hj hfree
  have h8 : 8 ≤ g := (Nat.pow_le_pow_iff_right (a := 2) (by decide)).1 (show 2 ^ 8 ≤ 2 ^ g from hg8)
  have hgs : g ≤ sp.size := by
    refine (Nat.pow_le_pow_iff_right (a := 2) (by decide)).1 (Nat.le_trans ?_ hj)
    exact Nat.le_mul_of_pos_left _ (by omega)
  have hjlt : j < 2 ^ (sp.size - g) := by
    have e : 2 ^ sp.size = 2 ^ (sp.size - g) * 2 ^ g := by rw [← Nat.pow_add]; congr 1; omega
    rw [e] at hj
    exact Nat.le_of_mul_le_mul_right hj (Nat.two_pow_pos g)
  have hmin := BinPage.minPage_le_of hn hsz (by have := hw.min; have := hw.delta; omega)
  exact BinPage.region_used hl'.serves hI hk hn (PageLimits.le hR hq.1.1)
    (by have := hw.delta; omega) (BinPage.pageLog_le_of hn hng h8) hgs hjlt hfree

/-- **C08** (partial as above), when all blocks have been returned: every chunk is one free page, so a
request that fits into a chunk is served without calling upstream. -/
theorem c08_binary_page_merges_partial (dbg : Bool) (up : MR σ) (u0 u : σ) (R : Limits) (G : Nat)
    (U : List Blk) (hl : Lawful R G up u0) (hG : maxAlign ≤ G) (hu : Reach R up u0 u U)
    (hR : PageLimits R) (s : List Superpage × σ) (hr : Reach R (BinPage.mr dbg up) ([], u) s []) :
    ∃ H, Reach R up u0 s.2 (H ++ U) ∧
      ∀ c ∈ H, ∀ n a, IsReq R n a → 0 < n → n ≤ c.size → c.size ≤ 2 ^ 16 ∨ c.size < 512 * n →
        ∃ p s', (BinPage.mr dbg up).allocate s n a = (.ok p, s') ∧ s'.2 = s.2 := by
  have hl' := hl.restart hu
  have hI := (BinPage.lawful_inv (dbg := dbg) hl' hG hR).2 s [] hr
  refine ⟨_, hu.trans hI.reach, ?_⟩
  intro c hc n a hq hn hnc hsz
  obtain ⟨sp, hsp, rfl⟩ := List.mem_map.1 hc
  obtain ⟨k, hk⟩ := List.getElem?_of_mem hsp
  have hw := (hI.sps sp hsp).wf
  simp only [BinPage.spBlk] at hsz hnc
  have h16 : 16 ≤ sp.size := by have := hw.min; have := hw.delta; omega
  have hmin := BinPage.minPage_le_of hn hsz h16
  exact BinPage.region_used (j := 0) hl'.serves hI hk hn (PageLimits.le hR hq.1.1)
    (by have := hw.delta; omega) (BinPage.pageLog_le_of hn hnc (by omega)) (Nat.le_refl _)
    (Nat.two_pow_pos _) (by simp)

/-- Three blocks are allocated, the outer ones freed, then the middle one; the whole chunk of 2^16 bytes
then serves a request at once: upstream has been asked only once. -/
example : ((BinPage.mr true (logged demoBase)).run ([], (demoInit, []))
      [.alloc 256 8, .alloc 256 8, .alloc 512 8, .free 4096 256 8, .free 4608 512 8, .free 4352 256 8,
        .alloc (2 ^ 16) 8]).2.2.2 = [.alloc (2 ^ 16) 16] := by decide +kernel

/-- C08 fails for small requests: after a chunk of 2^30 bytes is completely free again, a request of 100
bytes makes the resource ask upstream for more memory. -/
theorem c08_small_request_goes_upstream :
    ((BinPage.mr true (logged demoBase)).run ([], (demoInit, []))
      [.alloc (2 ^ 30) 8, .free 4096 (2 ^ 30) 8, .alloc 100 8]).2.2.2 =
    [.alloc (2 ^ 30) 16, .alloc (2 ^ 16) 16] := by decide +kernel

/-- **C09** (partial: the requested alignment is ignored by the code; only alignments up to 16, which
upstream guarantees for the chunks, hold in general — see `c09_alignment_ignored`).  In every reachable state
a request answered by `p` is aligned if it asks for 16 at most; in any case `p` is at a multiple of the page
size (at least 256 bytes) from the beginning of a chunk held from upstream. -/
theorem c09_alignment_partial (dbg : Bool) (up : MR σ) (u0 u : σ) (R : Limits) (G : Nat) (U : List Blk)
    (hl : Lawful R G up u0) (hG : maxAlign ≤ G) (hu : Reach R up u0 u U) (hR : PageLimits R)
    (s s' : List Superpage × σ) (L : List Blk) (hr : Reach R (BinPage.mr dbg up) ([], u) s L)
    (n a p : Nat) (hq : IsReq R n a) (hn : 0 < n)
    (hp : (BinPage.mr dbg up).allocate s n a = (.ok p, s')) :
    (a ≤ 16 → a ∣ p) ∧
    ∃ H, Reach R up u0 s'.2 (H ++ U) ∧ ∃ c ∈ H, 16 ∣ c.addr ∧ ∃ k, p = c.addr + k * pageBytes n := by
  have hl' := hl.restart hu
  obtain ⟨hlaw, hinv⟩ := BinPage.lawful_inv (dbg := dbg) hl' hG hR
  have hgood := hlaw.alloc hr hq hn
  rw [hp] at hgood
  have hI := hinv s' _ (.alloc hr hq hn hp)
  refine ⟨hgood.2.2.1, _, hu.trans hI.reach, ?_⟩
  obtain ⟨k, sp, g, hh⟩ := hI.held _ List.mem_cons_self
  have hmem : BinPage.spBlk sp ∈ s'.1.map BinPage.spBlk :=
    List.mem_map.2 ⟨sp, List.mem_of_getElem? hh.1, rfl⟩
  refine ⟨_, hmem, ((hl'.live hI.reach).1 _ hmem).2.2.1 hG, g - 2 ^ Nat.log2 g, ?_⟩
  rw [BinPage.pageBytes_eq hn]
  have e := hh.2.2.2.1
  have e2 := hh.2.2.2.2.1
  simp only at e e2
  rw [e2]
  exact e

/-- The hypotheses of `c09_alignment_partial` are met by the first request of the example above. -/
example : ((BinPage.mr true demoBase).allocate ([], demoInit) 100 8).1 = .ok 4096 := by decide +kernel

/-- C09 fails beyond alignments of 16: after another client of upstream has taken 16 bytes, a request of
64 bytes aligned to 64 is answered by the address 4112. -/
theorem c09_alignment_ignored :
    Reach 64 demoBase demoInit (⟨2 ^ 62, 4096, 4112⟩, ()) [⟨4096, 16, 16⟩] ∧
    ((BinPage.mr true demoBase).allocate ([], (⟨2 ^ 62, 4096, 4112⟩, ())) 64 64).1 = .ok 4112 ∧
    ¬ 64 ∣ 4112 := by
  refine ⟨?_, by decide +kernel, by decide⟩
  exact Reach.alloc (s := demoInit) .init ⟨⟨by decide, by decide⟩, by decide, 4, rfl⟩ (by decide)
    (by decide +kernel)

end Vecmem.Props
