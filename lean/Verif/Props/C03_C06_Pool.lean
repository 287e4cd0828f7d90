import Verif.Lemmas.PoolTraffic
import Verif.Props.C01_C02_Contiguous

/-!
# C03–C06 — the pool resource
-/

namespace Vecmem.Props

open Vecmem

variable {σ : Type}

/-- The default options are sound. -/
theorem pool_default_sound (dbg : Bool) : PoolOpts.Sound dbg {} := by
  refine ⟨by unfold PoolOpts.InRange; decide, by unfold PoolOpts.NoOverflow; decide,
    by unfold PoolOpts.NonEmpty; decide, fun _ => ?_⟩
  intro k _ _
  simp only
  by_cases h : k ≤ 10
  · right
    refine ⟨2 ^ (10 - k), ?_⟩
    rw [← Nat.pow_add, Nat.add_sub_cancel' h]
  · left
    have : 2 ^ 11 ≤ 2 ^ k := Nat.pow_le_pow_right (by decide) (by omega)
    omega

/-- **C03.**  A pool with accepted, sound options is built over a well-behaved upstream, which may already
have clients holding `U`.  Then in *every* state reached by correct calls (requests within the
limits `R`, which allow the pool's own upstream requests): every request is answered by a block that is aligned and disjoint from all live
blocks, or refused; freeing works; nothing is undefined (`Lawful`).  And the live blocks lie inside blocks
`H` the pool holds from upstream, hence off the blocks `U` of others. -/
theorem c03_pool (dbg : Bool) (o : PoolOpts) (st : Pool) (hnew : Pool.create o = .ok st)
    (hs : o.Sound dbg) (up : MR σ) (u0 u : σ) (R : Limits) (U : List Blk) (hl : Lawful R R.align up u0)
    (hu : Reach R up u0 u U) (hAR : o.alignment ≤ R.align)
    (hMR : o.maxBytes ≤ R.size) (hR : R.align ≤ 2 ^ 61) :
    Lawful R R.align (Pool.mr dbg o up) (st, u) ∧
    ∀ s L, Reach R (Pool.mr dbg o up) (st, u) s L →
      ∃ H, Reach R up u0 s.2 (H ++ U) ∧ (∀ b ∈ L, ∃ c ∈ H, b.Inside c) ∧
        ∀ b ∈ L, ∀ x ∈ U, b.Disjoint x := by
  obtain ⟨k0, k1, hf, rfl⟩ := Pool.create_spec hs.range hnew
  have hl' := hl.restart hu
  obtain ⟨h1, h2⟩ := Pool.lawful_inv hl' hf hs hAR hMR hR
  refine ⟨h1, ?_⟩
  intro s L hr
  have hI := h2 s L hr
  obtain ⟨i, hi, _⟩ := hf.align hs.nonEmpty.1
  have hreach := hu.trans hI.reach
  have hheld := fun b hb => (hI.held hl'.serves ⟨i, hi⟩ (b := b) hb).1
  refine ⟨_, hreach, hheld, ?_⟩
  intro b hb x hx
  obtain ⟨c, hc, hin⟩ := hheld b hb
  exact ((List.pairwise_append.1 (hl.live hreach).2).2.2 c hc x hx).mono hin
    ⟨Nat.le_refl _, Nat.le_refl _⟩

/-- **C04.**  When all client blocks have been given back and the pool is destroyed, upstream is left with
exactly the blocks `U` of its other clients: everything the pool obtained has been given back once, with
the size and alignment it was requested with. -/
theorem c04_pool_returns_everything (dbg : Bool) (o : PoolOpts) (st : Pool)
    (hnew : Pool.create o = .ok st) (hs : o.Sound dbg) (up : MR σ) (u0 u : σ) (R : Limits) (U : List Blk)
    (hl : Lawful R R.align up u0) (hu : Reach R up u0 u U) (hAR : o.alignment ≤ R.align)
    (hMR : o.maxBytes ≤ R.size) (hR : R.align ≤ 2 ^ 61)
    (s : Pool × σ) (hr : Reach R (Pool.mr dbg o up) (st, u) s []) :
    (Pool.destroy o up s).1 = .ok () ∧ Reach R up u0 (Pool.destroy o up s).2 U := by
  obtain ⟨k0, k1, hf, rfl⟩ := Pool.create_spec hs.range hnew
  have hl' := hl.restart hu
  have hI := (Pool.lawful_inv hl' hf hs hAR hMR hR).2 s [] hr
  obtain ⟨h1, h2⟩ := Pool.destroy_ok hl'.serves hI
  exact ⟨h1, by simpa using hu.trans h2⟩

/-- A concrete history: two small requests, an oversized and an over-aligned one (`demoBase` is upstream). -/
def demoPoolCalls : List Call :=
  [.alloc 100 8, .alloc 3 16, .alloc (2 ^ 21) 16, .alloc 5 64]

/-- The demo pool: default options. -/
def demoPool : Pool := ⟨4, List.replicate 17 {}, [], [], []⟩

example : Pool.create {} = .ok demoPool := by decide +kernel

/-- The hypotheses of `c03_pool` and `c04_pool_returns_everything` are met by the default options over
the demo upstream; here is what the requests are answered by. -/
example : Lawful 4096 4096 (Pool.mr true {} demoBase) (demoPool, demoInit) :=
  (c03_pool true {} demoPool (by decide +kernel) (pool_default_sound true) demoBase demoInit demoInit 4096
    [] (demo_lawful 4096) .init (by decide) (by decide) (by decide)).1

example : servedBlocks demoPoolCalls
      ((Pool.mr true {} demoBase).run (demoPool, demoInit) demoPoolCalls).1 =
    [⟨6016, 100, 8⟩, ⟨7152, 3, 16⟩, ⟨7168, 2 ^ 21, 16⟩, ⟨2104320, 5, 64⟩] := by decide +kernel

/-- **C05** (partial: for options whose arithmetic does not overflow, whose first chunks are not empty and
whose byte minimum is attainable by whole blocks — the constructor accepts others, see below).  After
*any* calls, correct or not, over any upstream: a request the pool serves from its buckets makes no
upstream call, or exactly one, of a whole number `cnt` of blocks of the least power of two that holds
the request, with `cnt` and the bytes within the configured limits. -/
theorem c05_pool_limits_partial (dbg : Bool) (o : PoolOpts) (st : Pool)
    (hnew : Pool.create o = .ok st) (hr : o.InRange) (hno : o.NoOverflow) (hne : o.NonEmpty)
    (hm : o.MinFits) (up : MR σ) (u0 : σ) (calls : List Call) (n a : Nat) (hn : 0 < n)
    (h1 : max n o.smallest ≤ o.largest) (h2 : a ≤ o.alignment) :
    let s := ((Pool.mr dbg o (logged up)).run (st, (u0, [])) calls).2
    let s' := ((Pool.mr dbg o (logged up)).allocate s n a).2
    s'.2.2 = s.2.2 ∨
    ∃ cnt k, s'.2.2 = s.2.2 ++ [.alloc (cnt * 2 ^ k) o.alignment] ∧
      max n o.smallest ≤ 2 ^ k ∧ (∀ j, max n o.smallest ≤ 2 ^ j → k ≤ j) ∧
      o.minBlocks ≤ cnt ∧ cnt ≤ o.maxBlocks ∧
      o.minBytes ≤ cnt * 2 ^ k ∧ cnt * 2 ^ k ≤ o.maxBytes := by
  obtain ⟨k0, k1, hf, rfl⟩ := Pool.create_spec hr hnew
  intro s
  have hsh : Pool.Shape o k0 k1 s.1 :=
    Pool.run_shape (dbg := dbg) (up := logged up) hf hr hno hne calls Pool.init_shape
  have e : (Pool.mr dbg o (logged up)).allocate s n a = Pool.allocate dbg o (logged up) s n a := by
    simp [Pool.mr, pimpl, Pool.impl, Nat.pos_iff_ne_zero.1 hn]
  simp only [e]
  unfold Pool.allocate
  simp only
  split
  · exact Or.inl rfl
  · rw [if_neg (by simp only [Bool.or_eq_true, decide_eq_true_iff]; omega)]
    rcases (Pool.pooled_traffic (dbg := dbg) (up := logged up) hsh hf hr hno hne h1).2 with h | h
    · exact Or.inl (by rw [h])
    · obtain ⟨cnt, j, hj, hg, hx⟩ := h
      refine Or.inr ⟨cnt, k0 + j, by rw [hx]; rfl, ?_, ?_, hg.minBlocks, hg.maxBlocks, hg.minBytes hm,
        hg.maxBytes⟩
      · rw [← hj]; exact IntMath.le_two_pow_clog2 _
      · intro i hi; rw [← hj]
        refine IntMath.clog2_le ?_ hi
        omega

/-- The hypotheses of `c05_pool_limits_partial` are met by the default options; the first request for
100 bytes obtains one chunk of 16 blocks of 128 bytes. -/
example : ((Pool.mr true {} (logged demoBase)).allocate (demoPool, (demoInit, [])) 100 8).2.2.2 =
    [.alloc (16 * 2 ^ 7) 16] := by decide +kernel

/-- C05 fails without `MinFits`: these options are accepted, but the first chunk has 992 bytes although
at least 1000 are configured (without assertions), or an assertion fires (with them). -/
theorem c05_min_bytes_missed :
    let o : PoolOpts := { minBlocks := 1, minBytes := 1000 }
    (∃ st, Pool.create o = .ok st) ∧
    ((Pool.mr false o (logged demoBase)).allocate (demoPool, (demoInit, [])) 16 8).2.2.2 =
      [.alloc 992 16] ∧
    ((Pool.mr true o (logged demoBase)).allocate (demoPool, (demoInit, [])) 16 8).1 = .ub := by
  refine ⟨⟨demoPool, by decide +kernel⟩, by decide +kernel, by decide +kernel⟩

/-- C05 fails without `NonEmpty`: with no minimum, the first chunk is empty and the pool takes a block
from the back of an empty list. -/
theorem c05_empty_chunk :
    let o : PoolOpts := { minBlocks := 0, minBytes := 0 }
    (∃ st, Pool.create o = .ok st) ∧
    ((Pool.mr false o (logged demoBase)).allocate (demoPool, (demoInit, [])) 16 8).1 = .ub := by
  refine ⟨⟨demoPool, by decide +kernel⟩, by decide +kernel⟩

/-- C05 (and C03) fail without `NoOverflow`: these options are accepted because `2 * 2^63` wraps to 0; the
pool obtains zero bytes from upstream and hands out an address that belongs to nobody, with no
assertion firing. -/
theorem c05_overflow :
    let o : PoolOpts := { minBlocks := 2, minBytes := 0, smallest := 2 ^ 63, largest := 2 ^ 63 }
    (∃ st, Pool.create o = .ok st ∧
      (Pool.mr true o (logged demoBase)).allocate (st, (demoInit, [])) 16 8 =
        (.ok (2 ^ 63), (⟨63, [⟨[0], 2⟩], [(0, 0)], [], []⟩, (demoInit, [.alloc 0 16])))) := by
  exact ⟨⟨63, [{}], [], [], []⟩, by decide +kernel, by decide +kernel⟩

/-- The constructor also accepts a zero alignment, with which it goes to upstream for its chunks. -/
theorem c05_zero_alignment :
    let o : PoolOpts := { alignment := 0 }
    Pool.create o = .ok demoPool ∧
    ((Pool.mr true o (logged demoBase)).allocate (demoPool, (demoInit, [])) 16 0).2.2.2 =
      [.alloc 1024 0] := by
  exact ⟨by decide +kernel, by decide +kernel⟩

/-- **C06** (partial: the size cutoff is shown only if no block held from upstream is less aligned than
the request; see `c06_size_cutoff_ignored` for why).  In every reachable state, if an oversized or
over-aligned request is answered without calling upstream, then by a block `x` obtained from upstream
earlier, big enough, with the alignment factor below the cutoff — and the size factor below the
cutoff. -/
theorem c06_pool_cutoffs_partial (dbg : Bool) (o : PoolOpts) (st : Pool)
    (hnew : Pool.create o = .ok st) (hs : o.Sound dbg) (up : MR σ) (u0 : σ) (R : Limits)
    (hl : Lawful R R.align up u0) (hAR : o.alignment ≤ R.align)
    (hMR : o.maxBytes ≤ R.size) (hR : R.align ≤ 2 ^ 61)
    (s : Pool × (σ × List Call)) (L : List Blk)
    (hr : Reach R (Pool.mr dbg o (logged up)) (st, (u0, [])) s L)
    (n a p : Nat) (hn : 0 < n) (hq : IsReq R n a) (hbig : max n o.smallest > o.largest ∨ a > o.alignment)
    (hans : ((Pool.mr dbg o (logged up)).allocate s n a).1 = .ok p)
    (hquiet : ((Pool.mr dbg o (logged up)).allocate s n a).2.2.2 = s.2.2) :
    ∃ U, Reach R up u0 s.2.1 U ∧ ∃ x ∈ U, x.addr = p ∧ n ≤ x.size ∧ a ≤ x.align ∧
      x.align / a < o.alignCutoff ∧
      ((∀ y ∈ U, a ≤ y.align) → x.size / max n o.smallest < o.sizeCutoff) := by
  obtain ⟨k0, k1, hf, rfl⟩ := Pool.create_spec hs.range hnew
  have hI := (Pool.lawful_inv (hl.logged []) hf hs hAR hMR hR).2 s L hr
  refine ⟨_, hI.reach.unlog, ?_⟩
  have e : (Pool.mr dbg o (logged up)).allocate s n a =
      Pool.allocateOversized o (logged up) s (max n o.smallest) a := by
    have hp : IntMath.isPowerOf2 a = true := Pool.isPowerOf2_of_req hR hq
    have hc : (decide (max n o.smallest > o.largest) || decide (a > o.alignment)) = true := by
      simpa using hbig
    simp only [Pool.mr, pimpl, Pool.impl, Nat.pos_iff_ne_zero.1 hn, if_false, Pool.allocate, hp,
      Bool.not_true, Bool.and_false, Bool.false_eq_true, hc, if_true]
  rw [e] at hans hquiet
  have hfresh : (Pool.allocateFresh (logged up) s (max n o.smallest) a).2.2.2 ≠ s.2.2 := by
    unfold Pool.allocateFresh
    simp only [logged]
    cases (up.allocate s.2.1 (max n o.smallest) a).1 <;> simp
  unfold Pool.allocateOversized at hans hquiet
  split at hquiet
  · rename_i hcache
    rw [if_pos hcache] at hans
    obtain ⟨it, hit⟩ := Pool.findCached_ok (o := o) (xs := s.1.cached) (n := max n o.smallest) hq.pos
    simp only [hit] at hans hquiet
    cases hd : s.1.cached[it]? with
    | none => simp only [hd] at hquiet; exact absurd hquiet hfresh
    | some d =>
      simp only [hd, Res.ok.injEq] at hans
      obtain ⟨f1, f2, f3, _⟩ := Pool.findCached_spec hI.sorted hit hd
      have hmem : ∀ e ∈ s.1.cached, Pool.ovBlk e ∈
          Pool.chunks o s.1 ++ s.1.oversized.map Pool.ovBlk :=
        fun e he => List.mem_append_right _ (List.mem_map_of_mem (hI.big3.2 e he))
      refine ⟨Pool.ovBlk d, hmem d (List.mem_of_getElem? hd), hans, ?_, f2, f3, ?_⟩
      · simp only [Pool.ovBlk]; omega
      · intro hal
        exact Pool.findCached_size hI.sorted hit hd (fun e he => hal _ (hmem e he))
  · exact absurd hquiet hfresh

/-- C06 fails for the size in general: the cutoff is tested for the first block that is big enough, not
for the one finally taken because of its alignment.  Here 2 MiB aligned to 64 are requested while blocks
of 2 MiB + 16 bytes (aligned to 16) and of 2 GiB (aligned to 64) are cached; the request is answered
by the latter, 1024 times its size, though the cutoff factor is 16. -/
theorem c06_size_cutoff_ignored :
    let calls : List Call := [.alloc (2 ^ 21 + 16) 16, .alloc (2 ^ 31) 64,
      .free 4096 (2 ^ 21 + 16) 16, .free 2101312 (2 ^ 31) 64, .alloc (2 ^ 21) 64]
    let r := (Pool.mr true {} (logged demoBase)).run (demoPool, (demoInit, [])) calls
    r.1 = [.alloc (.ok 4096), .alloc (.ok 2101312), .free (.ok ()), .free (.ok ()),
      .alloc (.ok 2101312)] ∧
    r.2.2.2 = [.alloc (2 ^ 21 + 16) 16, .alloc (2 ^ 31) 64] ∧
    ¬ (2 ^ 31 / 2 ^ 21 < ({} : PoolOpts).sizeCutoff) := by
  decide +kernel

/-- `c06_pool_cutoffs_partial` at work: with equal alignments a cached block of 4 MiB serves a request
for 3 MiB (one upstream call in total), but a cached block of 64 MiB does not serve a request for
2 MiB (a second upstream call). -/
example :
    ((Pool.mr true {} (logged demoBase)).run (demoPool, (demoInit, []))
      [.alloc (2 ^ 22) 16, .free 4096 (2 ^ 22) 16, .alloc (3 * 2 ^ 20) 16]).2.2.2.length = 1 ∧
    ((Pool.mr true {} (logged demoBase)).run (demoPool, (demoInit, []))
      [.alloc (2 ^ 26) 16, .free 4096 (2 ^ 26) 16, .alloc (2 ^ 21) 16]).2.2.2.length = 2 := by
  decide +kernel

end Vecmem.Props
