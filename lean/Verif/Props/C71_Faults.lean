import Verif.Lemmas.Faults
import Verif.Lemmas.ArenaFaults
import Verif.Lemmas.StrictBase
import Verif.Lemmas.Family
import Verif.Props.C03_C06_Pool

/-!
# C71 — memory resources that run out of memory for their own bookkeeping
-/

namespace Vecmem.Props

open Vecmem

/-- **C71.**  Without failures the resources are those of the other modules. -/
theorem c71_no_failure {σ : Type} :
    (∀ dbg o (ups : Unit → MR σ), (FaultyKind.pool dbg o).fmr [] ups = (Kind.pool dbg o).mr ups) ∧
    (∀ dbg (ups : Unit → MR σ), (FaultyKind.binaryPage dbg).fmr [] ups = (Kind.binaryPage dbg).mr ups) ∧
    (∀ i m (ups : Unit → MR σ), (FaultyKind.arena i m).fmr [] ups = (Kind.arena i m).mr ups) ∧
    (∀ i m (up : MR σ) u, Arena.createF [] up u i m = Arena.create up u i m) ∧
    (∀ ups : Unit → MR σ, FaultyKind.debug.fmr [] ups = Kind.debug.mr ups) ∧
    (∀ (η : Type) pre post del (h : η) (ups : Unit → MR σ),
      (FaultyKind.instrumenting pre post del h).fmr [] ups = (Kind.instrumenting pre post del h).mr ups) ∧
    (∀ (ι π : Type) (d : π → Nat → Nat → ι × π) q (ups : ι → MR σ),
      (FaultyKind.choice d q).fmr [] ups = (Kind.choice d q).mr ups) ∧
    (∀ (ι : Type) (order : List ι) (ups : ι → MR σ),
      (FaultyKind.coalescing order).fmr [] ups = (Kind.coalescing order).mr ups) := by
  refine ⟨fun dbg o ups => pool_none dbg o (ups ()), fun _ _ => rfl, fun _ _ ups => arena_none (ups ()), fun _ _ _ _ => rfl,
    fun ups => ?_, fun _ _ _ _ _ ups => ?_, fun _ _ d q ups => ?_, fun _ order ups => ?_⟩
  · rfl
  · rfl
  · rfl
  · exact coalescing_none order ups

/-- **C71** (partial: not for arenas, see `c71_arena_free`; blocks may get lost).  Memory resources over well-behaved
upstreams, used correctly while any of their own allocations for bookkeeping fail at any time (`FaultReach`;
`Tolerates` says which resources, with which options).  In every state that such a history leads to, whatever fails next:

* requests are answered well or refused, zero-byte requests give null;
* giving back a live block succeeds, or throws `bad_alloc`: then nothing has changed (pools) or the block has been given back
  all the same (instrumenting resources); the other resources do not throw.  Giving back null succeeds;
* live blocks are disjoint, and lie in blocks that upstream has handed out and not got back;
* when all blocks have been given back the resource can be destroyed, and gives back to upstream what it has taken, except for
  at most `c` blocks per failure. -/
theorem c71_faults_partial {K : FaultyKind} {P : K.ι → Port} {q : Port} {w : OnFree} {c : Nat}
    (hK : Tolerates K P q w c) {σ : Type} (ups : K.ι → MR σ) {R : Limits} {G : Nat} {u0 u1 : σ} {t : K.τ}
    (hb : GoodBases ups R G P u0) (hc : K.create ups u0 = (.ok t, u1)) {s : K.τ × σ} {L : List Blk} {k : Nat}
    (hr : FaultReach q.R w (fun f => K.fmr f ups) (t, u1) s L k) :
    (∀ f n a, IsReq q.R n a → 0 < n → GoodAnswer q.G L n a ((K.fmr f ups).allocate s n a).1) ∧
    (∀ f a, (K.fmr f ups).allocate s 0 a = (.ok 0, s)) ∧
    (∀ f b, b ∈ L → ((K.fmr f ups).deallocate s b.addr b.size b.align).1 = .ok () ∨
      w = .keeps ∧ (K.fmr f ups).deallocate s b.addr b.size b.align = (.badAlloc, s) ∨
      w = .drops ∧ ((K.fmr f ups).deallocate s b.addr b.size b.align).1 = .badAlloc) ∧
    (∀ f n a, (K.fmr f ups).deallocate s 0 n a = (.ok (), s)) ∧
    L.Pairwise Blk.Disjoint ∧
    (∃ T : List (K.ι × Blk), FReach R ups u0 s.2 T ∧ ∀ b ∈ L, ∃ e ∈ T, b.Inside e.2) ∧
    (L = [] → ∃ u' X, K.destroy ups s.1 s.2 = (.ok (), u') ∧ FReach R ups u0 u' X ∧ X.length ≤ c * k) := by
  obtain ⟨J, hJ⟩ := hK.spec
  have hF := hb.serves
  have h0 : FInv J (fun s T => FReach R ups u0 s T ∧
      ∀ i, (P i).gap = true → ∀ b c, (i, b) ∈ T → (i, c) ∈ T → b.addr + b.size ≠ c.addr) c (t, u1) [] 0 := by
    rcases hJ.kind.create hF (u := u0) ⟨.init, by simp⟩ with ⟨t', u', H, e, h1, h2⟩ | ⟨u', e, _⟩
    · rw [hc] at e; cases e
      exact ⟨[], by simp, H, h1, by simpa using h2⟩
    · rw [hc] at e; cases e
  have hI := hJ.reach hF h0 hr
  have hlive := hJ.live hF hI
  refine ⟨?_, fun f a => hJ.zero ups f s a, ?_, fun f n a => hJ.null ups f s n a, hlive.2, ?_, ?_⟩
  · intro f n a hq hn
    rcases hJ.step hF f hI hq hn with ⟨p, s', e, h'⟩ | ⟨s', e, h'⟩
    · rw [e]
      have hl := hJ.live hF h'
      have hw := hl.1 _ List.mem_cons_self
      exact ⟨hw.1, hw.2.1, hw.2.2.1, (List.pairwise_cons.1 hl.2).1⟩
    · rw [e]; trivial
  · intro f b hb
    obtain ⟨r, s', e, h'⟩ := hJ.stepFree hF f (hJ.perm hF hI (List.perm_cons_erase hb))
    rw [e]
    rcases h' with ⟨h', _⟩ | ⟨h', h'', rfl⟩ | ⟨h', h'', _⟩
    · exact .inl h'
    · exact .inr (.inl ⟨h'', by rw [h']⟩)
    · exact .inr (.inr ⟨h'', h'⟩)
  · obtain ⟨X, hX, H, h1, h2⟩ := hI
    refine ⟨H ++ X, h2.1, fun b hb => ?_⟩
    obtain ⟨e, he, hin⟩ := hJ.kind.inside (hF.frame X) h1 h2 hb
    exact ⟨e, List.mem_append_left _ he, hin⟩
  · rintro rfl
    obtain ⟨X, hX, H, h1, h2⟩ := hI
    obtain ⟨u', e, h'⟩ := hJ.kind.destroy (hF.frame X) h1 h2
    exact ⟨u', X, e, by simpa using h'.1, hX⟩

/-- **C71.**  Resources whose deallocations do not throw are well-behaved, whatever fails and when: everything that is proved
about a resource over a well-behaved upstream holds over them. -/
theorem c71_lawful {K : FaultyKind} {P : K.ι → Port} {q : Port} {c : Nat}
    (hK : Tolerates K P q .quiet c) {σ : Type} (ups : K.ι → MR σ) {R : Limits} {G : Nat} {u0 u1 : σ} {t : K.τ}
    (hb : GoodBases ups R G P u0) (hc : K.create ups u0 = (.ok t, u1)) (fs : List Faults) :
    Lawful q.R q.G (script fun f => K.fmr f ups) (fs, (t, u1)) := by
  obtain ⟨J, hJ⟩ := hK.spec
  have hF := hb.serves
  refine (hJ.script_serves hF).lawful ⟨0, ?_⟩
  rcases hJ.kind.create hF (u := u0) ⟨.init, by simp⟩ with ⟨t', u', H, e, h1, h2⟩ | ⟨u', e, _⟩
  · rw [hc] at e; cases e
    exact ⟨[], by simp, H, h1, by simpa using h2⟩
  · rw [hc] at e; cases e

/-- **C71 (partial).**  Arenas.  Whatever fails and when, as long as no call has been undefined: requests are answered
with blocks that are disjoint from the blocks in use, or with `bad_alloc`; blocks in use are disjoint, and inside of blocks
that upstream has handed out.  Giving back a block is undefined if the arena has no free block.
Missing: that this is never so; that a deallocation that throws leaves the block with the client; and that the
destructor gives back all superblocks: see `c71_arena_free`. -/
theorem c71_arena_partial {R R' : Limits} {initial maximum : Nat} (hA : maxAlign ≤ R.align) (h0 : 0 < initial)
    (h1 : initial ≤ R.size) (h2 : initial < 2 ^ 64) (h3 : 2 ^ 18 ≤ R.size)
    (h4 : arenaBytes R'.size ≤ max initial (2 ^ 18)) {σ : Type} (ups : Unit → MR σ) {R₀ : Limits} {G : Nat} {u0 u1 : σ}
    {t : Arena} (hb : GoodBases ups R₀ G (fun _ => ⟨R, maxAlign, true⟩) u0)
    (hc : (FaultyKind.arena initial maximum).create ups u0 = (.ok t, u1)) {s : Arena × σ} {L : List Blk} {k : Nat}
    (hr : FaultReach R' .drops (fun f => (FaultyKind.arena initial maximum).fmr f ups) (t, u1) s L k) :
    (∀ f n a, IsReq R' n a → 0 < n →
      GoodAnswer maxAlign L n a (((FaultyKind.arena initial maximum).fmr f ups).allocate s n a).1) ∧
    (∀ f a, ((FaultyKind.arena initial maximum).fmr f ups).allocate s 0 a = (.ok 0, s)) ∧
    (∀ f b, b ∈ L → s.1.free ≠ [] →
      (((FaultyKind.arena initial maximum).fmr f ups).deallocate s b.addr b.size b.align).1 = .ok () ∨
      (((FaultyKind.arena initial maximum).fmr f ups).deallocate s b.addr b.size b.align).1 = .badAlloc) ∧
    (∀ f n a, ((FaultyKind.arena initial maximum).fmr f ups).deallocate s 0 n a = (.ok (), s)) ∧
    L.Pairwise Blk.Disjoint ∧
    (∃ T : List (Unit × Blk), FReach R₀ ups u0 s.2 T ∧ ∀ b ∈ L, ∃ e ∈ T, b.Inside e.2) := by
  have hF := hb.serves
  have hU : Arena.Up R maxAlign (ups ()) (fun s L => FReach R₀ ups u0 s (one L) ∧
      ∀ i : Unit, (Port.mk R maxAlign true).gap = true → ∀ b c, (i, b) ∈ one L → (i, c) ∈ one L → b.addr + b.size ≠ c.addr)
      initial := by
    refine ⟨hF.single, ?_, Nat.le_refl _, hA, h1, h3, h0, h2⟩
    intro u H hI b hb c hc _
    exact hF.tidy.gap hI (i := ()) rfl (List.mem_map.2 ⟨b, hb, rfl⟩) (List.mem_map.2 ⟨c, hc, rfl⟩)
  have hlim : ∀ n a, IsReq R' n a → arenaBytes n ≤ max initial Arena.minSuper := by
    intro n a hq
    refine Nat.le_trans ?_ h4
    have := hq.1.1
    unfold arenaBytes; omega
  have h0 := Arena.create_ok hU (u0 := u0) ⟨.init, by simp [one]⟩ maximum
  have hc : Arena.create (ups ()) u0 initial maximum = (.ok t, u1) := hc
  rw [hc] at h0
  rcases h0 with ⟨e, _⟩ | ⟨t', H, e, h0⟩
  · cases e
  cases e
  obtain ⟨H, hI⟩ := Arena.LaxInv.reached hU hlim ⟨H, h0.lax⟩ hr
  refine ⟨?_, fun f a => Arena.mrF_zero f, ?_, fun f n a => Arena.mrF_null f, hI.disjoint, one H, hI.reach.1, ?_⟩
  · intro f n a hq hn
    show GoodAnswer _ _ _ _ ((Arena.mrF f (ups ())).allocate s n a).1
    rw [Arena.mrF_alloc f hn]
    exact hI.answer hU f hn (hlim n a hq) hq.2.2
  · intro f b hb hne
    have hI' := hI.perm (List.perm_cons_erase hb)
    show ((Arena.mrF f (ups ())).deallocate s b.addr b.size b.align).1 = _ ∨
      ((Arena.mrF f (ups ())).deallocate s b.addr b.size b.align).1 = _
    rw [Arena.mrF_dealloc f hI'.good.1]
    rcases Arena.deallocateF_ok hU hI' f with ⟨e, _⟩ | ⟨_, e, _⟩
    · exact absurd e hne
    · exact e
  · intro b hb
    obtain ⟨_, _, ⟨h, hh, hin⟩, _⟩ := (hI.perm (List.perm_cons_erase hb)).good
    exact ⟨((), h), List.mem_map.2 ⟨h, hh, rfl⟩, hin⟩

/-! ## Examples, and what goes wrong

The base resource `strictBase` knows its outstanding blocks. -/

/-- Create a resource, make the calls, destroy it: the answers, that of the destructor, and the blocks that `strictBase` has
not got back. -/
def lifetime (K : FaultyKind) (ups : K.ι → MR Strict) (cs : List (Faults × Call)) :
    Option (List Answer × Res Unit × List Blk) :=
  match K.create ups .init with
  | (.ok t, u) =>
    let r := runF (fun f => K.fmr f ups) (t, u) cs
    let d := K.destroy ups r.2.1 r.2.2
    some (r.1, d.1, d.2.out)
  | _ => none

theorem strict_good {ι : Type} :
    GoodBases (fun _ : ι => strictBase) ⟨16, 2 ^ 62⟩ 16 (fun _ => ⟨⟨16, 2 ^ 62⟩, 16, false⟩) .init where
  lawful := FamLawful.same strictBase_lawful
  limits := fun _ => ⟨rfl, rfl⟩
  gapped := by simp

theorem pool_tolerates (dbg : Bool) : Tolerates (.pool dbg {}) (fun _ => ⟨⟨16, 2 ^ 62⟩, 16, false⟩)
    ⟨⟨16, 2 ^ 62⟩, 16, false⟩ .keeps 1 :=
  .pool (p := (match Pool.create {} with | .ok p => p | _ => ⟨0, [], [], [], []⟩)) (by decide +kernel)
    (pool_default_sound dbg) (by decide) (by decide) (by decide)

/-- A new pool. -/
def newPool : Pool × Strict := ((match Pool.create {} with | .ok p => p | _ => ⟨0, [], [], [], []⟩), .init)

/-- The pool after the fourth block of a chunk could not be recorded, a block was handed out, and giving it back
failed. -/
def faultyPool : Pool × Strict :=
  (runF (fun f => Pool.mrF f true {} strictBase) newPool
    [([false, false, false, true], .alloc 100 8), ([], .alloc 100 8), ([true], .free 4224 100 8)]).2

theorem faultyPool_reach : FaultReach ⟨16, 2 ^ 62⟩ .keeps (fun f => Pool.mrF f true {} strictBase)
    newPool faultyPool [⟨4224, 100, 8⟩] 2 := by
  have h1 := FaultReach.refuse (R := ⟨16, 2 ^ 62⟩) (w := .keeps) (m := fun f => Pool.mrF f true {} strictBase)
    (s := newPool) (s' := ((Pool.mrF [false, false, false, true] true {} strictBase).allocate newPool 100 8).2)
    (n := 100) (a := 8) [false, false, false, true] .init ⟨by decide, by decide, 3, rfl⟩ (by decide)
    (Prod.ext (by decide +kernel) rfl)
  have h2 := FaultReach.alloc (p := 4224) (s' := ((Pool.mrF [] true {} strictBase).allocate
      ((Pool.mrF [false, false, false, true] true {} strictBase).allocate newPool 100 8).2 100 8).2)
    (n := 100) (a := 8) [] h1 ⟨by decide, by decide, 3, rfl⟩ (by decide) (Prod.ext (by decide +kernel) rfl)
  exact FaultReach.throw [true] h2 (Prod.ext (by decide +kernel) rfl)

example : GoodAnswer 16 [⟨4224, 100, 8⟩] 5000 16 ((Pool.mrF [false, true] true {} strictBase).allocate faultyPool 5000 16).1 :=
  (c71_faults_partial (K := .pool true {}) (pool_tolerates true) (fun _ => strictBase) strict_good
    (t := newPool.1) (u1 := .init) (by decide +kernel) faultyPool_reach).1 [false, true] 5000 16 ⟨by decide, by decide, 4, rfl⟩ (by decide)

example (fs : List Faults) : Lawful ⟨16, 2 ^ 62⟩ 16
    (script fun f => (FaultyKind.coalescing [true, false]).fmr f fun _ => strictBase) (fs, ([], .init)) :=
  c71_lawful (K := .coalescing [true, false]) .coalescing (fun _ => strictBase) strict_good rfl fs

/-- A pool that cannot record some of the blocks of a chunk loses no memory of upstream; a deallocation that threw can be
made again. -/
example : lifetime (.pool true {}) (fun _ => strictBase)
    [([false, false, true], .alloc 100 8), ([], .alloc 100 8), ([], .alloc 100 8), ([true], .free 4096 100 8),
      ([], .free 4096 100 8)] =
    some ([.alloc .badAlloc, .alloc (.ok 4096), .alloc (.ok 9120), .free .badAlloc, .free (.ok ())], .ok (), []) := by
  decide +kernel

/-- **C71** fails in part: a block of upstream gets lost when a pool (two cases), a debugging, an instrumenting or a choice
resource cannot record it: it is not given back at the end.  Binary pages lose nothing. -/
theorem c71_lost :
    lifetime (.pool true {}) (fun _ => strictBase) [([true], .alloc 100 8)] =
      some ([.alloc .badAlloc], .ok (), [⟨4096, 2048, 16⟩]) ∧
    lifetime (.pool true {}) (fun _ => strictBase) [([true], .alloc (2 ^ 21) 8)] =
      some ([.alloc .badAlloc], .ok (), [⟨4096, 2 ^ 21, 8⟩]) ∧
    lifetime .debug (fun _ => strictBase) [([true], .alloc 100 8)] =
      some ([.alloc .badAlloc], .ok (), [⟨4096, 100, 8⟩]) ∧
    lifetime (.instrumenting (η := Unit) [] [] [] ()) (fun _ => strictBase) [([true], .alloc 100 8)] =
      some ([.alloc .badAlloc], .ok (), [⟨4096, 100, 8⟩]) ∧
    lifetime (.choice (ι := Unit) (π := Unit) (fun _ _ _ => ((), ())) ()) (fun _ => strictBase) [([true], .alloc 100 8)] =
      some ([.alloc .badAlloc], .ok (), [⟨4096, 100, 8⟩]) ∧
    lifetime (.binaryPage true) (fun _ => strictBase)
      [([true], .alloc 100 8), ([false, true], .alloc 100 8), ([], .alloc 100 8)] =
      some ([.alloc .badAlloc, .alloc .badAlloc, .alloc (.ok 4096)], .ok (), []) := by
  refine ⟨?_, ?_, ?_, ?_, ?_, ?_⟩ <;> decide +kernel

/-- **C71** fails in part: a coalescing resource that cannot record a block goes on to the next upstream.  The client is not
told, and the first block is lost. -/
theorem c71_silent :
    lifetime (.coalescing [true, false]) (fun _ => strictBase) [([true], .alloc 100 8), ([], .free 4224 100 8)] =
      some ([.alloc (.ok 4224), .free (.ok ())], .ok (), [⟨4096, 100, 8⟩]) := by
  decide +kernel

/-- **C71** fails in part: a deallocation by an instrumenting resource may throw although the block has been given back; trying
again gives it back a second time. -/
theorem c71_twice :
    lifetime (.instrumenting (η := Unit) [] [] [] ()) (fun _ => strictBase)
      [([], .alloc 100 8), ([true], .free 4096 100 8), ([], .free 4096 100 8)] =
      some ([.alloc (.ok 4096), .free .badAlloc, .free .ub], .ok (), []) := by
  decide +kernel

theorem strict_gapped :
    GoodBases (fun _ : Unit => strictBase) ⟨16, 2 ^ 62⟩ 16 (fun _ => ⟨⟨16, 2 ^ 62⟩, maxAlign, true⟩) .init where
  lawful := FamLawful.same strictBase_lawful
  limits := fun _ => ⟨rfl, rfl⟩
  gapped := fun _ _ _ _ _ _ _ _ hr hq hn he _ hb =>
    strictBase_gap hr.same hq hn he (List.mem_map.2 ⟨_, hb, rfl⟩)

/-- A new arena, and the arena after the rest of a block could not be recorded. -/
def newArena : Arena × Strict :=
  ((match Arena.create strictBase .init 1100 10000 with | (.ok a, _) => a | _ => ⟨0, 0, 0, [], []⟩), ⟨5216, [⟨4096, 1100, 16⟩]⟩)

@[inherit_doc newArena] def faultyArena : Arena × Strict :=
  (runF (fun f => Arena.mrF f strictBase) newArena [([], .alloc 100 8), ([true], .alloc 100 8)]).2

example : GoodAnswer maxAlign [⟨4096, 100, 8⟩] 200 8 ((Arena.mrF [false, false, true] strictBase).allocate faultyArena 200 8).1 := by
  have h1 := FaultReach.alloc (R := ⟨16, 2 ^ 18⟩) (w := .drops) (m := fun f => Arena.mrF f strictBase)
    (s := newArena) (s' := ((Arena.mrF [] strictBase).allocate newArena 100 8).2) (p := 4096)
    (n := 100) (a := 8) [] .init ⟨by decide, by decide, 3, rfl⟩ (by decide) (Prod.ext (by decide +kernel) rfl)
  have h2 := FaultReach.refuse (s' := ((Arena.mrF [true] strictBase).allocate
      ((Arena.mrF [] strictBase).allocate newArena 100 8).2 100 8).2)
    (n := 100) (a := 8) [true] h1 ⟨by decide, by decide, 3, rfl⟩ (by decide) (Prod.ext (by decide +kernel) rfl)
  exact (c71_arena_partial (initial := 1100) (maximum := 10000) (R' := ⟨16, 2 ^ 18⟩) (by decide) (by decide) (by decide)
    (by decide) (by decide) (by decide +kernel) (fun _ => strictBase) strict_gapped (t := newArena.1) (u1 := newArena.2)
    (by decide +kernel) h2).1 [false, false, true] 200 8 ⟨by decide, by decide, 3, rfl⟩ (by decide)

/-- **C71** fails for arenas, with a size for which they behave without failures (`c10_arena_lawful_partial`).  After a refused
request, giving back a live block dereferences `end()`.  After a deallocation that threw, the destructor
does not give back the superblock; it may give back something else instead, as it may after a request that was
refused. -/
theorem c71_arena_free :
    lifetime (.arena 1100 10000) (fun _ => strictBase)
      [([], .alloc 100 8), ([true], .alloc 100 8), ([], .free 4096 100 8)] =
      some ([.alloc (.ok 4096), .alloc .badAlloc, .free .ub], .ok (), [⟨4096, 1100, 16⟩]) ∧
    lifetime (.arena 1100 10000) (fun _ => strictBase) [([], .alloc 100 8), ([true], .free 4096 100 8)] =
      some ([.alloc (.ok 4096), .free .badAlloc], .ok (), [⟨4096, 1100, 16⟩]) ∧
    lifetime (.arena 1100 10000) (fun _ => strictBase)
      [([], .alloc 100 8), ([], .alloc 100 8), ([true], .free 4096 100 8), ([], .free 4352 100 8)] =
      some ([.alloc (.ok 4096), .alloc (.ok 4352), .free .badAlloc, .free (.ok ())], .ub, [⟨4096, 1100, 16⟩]) ∧
    lifetime (.arena 1100 10000) (fun _ => strictBase) [([false, true], .alloc 100 8)] =
      some ([.alloc .badAlloc], .ub, [⟨4096, 1100, 16⟩]) ∧
    lifetime (.arena 1100 10000) (fun _ => strictBase) [([], .alloc 100 8), ([], .free 4096 100 8)] =
      some ([.alloc (.ok 4096), .free (.ok ())], .ok (), []) := by
  refine ⟨?_, ?_, ?_, ?_, ?_⟩ <;> decide +kernel

/-- **C71** fails for arenas: a deallocation that threw loses the free blocks next to the block as well (the one before it, the one
after it, both, and the one before it if the one after it is in use), so requests for which there was memory take more of it
from upstream; and then the superblock is not given back. -/
theorem c71_arena_neighbours :
    lifetime (.arena 1100 10000) (fun _ => strictBase)
      [([], .alloc (2 ^ 17) 8), ([], .alloc (2 ^ 17) 8), ([], .free 5216 (2 ^ 17) 8), ([true], .free 136288 (2 ^ 17) 8),
        ([], .alloc (2 ^ 17) 8), ([], .free 267392 (2 ^ 17) 8)] =
      some ([.alloc (.ok 5216), .alloc (.ok 136288), .free (.ok ()), .free .badAlloc, .alloc (.ok 267392), .free (.ok ())],
        .ok (), [⟨5216, 2 ^ 18, 16⟩]) ∧
    lifetime (.arena 1100 10000) (fun _ => strictBase)
      [([], .alloc (2 ^ 17) 8), ([true], .free 5216 (2 ^ 17) 8), ([], .alloc (2 ^ 17) 8), ([], .free 267392 (2 ^ 17) 8)] =
      some ([.alloc (.ok 5216), .free .badAlloc, .alloc (.ok 267392), .free (.ok ())], .ok (), [⟨5216, 2 ^ 18, 16⟩]) ∧
    lifetime (.arena 1100 10000) (fun _ => strictBase)
      [([], .alloc (2 ^ 16) 8), ([], .alloc (2 ^ 16) 8), ([], .free 5216 (2 ^ 16) 8), ([true], .free 70752 (2 ^ 16) 8),
        ([], .alloc (2 ^ 16) 8), ([], .free 267392 (2 ^ 16) 8)] =
      some ([.alloc (.ok 5216), .alloc (.ok 70752), .free (.ok ()), .free .badAlloc, .alloc (.ok 267392), .free (.ok ())],
        .ok (), [⟨5216, 2 ^ 18, 16⟩]) ∧
    lifetime (.arena 1100 10000) (fun _ => strictBase)
      [([], .alloc (2 ^ 16) 8), ([], .alloc (2 ^ 16) 8), ([], .alloc (2 ^ 16) 8), ([], .free 5216 (2 ^ 16) 8),
        ([true], .free 70752 (2 ^ 16) 8), ([], .alloc (2 ^ 16) 8), ([], .alloc (2 ^ 16) 8)] =
      some ([.alloc (.ok 5216), .alloc (.ok 70752), .alloc (.ok 136288), .free (.ok ()), .free .badAlloc, .alloc (.ok 201824),
        .alloc (.ok 267392)], .ub, [⟨267392, 2 ^ 18, 16⟩, ⟨5216, 2 ^ 18, 16⟩]) := by
  refine ⟨?_, ?_, ?_, ?_⟩ <;> decide +kernel

/-- **C71** fails for arenas: a constructor that throws keeps the superblock. -/
theorem c71_arena_create :
    Arena.createF [true] strictBase .init 1100 10000 = (.badAlloc, ⟨5216, [⟨4096, 1100, 16⟩]⟩) ∧
    Arena.createF [false, true] strictBase .init 1100 10000 = (.badAlloc, ⟨5216, [⟨4096, 1100, 16⟩]⟩) := by
  refine ⟨?_, ?_⟩ <;> decide +kernel

end Vecmem.Props
