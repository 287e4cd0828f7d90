import Verif.Lemmas.Family
import Verif.Props.C01_C02_Contiguous
import Verif.Props.C03_C06_Pool
import Verif.Props.C07_C09_BinaryPage
import Verif.Props.C10_C12_Arena
import Verif.Props.C13_Debug
import Verif.Props.C14_C15_Routing
import Verif.Props.C16_C17_Forwarding
import Verif.Props.C18_Instrumenting
import Verif.Props.C22_Host

/-!
# C25 — stacks of memory resources
-/

namespace Vecmem.Props

open Vecmem

mutual

theorem stack_lawful : ∀ {R : Limits} {G : Nat} {σ : Type} {m : MR σ} {s : σ}, Stack R G m s → Lawful R G m s
  | _, _, _, _, _, .base h => h
  | R, G, _, _, _, .hostMalloc mem h hR => hostMalloc_lawful hR h mem G
  | R, G, _, _, _, .hostAligned h hR => (hostAligned_main hR h G).1
  | _, _, _, _, _, .used h hr => (stack_lawful h).restart hr
  | _, _, _, _, _, .weaken h h1 h2 h3 => (stack_lawful h).mono ⟨h1, h2⟩ h3
  | _, _, _, _, _, .identity h => c17_identity_lawful _ _ (stack_lawful h)
  | _, _, _, _, _, .debug h => c13_debug_lawful _ _ (stack_lawful h)
  | _, _, _, _, _, .conditional pred q h => c16_conditional_lawful pred _ q _ (stack_lawful h)
  | _, _, _, _, _, .instrumenting i h hd hu =>
    (c18_instrumenting_lawful _ _ (stack_lawful h) i ⟨hd.1, hd.2.1, hd.2.2⟩ hu).1
  | _, _, _, _, _, .contiguous h hq hc =>
    c01_contiguous_lawful _ _ _ _ _ _ _ [] (stack_lawful h) .init _ hq _ hc
  | _, _, _, _, _, .pool dbg o p h hc ho h1 h2 h3 =>
    (c03_pool dbg o p hc ho _ _ _ _ [] (stack_lawful h) .init h1 h2 h3).1
  | _, _, _, _, _, .binaryPage dbg h hG hR => (c07_binary_page dbg _ _ _ _ _ [] (stack_lawful h) hG .init hR).1
  | _, _, _, _, _, .arena h hg h1 h2 h3 h4 h5 h6 h7 h8 hc =>
    c10_arena_lawful_partial _ _ _ _ _ _ _ [] _ _ ⟨stack_lawful h, .init, hg, ⟨h1, h2⟩, ⟨h3, h4, h5, h6⟩, h7⟩ h8 _ hc
  | _, _, _, _, _, .choice decision d h => c14_choice_lawful decision _ _ d (famStack_lawful h)
  | _, _, _, _, _, .coalescing order h => c15_coalescing_lawful order _ _ (famStack_lawful h)
  | _, _, _, _, _, .terminal => c17_terminal_lawful _

theorem famStack_lawful : ∀ {R : Limits} {G : Nat} {ι σ : Type} {ups : ι → MR σ} {s : σ},
    FamStack R G ups s → FamLawful R G ups s
  | _, _, _, _, _, _, .base h => h
  | _, _, _, _, _, _, .same _ h => .same (stack_lawful h)
  | _, _, _, _, _, _, .pair h h' hs => .pair (stack_lawful h) (stack_lawful h') hs
  | _, _, _, _, _, _, .select f h => .select f (famStack_lawful h)

end

/-- **C25.**  Every finite stack of vecmem resources over well-behaved base resources is well-behaved; spelled
out: after every history of correct calls, the live blocks are pairwise disjoint, not null, inside the address
space and aligned, every request is answered well or refused, and no correct call is undefined. -/
theorem c25_stacks {R : Limits} {G : Nat} {σ : Type} {m : MR σ} {s0 : σ} (h : Stack R G m s0) :
    Lawful R G m s0 ∧
    ∀ s L, Reach R m s0 s L →
      L.Pairwise Blk.Disjoint ∧
      (∀ b ∈ L, b.addr ≠ 0 ∧ b.addr + b.size ≤ 2 ^ 64 ∧ (b.align ≤ G → b.align ∣ b.addr)) ∧
      (∀ n a, IsReq R n a → 0 < n → GoodAnswer G L n a (m.allocate s n a).1) ∧
      (∀ b ∈ L, (m.deallocate s b.addr b.size b.align).1 = .ok ()) := by
  have hl := stack_lawful h
  refine ⟨hl, fun s L hr => ⟨(hl.live hr).2, ?_, fun n a hq hn => hl.alloc hr hq hn, fun b hb => hl.dealloc hr hb⟩⟩
  intro b hb
  have := (hl.live hr).1 b hb
  exact ⟨this.1, this.2.1, this.2.2.1⟩

/-! ### A stack -/

/-- Its two contiguous resources, over the host resource and over other memory. -/
def stackC1 : Contig := ⟨2 ^ 30, 4112, 4112⟩
def stackC2 : Contig := ⟨2 ^ 40, 2 ^ 50, 2 ^ 50⟩

/-- A pool of default options and a binary page resource. -/
abbrev stackPool : MR (Pool × (Contig × (Nat × Mem))) := Pool.mr true {} Contig.mr
abbrev stackPages : MR (List Superpage × (Contig × (Contig × Unit))) := BinPage.mr true Contig.mr

theorem stack_separate (p : Pool) (hp : Pool.create {} = .ok p) (u1 : Nat × Mem) (u2 : Contig × Unit) :
    SeparateMemories ⟨16, 2 ^ 62⟩ stackPool (p, (stackC1, u1)) stackPages ([], (stackC2, u2)) := by
  intro s L t K hs ht b hb c hc
  have l1 := Contig.lawful_inv ⟨16, 2 ^ 62⟩ u1 (c := stackC1) rfl (by decide) (by decide) (by decide)
  have l2 := Contig.lawful_inv ⟨16, 2 ^ 62⟩ u2 (c := stackC2) rfl (by decide) (by decide) (by decide)
  obtain ⟨H, h1, h2, _⟩ := (c03_pool true {} p hp (pool_default_sound true) _ _ _ _ [] l1.1 .init (by decide)
    (by decide) (by decide)).2 s L hs
  obtain ⟨H', h1', h2', _⟩ := (c07_binary_page true _ _ _ _ 16 [] l2.1 (by decide) .init
    ⟨by decide, 62, rfl, by decide, by decide⟩).2 t K ht
  obtain ⟨d, hd, hbd⟩ := h2 b hb
  obtain ⟨e, he, hce⟩ := h2' c hc
  have i1 := l1.2 _ _ h1
  have i2 := l2.2 _ _ h1'
  have j1 := i1.2 d (List.mem_append_left _ hd)
  have j2 := i2.2 e (List.mem_append_left _ he)
  have k1 := i1.1.2.2.2
  unfold Blk.Inside at hbd hce
  left
  omega

/-- A debug resource over a coalescing resource over a pool and a binary page resource with separate
memories, both over contiguous resources, the first of them over the host resource. -/
example (u1 : Nat × Mem) (u2 : Contig × Unit) (p : Pool)
    (h1 : Contig.create (hostMallocMR demoLib) (4096, fun _ => 0) (2 ^ 30) = (.ok stackC1, u1))
    (h2 : Contig.create demoBase ⟨⟨2 ^ 62, 2 ^ 50, 2 ^ 50⟩, ()⟩ (2 ^ 40) = (.ok stackC2, u2))
    (hp : Pool.create {} = .ok p) :
    Stack ⟨16, 2 ^ 62⟩ 16 (debugMR (coalescingMR [false, true] (pairFam stackPool stackPages)))
      ⟨[], ⟨[], ((p, (stackC1, u1)), ([], (stackC2, u2)))⟩⟩ := by
  refine .debug (.coalescing _ (.pair ?_ ?_ (stack_separate p hp u1 u2)))
  · refine .pool true {} p ?_ hp (pool_default_sound true) (by decide) (by decide) (by decide)
    exact .contiguous (R := ⟨16, 2 ^ 62⟩) (G := 16) (.hostMalloc _ demoLib_good (by decide)) ⟨by decide, by decide, 4, rfl⟩ h1
  · refine .binaryPage (G := 16) true ?_ (by decide) ⟨by decide, 62, rfl, by decide, by decide⟩
    exact .contiguous (R := ⟨16, 2 ^ 62⟩) (G := 16)
      (.base (Contig.lawful _ () rfl (by decide) (by decide) (by decide))) ⟨by decide, by decide, 4, rfl⟩ h2

/-- And the creations of these resources succeed. -/
example :
    (Contig.create (hostMallocMR demoLib) (4096, fun _ => 0) (2 ^ 30)).1 = .ok stackC1 ∧
    (Contig.create demoBase ⟨⟨2 ^ 62, 2 ^ 50, 2 ^ 50⟩, ()⟩ (2 ^ 40)).1 = .ok stackC2 ∧
    (match Pool.create {} with | .ok _ => true | _ => false) = true := by
  refine ⟨by decide +kernel, by decide +kernel, by decide +kernel⟩

end Vecmem.Props
