import Verif.Spec.Arena
import Verif.Spec.BinaryPage
import Verif.Spec.Family
import Verif.Spec.PoolOptions
import Verif.Spec.CLibrary
import Verif.Model.Arena
import Verif.Model.BinaryPage
import Verif.Model.Wrappers
import Verif.Model.Monitor
import Verif.Model.Host

/-!
# Specification: stacks of memory resources

`Stack R G m s`: the resource `m` in state `s` is a finite stack of vecmem resources over base resources that
are well-behaved; `R` limits the requests made to it, `G` is the alignment it guarantees.
-/

namespace Vecmem

/-- The hooks of an instrumenting resource do not touch upstream. -/
def Instr.HooksDetached {σ η : Type} (s : Instr (σ × η)) : Prop :=
  (∀ f ∈ s.preAlloc, ∀ w n a, (f w n a).1 = w.1) ∧
  (∀ f ∈ s.postAlloc, ∀ w n a p, (f w n a p).1 = w.1) ∧
  (∀ f ∈ s.preDealloc, ∀ w p n a, (f w p n a).1 = w.1)

/-- Two resources with memories of their own. -/
def pairFam {σ τ : Type} (m : MR σ) (m' : MR τ) : Bool → MR (σ × τ)
  | false =>
    { allocate := fun s n a => let r := m.allocate s.1 n a; (r.1, (r.2, s.2))
      deallocate := fun s p n a => let r := m.deallocate s.1 p n a; (r.1, (r.2, s.2)) }
  | true =>
    { allocate := fun s n a => let r := m'.allocate s.2 n a; (r.1, (s.1, r.2))
      deallocate := fun s p n a => let r := m'.deallocate s.2 p n a; (r.1, (s.1, r.2)) }

/-- Blocks of one resource never overlap blocks of the other. -/
def SeparateMemories {σ τ : Type} (R : Limits) (m : MR σ) (s0 : σ) (m' : MR τ) (t0 : τ) : Prop :=
  ∀ s L t K, Reach R m s0 s L → Reach R m' t0 t K → ∀ b ∈ L, ∀ c ∈ K, b.Disjoint c

mutual

/-- Stacks; see above. -/
inductive Stack : Limits → Nat → {σ : Type} → MR σ → σ → Prop
  /-- any well-behaved resource -/
  | base {R G} {σ : Type} {m : MR σ} {s : σ} : Lawful R G m s → Stack R G m s
  /-- the host resource over a C library -/
  | hostMalloc {R : Limits} {G} {σ : Type} {c : CLib σ} {s : σ} (mem : Mem) :
      c.Good s → R.size + R.align + 7 < 2 ^ 64 → Stack R G (hostMallocMR c) (s, mem)
  | hostAligned {R : Limits} {G} {σ : Type} {c : CLib σ} {s : σ} :
      c.Good s → R.size + max R.align 16 < 2 ^ 64 → Stack R G (hostAlignedMR c) s
  /-- other clients have made correct calls before -/
  | used {R G} {σ : Type} {m : MR σ} {s s' : σ} {U : List Blk} :
      Stack R G m s → Reach R m s s' U → Stack R G m s'
  /-- consider fewer requests, rely on less alignment -/
  | weaken {R R' : Limits} {G G'} {σ : Type} {m : MR σ} {s : σ} :
      Stack R G m s → R'.align ≤ R.align → R'.size ≤ R.size → G' ≤ G → Stack R' G' m s
  | identity {R G} {σ : Type} {m : MR σ} {s : σ} : Stack R G m s → Stack R G (identityMR m) s
  | debug {R G} {σ : Type} {m : MR σ} {s : σ} : Stack R G m s → Stack R G (debugMR m) ⟨[], s⟩
  | conditional {R G} {σ π : Type} {m : MR σ} {s : σ} (pred : π → Nat → Nat → Bool × π) (q : π) :
      Stack R G m s → Stack R G (conditionalMR pred m) (q, s)
  | instrumenting {R G} {σ η : Type} {m : MR σ} {s : σ} (i : Instr (σ × η)) :
      Stack R G m s → i.HooksDetached → i.world.1 = s → Stack R G (instrumentingMR (liftFst m)) i
  | contiguous {R R' : Limits} {G} {σ : Type} {m : MR σ} {s s' : σ} {size : Nat} {c : Contig} :
      Stack R G m s → IsReq R size maxAlign → Contig.create m s size = (.ok c, s') →
      Stack R' R'.align Contig.mr (c, s')
  | pool {R : Limits} {σ : Type} {m : MR σ} {s : σ} (dbg : Bool) (o : PoolOpts) (p : Pool) :
      Stack R R.align m s → Pool.create o = .ok p → o.Sound dbg → o.alignment ≤ R.align →
      o.maxBytes ≤ R.size → R.align ≤ 2 ^ 61 → Stack R R.align (Pool.mr dbg o m) (p, s)
  | binaryPage {R : Limits} {G} {σ : Type} {m : MR σ} {s : σ} (dbg : Bool) :
      Stack R G m s → maxAlign ≤ G → PageLimits R → Stack R maxAlign (BinPage.mr dbg m) ([], s)
  /-- with the restrictions of C10 and C12 -/
  | arena {R R' : Limits} {G} {σ : Type} {m : MR σ} {s s' : σ} {initial maximum : Nat} {A : Arena} :
      Stack R G m s → Gapped R m s → maxAlign ≤ G → maxAlign ≤ R.align →
      0 < initial → initial ≤ R.size → initial < 2 ^ 64 → 2 ^ 18 ≤ R.size →
      arenaBytes R'.size ≤ max initial (2 ^ 18) → initial % 256 ≠ 0 →
      Arena.create m s initial maximum = (.ok A, s') → Stack R' maxAlign (Arena.mr m) (A, s')
  | choice {R G} {σ ι π : Type} {ups : ι → MR σ} {s : σ} (decision : π → Nat → Nat → ι × π) (d : π) :
      FamStack R G ups s → Stack R G (choiceMR decision ups) ⟨d, [], s⟩
  | coalescing {R G} {σ ι : Type} {ups : ι → MR σ} {s : σ} (order : List ι) :
      FamStack R G ups s → Stack R G (coalescingMR order ups) ⟨[], s⟩
  | terminal {R G} {σ : Type} {s : σ} : Stack R G (terminalMR (σ := σ)) s

/-- Families of stacks, used as the upstreams of choice and coalescing resources. -/
inductive FamStack : Limits → Nat → {ι σ : Type} → (ι → MR σ) → σ → Prop
  /-- any well-behaved family -/
  | base {R G} {ι σ : Type} {ups : ι → MR σ} {s : σ} : FamLawful R G ups s → FamStack R G ups s
  /-- several references to one resource -/
  | same {R G} (ι : Type) {σ : Type} {m : MR σ} {s : σ} : Stack R G m s →
      FamStack R G (fun _ : ι => m) s
  /-- two stacks with separate memories -/
  | pair {R G} {σ τ : Type} {m : MR σ} {s : σ} {m' : MR τ} {t : τ} : Stack R G m s → Stack R G m' t →
      SeparateMemories R m s m' t → FamStack R G (pairFam m m') (s, t)
  /-- some of a family, in any order -/
  | select {R G} {ι κ σ : Type} {ups : ι → MR σ} {s : σ} (f : κ → ι) : FamStack R G ups s →
      FamStack R G (fun k => ups (f k)) s

end

end Vecmem
