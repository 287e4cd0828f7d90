import Verif.Spec.Stack

/-!
# Specification: programs with many memory resources

A program creates and destroys memory resources as it runs.  Each is built over base resources or over resources
that exist already; any number of them may share an upstream, and clients may go on using the upstream directly.
The resources are numbered in the order of their creation, so upstreams have smaller numbers.
-/

namespace Vecmem

/-! ## Kinds of resources -/

/-- A kind of memory resource over upstreams `ι`: constructor, calls and destructor.  `τ` is the data of the
resource itself. -/
structure Kind : Type 1 where
  ι : Type
  τ : Type
  create : {σ : Type} → (ι → MR σ) → σ → Res τ × σ
  mr : {σ : Type} → (ι → MR σ) → MR (τ × σ)
  destroy : {σ : Type} → (ι → MR σ) → τ → σ → Res Unit × σ

/-- The same resource, with its state written differently. -/
def MR.via {S S' : Type} (f : S' → S) (g : S → S') (m : MR S) : MR S' where
  allocate s n a := let r := m.allocate (f s) n a; (r.1, g r.2)
  deallocate s p n a := let r := m.deallocate (f s) p n a; (r.1, g r.2)

namespace Kind

/-- `pool_memory_resource` with options `o`, core/src/memory/pool_memory_resource.cpp:19-24, with the functions of
Model/Pool. -/
abbrev pool (dbg : Bool) (o : PoolOpts) : Kind where
  ι := Unit
  τ := Pool
  create := fun _ s => (Pool.create o, s)
  mr := fun up => Pool.mr dbg o (up ())
  destroy := fun up p s => Pool.destroy o (up ()) (p, s)

/-- `binary_page_memory_resource`, core/src/memory/binary_page_memory_resource.cpp:17-22, with the functions of
Model/BinaryPage. -/
abbrev binaryPage (dbg : Bool) : Kind where
  ι := Unit
  τ := List Superpage
  create := fun _ s => (.ok [], s)
  mr := fun up => BinPage.mr dbg (up ())
  destroy := fun up p s => BinPage.destroy (up ()) p s

/-- `arena_memory_resource`, core/src/memory/arena_memory_resource.cpp:17-23, with the functions of
Model/Arena. -/
abbrev arena (initial maximum : Nat) : Kind where
  ι := Unit
  τ := Arena
  create := fun up s => Arena.create (up ()) s initial maximum
  mr := fun up => Arena.mr (up ())
  destroy := fun up p s => Arena.destroy (up ()) (p, s)

/-- `contiguous_memory_resource`, core/src/memory/contiguous_memory_resource.cpp:17-22, with the functions of
Model/Contiguous. -/
abbrev contiguous (size : Nat) : Kind where
  ι := Unit
  τ := Contig
  create := fun up s => Contig.create (up ()) s size
  mr := fun _ => Contig.mr
  destroy := fun up p s => Contig.destroy (up ()) (p, s)

/-- `identity_memory_resource`, core/src/memory/identity_memory_resource.cpp:14-17, with the functions of
Model/Wrappers. -/
abbrev identity : Kind where
  ι := Unit
  τ := Unit
  create := fun _ s => (.ok (), s)
  mr := fun up => (identityMR (up ())).via (·.2) (fun s => ((), s))
  destroy := fun _ _ s => (.ok (), s)

/-- `debug_memory_resource`, core/src/memory/debug_memory_resource.cpp:17-20, with the functions of
Model/Wrappers. -/
abbrev debug : Kind where
  ι := Unit
  τ := List (Nat × (Nat × Nat))
  create := fun _ s => (.ok [], s)
  mr := fun up => (debugMR (up ())).via (fun s => ⟨s.1, s.2⟩) (fun d => (d.allocations, d.up))
  destroy := fun _ _ s => (.ok (), s)

/-- `conditional_memory_resource` with a predicate with state, core/src/memory/conditional_memory_resource.cpp:17-23, with the functions of
Model/Wrappers. -/
abbrev conditional {π : Type} (pred : π → Nat → Nat → Bool × π) (q : π) : Kind where
  ι := Unit
  τ := π
  create := fun _ s => (.ok q, s)
  mr := fun up => conditionalMR pred (up ())
  destroy := fun _ _ s => (.ok (), s)

/-- `instrumenting_memory_resource` with hooks that have a state of their own (such as a
`memory_monitor`), core/src/memory/instrumenting_memory_resource.cpp:23-52, with the functions of Model/Wrappers. -/
abbrev instrumenting {η : Type} (pre : List (η → Nat → Nat → η)) (post : List (η → Nat → Nat → Nat → η))
    (del : List (η → Nat → Nat → Nat → η)) (h : η) : Kind where
  ι := Unit
  τ := List MemEvent × η
  create := fun _ s => (.ok ([], h), s)
  mr := fun {σ} up => (instrumentingMR (liftFst (η := η) (up ()))).via
    (fun s => { events := s.1.1
                preAlloc := pre.map fun f (w : σ × η) n a => (w.1, f w.2 n a)
                postAlloc := post.map fun f (w : σ × η) n a p => (w.1, f w.2 n a p)
                preDealloc := del.map fun f (w : σ × η) p n a => (w.1, f w.2 p n a)
                world := (s.2, s.1.2) })
    (fun i => ((i.events, i.world.2), i.world.1))
  destroy := fun _ _ s => (.ok (), s)

/-- `choice_memory_resource` with a decision function with state, core/src/memory/choice_memory_resource.cpp:17-22, with the functions of
Model/Wrappers. -/
abbrev choice {ι π : Type} (decision : π → Nat → Nat → ι × π) (q : π) : Kind where
  ι := ι
  τ := π × List (Nat × ι)
  create := fun _ s => (.ok (q, []), s)
  mr := fun ups => (choiceMR decision ups).via (fun s => ⟨s.1.1, s.1.2, s.2⟩)
    (fun c => ((c.dec, c.allocations), c.up))
  destroy := fun _ _ s => (.ok (), s)

/-- `coalescing_memory_resource`, core/src/memory/coalescing_memory_resource.cpp:17-22, with the functions of
Model/Wrappers. -/
abbrev coalescing {ι : Type} (order : List ι) : Kind where
  ι := ι
  τ := List (Nat × ι)
  create := fun _ s => (.ok [], s)
  mr := fun ups => (coalescingMR order ups).via (fun s => ⟨s.1, s.2⟩) (fun c => (c.allocations, c.up))
  destroy := fun _ _ s => (.ok (), s)

/-- `terminal_memory_resource`, core/src/memory/terminal_memory_resource.cpp:17-21, with the functions of
Model/Wrappers. -/
abbrev terminal : Kind where
  ι := Empty
  τ := Unit
  create := fun _ s => (.ok (), s)
  mr := fun _ => terminalMR
  destroy := fun _ _ s => (.ok (), s)

end Kind

/-- What is asked of a resource and what it guarantees: requests are within the limits `R`, alignments up to `G`
are respected, and, if `gap` is set, none of its live blocks ends where another one begins. -/
structure Port where
  R : Limits
  G : Nat
  gap : Bool := false

/-- `p.Within q`: less is asked and less is relied upon than with `q`. -/
structure Port.Within (p q : Port) : Prop where
  align : p.R.align ≤ q.R.align
  size : p.R.size ≤ q.R.size
  guar : p.G ≤ q.G
  gap : p.gap = true → q.gap = true

/-- `Works K P Q`: a resource of kind `K` over upstreams used as `P` may be used as `Q`.  The conditions are those
of the properties of the single resources. -/
inductive Works : (K : Kind) → (K.ι → Port) → Port → Prop
  | pool {R : Limits} {dbg : Bool} {o : PoolOpts} {p : Pool} : Pool.create o = .ok p → o.Sound dbg →
      o.alignment ≤ R.align → o.maxBytes ≤ R.size → R.align ≤ 2 ^ 61 →
      Works (.pool dbg o) (fun _ => ⟨R, R.align, false⟩) ⟨R, R.align, false⟩
  | binaryPage {R : Limits} {dbg : Bool} : PageLimits R →
      Works (.binaryPage dbg) (fun _ => ⟨R, maxAlign, false⟩) ⟨R, maxAlign, false⟩
  /-- with the restrictions of C10 and C12 -/
  | arena {R R' : Limits} {initial maximum : Nat} : maxAlign ≤ R.align → 0 < initial → initial ≤ R.size →
      initial < 2 ^ 64 → 2 ^ 18 ≤ R.size → arenaBytes R'.size ≤ max initial (2 ^ 18) → initial % 256 ≠ 0 →
      Works (.arena initial maximum) (fun _ => ⟨R, maxAlign, true⟩) ⟨R', maxAlign, false⟩
  | contiguous {R R' : Limits} {G size : Nat} : IsReq R size maxAlign → 0 < size →
      Works (.contiguous size) (fun _ => ⟨R, G, false⟩) ⟨R', R'.align, false⟩
  | identity {q : Port} : Works .identity (fun _ => q) q
  | debug {q : Port} : Works .debug (fun _ => q) q
  | conditional {π : Type} {pred : π → Nat → Nat → Bool × π} {d : π} {q : Port} :
      Works (.conditional pred d) (fun _ => q) q
  | instrumenting {η : Type} {pre : List (η → Nat → Nat → η)} {post del : List (η → Nat → Nat → Nat → η)}
      {h : η} {q : Port} : Works (.instrumenting pre post del h) (fun _ => q) q
  | choice {ι π : Type} {decision : π → Nat → Nat → ι × π} {d : π} {R : Limits} {G : Nat} :
      Works (.choice decision d) (fun _ => ⟨R, G, false⟩) ⟨R, G, false⟩
  | coalescing {ι : Type} {order : List ι} {R : Limits} {G : Nat} :
      Works (.coalescing order) (fun _ => ⟨R, G, false⟩) ⟨R, G, false⟩
  | terminal {P : Empty → Port} {q : Port} : Works .terminal P q
  /-- upstreams may offer more, and clients ask for less -/
  | weaken {K : Kind} {P P' : K.ι → Port} {q q' : Port} : Works K P q → (∀ i, (P i).Within (P' i)) →
      q'.Within q → Works K P' q'

/-! ## Programs -/

/-- The resource number `k`: its kind, and its upstreams among the base resources and the resources with
smaller numbers. -/
structure Decl (β : Type) (k : Nat) : Type 1 where
  kind : Kind
  up : kind.ι → β ⊕ Fin k

/-- The state of all resources: that of the base resources, and the data of those created and not yet
destroyed. -/
structure WState (σ : Type) (τ : Nat → Type) where
  base : σ
  loc : (k : Nat) → Option (τ k)

/-- Put in or remove the data of a resource. -/
def setLoc {τ : Nat → Type} (f : (k : Nat) → Option (τ k)) (k : Nat) (x : Option (τ k)) :
    (k : Nat) → Option (τ k) :=
  fun j => if h : j = k then h ▸ x else f j

/-- The same, in a state. -/
def WState.set {σ : Type} {τ : Nat → Type} (w : WState σ τ) (k : Nat) (x : Option (τ k)) : WState σ τ where
  base := w.base
  loc := setLoc w.loc k x

/-- A base resource, in the presence of the others. -/
def onBase {σ : Type} {τ : Nat → Type} (m : MR σ) : MR (WState σ τ) where
  allocate w n a := let r := m.allocate w.base n a; (r.1, ⟨r.2, w.loc⟩)
  deallocate w p n a := let r := m.deallocate w.base p n a; (r.1, ⟨r.2, w.loc⟩)

/-- Resource number `k`, in the presence of the others.  Using a resource that does not exist is
undefined. -/
def onSlot {σ : Type} {τ : Nat → Type} (k : Nat) (m : MR (τ k × WState σ τ)) : MR (WState σ τ) where
  allocate w n a :=
    match w.loc k with
    | none => (.ub, w)
    | some t => let r := m.allocate (t, w) n a; (r.1, r.2.2.set k (some r.2.1))
  deallocate w p n a :=
    match w.loc k with
    | none => (.ub, w)
    | some t => let r := m.deallocate (t, w) p n a; (r.1, r.2.2.set k (some r.2.1))

section

variable {β σ : Type} (bases : β → MR σ) (g : (k : Nat) → Decl β k)

/-- The state of a program with the resources `g`. -/
abbrev World (σ : Type) {β : Type} (g : (k : Nat) → Decl β k) : Type := WState σ (fun k => (g k).kind.τ)

/-- Resource number `k` of a program, calling its upstreams.  The recursion is over a bound `n` of the depth
of the upstreams, whose numbers decrease. -/
def nodeMR' : (n k : Nat) → MR (World σ g)
  | 0, _ => ⟨fun w _ _ => (.ub, w), fun w _ _ _ => (.ub, w)⟩
  | n + 1, k => onSlot k ((g k).kind.mr fun i =>
    match (g k).up i with
    | .inl b => onBase (bases b)
    | .inr j => nodeMR' n j.val)

/-- The same; `k + 1` is deep enough. -/
def nodeMR (k : Nat) : MR (World σ g) := nodeMR' bases g (k + 1) k

/-- Each of the resources of a program. -/
def worldMR : β ⊕ Nat → MR (World σ g)
  | .inl b => onBase (bases b)
  | .inr k => nodeMR bases g k

/-- The `i`-th upstream of resource `k`. -/
def Decl.ref {k : Nat} (d : Decl β k) (i : d.kind.ι) : β ⊕ Nat := (d.up i).map id Fin.val

/-- The upstreams of resource `k`. -/
def upstreams (k : Nat) (i : (g k).kind.ι) : MR (World σ g) := worldMR bases g ((g k).ref i)

/-- Create resource `k`. -/
def createAt (k : Nat) (w : World σ g) : Res Unit × World σ g :=
  match (g k).kind.create (upstreams bases g k) w with
  | (.ok t, w') => (.ok (), w'.set k (some t))
  | (e, w') => (e.map fun _ => (), w')

/-- Destroy resource `k`. -/
def destroyAt (k : Nat) (w : World σ g) : Res Unit × World σ g :=
  match w.loc k with
  | none => (.ub, w)
  | some t => let r := (g k).kind.destroy (upstreams bases g k) t w; (r.1, r.2.set k none)

/-- The resource exists. -/
def Exists {g : (k : Nat) → Decl β k} (w : World σ g) : β ⊕ Nat → Prop
  | .inl _ => True
  | .inr k => (w.loc k).isSome = true

/-- `ProgReach bases g P s0 w T`: some run of a correct program leads from the base state `s0` to `w` with the blocks
`T` live, each with the resource it was obtained from.  A correct program creates a resource only over existing
ones, makes correct calls to existing resources, within the limits of `P`, and destroys a resource only when no
block of it is live and no other resource is built over it. -/
inductive ProgReach (P : β ⊕ Nat → Port) (s0 : σ) : World σ g → List ((β ⊕ Nat) × Blk) → Prop
  | init : ProgReach P s0 ⟨s0, fun _ => none⟩ []
  | create {w w' T r} (k : Nat) : ProgReach P s0 w T → w.loc k = none → (∀ i, Exists w ((g k).ref i)) →
      createAt bases g k w = (r, w') → ProgReach P s0 w' T
  | destroy {w w' T r} (k : Nat) : ProgReach P s0 w T → (w.loc k).isSome = true →
      (∀ j, (w.loc j).isSome = true → ∀ i, (g j).ref i ≠ .inr k) → (∀ b, (.inr k, b) ∉ T) →
      destroyAt bases g k w = (r, w') → ProgReach P s0 w' T
  | alloc {w w' T n a p} (x : β ⊕ Nat) : ProgReach P s0 w T → Exists w x → IsReq (P x).R n a → 0 < n →
      (worldMR bases g x).allocate w n a = (.ok p, w') → ProgReach P s0 w' ((x, ⟨p, n, a⟩) :: T)
  | refuse {w w' T n a} (x : β ⊕ Nat) : ProgReach P s0 w T → Exists w x → IsReq (P x).R n a → 0 < n →
      (worldMR bases g x).allocate w n a = (.badAlloc, w') → ProgReach P s0 w' T
  | zero {w w' T a r} (x : β ⊕ Nat) : ProgReach P s0 w T → Exists w x → IsReq (P x).R 0 a →
      (worldMR bases g x).allocate w 0 a = (r, w') → ProgReach P s0 w' T
  | free {w w' T b} {x : β ⊕ Nat} : ProgReach P s0 w ((x, b) :: T) →
      (worldMR bases g x).deallocate w b.addr b.size b.align = (.ok (), w') → ProgReach P s0 w' T
  | freeNull {w w' T n a r} (x : β ⊕ Nat) : ProgReach P s0 w T → Exists w x →
      (worldMR bases g x).deallocate w 0 n a = (r, w') → ProgReach P s0 w' T
  | perm {w T T'} : ProgReach P s0 w T → T.Perm T' → ProgReach P s0 w T'

/-- The base resources are well-behaved for the limits `R`, guarantee alignments up to `G`, and those with
`P.gap` leave gaps between their live blocks. -/
structure GoodBases (R : Limits) (G : Nat) (P : β → Port) (s0 : σ) : Prop where
  lawful : FamLawful R G bases s0
  limits : ∀ i, (P i).R = R ∧ (P i).G = G
  gapped : ∀ i, (P i).gap = true → ∀ s T n a p s', FReach R bases s0 s T → IsReq R n a → 0 < n →
    (bases i).allocate s n a = (.ok p, s') → ∀ b, (i, b) ∈ T → b.addr + b.size ≠ p ∧ p + n ≠ b.addr

end

end Vecmem
