import Verif.Spec.World
import Verif.Model.Faults

/-!
# Specification: memory resources and failures of their bookkeeping

A resource `m : Faults → MR σ` is given for each call which of the operations that need memory for bookkeeping
fail.  `FaultReach` enumerates all histories of correct calls with any failures at any time.
-/

namespace Vecmem

/-- What a deallocation does for want of memory for bookkeeping: it never throws; it throws and leaves the block with
the client, who may try again; it throws although the block has been given back. -/
inductive OnFree where
  | quiet
  | keeps
  | drops
deriving DecidableEq, Repr

/-- `FaultReach R w m s0 s L k`: some history of correct client calls, with any failures, leads from `s0` to `s`
with the blocks `L` live; `k` is the number of failures so far.  After a deallocation that throws `bad_alloc`
the block still is the client's, unless `w` is `drops`. -/
inductive FaultReach {σ : Type} (R : Limits) (w : OnFree) (m : Faults → MR σ) (s0 : σ) :
    σ → List Blk → Nat → Prop
  | init : FaultReach R w m s0 s0 [] 0
  | alloc {s s' L k n a p} (f : Faults) : FaultReach R w m s0 s L k → IsReq R n a → 0 < n →
      (m f).allocate s n a = (.ok p, s') → FaultReach R w m s0 s' (⟨p, n, a⟩ :: L) (k + f.count true)
  | refuse {s s' L k n a} (f : Faults) : FaultReach R w m s0 s L k → IsReq R n a → 0 < n →
      (m f).allocate s n a = (.badAlloc, s') → FaultReach R w m s0 s' L (k + f.count true)
  | zero {s s' L k a r} (f : Faults) : FaultReach R w m s0 s L k → IsReq R 0 a →
      (m f).allocate s 0 a = (r, s') → FaultReach R w m s0 s' L (k + f.count true)
  | free {s s' L k b} (f : Faults) : FaultReach R w m s0 s (b :: L) k →
      (m f).deallocate s b.addr b.size b.align = (.ok (), s') → FaultReach R w m s0 s' L (k + f.count true)
  | throw {s s' L k b} (f : Faults) : FaultReach R w m s0 s (b :: L) k →
      (m f).deallocate s b.addr b.size b.align = (.badAlloc, s') →
      FaultReach R w m s0 s' (if w = .drops then L else b :: L) (k + f.count true)
  | freeNull {s s' L k n a r} (f : Faults) : FaultReach R w m s0 s L k →
      (m f).deallocate s 0 n a = (r, s') → FaultReach R w m s0 s' L (k + f.count true)
  | perm {s L L' k} : FaultReach R w m s0 s L k → L.Perm L' → FaultReach R w m s0 s L' k

/-- A kind of resource whose calls may fail for want of memory for bookkeeping.  Without failures it is the
kind `toKind`. -/
structure FaultyKind : Type 1 extends Kind where
  fmr : Faults → {σ : Type} → (ι → MR σ) → MR (τ × σ)

namespace FaultyKind

/-- `pool_memory_resource`; the functions are those of Model/Faults.
Code: `core/src/memory/pool_memory_resource.cpp`. -/
abbrev pool (dbg : Bool) (o : PoolOpts) : FaultyKind :=
  { Kind.pool dbg o with fmr := fun f _ up => Pool.mrF f dbg o (up ()) }

/-- `binary_page_memory_resource`; the functions are those of Model/Faults.
Code: `core/src/memory/binary_page_memory_resource.cpp`. -/
abbrev binaryPage (dbg : Bool) : FaultyKind :=
  { Kind.binaryPage dbg with fmr := fun f _ up => BinPage.mrF f dbg (up ()) }

/-- `arena_memory_resource`; the functions are those of Model/Faults.
Code: `core/src/memory/arena_memory_resource.cpp`. -/
abbrev arena (initial maximum : Nat) : FaultyKind :=
  { Kind.arena initial maximum with fmr := fun f _ up => Arena.mrF f (up ()) }

/-- `debug_memory_resource`; the functions are those of Model/Faults.
Code: `core/src/memory/debug_memory_resource.cpp`. -/
abbrev debug : FaultyKind :=
  { Kind.debug with
    fmr := fun f _ up => (debugMRF f (up ())).via (fun s => ⟨s.1, s.2⟩) (fun d => (d.allocations, d.up)) }

/-- `instrumenting_memory_resource`; the functions are those of Model/Faults.
Code: `core/src/memory/instrumenting_memory_resource.cpp`. -/
abbrev instrumenting {η : Type} (pre : List (η → Nat → Nat → η)) (post : List (η → Nat → Nat → Nat → η))
    (del : List (η → Nat → Nat → Nat → η)) (h : η) : FaultyKind :=
  { Kind.instrumenting pre post del h with
    fmr := fun f σ up => (instrumentingMRF f (liftFst (η := η) (up ()))).via
      (fun s => { events := s.1.1
                  preAlloc := pre.map fun g (w : σ × η) n a => (w.1, g w.2 n a)
                  postAlloc := post.map fun g (w : σ × η) n a p => (w.1, g w.2 n a p)
                  preDealloc := del.map fun g (w : σ × η) p n a => (w.1, g w.2 p n a)
                  world := (s.2, s.1.2) })
      (fun i => ((i.events, i.world.2), i.world.1)) }

/-- `choice_memory_resource`; the functions are those of Model/Faults.
Code: `core/src/memory/choice_memory_resource.cpp`. -/
abbrev choice {ι π : Type} (decision : π → Nat → Nat → ι × π) (q : π) : FaultyKind :=
  { Kind.choice decision q with
    fmr := fun f _ ups => (choiceMRF f decision ups).via (fun s => ⟨s.1.1, s.1.2, s.2⟩)
      (fun c => ((c.dec, c.allocations), c.up)) }

/-- `coalescing_memory_resource`; the functions are those of Model/Faults.
Code: `core/src/memory/coalescing_memory_resource.cpp`. -/
abbrev coalescing {ι : Type} (order : List ι) : FaultyKind :=
  { Kind.coalescing order with
    fmr := fun f _ ups => (coalescingMRF f order ups).via (fun s => ⟨s.1, s.2⟩)
      (fun c => (c.allocations, c.up)) }

/-- A resource that needs no memory for bookkeeping. -/
abbrev plain (K : Kind) : FaultyKind := { K with fmr := fun _ _ ups => K.mr ups }

end FaultyKind

/-- `Tolerates K P q w c`: a resource of kind `K` over upstreams used as `P` may be used as `q` whatever failures
there are.  `w` says what deallocations do; at most `c` blocks of the upstreams get lost per failure. -/
inductive Tolerates : (K : FaultyKind) → (K.ι → Port) → Port → OnFree → Nat → Prop
  | pool {R : Limits} {dbg : Bool} {o : PoolOpts} {p : Pool} : Pool.create o = .ok p → o.Sound dbg →
      o.alignment ≤ R.align → o.maxBytes ≤ R.size → R.align ≤ 2 ^ 61 →
      Tolerates (.pool dbg o) (fun _ => ⟨R, R.align, false⟩) ⟨R, R.align, false⟩ .keeps 1
  | binaryPage {R : Limits} {dbg : Bool} : PageLimits R →
      Tolerates (.binaryPage dbg) (fun _ => ⟨R, maxAlign, false⟩) ⟨R, maxAlign, false⟩ .quiet 0
  | debug {q : Port} : Tolerates .debug (fun _ => q) q .quiet 1
  | instrumenting {η : Type} {pre : List (η → Nat → Nat → η)} {post del : List (η → Nat → Nat → Nat → η)}
      {h : η} {q : Port} : Tolerates (.instrumenting pre post del h) (fun _ => q) q .drops 1
  | choice {ι π : Type} {decision : π → Nat → Nat → ι × π} {d : π} {R : Limits} {G : Nat} :
      Tolerates (.choice decision d) (fun _ => ⟨R, G, false⟩) ⟨R, G, false⟩ .quiet 1
  | coalescing {ι : Type} {order : List ι} {R : Limits} {G : Nat} :
      Tolerates (.coalescing order) (fun _ => ⟨R, G, false⟩) ⟨R, G, false⟩ .quiet 1
  | contiguous {R R' : Limits} {G size : Nat} : IsReq R size maxAlign → 0 < size →
      Tolerates (.plain (.contiguous size)) (fun _ => ⟨R, G, false⟩) ⟨R', R'.align, false⟩ .quiet 0
  | identity {q : Port} : Tolerates (.plain .identity) (fun _ => q) q .quiet 0
  | conditional {π : Type} {pred : π → Nat → Nat → Bool × π} {d : π} {q : Port} :
      Tolerates (.plain (.conditional pred d)) (fun _ => q) q .quiet 0

/-- A resource whose calls fail as the lists in its state say: each call uses up one list, and when there are none
left nothing fails any more. -/
def script {σ : Type} (m : Faults → MR σ) : MR (List Faults × σ) where
  allocate s n a := let r := (m (s.1.headD [])).allocate s.2 n a; (r.1, (s.1.tail, r.2))
  deallocate s p n a := let r := (m (s.1.headD [])).deallocate s.2 p n a; (r.1, (s.1.tail, r.2))

/-- A sequence of calls with their failures, and the answers. -/
def runF {σ : Type} (m : Faults → MR σ) : σ → List (Faults × Call) → List Answer × σ
  | s, [] => ([], s)
  | s, (f, c) :: cs => let r := (m f).call s c; let r' := runF m r.2 cs; (r.1 :: r'.1, r'.2)

end Vecmem
