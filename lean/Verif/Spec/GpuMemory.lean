import Verif.Spec.Family
import Verif.Spec.CLibrary
import Verif.Spec.World

/-!
# Specification: memory functions of the GPU runtimes

What the memory resources for GPUs use, and what the documentation of the runtimes says about it.
-/

namespace Vecmem

/-- The CUDA or HIP runtime, acting on a state: `cudaGetDevice` and `cudaSetDevice`; `cudaMalloc`, `cudaMallocHost` and
`cudaMallocManaged`, with the address of the memory (`none`: an error); `cudaFree` and `cudaFreeHost` (`false`: an error). -/
structure GpuLib (σ : Type) where
  getDevice : σ → Option Int × σ
  setDevice : σ → Int → Bool × σ
  malloc : σ → Nat → Option Nat × σ
  mallocHost : σ → Nat → Option Nat × σ
  mallocManaged : σ → Nat → Option Nat × σ
  free : σ → Nat → Bool × σ
  freeHost : σ → Nat → Bool × σ

/-- The kinds of memory of CUDA and HIP: memory of a device, page-locked host memory, managed memory. -/
inductive GpuRes where
  | device (d : Int)
  | host
  | managed
deriving DecidableEq, Repr

/-- An allocated block and its kind of memory. -/
abbrev GBlk := GpuRes × CBlk

/-- States of the runtime reachable by correct use, with the blocks that are allocated.  `cudaMalloc` gives memory of the
current device; host memory is freed with `cudaFreeHost`, and other memory with `cudaFree`. -/
inductive GpuLib.Reach {σ : Type} (g : GpuLib σ) (s0 : σ) : σ → List GBlk → Prop
  | init : GpuLib.Reach g s0 s0 []
  | getDevice {s C} : GpuLib.Reach g s0 s C → GpuLib.Reach g s0 (g.getDevice s).2 C
  | setDevice {s C d} : GpuLib.Reach g s0 s C → GpuLib.Reach g s0 (g.setDevice s d).2 C
  | malloc {s s' C n p d} : GpuLib.Reach g s0 s C → 0 < n → n < 2 ^ 64 → (g.getDevice s).1 = some d →
      g.malloc s n = (some p, s') → GpuLib.Reach g s0 s' ((.device d, ⟨p, n⟩) :: C)
  | mallocFail {s s' C n} : GpuLib.Reach g s0 s C → 0 < n → n < 2 ^ 64 → g.malloc s n = (none, s') →
      GpuLib.Reach g s0 s' C
  | mallocHost {s s' C n p} : GpuLib.Reach g s0 s C → 0 < n → n < 2 ^ 64 → g.mallocHost s n = (some p, s') →
      GpuLib.Reach g s0 s' ((.host, ⟨p, n⟩) :: C)
  | mallocHostFail {s s' C n} : GpuLib.Reach g s0 s C → 0 < n → n < 2 ^ 64 → g.mallocHost s n = (none, s') →
      GpuLib.Reach g s0 s' C
  | mallocManaged {s s' C n p} : GpuLib.Reach g s0 s C → 0 < n → n < 2 ^ 64 → g.mallocManaged s n = (some p, s') →
      GpuLib.Reach g s0 s' ((.managed, ⟨p, n⟩) :: C)
  | mallocManagedFail {s s' C n} : GpuLib.Reach g s0 s C → 0 < n → n < 2 ^ 64 → g.mallocManaged s n = (none, s') →
      GpuLib.Reach g s0 s' C
  | free {s k b C} : GpuLib.Reach g s0 s ((k, b) :: C) → k ≠ .host → GpuLib.Reach g s0 (g.free s b.addr).2 C
  | freeHost {s b C} : GpuLib.Reach g s0 s ((.host, b) :: C) → GpuLib.Reach g s0 (g.freeHost s b.addr).2 C
  | perm {s C C'} : GpuLib.Reach g s0 s C → C.Perm C' → GpuLib.Reach g s0 s C'

/-- A block `p, n` just obtained while the blocks `C` are allocated, whatever their kind (the runtimes have one address space
for all devices and the host): not null, inside the address space, aligned to `A` bytes, disjoint from all of them. -/
def GpuLib.Fresh (A : Nat) (C : List GBlk) (p n : Nat) : Prop :=
  p ≠ 0 ∧ p + n ≤ 2 ^ 64 ∧ A ∣ p ∧ ∀ b ∈ C, p + n ≤ b.2.addr ∨ b.2.addr + b.2.size ≤ p

/-- What the runtimes promise.  Memory is fresh, and aligned to `A` bytes (256 for `cudaMalloc`); what is allocated can be
freed by the right function; the current device can be asked for, existing devices, among them the current one, can be
selected, and the device selected last is the current one.  Allocations may fail at any time. -/
structure GpuLib.Good {σ : Type} (g : GpuLib σ) (s0 : σ) (A : Nat) (Dev : Int → Prop) : Prop where
  malloc : ∀ {s C n p}, GpuLib.Reach g s0 s C → 0 < n → n < 2 ^ 64 → (g.malloc s n).1 = some p → GpuLib.Fresh A C p n
  mallocHost : ∀ {s C n p}, GpuLib.Reach g s0 s C → 0 < n → n < 2 ^ 64 → (g.mallocHost s n).1 = some p →
    GpuLib.Fresh A C p n
  mallocManaged : ∀ {s C n p}, GpuLib.Reach g s0 s C → 0 < n → n < 2 ^ 64 → (g.mallocManaged s n).1 = some p →
    GpuLib.Fresh A C p n
  free : ∀ {s C k b}, GpuLib.Reach g s0 s C → (k, b) ∈ C → k ≠ .host → (g.free s b.addr).1 = true
  freeHost : ∀ {s C b}, GpuLib.Reach g s0 s C → (.host, b) ∈ C → (g.freeHost s b.addr).1 = true
  getDevice : ∀ {s C}, GpuLib.Reach g s0 s C → ∃ d, (g.getDevice s).1 = some d ∧ Dev d
  setDevice : ∀ {s C d}, GpuLib.Reach g s0 s C → Dev d → (g.setDevice s d).1 = true
  selected : ∀ {s C d}, GpuLib.Reach g s0 s C → (g.setDevice s d).1 = true →
    (g.getDevice (g.setDevice s d).2).1 = some d
  keepGet : ∀ {s C}, GpuLib.Reach g s0 s C → (g.getDevice (g.getDevice s).2).1 = (g.getDevice s).1
  keepMalloc : ∀ {s C n}, GpuLib.Reach g s0 s C → (g.getDevice (g.malloc s n).2).1 = (g.getDevice s).1
  keepMallocHost : ∀ {s C n}, GpuLib.Reach g s0 s C → (g.getDevice (g.mallocHost s n).2).1 = (g.getDevice s).1
  keepMallocManaged : ∀ {s C n}, GpuLib.Reach g s0 s C → (g.getDevice (g.mallocManaged s n).2).1 = (g.getDevice s).1
  keepFree : ∀ {s C p}, GpuLib.Reach g s0 s C → (g.getDevice (g.free s p).2).1 = (g.getDevice s).1
  keepFreeHost : ∀ {s C p}, GpuLib.Reach g s0 s C → (g.getDevice (g.freeHost s p).2).1 = (g.getDevice s).1

/-- A kind of SYCL memory. -/
inductive SyclMem where
  | device | host | shared
deriving DecidableEq, Repr

/-- The SYCL runtime: `aligned_alloc_device`, `aligned_alloc_host` and `aligned_alloc_shared` with an alignment, a size and
a queue (null is address 0), and `sycl::free` with a pointer and a queue. -/
structure SyclLib (σ : Type) where
  alloc : SyclMem → σ → Nat → Nat → Nat → Nat × σ
  free : σ → Nat → Nat → Res Unit × σ

/-- States of the SYCL runtime reachable by correct use, with the blocks that are allocated, their kinds and queues. -/
inductive SyclLib.Reach {σ : Type} (g : SyclLib σ) (s0 : σ) : σ → List ((SyclMem × Nat) × CBlk) → Prop
  | init : SyclLib.Reach g s0 s0 []
  | alloc {s s' C k a n q p} : SyclLib.Reach g s0 s C → (∃ i, a = 2 ^ i) → 0 < n → n < 2 ^ 64 →
      g.alloc k s a n q = (p, s') → p ≠ 0 → SyclLib.Reach g s0 s' (((k, q), ⟨p, n⟩) :: C)
  | allocFail {s s' C k a n q} : SyclLib.Reach g s0 s C → (∃ i, a = 2 ^ i) → 0 < n → n < 2 ^ 64 →
      g.alloc k s a n q = (0, s') → SyclLib.Reach g s0 s' C
  | free {s s' k q b C} : SyclLib.Reach g s0 s (((k, q), b) :: C) → g.free s b.addr q = (.ok (), s') →
      SyclLib.Reach g s0 s' C
  | perm {s C C'} : SyclLib.Reach g s0 s C → C.Perm C' → SyclLib.Reach g s0 s C'

/-- What SYCL promises (SYCL 2020, 4.8.3): memory is fresh and aligned as asked, or null is returned; it can be freed with
the queue it was allocated with. -/
structure SyclLib.Good {σ : Type} (g : SyclLib σ) (s0 : σ) : Prop where
  alloc : ∀ {s C k a n q}, SyclLib.Reach g s0 s C → (∃ i, a = 2 ^ i) → 0 < n → n < 2 ^ 64 → (g.alloc k s a n q).1 ≠ 0 →
    (g.alloc k s a n q).1 + n ≤ 2 ^ 64 ∧ a ∣ (g.alloc k s a n q).1 ∧
    ∀ b ∈ C, (g.alloc k s a n q).1 + n ≤ b.2.addr ∨ b.2.addr + b.2.size ≤ (g.alloc k s a n q).1
  free : ∀ {s C k q b}, SyclLib.Reach g s0 s C → ((k, q), b) ∈ C → (g.free s b.addr q).1 = .ok ()

/-- `bad_alloc` instead of `runtime_error`. -/
def Res.runtimeAsBad {α : Type} : Res α → Res α
  | .runtimeError => .badAlloc
  | r => r

/-- The resource `m`, except that it throws `bad_alloc` where `m` throws `runtime_error` for a request. -/
def asBadAlloc {σ : Type} (m : MR σ) : MR σ where
  allocate s n a := let r := m.allocate s n a; (r.1.runtimeAsBad, r.2)
  deallocate := m.deallocate

/-- Kinds of resources (`Spec/World`) that do not catch `bad_alloc`: all but the coalescing and the instrumenting ones. -/
inductive Forwards : Kind → Prop
  | pool {dbg : Bool} {o : PoolOpts} : Forwards (.pool dbg o)
  | binaryPage {dbg : Bool} : Forwards (.binaryPage dbg)
  | arena {initial maximum : Nat} : Forwards (.arena initial maximum)
  | contiguous {size : Nat} : Forwards (.contiguous size)
  | identity : Forwards .identity
  | debug : Forwards .debug
  | conditional {π : Type} {pred : π → Nat → Nat → Bool × π} {q : π} : Forwards (.conditional pred q)
  | choice {ι π : Type} {decision : π → Nat → Nat → ι × π} {q : π} : Forwards (.choice decision q)
  | terminal : Forwards .terminal

/-- States of correct programs (`ProgReach` of `Spec/World`) over base resources that may also throw `runtime_error`: the same
steps, and requests that end with this exception. -/
inductive ProgReachE {β σ : Type} (bases : β → MR σ) (g : (k : Nat) → Decl β k) (P : β ⊕ Nat → Port) (s0 : σ) :
    World σ g → List ((β ⊕ Nat) × Blk) → Prop
  | init : ProgReachE bases g P s0 ⟨s0, fun _ => none⟩ []
  | create {w w' T r} (k : Nat) : ProgReachE bases g P s0 w T → w.loc k = none → (∀ i, Exists w ((g k).ref i)) →
      createAt bases g k w = (r, w') → ProgReachE bases g P s0 w' T
  | destroy {w w' T r} (k : Nat) : ProgReachE bases g P s0 w T → (w.loc k).isSome = true →
      (∀ j, (w.loc j).isSome = true → ∀ i, (g j).ref i ≠ .inr k) → (∀ b, (.inr k, b) ∉ T) →
      destroyAt bases g k w = (r, w') → ProgReachE bases g P s0 w' T
  | alloc {w w' T n a p} (x : β ⊕ Nat) : ProgReachE bases g P s0 w T → Exists w x → IsReq (P x).R n a → 0 < n →
      (worldMR bases g x).allocate w n a = (.ok p, w') → ProgReachE bases g P s0 w' ((x, ⟨p, n, a⟩) :: T)
  | refuse {w w' T n a} (x : β ⊕ Nat) : ProgReachE bases g P s0 w T → Exists w x → IsReq (P x).R n a → 0 < n →
      (worldMR bases g x).allocate w n a = (.badAlloc, w') → ProgReachE bases g P s0 w' T
  | error {w w' T n a} (x : β ⊕ Nat) : ProgReachE bases g P s0 w T → Exists w x → IsReq (P x).R n a → 0 < n →
      (worldMR bases g x).allocate w n a = (.runtimeError, w') → ProgReachE bases g P s0 w' T
  | zero {w w' T a r} (x : β ⊕ Nat) : ProgReachE bases g P s0 w T → Exists w x → IsReq (P x).R 0 a →
      (worldMR bases g x).allocate w 0 a = (r, w') → ProgReachE bases g P s0 w' T
  | free {w w' T b} {x : β ⊕ Nat} : ProgReachE bases g P s0 w ((x, b) :: T) →
      (worldMR bases g x).deallocate w b.addr b.size b.align = (.ok (), w') → ProgReachE bases g P s0 w' T
  | freeNull {w w' T n a r} (x : β ⊕ Nat) : ProgReachE bases g P s0 w T → Exists w x →
      (worldMR bases g x).deallocate w 0 n a = (r, w') → ProgReachE bases g P s0 w' T
  | perm {w T T'} : ProgReachE bases g P s0 w T → T.Perm T' → ProgReachE bases g P s0 w T'

end Vecmem
