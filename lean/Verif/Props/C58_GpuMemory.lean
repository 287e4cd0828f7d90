import Verif.Lemmas.GpuWorlds
import Verif.Props.C55_Programs

/-!
# C58 — memory resources for GPU memory
-/

namespace Vecmem.Props

open Vecmem

/-- **C58.**  All the SYCL memory resources of a program together, for device, host and shared memory and for all queues: if the
SYCL runtime keeps its promises, every request is refused with `bad_alloc` or answered by memory that is aligned as asked and
disjoint from all live blocks of all of them; zero bytes give null; all live blocks and null can be given back. -/
theorem c58_sycl {σ : Type} {g : SyclLib σ} {s0 : σ} (hg : g.Good s0) (R : Limits) (G : Nat) :
    FamLawful R G (syclMR g) s0 :=
  sycl_lawful hg G

/-- **C58.**  The same for all the CUDA or HIP memory resources of a program, for the memory of any existing devices, page-locked
host memory and managed memory, except that requests are refused with `runtime_error` instead of `bad_alloc`, and that
alignments are respected only up to the one of the runtime, `2 ^ j`. -/
theorem c58_cuda_hip_partial {κ σ : Type} (fl : GFlavour) {g : GpuLib σ} {s0 : σ} {j : Nat} {Dev : Int → Prop}
    (hg : g.Good s0 (2 ^ j) Dev) (res : κ → GpuRes) (hres : ∀ k d, res k = .device d → Dev d) (R : Limits) :
    FamLawful R (2 ^ j) (fun k => asBadAlloc (gpuMR fl g (res k))) s0 := by
  refine gpu_lawful fl res hg hres ?_
  rintro a ⟨i, rfl⟩ h
  exact Nat.pow_dvd_pow 2 ((Nat.pow_le_pow_iff_right (by decide)).1 h)

/-- **C58.**  At any time the runtime holds exactly the blocks of the clients, in memory of the kind and device of the resource
they were obtained from: nothing is lost, and nothing is freed with the wrong function. -/
theorem c58_exact {κ σ : Type} (fl : GFlavour) {g : GpuLib σ} {s0 : σ} {A : Nat} {Dev : Int → Prop} (hg : g.Good s0 A Dev)
    (res : κ → GpuRes) (hres : ∀ k d, res k = .device d → Dev d) {R : Limits} {s : σ} {T : List (κ × Blk)}
    (h : FReach R (fun k => asBadAlloc (gpuMR fl g (res k))) s0 s T) :
    g.Reach s0 s (T.map fun e => (res e.1, ⟨e.2.addr, e.2.size⟩)) :=
  (gpu_reach fl res hg hres h).1

/-- **C58.**  Requests and freeing do not change the current device. -/
theorem c58_device_kept {κ σ : Type} (fl : GFlavour) {g : GpuLib σ} {s0 : σ} {A : Nat} {Dev : Int → Prop} (hg : g.Good s0 A Dev)
    (res : κ → GpuRes) (hres : ∀ k d, res k = .device d → Dev d) {R : Limits} {s : σ} {T : List (κ × Blk)}
    (h : FReach R (fun k => asBadAlloc (gpuMR fl g (res k))) s0 s T) (k : κ) :
    (∀ n a, n < 2 ^ 64 → (g.getDevice ((gpuMR fl g (res k)).allocate s n a).2).1 = (g.getDevice s).1) ∧
    (∀ b, (k, b) ∈ T →
      (g.getDevice ((gpuMR fl g (res k)).deallocate s b.addr b.size b.align).2).1 = (g.getDevice s).1) := by
  obtain ⟨hr, hne⟩ := gpu_reach fl res hg hres h
  constructor
  · intro n a hn
    show (g.getDevice (if n = 0 then _ else _ : Res Nat × σ).2).1 = _
    split
    · rfl
    · exact gpuAllocate_keeps fl hg hr (hres k) (by omega) hn
  · intro b hb
    show (g.getDevice (if b.addr = 0 then _ else _ : Res Unit × σ).2).1 = _
    rw [if_neg (hne _ hb)]
    exact gpuFree_keeps fl (b := ⟨b.addr, b.size⟩) hg (hr.perm (List.perm_cons_erase (List.mem_map.2 ⟨_, hb, rfl⟩))) (hres k)

/-- **C58.**  The same for SYCL: kinds of memory and queues. -/
theorem c58_sycl_exact {σ : Type} {g : SyclLib σ} {s0 : σ} {R : Limits} {s : σ} {T : List ((SyclMem × Nat) × Blk)}
    (h : FReach R (syclMR g) s0 s T) : g.Reach s0 s (T.map fun e => (e.1, ⟨e.2.addr, e.2.size⟩)) :=
  (sycl_reach h).1

/-- **C58.**  The exception thrown by CUDA and HIP resources is never `bad_alloc`, whatever the runtime does. -/
theorem c58_never_bad_alloc {σ : Type} (fl : GFlavour) (g : GpuLib σ) (k : GpuRes) (s : σ) (n a : Nat) :
    ((gpuMR fl g k).allocate s n a).1 ≠ .badAlloc := by
  have hc : ∀ r : Option Nat × σ, (checkAlloc r).1 ≠ .badAlloc := by
    rintro ⟨r, s⟩
    cases r <;> simp [checkAlloc]
  show (if n = 0 then _ else _ : Res Nat × σ).1 ≠ _
  split
  · simp
  · cases k with
    | device d =>
      show (withDevice fl g d _ s).1 ≠ _
      unfold withDevice
      have hgo : ∀ (old : Int) (s : σ), (match g.setDevice s d with
          | (false, s) => (Res.runtimeError, s)
          | (true, s) =>
            match g.setDevice (checkAlloc (g.malloc s n)).2 old with
            | (true, s') => ((checkAlloc (g.malloc s n)).1, s')
            | (false, s') => (Res.ub, s')).1 ≠ .badAlloc := by
        intro old s
        cases g.setDevice s d with
        | mk b s =>
          cases b with
          | false => simp
          | true =>
            simp only
            cases g.setDevice (checkAlloc (g.malloc s n)).2 old with
            | mk b s' =>
              cases b with
              | false => simp
              | true => exact hc _
      cases g.getDevice s with
      | mk o s =>
        cases o with
        | some old => exact hgo old s
        | none =>
          cases fl with
          | cuda => simp
          | hip => exact hgo 0 s
    | host => exact hc _
    | managed => exact hc _

/-- **C58.**  Errors of the runtime are reported, also when memory is freed; if the device cannot be selected again, the program
ends. -/
theorem c58_errors {σ : Type} (fl : GFlavour) (g : GpuLib σ) (s : σ) (p n a : Nat) (hp : p ≠ 0) :
    ((g.freeHost s p).1 = false → ((gpuMR fl g .host).deallocate s p n a).1 = .runtimeError) ∧
    ((g.free s p).1 = false → ((gpuMR fl g .managed).deallocate s p n a).1 = .runtimeError) ∧
    (∀ d old s1 s2 s3 s4 b, g.getDevice s = (some old, s1) → g.setDevice s1 d = (true, s2) → g.free s2 p = (b, s3) →
      (g.setDevice s3 old = (true, s4) → b = false →
        ((gpuMR fl g (.device d)).deallocate s p n a).1 = .runtimeError) ∧
      (g.setDevice s3 old = (false, s4) → ((gpuMR fl g (.device d)).deallocate s p n a).1 = .ub)) := by
  have hc : ∀ r : Bool × σ, r.1 = false → (checkFree r).1 = .runtimeError := by
    rintro ⟨r, s⟩ rfl
    rfl
  have hc2 : ∀ r : Bool × σ, (checkFree r).2 = r.2 := by
    rintro ⟨r, s⟩
    cases r <;> rfl
  simp only [gpuMR, if_neg hp, gpuFree]
  refine ⟨hc _, hc _, ?_⟩
  intro d old s1 s2 s3 s4 b h1 h2 h3
  constructor
  · rintro h4 rfl
    simp only [withDevice, h1, h2, hc2, h3, h4]
    rfl
  · intro h4
    simp only [withDevice, h1, h2, hc2, h3, h4]

/-- Here an address is freed that is not allocated. -/
example : ((gpuMR .cuda ({ getDevice := fun s => (some s, s), setDevice := fun _ d => (true, d), malloc := fun s _ => (none, s)
                           mallocHost := fun s _ => (none, s), mallocManaged := fun s _ => (none, s)
                           free := fun s _ => (false, s), freeHost := fun s _ => (false, s) } : GpuLib Int)
    (.device 1)).deallocate 0 64 8 8) = (.runtimeError, 0) := by
  decide +kernel

/-- **C58.**  They do not look at the alignment. -/
theorem c58_alignment_ignored {σ : Type} (fl : GFlavour) (g : GpuLib σ) (k : GpuRes) (s : σ) (n a a' : Nat) :
    (gpuMR fl g k).allocate s n a = (gpuMR fl g k).allocate s n a' :=
  rfl

/-- **C58.**  In all states of correct programs over base resources that may throw `runtime_error` instead of `bad_alloc` — such
as those for CUDA and HIP —: what C55 says about programs holds, with one of the two exceptions where C55 has `bad_alloc`. -/
theorem c58_programs {β σ : Type} (bases : β → MR σ) (g : (k : Nat) → Decl β k) (P : β ⊕ Nat → Port)
    {R : Limits} {G : Nat} {s0 : σ} (hb : GoodBases (fun b => asBadAlloc (bases b)) R G (fun b => P (.inl b)) s0)
    (hg : ∀ k, Works (g k).kind (fun i => P ((g k).ref i)) (P (.inr k))) {w : World σ g}
    {T : List ((β ⊕ Nat) × Blk)} (h : ProgReachE bases g P s0 w T) :
    (∀ x, Exists w x →
      (∀ n a, IsReq (P x).R n a → 0 < n →
        ((worldMR bases g x).allocate w n a).1 = .runtimeError ∨
        GoodAnswer (P x).G (T.map (·.2)) n a ((worldMR bases g x).allocate w n a).1) ∧
      (∀ a, IsReq (P x).R 0 a → ((worldMR bases g x).allocate w 0 a).1 = .ok 0 ∨
        ((worldMR bases g x).allocate w 0 a).1 = .badAlloc ∨ ((worldMR bases g x).allocate w 0 a).1 = .runtimeError) ∧
      (∀ b, (x, b) ∈ T → ((worldMR bases g x).deallocate w b.addr b.size b.align).1 = .ok ()) ∧
      (∀ n a, ((worldMR bases g x).deallocate w 0 n a).1 = .ok ())) ∧
    (∀ e ∈ T, Exists w e.1) ∧
    (T.map (·.2)).Pairwise Blk.Disjoint ∧
    (∀ k, w.loc k = none → (∀ i, Exists w ((g k).ref i)) →
      ((createAt bases g k w).1 = .ok () ∧
        ∀ j, ((createAt bases g k w).2.loc j).isSome = if j = k then true else (w.loc j).isSome) ∨
      (((createAt bases g k w).1 = .badAlloc ∨ (createAt bases g k w).1 = .runtimeError) ∧
        ∀ j, ((createAt bases g k w).2.loc j).isSome = (w.loc j).isSome)) ∧
    (∀ k, (w.loc k).isSome = true → (∀ j, (w.loc j).isSome = true → ∀ i, (g j).ref i ≠ .inr k) →
      (∀ b, (.inr k, b) ∉ T) →
      (destroyAt bases g k w).1 = .ok () ∧
        ∀ j, ((destroyAt bases g k w).2.loc j).isSome = if j = k then false else (w.loc j).isSome) ∧
    ((∀ k, w.loc k = none) → ∃ T0 : List (β × Blk), T.Perm (T0.map fun e => (.inl e.1, e.2)) ∧
      FReach R (fun b => asBadAlloc (bases b)) s0 w.base T0) := by
  choose J hJ using fun k => (hg k).specE
  have hS := progSpecE (E := true) (g := g) hb.serves hJ
  have hI := h.inv hS ⟨fun _ => false, 0, by intro k hk; simp at hk, fun _ _ => rfl, rfl, [], .refl _, .init,
    by simp⟩
  refine ⟨?_, hS.tags hI, List.pairwise_map.2 (hS.tidy.disj hI), ?_, ?_, ?_⟩
  · intro x hx
    obtain ⟨I', i1, i2, i3⟩ := hS.mem hI x hx
    refine ⟨?_, ?_, ?_, ?_⟩
    · intro n a hq hn
      rcases i3.alloc i1 hq hn with ⟨p, w', e, h'⟩ | ⟨w', e, h'⟩
      · rw [allocate_of_asBad e (by simp)]
        have hw := hS.tidy.wf (i2 h').1 _ List.mem_cons_self
        refine .inr ⟨hw.1, hw.2.1, hw.2.2.1, ?_⟩
        intro b hb
        obtain ⟨f, hf, rfl⟩ := List.mem_map.1 hb
        exact (List.pairwise_cons.1 (hS.tidy.disj (i2 h').1)).1 f hf
      · rcases allocate_of_asBad' e with e | e
        · rw [e]; exact .inr trivial
        · rw [e]; exact .inl rfl
    · intro a hq
      obtain ⟨r, w', e, hr, _⟩ := i3.zero i1 hq
      rcases hr with rfl | rfl
      · rw [allocate_of_asBad e (by simp)]; exact .inl rfl
      · rcases allocate_of_asBad' e with e | e
        · rw [e]; exact .inr (.inl rfl)
        · rw [e]; exact .inr (.inr rfl)
    · intro b hb
      obtain ⟨T1, T2, rfl⟩ := List.append_of_mem hb
      obtain ⟨I', i1, i2, i3⟩ := hS.mem (hS.tidy.perm hI List.perm_middle) x hx
      obtain ⟨w', e, _⟩ := i3.free i1
      exact congrArg Prod.fst e
    · intro n a
      obtain ⟨w', e, _⟩ := i3.null n a i1
      exact congrArg Prod.fst e
  · intro k hk hu
    have hc := hS.create hI k hk hu
    simp only [errsR] at hc
    rcases hx : createAt bases g k w with ⟨r, w1⟩
    rw [hx] at hc
    rcases hc with ⟨w', e, _, h'⟩ | ⟨w', e, _, h'⟩
    · obtain ⟨e, rfl⟩ := Prod.mk.inj e
      refine .inl ⟨?_, h'⟩
      cases r <;> simp [Res.runtimeAsBad] at e ⊢
    · obtain ⟨e, rfl⟩ := Prod.mk.inj e
      refine .inr ⟨?_, h'⟩
      cases r <;> simp [Res.runtimeAsBad] at e ⊢
  · intro k hk hd hT
    obtain ⟨w', e, _, h'⟩ := hS.destroy hI k hk hd hT
    rw [e]; exact ⟨rfl, h'⟩
  · intro hw
    obtain ⟨T0, h1, h2, _⟩ := hI.end hw
    exact ⟨T0, h1, h2⟩

/-- **C58.**  The kinds of resources that do not catch `bad_alloc` pass on a `runtime_error` in the same way: exchanging the two
exceptions in their upstreams exchanges them in their constructor and in their answers, and changes nothing else. -/
theorem c58_passed_on {K : Kind} (h : Forwards K) {σ : Type} (ups : K.ι → MR σ) :
    K.mr (fun i => asBadAlloc (ups i)) = asBadAlloc (K.mr ups) ∧
    (∀ s, K.create (fun i => asBadAlloc (ups i)) s = ((K.create ups s).1.runtimeAsBad, (K.create ups s).2)) ∧
    ∀ t s, K.destroy (fun i => asBadAlloc (ups i)) t s = K.destroy ups t s :=
  ⟨h.passesOn.mr ups, h.passesOn.create ups, h.passesOn.destroy ups⟩

/-- CUDA and HIP resources are such base resources. -/
theorem c58_bases {κ σ : Type} (fl : GFlavour) {g : GpuLib σ} {s0 : σ} {j : Nat} {Dev : Int → Prop}
    (hg : g.Good s0 (2 ^ j) Dev) (res : κ → GpuRes) (hres : ∀ k d, res k = .device d → Dev d) (R : Limits) :
    GoodBases (fun k => asBadAlloc (gpuMR fl g (res k))) R (2 ^ j) (fun _ => ⟨R, 2 ^ j, false⟩) s0 where
  lawful := c58_cuda_hip_partial fl hg res hres R
  limits := fun _ => ⟨rfl, rfl⟩
  gapped := fun _ h => by simp at h

/-- **C58, negative.**  A coalescing resource whose first upstream throws `runtime_error` does not ask the others: the request
fails, in the state the first upstream left. -/
theorem c58_coalescing_stops {ι σ : Type} (ups : ι → MR σ) (i : ι) (is : List ι) (s : Coalescing ι σ) {n a : Nat} (hn : 0 < n)
    {u : σ} (h : (ups i).allocate s.up n a = (.runtimeError, u)) :
    (coalescingMR (i :: is) ups).allocate s n a = (.runtimeError, ⟨s.allocations, u⟩) := by
  show (if n = 0 then _ else if n = 0 then _ else _ : Res Nat × Coalescing ι σ) = _
  rw [if_neg (by omega), if_neg (by omega)]
  simp only [Coalescing.tryAll, h]

/-- **C58, negative.**  An instrumenting resource records an attempt that was refused with `bad_alloc`, and tells its
post-allocation hooks; not so if upstream throws `runtime_error`. -/
theorem c58_instrumenting_silent {ω : Type} (up : MR ω) (s : Instr ω) {n a : Nat} (hn : 0 < n) {u : ω} :
    (up.allocate (s.preAlloc.foldl (fun w f => f w n a) s.world) n a = (.badAlloc, u) →
      (instrumentingMR up).allocate s n a = (.badAlloc, { s with
        events := s.events ++ [⟨true, n, a, 0⟩]
        world := s.postAlloc.foldl (fun w f => f w n a 0) u })) ∧
    (up.allocate (s.preAlloc.foldl (fun w f => f w n a) s.world) n a = (.runtimeError, u) →
      (instrumentingMR up).allocate s n a = (.runtimeError, { s with world := u })) := by
  have e : (instrumentingMR up).allocate s n a = Instr.allocate up s n a := by
    show (if n = 0 then _ else _ : Res Nat × Instr ω) = _
    rw [if_neg (by omega)]
  rw [e]
  unfold Instr.allocate
  rw [if_neg (by omega)]
  refine ⟨fun h => ?_, fun h => ?_⟩
  · simp only [h, Instr.finish, if_true]
  · simp only [h]

/-! ## Examples -/

/-- A runtime with devices 0 and 1 and 1 MiB of memory in all: the current device, the next free address and the blocks. -/
structure DemoGpu where
  cur : Int := 0
  next : Nat := 256
  live : List (GpuRes × Nat) := []
deriving DecidableEq, Repr

def DemoGpu.alloc (k : GpuRes) (s : DemoGpu) (n : Nat) : Option Nat × DemoGpu :=
  if s.next + n ≤ 2 ^ 20 then
    (some s.next, { s with next := (s.next + n + 255) / 256 * 256, live := (k, s.next) :: s.live })
  else (none, s)

def DemoGpu.release (host : Bool) (s : DemoGpu) (p : Nat) : Bool × DemoGpu :=
  match s.live.find? (fun b => b.2 == p && (b.1 == .host) == host) with
  | some b => (true, { s with live := s.live.erase b })
  | none => (false, s)

def demoGpu : GpuLib DemoGpu where
  getDevice s := (some s.cur, s)
  setDevice s d := if d = 0 ∨ d = 1 then (true, { s with cur := d }) else (false, s)
  malloc s := DemoGpu.alloc (.device s.cur) s
  mallocHost := DemoGpu.alloc .host
  mallocManaged := DemoGpu.alloc .managed
  free := DemoGpu.release false
  freeHost := DemoGpu.release true

abbrev DemoGpu.Ok (s : DemoGpu) (C : List GBlk) : Prop :=
  (s.cur = 0 ∨ s.cur = 1) ∧ s.next % 256 = 0 ∧ 0 < s.next ∧ s.live.Perm (C.map fun b => (b.1, b.2.addr)) ∧
  (∀ b ∈ C, b.2.addr + b.2.size ≤ s.next ∧ 0 < b.2.size) ∧ C.Pairwise fun b c => b.2.addr ≠ c.2.addr

theorem DemoGpu.Ok.alloc {s s' : DemoGpu} {C : List GBlk} (h : s.Ok C) (k : GpuRes) {n p : Nat} (h0 : 0 < n)
    (he : DemoGpu.alloc k s n = (some p, s')) : s'.Ok ((k, ⟨p, n⟩) :: C) ∧ p = s.next ∧ p + n ≤ 2 ^ 20 := by
  unfold DemoGpu.alloc at he
  split at he
  · rename_i hl
    simp only [Prod.mk.injEq, Option.some.injEq] at he
    obtain ⟨rfl, rfl⟩ := he
    obtain ⟨h1, h2, h3, h4, h5, h6⟩ := h
    refine ⟨⟨h1, Nat.mul_mod_left _ _, ?_, h4.cons _, ?_, List.pairwise_cons.2 ⟨?_, h6⟩⟩, rfl, hl⟩
    · simp only; omega
    · intro b hb
      rcases List.mem_cons.1 hb with rfl | hb
      · simp only; omega
      · have := h5 b hb
        simp only; omega
    · intro b hb
      have := h5 b hb
      simp only; omega
  · simp at he

theorem DemoGpu.Ok.fail {s s' : DemoGpu} {C : List GBlk} (h : s.Ok C) (k : GpuRes) {n : Nat}
    (he : DemoGpu.alloc k s n = (none, s')) : s'.Ok C := by
  unfold DemoGpu.alloc at he
  split at he
  · simp at he
  · simp only [Prod.mk.injEq, true_and] at he
    exact he ▸ h

theorem DemoGpu.Ok.find {s : DemoGpu} {C : List GBlk} {k : GpuRes} {b : CBlk} (h : s.Ok C) (hb : (k, b) ∈ C) {host : Bool}
    (hk : (k == .host) = host) :
    s.live.find? (fun x => x.2 == b.addr && (x.1 == .host) == host) = some (k, b.addr) := by
  obtain ⟨h1, h2, h3, h4, h5, h6⟩ := h
  have hm : (k, b.addr) ∈ s.live := h4.mem_iff.2 (List.mem_map.2 ⟨_, hb, rfl⟩)
  cases hf : s.live.find? (fun x => x.2 == b.addr && (x.1 == .host) == host) with
  | none =>
    have := List.find?_eq_none.1 hf _ hm
    simp [hk] at this
  | some y =>
    have h7 := List.find?_some hf
    have h8 := h4.mem_iff.1 (List.mem_of_find?_eq_some hf)
    obtain ⟨c, hc, rfl⟩ := List.mem_map.1 h8
    simp only [Bool.and_eq_true, beq_iff_eq] at h7
    by_cases e : c = (k, b)
    · subst e; rfl
    · obtain ⟨i, hi, h9⟩ := List.getElem_of_mem hc
      obtain ⟨j, hj, h10⟩ := List.getElem_of_mem hb
      rcases Nat.lt_trichotomy i j with hij | rfl | hij
      · have := List.pairwise_iff_getElem.1 h6 i j hi hj hij
        rw [h9, h10] at this
        exact absurd h7.1 this
      · exact absurd (h9.symm.trans h10) e
      · have := List.pairwise_iff_getElem.1 h6 j i hj hi hij
        rw [h9, h10] at this
        exact absurd h7.1.symm this

theorem DemoGpu.Ok.free {s : DemoGpu} {C : List GBlk} {k : GpuRes} {host : Bool} {b : CBlk} (h : s.Ok ((k, b) :: C))
    (hk : (k == .host) = host) : (DemoGpu.release host s b.addr).2.Ok C := by
  unfold DemoGpu.release
  rw [h.find List.mem_cons_self hk]
  obtain ⟨h1, h2, h3, h4, h5, h6⟩ := h
  refine ⟨h1, h2, h3, ?_, fun c hc => h5 c (List.mem_cons_of_mem _ hc), (List.pairwise_cons.1 h6).2⟩
  have := h4.erase (k, b.addr)
  simpa using this

theorem demoGpu_ok {s : DemoGpu} {C : List GBlk} (h : demoGpu.Reach {} s C) : s.Ok C := by
  induction h with
  | init => exact ⟨.inl rfl, rfl, by decide, .refl _, by simp, .nil⟩
  | getDevice _ ih => exact ih
  | @setDevice s C d _ ih =>
    show DemoGpu.Ok (if d = 0 ∨ d = 1 then _ else _ : Bool × DemoGpu).2 _
    split
    · rename_i hd; exact ⟨hd, ih.2⟩
    · exact ih
  | malloc _ h0 _ hd he ih =>
    cases hd
    exact (ih.alloc _ h0 he).1
  | mallocFail _ _ _ he ih => exact ih.fail _ he
  | mallocHost _ h0 _ he ih => exact (ih.alloc _ h0 he).1
  | mallocHostFail _ _ _ he ih => exact ih.fail _ he
  | mallocManaged _ h0 _ he ih => exact (ih.alloc _ h0 he).1
  | mallocManagedFail _ _ _ he ih => exact ih.fail _ he
  | free _ hk ih => exact ih.free (by simpa using hk)
  | freeHost _ ih => exact ih.free rfl
  | perm _ hp ih =>
    exact ⟨ih.1, ih.2.1, ih.2.2.1, ih.2.2.2.1.trans (hp.map _), fun b hb => ih.2.2.2.2.1 b (hp.mem_iff.2 hb),
      hp.pairwise ih.2.2.2.2.2 (fun h => Ne.symm h)⟩

theorem demoGpu_fresh {s : DemoGpu} {C : List GBlk} (h : s.Ok C) (k : GpuRes) {n p : Nat} (h0 : 0 < n)
    (he : (DemoGpu.alloc k s n).1 = some p) : GpuLib.Fresh 256 C p n := by
  obtain ⟨-, rfl, h1⟩ := h.alloc k h0 (Prod.ext he rfl)
  refine ⟨?_, ?_, ?_, ?_⟩
  · have := h.2.2.1; omega
  · omega
  · exact Nat.dvd_of_mod_eq_zero h.2.1
  · intro b hb
    exact .inr (h.2.2.2.2.1 b hb).1

theorem demoGpu_release {s : DemoGpu} {C : List GBlk} (h : s.Ok C) {k : GpuRes} {host : Bool} {b : CBlk} (hb : (k, b) ∈ C)
    (hk : (k == .host) = host) : (DemoGpu.release host s b.addr).1 = true := by
  unfold DemoGpu.release
  rw [h.find hb hk]

theorem demoGpu_cur (k : GpuRes) (s : DemoGpu) (n : Nat) : (DemoGpu.alloc k s n).2.cur = s.cur := by
  unfold DemoGpu.alloc
  split <;> rfl

theorem demoGpu_cur' (host : Bool) (s : DemoGpu) (p : Nat) : (DemoGpu.release host s p).2.cur = s.cur := by
  unfold DemoGpu.release
  split <;> rfl

/-- The runtime keeps its promises. -/
theorem demoGpu_good : demoGpu.Good {} (2 ^ 8) (fun d => d = 0 ∨ d = 1) where
  malloc := fun h h0 _ he => demoGpu_fresh (demoGpu_ok h) _ h0 he
  mallocHost := fun h h0 _ he => demoGpu_fresh (demoGpu_ok h) _ h0 he
  mallocManaged := fun h h0 _ he => demoGpu_fresh (demoGpu_ok h) _ h0 he
  free := fun h hb hk => demoGpu_release (demoGpu_ok h) hb (by simpa using hk)
  freeHost := fun h hb => demoGpu_release (demoGpu_ok h) hb rfl
  getDevice := fun h => ⟨_, rfl, (demoGpu_ok h).1⟩
  setDevice := fun {s C d} h hd => by
    show (if d = 0 ∨ d = 1 then _ else _ : Bool × DemoGpu).1 = true
    rw [if_pos hd]
  selected := fun {s C d} h hd => by
    simp only [demoGpu] at hd ⊢
    split at hd
    · rename_i h'
      rw [if_pos h']
    · simp at hd
  keepGet := fun _ => rfl
  keepMalloc := fun _ => congrArg some (demoGpu_cur _ _ _)
  keepMallocHost := fun _ => congrArg some (demoGpu_cur _ _ _)
  keepMallocManaged := fun _ => congrArg some (demoGpu_cur _ _ _)
  keepFree := fun _ => congrArg some (demoGpu_cur' _ _ _)
  keepFreeHost := fun _ => congrArg some (demoGpu_cur' _ _ _)

/-- Device memory of both devices, host memory and managed memory. -/
def demoGpuRes : Nat → GpuRes
  | 0 => .device 0
  | 1 => .device 1
  | 2 => .host
  | _ => .managed

theorem demoGpuRes_ok (k : Nat) (d : Int) (h : demoGpuRes k = .device d) : d = 0 ∨ d = 1 := by
  match k, h with
  | 0, h => cases h; exact .inl rfl
  | 1, h => cases h; exact .inr rfl
  | 2, h => cases h
  | _ + 3, h => cases h

example (R : Limits) : FamLawful R 256 (fun k => asBadAlloc (gpuMR .cuda demoGpu (demoGpuRes k))) {} :=
  c58_cuda_hip_partial .cuda demoGpu_good demoGpuRes demoGpuRes_ok R

/-- Memory of all four kinds. -/
example : (
    let r0 := (gpuMR .cuda demoGpu (demoGpuRes 0)).allocate {} 100 8
    let r1 := (gpuMR .cuda demoGpu (demoGpuRes 1)).allocate r0.2 1000 8
    let r2 := (gpuMR .cuda demoGpu (demoGpuRes 2)).allocate r1.2 300 8
    let r3 := (gpuMR .cuda demoGpu (demoGpuRes 3)).allocate r2.2 (2 ^ 20) 8
    [r0.1, r1.1, r2.1, r3.1]) = [.ok 256, .ok 512, .ok 1536, .runtimeError] := by
  decide +kernel

/-- **C58, negative.**  A CUDA resource is not well-behaved in the sense of the other resources: when there is no memory, it
throws `runtime_error`. -/
theorem c58_not_lawful : ¬ Lawful 8 256 (gpuMR .cuda demoGpu (.device 0)) {} := by
  intro h
  have := h.alloc (n := 2 ^ 21) (a := 8) .init ⟨⟨by decide, by decide⟩, by decide, 3, rfl⟩ (by decide)
  have e : ((gpuMR .cuda demoGpu (.device 0)).allocate {} (2 ^ 21) 8).1 = .runtimeError := by decide +kernel
  rw [e] at this
  exact this

/-- **C58, negative.**  An alignment that the runtime does not give anyway is not respected. -/
theorem c58_misaligned : ((gpuMR .cuda demoGpu .managed).allocate {} 100 512).1 = .ok 256 := by
  decide +kernel

/-- Another resource beside the runtime. -/
def besideGpu : Bool → MR (DemoGpu × (Contig × Unit))
  | true => liftFst (gpuMR .cuda demoGpu (.device 0))
  | false =>
    { allocate := fun w n a => let r := demoBase.allocate w.2 n a; (r.1, (w.1, r.2))
      deallocate := fun w p n a => let r := demoBase.deallocate w.2 p n a; (r.1, (w.1, r.2)) }

/-- **C58, negative.**  Here a coalescing resource over device memory and a resource with plenty of memory does not serve a
request that its second upstream would serve. -/
theorem c58_no_fallback :
    ((besideGpu false).allocate ({}, demoInit) (2 ^ 21) 8).1 = .ok 4096 ∧
    ((coalescingMR [true, false] besideGpu).allocate ⟨[], ({}, demoInit)⟩ (2 ^ 21) 8).1 = .runtimeError := by
  decide +kernel

/-- A program with a contiguous resource over the memory of device 1, a debugging wrapper around it, a coalescing resource over the
wrapper and host memory, and an instrumenting resource around that, whose hooks count the calls. -/
def gpuDecl : (k : Nat) → Decl Nat k
  | 0 => ⟨.contiguous 4096, fun _ => .inl 1⟩
  | 1 => ⟨.debug, fun _ => .inr 0⟩
  | 2 => ⟨.coalescing [true, false], fun b => if b then .inr 1 else .inl 2⟩
  | 3 => ⟨.instrumenting [fun c _ _ => c + 1] [fun c _ _ _ => c + 100] [fun c _ _ _ => c + 10000] 0, fun _ => .inr 2⟩
  | _ + 4 => ⟨.terminal, fun e => nomatch e⟩

def gpuPort : Nat ⊕ Nat → Port := fun _ => ⟨{ align := 256 }, 256, false⟩

abbrev gpuBases (k : Nat) : MR DemoGpu := gpuMR .cuda demoGpu (demoGpuRes k)

theorem gpuDecl_works (k : Nat) :
    Works (gpuDecl k).kind (fun i => gpuPort ((gpuDecl k).ref i)) (gpuPort (.inr k)) := by
  match k with
  | 0 =>
    exact .contiguous (R := { align := 256 }) (R' := { align := 256 }) (G := 256) ⟨by decide, by decide, 4, rfl⟩ (by decide)
  | 1 => exact .debug
  | 2 => exact .coalescing
  | 3 => exact .instrumenting
  | _ + 4 => exact .terminal

/-- All are created, then the debugging resource and host memory are used; a request for too much host memory fails, and so does one
to the instrumenting resource. -/
def gpuAt : World DemoGpu gpuDecl :=
  let w := (createAt gpuBases gpuDecl 0 ⟨{}, fun _ => none⟩).2
  let w := (createAt gpuBases gpuDecl 1 w).2
  let w := (createAt gpuBases gpuDecl 2 w).2
  let w := (createAt gpuBases gpuDecl 3 w).2
  let w := ((worldMR gpuBases gpuDecl (.inr 1)).allocate w 100 64).2
  let w := ((worldMR gpuBases gpuDecl (.inl 2)).allocate w 50 8).2
  let w := ((worldMR gpuBases gpuDecl (.inl 2)).allocate w (2 ^ 21) 8).2
  ((worldMR gpuBases gpuDecl (.inr 3)).allocate w (2 ^ 21) 8).2

theorem gpu_run : ProgReachE gpuBases gpuDecl gpuPort {} gpuAt [(.inl 2, ⟨4352, 50, 8⟩), (.inr 1, ⟨256, 100, 64⟩)] := by
  have h : ProgReachE gpuBases gpuDecl gpuPort {} ⟨{}, fun _ => none⟩ [] := .init
  have h := ProgReachE.create 0 h rfl (fun _ => trivial) rfl
  have h := ProgReachE.create 1 h rfl (fun _ => show (Option.isSome _) = true by decide +kernel) rfl
  have h := ProgReachE.create 2 h rfl (fun b => match b with
    | true => show (Option.isSome _) = true by decide +kernel
    | false => trivial) rfl
  have h := ProgReachE.create 3 h rfl (fun _ => show (Option.isSome _) = true by decide +kernel) rfl
  have h := ProgReachE.alloc (n := 100) (a := 64) (p := 256) (.inr 1) h (show (Option.isSome _) = true by decide +kernel)
    ⟨by decide, by decide, 6, rfl⟩ (by decide) (Prod.ext (by decide +kernel) rfl)
  have h := ProgReachE.alloc (n := 50) (a := 8) (p := 4352) (.inl 2) h trivial
    ⟨by decide, by decide, 3, rfl⟩ (by decide) (Prod.ext (by decide +kernel) rfl)
  have h := ProgReachE.error (n := 2 ^ 21) (a := 8) (.inl 2) h trivial
    ⟨by decide, by decide, 3, rfl⟩ (by decide) (Prod.ext (by decide +kernel) rfl)
  exact ProgReachE.error (n := 2 ^ 21) (a := 8) (.inr 3) h (show (Option.isSome _) = true by decide +kernel)
    ⟨by decide, by decide, 3, rfl⟩ (by decide) (Prod.ext (by decide +kernel) rfl)

/-- The theorem applies to the program. -/
example (k : Nat) (hk : k < 4) : ((worldMR gpuBases gpuDecl (.inr k)).allocate gpuAt 70 4).1 = .runtimeError ∨
    GoodAnswer 256 [⟨4352, 50, 8⟩, ⟨256, 100, 64⟩] 70 4 ((worldMR gpuBases gpuDecl (.inr k)).allocate gpuAt 70 4).1 :=
  ((c58_programs gpuBases gpuDecl gpuPort
    (c58_bases .cuda demoGpu_good demoGpuRes demoGpuRes_ok { align := 256 }) gpuDecl_works gpu_run).1 (.inr k)
    (show (Option.isSome _) = true by
      match k, hk with
      | 0, _ => decide +kernel
      | 1, _ => decide +kernel
      | 2, _ => decide +kernel
      | 3, _ => decide +kernel)).1 70 4
    ⟨show 70 ≤ ({ align := 256 } : Limits).size ∧ 70 < 2 ^ 64 by decide, show 4 ≤ 256 by decide, 2, rfl⟩ (by decide)

/-- Of a request that the debugging resource refuses and host memory answers, the hooks are told. -/
example :
    ((worldMR gpuBases gpuDecl (.inr 3)).allocate gpuAt 5000 8).1 = .ok 4608 ∧
    (((worldMR gpuBases gpuDecl (.inr 3)).allocate gpuAt 5000 8).2.loc 3).map (·.2) = some 102 := by
  decide +kernel

/-! A SYCL runtime: the next free address and the blocks with their queues. -/

structure DemoSycl where
  next : Nat := 1
  live : List (Nat × Nat) := []
deriving DecidableEq, Repr

def demoSyclLib : SyclLib DemoSycl where
  alloc _ s a n q :=
    let p := (s.next + a - 1) / a * a
    if p + n ≤ 2 ^ 20 then (p, ⟨p + n, (p, q) :: s.live⟩) else (0, s)
  free s p q := if (p, q) ∈ s.live then (.ok (), { s with live := s.live.erase (p, q) }) else (.ub, s)

abbrev DemoSycl.Ok (s : DemoSycl) (C : List ((SyclMem × Nat) × CBlk)) : Prop :=
  0 < s.next ∧ s.live.Perm (C.map fun b => (b.2.addr, b.1.2)) ∧ ∀ b ∈ C, b.2.addr + b.2.size ≤ s.next

theorem demoSycl_up (x a : Nat) (ha : 0 < a) : x ≤ (x + a - 1) / a * a := by
  have := Nat.div_add_mod (x + a - 1) a
  have := Nat.mod_lt (x + a - 1) ha
  rw [Nat.mul_comm]
  omega

theorem demoSyclLib_ok {s : DemoSycl} {C : List ((SyclMem × Nat) × CBlk)} (h : demoSyclLib.Reach {} s C) : s.Ok C := by
  induction h with
  | init => exact ⟨by decide, .refl _, by simp⟩
  | @alloc s s' C k a n q p _ ha h0 hn he hp ih =>
    obtain ⟨i, rfl⟩ := ha
    have hup := demoSycl_up s.next (2 ^ i) (Nat.two_pow_pos i)
    simp only [demoSyclLib] at he
    split at he
    · simp only [Prod.mk.injEq] at he
      obtain ⟨rfl, rfl⟩ := he
      refine ⟨by simp only; omega, ih.2.1.cons _, ?_⟩
      intro b hb
      rcases List.mem_cons.1 hb with rfl | hb
      · exact Nat.le_refl _
      · have := ih.2.2 b hb
        simp only; omega
    · simp only [Prod.mk.injEq] at he
      exact absurd he.1.symm hp
  | @allocFail s s' C k a n q _ ha h0 hn he ih =>
    obtain ⟨i, rfl⟩ := ha
    have hup := demoSycl_up s.next (2 ^ i) (Nat.two_pow_pos i)
    have := ih.1
    simp only [demoSyclLib] at he
    split at he
    · simp only [Prod.mk.injEq] at he
      omega
    · simp only [Prod.mk.injEq] at he
      exact he.2 ▸ ih
  | @free s s' k q b C _ he ih =>
    obtain ⟨h1, h2, h3⟩ := ih
    simp only [demoSyclLib] at he
    split at he
    · simp only [Prod.mk.injEq, true_and] at he
      subst he
      refine ⟨h1, ?_, fun c hc => h3 c (List.mem_cons_of_mem _ hc)⟩
      have := h2.erase (b.addr, q)
      simpa using this
    · simp at he
  | perm _ hp ih =>
    exact ⟨ih.1, ih.2.1.trans (hp.map _), fun b hb => ih.2.2 b (hp.mem_iff.2 hb)⟩

/-- The runtime keeps its promises. -/
theorem demoSyclLib_good : demoSyclLib.Good {} where
  alloc := by
    rintro s C k a n q h ⟨i, rfl⟩ h0 hn he
    have hup := demoSycl_up s.next (2 ^ i) (Nat.two_pow_pos i)
    have ho := demoSyclLib_ok h
    simp only [demoSyclLib] at he ⊢
    split at he
    · rename_i hl
      rw [if_pos hl]
      refine ⟨by simp only; omega, Nat.dvd_mul_left _ _, ?_⟩
      intro b hb
      have := ho.2.2 b hb
      exact .inr (by simp only; omega)
    · exact absurd rfl he
  free := by
    intro s C k q b h hb
    have ho := demoSyclLib_ok h
    simp only [demoSyclLib]
    rw [if_pos (ho.2.1.mem_iff.2 (List.mem_map.2 ⟨_, hb, rfl⟩))]

example (R : Limits) : FamLawful R (2 ^ 63) (syclMR demoSyclLib) {} :=
  c58_sycl demoSyclLib_good R _

/-- Memory of all three kinds, from two queues. -/
example : (
    let r0 := (syclMR demoSyclLib (.device, 1)).allocate {} 100 64
    let r1 := (syclMR demoSyclLib (.host, 1)).allocate r0.2 1000 8
    let r2 := (syclMR demoSyclLib (.shared, 2)).allocate r1.2 300 512
    let r3 := (syclMR demoSyclLib (.shared, 2)).allocate r2.2 (2 ^ 20) 8
    let r4 := (syclMR demoSyclLib (.host, 1)).deallocate r3.2 168 1000 8
    ([r0.1, r1.1, r2.1, r3.1], r4.1)) = ([.ok 64, .ok 168, .ok 1536, .badAlloc], .ok ()) := by
  decide +kernel

end Vecmem.Props
