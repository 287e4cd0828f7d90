import Verif.Model.GpuMemory
import Verif.Spec.Stack
import Verif.Lemmas.Tactics

/-! # Memory resources for GPUs -/

namespace Vecmem

variable {σ : Type}

/-- The scope runs its body in a state with the same blocks, and its end does not change the blocks. -/
theorem withDevice_eq {α : Type} (fl : GFlavour) {g : GpuLib σ} {s0 s : σ} {A : Nat} {Dev : Int → Prop} {C : List GBlk}
    {d : Int} {body : σ → Res α × σ} (hg : g.Good s0 A Dev) (hr : g.Reach s0 s C) (hd : Dev d)
    (hbody : ∀ s1, g.Reach s0 s1 C → (g.getDevice s1).1 = some d → ∃ C', g.Reach s0 (body s1).2 C') :
    ∃ s1, g.Reach s0 s1 C ∧ (g.getDevice s1).1 = some d ∧ (withDevice fl g d body s).1 = (body s1).1 ∧
      (g.getDevice (withDevice fl g d body s).2).1 = (g.getDevice s).1 ∧
      ∀ C', g.Reach s0 (body s1).2 C' → g.Reach s0 (withDevice fl g d body s).2 C' := by
  obtain ⟨old, h1, h2⟩ := hg.getDevice hr
  have hr1 := hr.getDevice
  have h3 := hg.setDevice hr1 hd
  have hr2 := hr1.setDevice (d := d)
  obtain ⟨C1, h4⟩ := hbody _ hr2 (hg.selected hr1 h3)
  have h5 := hg.setDevice h4 h2
  refine ⟨_, hr2, hg.selected hr1 h3, ?_⟩
  have e1 : g.getDevice s = (some old, (g.getDevice s).2) := by rw [← h1]
  have e2 : g.setDevice (g.getDevice s).2 d = (true, (g.setDevice (g.getDevice s).2 d).2) := by rw [← h3]
  have e3 : g.setDevice (body (g.setDevice (g.getDevice s).2 d).2).2 old =
      (true, (g.setDevice (body (g.setDevice (g.getDevice s).2 d).2).2 old).2) := by rw [← h5]
  have he : withDevice fl g d body s = ((body (g.setDevice (g.getDevice s).2 d).2).1,
      (g.setDevice (body (g.setDevice (g.getDevice s).2 d).2).2 old).2) := by
    unfold withDevice
    rw [e1]
    simp only
    rw [e2]
    simp only
    rw [e3]
  rw [he]
  exact ⟨rfl, (hg.selected h4 h5).trans h1.symm, fun C' h => h.setDevice⟩

/-- An allocation of a GPU resource: fresh memory, or a `runtime_error`. -/
theorem gpuAllocate_spec (fl : GFlavour) {g : GpuLib σ} {s0 s : σ} {A : Nat} {Dev : Int → Prop} {C : List GBlk} {k : GpuRes}
    {n : Nat} (hg : g.Good s0 A Dev) (hr : g.Reach s0 s C) (hk : ∀ d, k = .device d → Dev d) (h0 : 0 < n) (hn : n < 2 ^ 64) :
    (∃ p, (gpuAllocate fl g s n k).1 = .ok p ∧ GpuLib.Fresh A C p n ∧
      g.Reach s0 (gpuAllocate fl g s n k).2 ((k, ⟨p, n⟩) :: C)) ∨
    ((gpuAllocate fl g s n k).1 = .runtimeError ∧ g.Reach s0 (gpuAllocate fl g s n k).2 C) := by
  cases k with
  | host =>
    simp only [gpuAllocate, checkAlloc]
    cases h : g.mallocHost s n with
    | mk r s' =>
      cases r with
      | some p => exact .inl ⟨p, rfl, hg.mallocHost hr h0 hn (by rw [h]), hr.mallocHost h0 hn h⟩
      | none => exact .inr ⟨rfl, hr.mallocHostFail h0 hn h⟩
  | managed =>
    simp only [gpuAllocate, checkAlloc]
    cases h : g.mallocManaged s n with
    | mk r s' =>
      cases r with
      | some p => exact .inl ⟨p, rfl, hg.mallocManaged hr h0 hn (by rw [h]), hr.mallocManaged h0 hn h⟩
      | none => exact .inr ⟨rfl, hr.mallocManagedFail h0 hn h⟩
  | device d =>
    have hb : ∀ s1, g.Reach s0 s1 C → (g.getDevice s1).1 = some d →
        (∃ p, (checkAlloc (g.malloc s1 n)).1 = .ok p ∧ GpuLib.Fresh A C p n ∧
          g.Reach s0 (checkAlloc (g.malloc s1 n)).2 ((.device d, ⟨p, n⟩) :: C)) ∨
        ((checkAlloc (g.malloc s1 n)).1 = .runtimeError ∧ g.Reach s0 (checkAlloc (g.malloc s1 n)).2 C) := by
      intro s1 hr1 hd1
      cases h : g.malloc s1 n with
      | mk r s' =>
        cases r with
        | some p => exact .inl ⟨p, rfl, hg.malloc hr1 h0 hn (by rw [h]), hr1.malloc h0 hn hd1 h⟩
        | none => exact .inr ⟨rfl, hr1.mallocFail h0 hn h⟩
    obtain ⟨s1, h1, hd, h2, -, h3⟩ := withDevice_eq fl (body := fun s => checkAlloc (g.malloc s n)) hg hr (hk d rfl) (by
      intro s1 hr1 hd1
      rcases hb s1 hr1 hd1 with ⟨p, -, -, h⟩ | ⟨-, h⟩
      · exact ⟨_, h⟩
      · exact ⟨_, h⟩)
    simp only [gpuAllocate]
    rw [h2]
    rcases hb s1 h1 hd with ⟨p, g1, g2, g3⟩ | ⟨g1, g2⟩
    · exact .inl ⟨p, g1, g2, h3 _ g3⟩
    · exact .inr ⟨g1, h3 _ g2⟩

/-- A block is given back. -/
theorem gpuFree_spec (fl : GFlavour) {g : GpuLib σ} {s0 s : σ} {A : Nat} {Dev : Int → Prop} {C : List GBlk} {k : GpuRes}
    {b : CBlk} (hg : g.Good s0 A Dev) (hr : g.Reach s0 s ((k, b) :: C)) (hk : ∀ d, k = .device d → Dev d) :
    (gpuFree fl g s b.addr k).1 = .ok () ∧ g.Reach s0 (gpuFree fl g s b.addr k).2 C := by
  cases k with
  | host =>
    have h1 := hg.freeHost hr List.mem_cons_self
    have h2 := hr.freeHost
    have e : g.freeHost s b.addr = (true, (g.freeHost s b.addr).2) := by rw [← h1]
    simp only [gpuFree, checkFree]
    rw [e]
    exact ⟨rfl, h2⟩
  | managed =>
    have h1 := hg.free hr List.mem_cons_self (by simp)
    have h2 := hr.free (by simp)
    have e : g.free s b.addr = (true, (g.free s b.addr).2) := by rw [← h1]
    simp only [gpuFree, checkFree]
    rw [e]
    exact ⟨rfl, h2⟩
  | device d =>
    have hb : ∀ s1, g.Reach s0 s1 ((.device d, b) :: C) → (checkFree (g.free s1 b.addr)).1 = .ok () ∧
        g.Reach s0 (checkFree (g.free s1 b.addr)).2 C := by
      intro s1 hr1
      have h1 := hg.free hr1 List.mem_cons_self (by simp)
      have h2 := hr1.free (by simp)
      have e : g.free s1 b.addr = (true, (g.free s1 b.addr).2) := by rw [← h1]
      rw [e]
      exact ⟨rfl, h2⟩
    obtain ⟨s1, h1, hd, h2, -, h3⟩ := withDevice_eq fl (body := fun s => checkFree (g.free s b.addr)) hg hr (hk d rfl)
      (fun s1 hr1 _ => ⟨_, (hb s1 hr1).2⟩)
    simp only [gpuFree]
    rw [h2]
    exact ⟨(hb s1 h1).1, h3 _ (hb s1 h1).2⟩

/-- A request does not change the current device. -/
theorem gpuAllocate_keeps (fl : GFlavour) {g : GpuLib σ} {s0 s : σ} {A : Nat} {Dev : Int → Prop} {C : List GBlk} {k : GpuRes}
    {n : Nat} (hg : g.Good s0 A Dev) (hr : g.Reach s0 s C) (hk : ∀ d, k = .device d → Dev d) (h0 : 0 < n) (hn : n < 2 ^ 64) :
    (g.getDevice (gpuAllocate fl g s n k).2).1 = (g.getDevice s).1 := by
  have hc : ∀ r : Option Nat × σ, (checkAlloc r).2 = r.2 := by
    rintro ⟨r, s⟩
    cases r <;> rfl
  cases k with
  | host => exact (congrArg (fun s => (g.getDevice s).1) (hc _)).trans (hg.keepMallocHost hr)
  | managed => exact (congrArg (fun s => (g.getDevice s).1) (hc _)).trans (hg.keepMallocManaged hr)
  | device d =>
    obtain ⟨s1, -, -, -, h, -⟩ := withDevice_eq fl (body := fun s => checkAlloc (g.malloc s n)) hg hr (hk d rfl) (by
      intro s1 hr1 hd1
      rw [hc]
      cases h : g.malloc s1 n with
      | mk r s' =>
        cases r with
        | some p => exact ⟨_, hr1.malloc h0 hn hd1 h⟩
        | none => exact ⟨_, hr1.mallocFail h0 hn h⟩)
    exact h

/-- Nor does giving back a block. -/
theorem gpuFree_keeps (fl : GFlavour) {g : GpuLib σ} {s0 s : σ} {A : Nat} {Dev : Int → Prop} {C : List GBlk} {k : GpuRes}
    {b : CBlk} (hg : g.Good s0 A Dev) (hr : g.Reach s0 s ((k, b) :: C)) (hk : ∀ d, k = .device d → Dev d) :
    (g.getDevice (gpuFree fl g s b.addr k).2).1 = (g.getDevice s).1 := by
  have hc : ∀ r : Bool × σ, (checkFree r).2 = r.2 := by
    rintro ⟨r, s⟩
    cases r <;> rfl
  cases k with
  | host => exact (congrArg (fun s => (g.getDevice s).1) (hc _)).trans (hg.keepFreeHost hr)
  | managed => exact (congrArg (fun s => (g.getDevice s).1) (hc _)).trans (hg.keepFree hr)
  | device d =>
    obtain ⟨s1, -, -, -, h, -⟩ := withDevice_eq fl (body := fun s => checkFree (g.free s b.addr)) hg hr (hk d rfl) (by
      intro s1 hr1 hd1
      rw [hc]
      exact ⟨_, hr1.free (by simp)⟩)
    exact h

/-- The block of the runtime behind a block of a client. -/
def gpuBlk {κ : Type} (res : κ → GpuRes) (e : κ × Blk) : GBlk := (res e.1, ⟨e.2.addr, e.2.size⟩)

section
variable {κ : Type} (fl : GFlavour) {g : GpuLib σ} {s0 : σ} {A : Nat} {Dev : Int → Prop} (res : κ → GpuRes) {R : Limits}

theorem asBadAlloc_alloc {s : σ} {n a : Nat} {k : GpuRes} (h0 : 0 < n) :
    (asBadAlloc (gpuMR fl g k)).allocate s n a =
      ((gpuAllocate fl g s n k).1.runtimeAsBad, (gpuAllocate fl g s n k).2) := by
  simp only [asBadAlloc, gpuMR, if_neg (Nat.ne_of_gt h0)]

theorem gpu_reach (hg : g.Good s0 A Dev) (hres : ∀ k d, res k = .device d → Dev d) {s : σ} {T : List (κ × Blk)}
    (h : FReach R (fun k => asBadAlloc (gpuMR fl g (res k))) s0 s T) :
    g.Reach s0 s (T.map (gpuBlk res)) ∧ ∀ e ∈ T, e.2.addr ≠ 0 := by
  induction h with
  | init => exact ⟨.init, by simp⟩
  | @alloc s s' T n a p i _ hq h0 he ih =>
    obtain ⟨hr, hne⟩ := ih
    rw [asBadAlloc_alloc fl h0] at he
    rcases gpuAllocate_spec fl hg hr (hres i) h0 hq.1.2 with ⟨q, h1, h2, h3⟩ | ⟨h1, h2⟩
    · rw [h1] at he
      simp only [Res.runtimeAsBad, Prod.mk.injEq, Res.ok.injEq] at he
      obtain ⟨rfl, rfl⟩ := he
      refine ⟨h3, ?_⟩
      intro e hm
      rcases List.mem_cons.1 hm with rfl | hm
      · exact h2.1
      · exact hne e hm
    · rw [h1] at he
      simp [Res.runtimeAsBad] at he
  | @refuse s s' T n a i _ hq h0 he ih =>
    obtain ⟨hr, hne⟩ := ih
    rw [asBadAlloc_alloc fl h0] at he
    rcases gpuAllocate_spec fl hg hr (hres i) h0 hq.1.2 with ⟨q, h1, h2, h3⟩ | ⟨h1, h2⟩
    · rw [h1] at he
      simp [Res.runtimeAsBad] at he
    · simp only [Prod.mk.injEq] at he
      rw [← he.2]
      exact ⟨h2, hne⟩
  | zero i _ _ he ih =>
    simp only [asBadAlloc, gpuMR, if_true, Prod.mk.injEq] at he
    rw [← he.2]
    exact ih
  | @free s s' T b i _ he ih =>
    obtain ⟨hr, hne⟩ := ih
    have h0 : b.addr ≠ 0 := hne _ List.mem_cons_self
    simp only [asBadAlloc, gpuMR, if_neg h0] at he
    have h1 := gpuFree_spec fl (k := res i) (b := ⟨b.addr, b.size⟩) hg hr (hres i)
    simp only [he] at h1
    exact ⟨h1.2, fun e hm => hne e (List.mem_cons_of_mem _ hm)⟩
  | freeNull i _ he ih =>
    simp only [asBadAlloc, gpuMR, if_true, Prod.mk.injEq] at he
    rw [← he.2]
    exact ih
  | perm _ hp ih => exact ⟨ih.1.perm (hp.map _), fun e hm => ih.2 e (hp.symm.subset hm)⟩

theorem gpu_lawful (hg : g.Good s0 A Dev) (hres : ∀ k d, res k = .device d → Dev d) {G : Nat}
    (hG : ∀ a, (∃ k, a = 2 ^ k) → a ≤ G → a ∣ A) :
    FamLawful R G (fun k => asBadAlloc (gpuMR fl g (res k))) s0 where
  alloc := by
    intro s T n a i h hq h0
    obtain ⟨hr, -⟩ := gpu_reach fl res hg hres h
    show GoodAnswer G _ n a ((asBadAlloc (gpuMR fl g (res i))).allocate s n a).1
    rw [asBadAlloc_alloc fl h0]
    rcases gpuAllocate_spec fl hg hr (hres i) h0 hq.1.2 with ⟨q, h1, h2, h3⟩ | ⟨h1, h2⟩
    · rw [h1]
      refine ⟨h2.1, h2.2.1, fun ha => (hG a hq.2.2 ha).trans h2.2.2.1, ?_⟩
      intro b hb
      obtain ⟨e, he, rfl⟩ := List.mem_map.1 hb
      exact h2.2.2.2 _ (List.mem_map.2 ⟨e, he, rfl⟩)
    · rw [h1]
      trivial
  zero := by
    intro s T a i _ _
    left
    simp [asBadAlloc, gpuMR, Res.runtimeAsBad]
  dealloc := by
    intro s T b i h hm
    obtain ⟨hr, hne⟩ := gpu_reach fl res hg hres h
    have h0 : b.addr ≠ 0 := hne _ hm
    have hr' := hr.perm (List.perm_cons_erase (List.mem_map.2 ⟨_, hm, rfl⟩))
    have h1 := gpuFree_spec fl (k := res i) (b := ⟨b.addr, b.size⟩) hg hr' (hres i)
    simp only [asBadAlloc, gpuMR, if_neg h0]
    exact h1.1
  null := by
    intro s T n a i _
    simp [asBadAlloc, gpuMR]

end

/-! ## SYCL -/

/-- The block of the runtime behind a block of a client. -/
def syclBlk (e : (SyclMem × Nat) × Blk) : (SyclMem × Nat) × CBlk := (e.1, ⟨e.2.addr, e.2.size⟩)

section
variable {g : SyclLib σ} {s0 : σ} {R : Limits}

theorem sycl_reach {s : σ} {T : List ((SyclMem × Nat) × Blk)}
    (h : FReach R (syclMR g) s0 s T) : g.Reach s0 s (T.map syclBlk) ∧ ∀ e ∈ T, e.2.addr ≠ 0 := by
  induction h with
  | init => exact ⟨.init, by simp⟩
  | @alloc s s' T n a p i _ hq h0 he ih =>
    obtain ⟨hr, hne⟩ := ih
    simp only [syclMR, if_neg (Nat.ne_of_gt h0)] at he
    split at he
    · simp at he
    · rename_i hp
      simp only [Prod.mk.injEq, Res.ok.injEq] at he
      refine ⟨?_, ?_⟩
      · exact hr.alloc (k := i.1) (a := a) hq.2.2 h0 hq.1.2 (by rw [← he.1, ← he.2]) (by rw [← he.1]; exact hp)
      · intro e hm
        rcases List.mem_cons.1 hm with rfl | hm
        · rw [← he.1]; exact hp
        · exact hne e hm
  | @refuse s s' T n a i _ hq h0 he ih =>
    obtain ⟨hr, hne⟩ := ih
    simp only [syclMR, if_neg (Nat.ne_of_gt h0)] at he
    split at he
    · rename_i hp
      simp only [Prod.mk.injEq, true_and] at he
      exact ⟨hr.allocFail (k := i.1) (a := a) (n := n) (q := i.2) hq.2.2 h0 hq.1.2 (Prod.ext hp he), hne⟩
    · simp at he
  | zero i _ _ he ih =>
    simp only [syclMR, if_true, Prod.mk.injEq] at he
    rw [← he.2]
    exact ih
  | @free s s' T b i _ he ih =>
    obtain ⟨hr, hne⟩ := ih
    have h0 : b.addr ≠ 0 := hne _ List.mem_cons_self
    simp only [syclMR, if_neg h0] at he
    exact ⟨SyclLib.Reach.free (b := ⟨b.addr, b.size⟩) hr he, fun e hm => hne e (List.mem_cons_of_mem _ hm)⟩
  | freeNull i _ he ih =>
    simp only [syclMR, if_true, Prod.mk.injEq] at he
    rw [← he.2]
    exact ih
  | perm _ hp ih => exact ⟨ih.1.perm (hp.map _), fun e hm => ih.2 e (hp.symm.subset hm)⟩

theorem sycl_lawful (hg : g.Good s0) (G : Nat) : FamLawful R G (syclMR g) s0 where
  alloc := by
    intro s T n a i h hq h0
    obtain ⟨hr, -⟩ := sycl_reach h
    simp only [syclMR, if_neg (Nat.ne_of_gt h0)]
    split
    · trivial
    · rename_i hp
      obtain ⟨h1, h2, h3⟩ := hg.alloc (k := i.1) (q := i.2) hr hq.2.2 h0 hq.1.2 hp
      refine ⟨hp, h1, fun _ => h2, ?_⟩
      intro b hb
      obtain ⟨e, he, rfl⟩ := List.mem_map.1 hb
      exact h3 _ (List.mem_map.2 ⟨e, he, rfl⟩)
  zero := by
    intro s T a i _ _
    left
    simp [syclMR]
  dealloc := by
    intro s T b i h hm
    obtain ⟨hr, hne⟩ := sycl_reach h
    have h0 : b.addr ≠ 0 := hne _ hm
    simp only [syclMR, if_neg h0]
    exact hg.free (b := ⟨b.addr, b.size⟩) hr (List.mem_map.2 ⟨_, hm, rfl⟩)
  null := by
    intro s T n a i _
    simp [syclMR]

end

end Vecmem
