import Verif.Lemmas.Wrappers
import Verif.Lemmas.Contiguous

/-!
# C14, C15 — choice and coalescing resources
-/

namespace Vecmem.Props

open Vecmem

variable {σ ι π : Type} {R : Limits} {G : Nat}

/-- Two contiguous memories in disjoint address ranges: a concrete well-behaved family. -/
def demoFam : Bool → MR (Contig × Contig)
  | false => { allocate := fun s n a => let r := (Contig.mr (σ := Unit)).allocate (s.1, ()) n a
                                        (r.1, (r.2.1, s.2))
               deallocate := fun s _ _ _ => (.ok (), s) }
  | true => { allocate := fun s n a => let r := (Contig.mr (σ := Unit)).allocate (s.2, ()) n a
                                       (r.1, (s.1, r.2.1))
              deallocate := fun s _ _ _ => (.ok (), s) }

def demoFamInit : Contig × Contig := (⟨1024, 4096, 4096⟩, ⟨2 ^ 20, 2 ^ 32, 2 ^ 32⟩)

theorem demoFam_lawful (R : Limits) : FamLawful R R.align demoFam demoFamInit := by
  have hI : ∀ s T, FReach R demoFam demoFamInit s T →
      Contig.Inv 4096 1024 s.1 ∧ Contig.Inv (2 ^ 32) (2 ^ 20) s.2 ∧
      ∀ e ∈ T, (4096 ≤ e.2.addr ∧ e.2.addr + e.2.size ≤ s.1.next) ∨
        (2 ^ 32 ≤ e.2.addr ∧ e.2.addr + e.2.size ≤ s.2.next) := by
    intro s T h
    induction h with
    | init => exact ⟨⟨rfl, rfl, by decide, by decide⟩, ⟨rfl, rfl, by decide, by decide⟩, by simp⟩
    | @alloc s s' T n a p i h1 hq hn he ih =>
      obtain ⟨i1, i2, i3⟩ := ih
      cases i <;> simp only [demoFam, Contig.mr_allocate_pos _ hn] at he
      · rw [Contig.allocate_eq i1 (by decide) hn] at he
        have hge := alignUp_ge a s.1.next
        obtain ⟨j1, j2, j3, j4⟩ := i1
        split at he <;> simp only [Prod.mk.injEq, Res.ok.injEq, reduceCtorEq, false_and] at he
        obtain ⟨rfl, rfl⟩ := he
        refine ⟨⟨j1, j2, by simp only; omega, by simp only; omega⟩, i2, ?_⟩
        intro e he
        rcases List.mem_cons.1 he with rfl | he
        · left; simp only; omega
        · rcases i3 e he with h | h
          · left; simp only; omega
          · right; exact h
      · rw [Contig.allocate_eq i2 (by decide) hn] at he
        have hge := alignUp_ge a s.2.next
        obtain ⟨j1, j2, j3, j4⟩ := i2
        split at he <;> simp only [Prod.mk.injEq, Res.ok.injEq, reduceCtorEq, false_and] at he
        obtain ⟨rfl, rfl⟩ := he
        refine ⟨i1, ⟨j1, j2, by simp only; omega, by simp only; omega⟩, ?_⟩
        intro e he
        rcases List.mem_cons.1 he with rfl | he
        · right; simp only; omega
        · rcases i3 e he with h | h
          · left; exact h
          · right; simp only; omega
    | @refuse s s' T n a i h1 hq hn he ih =>
      obtain ⟨i1, i2, i3⟩ := ih
      cases i <;> simp only [demoFam, Contig.mr_allocate_pos _ hn] at he
      · rw [Contig.allocate_eq i1 (by decide) hn] at he
        split at he <;> simp only [Prod.mk.injEq, reduceCtorEq, false_and, true_and] at he
        subst he; exact ⟨i1, i2, i3⟩
      · rw [Contig.allocate_eq i2 (by decide) hn] at he
        split at he <;> simp only [Prod.mk.injEq, reduceCtorEq, false_and, true_and] at he
        subst he; exact ⟨i1, i2, i3⟩
    | @zero s s' T a r i h1 hq he ih =>
      cases i <;> simp only [demoFam, Contig.mr_allocate_zero, Prod.mk.injEq] at he <;>
        (obtain ⟨_, rfl⟩ := he; exact ih)
    | @free s s' T b i h1 he ih =>
      have : s' = s := by cases i <;> simp only [demoFam, Prod.mk.injEq, true_and] at he <;> exact he.symm
      subst this
      exact ⟨ih.1, ih.2.1, fun e he => ih.2.2 e (List.mem_cons_of_mem _ he)⟩
    | @freeNull s s' T n a r i h1 he ih =>
      have : s' = s := by cases i <;> simp only [demoFam, Prod.mk.injEq] at he <;> exact he.2.symm
      subst this; exact ih
    | perm _ hp ih => exact ⟨ih.1, ih.2.1, fun e he => ih.2.2 e (hp.symm.subset he)⟩
  constructor
  · intro s T n a i h hq hn
    obtain ⟨i1, i2, i3⟩ := hI s T h
    cases i <;> simp only [demoFam, Contig.mr_allocate_pos _ hn]
    · rw [Contig.allocate_eq i1 (by decide) hn]
      have hge := alignUp_ge a s.1.next
      obtain ⟨j1, j2, j3, j4⟩ := i1
      obtain ⟨k1, k2, k3, k4⟩ := i2
      split
      · refine ⟨by omega, by omega, fun _ => alignUp_dvd hq.pos _, ?_⟩
        intro b hb
        obtain ⟨e, he, rfl⟩ := List.mem_map.1 hb
        rcases i3 e he with h | h
        · right; simp only; omega
        · left; simp only; omega
      · trivial
    · rw [Contig.allocate_eq i2 (by decide) hn]
      have hge := alignUp_ge a s.2.next
      obtain ⟨j1, j2, j3, j4⟩ := i1
      obtain ⟨k1, k2, k3, k4⟩ := i2
      split
      · refine ⟨by omega, by omega, fun _ => alignUp_dvd hq.pos _, ?_⟩
        intro b hb
        obtain ⟨e, he, rfl⟩ := List.mem_map.1 hb
        rcases i3 e he with h | h
        · right; simp only; omega
        · right; simp only; omega
      · trivial
  · intro s T a i h hq
    cases i <;> simp [demoFam, Contig.mr_allocate_zero]
  · intro s T b i h hm; cases i <;> rfl
  · intro s T n a i h; cases i <;> rfl

/-! ## C14 -/

/-- The upstream a choice resource must use for a request: what the decision function answers. -/
def choiceServes (decision : π → Nat → Nat → ι × π) (s : Choice π ι σ) (n a : Nat) : Option ι :=
  some (decision s.dec n a).1

private theorem choice_inv {decision : π → Nat → Nat → ι × π} {ups : ι → MR σ} {u0 : σ} {d0 : π}
    (h : FamLawful R G ups u0) {s T}
    (hr : TReach R (choiceMR decision ups) (choiceServes decision) ⟨d0, [], u0⟩ s T) :
    FReach R ups u0 s.up T ∧ RecInv s.allocations T := by
  induction hr with
  | init => exact ⟨.init, by simp [RecInv]⟩
  | @alloc s s' T n a p i _ hq hn he hs ih =>
    obtain ⟨i1, i2⟩ := ih
    simp only [choiceServes, Option.some.injEq] at hs
    simp only [choiceMR, pimpl, Nat.pos_iff_ne_zero.1 hn, if_false, Choice.allocate] at he
    rw [hs] at he
    have hg := h.alloc i i1 hq hn
    cases hx : (ups i).allocate s.up n a with
    | mk r u =>
      rw [hx] at he hg
      cases r <;> simp only [Prod.mk.injEq, Res.ok.injEq, reduceCtorEq, false_and] at he
      obtain ⟨rfl, rfl⟩ := he
      have hF := FReach.alloc i i1 hq hn hx
      exact ⟨hF, i2.add i ⟨_, n, a⟩ (h.addr_ne hF).2⟩
  | @refuse s s' T n a _ hq hn he ih =>
    obtain ⟨i1, i2⟩ := ih
    simp only [choiceMR, pimpl, Nat.pos_iff_ne_zero.1 hn, if_false, Choice.allocate] at he
    cases hx : (ups (decision s.dec n a).1).allocate s.up n a with
    | mk r u =>
      rw [hx] at he
      cases r <;> simp only [Prod.mk.injEq, reduceCtorEq, false_and, true_and] at he
      subst he
      exact ⟨.refuse _ i1 hq hn hx, i2⟩
  | zero _ _ he ih =>
    simp only [choiceMR, pimpl, if_true, Prod.mk.injEq] at he
    obtain ⟨_, rfl⟩ := he; exact ih
  | @free s s' T b i _ he ih =>
    obtain ⟨i1, i2⟩ := ih
    have hne := h.addr_ne i1
    simp only [choiceMR, pimpl, hne.1, if_false,
      recordedDeallocate_eq i2 List.mem_cons_self hne.1] at he
    cases hx : (ups i).deallocate s.up b.addr b.size b.align with
    | mk r u =>
      rw [hx] at he
      simp only [Prod.mk.injEq] at he
      obtain ⟨rfl, rfl⟩ := he
      exact ⟨.free i1 hx, i2.remove hne.2⟩
  | freeNull _ he ih =>
    simp only [choiceMR, pimpl, if_true, Prod.mk.injEq] at he
    obtain ⟨_, rfl⟩ := he; exact ih
  | perm _ hp ih => exact ⟨.perm ih.1 hp, ih.2.perm hp⟩

/-- **C14.**  For every decision function (with any internal state) and every well-behaved family of
upstreams, after every history of correct calls in which each live block is labelled by the upstream
the decision function named when the block was requested:
* every live block is live in exactly the upstream it is labelled with, and upstream holds no others;
* a non-zero request has the outcome and the upstream effect of the upstream named by the decision, which
  is taken exactly once per request, whether the request succeeds or not, and never for a deallocation;
* freeing a live block has the outcome and upstream effect of freeing it to the upstream that served
  it (whatever the decision function would answer now). -/
theorem c14_choice (decision : π → Nat → Nat → ι × π) (ups : ι → MR σ) (u0 : σ) (d0 : π)
    (h : FamLawful R G ups u0) (s : Choice π ι σ) (T : List (ι × Blk))
    (hr : TReach R (choiceMR decision ups) (choiceServes decision) ⟨d0, [], u0⟩ s T) :
    FReach R ups u0 s.up T ∧
    (∀ n a, 0 < n →
      let up := ups (decision s.dec n a).1
      ((choiceMR decision ups).allocate s n a).1 = (up.allocate s.up n a).1 ∧
      ((choiceMR decision ups).allocate s n a).2.up = (up.allocate s.up n a).2 ∧
      ((choiceMR decision ups).allocate s n a).2.dec = (decision s.dec n a).2) ∧
    (∀ i b, (i, b) ∈ T →
      let d := (ups i).deallocate s.up b.addr b.size b.align
      d.1 = .ok () ∧
      ((choiceMR decision ups).deallocate s b.addr b.size b.align).1 = .ok () ∧
      ((choiceMR decision ups).deallocate s b.addr b.size b.align).2.up = d.2 ∧
      ((choiceMR decision ups).deallocate s b.addr b.size b.align).2.dec = s.dec) := by
  obtain ⟨i1, i2⟩ := choice_inv h hr
  refine ⟨i1, ?_, ?_⟩
  · intro n a hn
    simp only [choiceMR, pimpl, Nat.pos_iff_ne_zero.1 hn, if_false, Choice.allocate]
    cases hx : (ups (decision s.dec n a).1).allocate s.up n a with
    | mk r u => cases r <;> simp
  · intro i b hm
    have hne := ((h.live i1).1 _ hm).1
    have hd := h.dealloc i1 hm
    simp only [choiceMR, pimpl, hne, if_false, recordedDeallocate_eq i2 hm hne]
    exact ⟨hd, hd, trivial, trivial⟩

/-- A choice resource over a well-behaved family is well-behaved. -/
theorem c14_choice_lawful (decision : π → Nat → Nat → ι × π) (ups : ι → MR σ) (u0 : σ) (d0 : π)
    (h : FamLawful R G ups u0) : Lawful R G (choiceMR decision ups) ⟨d0, [], u0⟩ := by
  refine h.lawful_of (choiceMR decision ups) ⟨d0, [], u0⟩ (fun s => s.up)
    (fun s T => RecInv s.allocations T) rfl (by simp [RecInv]) (fun s T T' hJ hp => hJ.perm hp)
    ?_ ?_ ?_ ?_
  · intro s T n a hJ hF hq hn
    have hg := h.alloc (decision s.dec n a).1 hF hq hn
    simp only [choiceMR, pimpl, Nat.pos_iff_ne_zero.1 hn, if_false, Choice.allocate]
    cases hx : (ups (decision s.dec n a).1).allocate s.up n a with
    | mk r u =>
      rw [hx] at hg
      cases r <;> simp only [GoodAnswer] at hg
      · left
        have hF' := FReach.alloc _ hF hq hn hx
        exact ⟨_, _, rfl, hF', hg, hJ.add _ ⟨_, n, a⟩ (h.addr_ne hF').2⟩
      · right; exact ⟨rfl, .refuse _ hF hq hn hx, hJ⟩
  · intro s T a _ _ _; simp [choiceMR, pimpl]
  · intro s T i b hJ hF
    have hne := h.addr_ne hF
    have hd := h.dealloc hF List.mem_cons_self
    simp only [choiceMR, pimpl, hne.1, if_false,
      recordedDeallocate_eq hJ List.mem_cons_self hne.1]
    exact ⟨hd, .free hF (by rw [← hd]), hJ.remove hne.2⟩
  · intro s T n a _ _; simp [choiceMR, pimpl]

/-- A stateful decision function sending requests alternately to the two memories. -/
def demoDecision (d : Bool) (_ _ : Nat) : Bool × Bool := (d, !d)

/-- Non-vacuity: with the alternating decision function two live blocks are labelled differently. -/
example : ∃ s T, TReach 64 (choiceMR demoDecision demoFam) (choiceServes demoDecision)
    ⟨false, [], demoFamInit⟩ s T ∧
    T = [(true, ⟨2 ^ 32, 50, 8⟩), (false, ⟨4096, 100, 8⟩)] := by
  refine ⟨_, _, TReach.alloc (TReach.alloc TReach.init (n := 100) (a := 8)
    ⟨by decide, by decide, 3, rfl⟩ (by decide) rfl rfl) (n := 50) (a := 8)
    ⟨by decide, by decide, 3, rfl⟩ (by decide) rfl rfl, ?_⟩
  rfl

/-! ## C15 -/

/-- The first upstream in the list that serves the request (each one tried sees the world as left by
those before it); `none` if all throw `bad_alloc`. -/
def firstServing (ups : ι → MR σ) (n a : Nat) : List ι → σ → Option (ι × Nat × σ)
  | [], _ => none
  | i :: is, u =>
    match (ups i).allocate u n a with
    | (.ok p, u') => some (i, p, u')
    | (_, u') => firstServing ups n a is u'

private theorem tryAll_eq {ups : ι → MR σ} {u0 : σ} (h : FamLawful R G ups u0) {n a : Nat}
    (hq : IsReq R n a) (hn : 0 < n) : ∀ (order : List ι) (s : Coalescing ι σ) (T : List (ι × Blk)),
    FReach R ups u0 s.up T →
    (∃ i p u, firstServing ups n a order s.up = some (i, p, u) ∧
      Coalescing.tryAll ups n a order s = (.ok p, ⟨PMap.emplace s.allocations p i, u⟩) ∧
      GoodAnswer G (T.map (·.2)) n a (.ok p) ∧
      FReach R ups u0 u ((i, ⟨p, n, a⟩) :: T)) ∨
    (∃ u, firstServing ups n a order s.up = none ∧
      Coalescing.tryAll ups n a order s = (.badAlloc, ⟨s.allocations, u⟩) ∧ FReach R ups u0 u T) := by
  intro order
  induction order with
  | nil => intro s T hF; right; exact ⟨s.up, rfl, rfl, hF⟩
  | cons i is ih =>
    intro s T hF
    have hg := h.alloc i hF hq hn
    cases hx : (ups i).allocate s.up n a with
    | mk r u =>
      rw [hx] at hg
      cases r <;> simp only [GoodAnswer] at hg
      · left
        refine ⟨i, _, u, ?_, ?_, hg, FReach.alloc i hF hq hn hx⟩
        · simp [firstServing, hx]
        · simp [Coalescing.tryAll, hx]
      · have := ih { s with up := u } T (.refuse i hF hq hn hx)
        simpa [firstServing, Coalescing.tryAll, hx] using this

/-- The upstream a coalescing resource must use for a request. -/
def coalescingServes (order : List ι) (ups : ι → MR σ) (s : Coalescing ι σ) (n a : Nat) : Option ι :=
  (firstServing ups n a order s.up).map (·.1)

private theorem coalescing_inv {order : List ι} {ups : ι → MR σ} {u0 : σ}
    (h : FamLawful R G ups u0) {s T}
    (hr : TReach R (coalescingMR order ups) (coalescingServes order ups) ⟨[], u0⟩ s T) :
    FReach R ups u0 s.up T ∧ RecInv s.allocations T := by
  induction hr with
  | init => exact ⟨.init, by simp [RecInv]⟩
  | @alloc s s' T n a p i _ hq hn he hs ih =>
    obtain ⟨i1, i2⟩ := ih
    simp only [coalescingMR, pimpl, Nat.pos_iff_ne_zero.1 hn, if_false] at he
    rcases tryAll_eq h hq hn order s T i1 with ⟨j, q, u, f1, f2, f3, f4⟩ | ⟨u, f1, f2, f3⟩
    · rw [f2] at he
      simp only [coalescingServes, f1, Option.map_some, Option.some.injEq] at hs
      subst hs
      simp only [Prod.mk.injEq, Res.ok.injEq] at he
      obtain ⟨rfl, rfl⟩ := he
      exact ⟨f4, i2.add _ ⟨_, n, a⟩ (h.addr_ne f4).2⟩
    · rw [f2] at he; simp at he
  | @refuse s s' T n a _ hq hn he ih =>
    obtain ⟨i1, i2⟩ := ih
    simp only [coalescingMR, pimpl, Nat.pos_iff_ne_zero.1 hn, if_false] at he
    rcases tryAll_eq h hq hn order s T i1 with ⟨j, q, u, f1, f2, f3, f4⟩ | ⟨u, f1, f2, f3⟩
    · rw [f2] at he; simp at he
    · rw [f2] at he
      simp only [Prod.mk.injEq, true_and] at he
      subst he; exact ⟨f3, i2⟩
  | zero _ _ he ih =>
    simp only [coalescingMR, pimpl, if_true, Prod.mk.injEq] at he
    obtain ⟨_, rfl⟩ := he; exact ih
  | @free s s' T b i _ he ih =>
    obtain ⟨i1, i2⟩ := ih
    have hne := h.addr_ne i1
    simp only [coalescingMR, pimpl, hne.1, if_false,
      recordedDeallocate_eq i2 List.mem_cons_self hne.1] at he
    cases hx : (ups i).deallocate s.up b.addr b.size b.align with
    | mk r u =>
      rw [hx] at he
      simp only [Prod.mk.injEq] at he
      obtain ⟨rfl, rfl⟩ := he
      exact ⟨.free i1 hx, i2.remove hne.2⟩
  | freeNull _ he ih =>
    simp only [coalescingMR, pimpl, if_true, Prod.mk.injEq] at he
    obtain ⟨_, rfl⟩ := he; exact ih
  | perm _ hp ih => exact ⟨.perm ih.1 hp, ih.2.perm hp⟩

/-- **C15.**  For every list of upstreams of a well-behaved family, after every history of correct
calls, live blocks labelled by the first upstream that could serve them:
* every live block is live in exactly the upstream it is labelled with;
* a non-zero request is answered by the first upstream in the list that does not throw, with that
  upstream's pointer, and throws `bad_alloc` exactly if all of them do;
* freeing a live block frees it to the upstream that served it. -/
theorem c15_coalescing (order : List ι) (ups : ι → MR σ) (u0 : σ)
    (h : FamLawful R G ups u0) (s : Coalescing ι σ) (T : List (ι × Blk))
    (hr : TReach R (coalescingMR order ups) (coalescingServes order ups) ⟨[], u0⟩ s T) :
    FReach R ups u0 s.up T ∧
    (∀ n a, IsReq R n a → 0 < n →
      match firstServing ups n a order s.up with
      | some (_, p, u) => ((coalescingMR order ups).allocate s n a).1 = .ok p ∧
          ((coalescingMR order ups).allocate s n a).2.up = u
      | none => ((coalescingMR order ups).allocate s n a).1 = .badAlloc) ∧
    (∀ i b, (i, b) ∈ T →
      let d := (ups i).deallocate s.up b.addr b.size b.align
      d.1 = .ok () ∧
      ((coalescingMR order ups).deallocate s b.addr b.size b.align).1 = .ok () ∧
      ((coalescingMR order ups).deallocate s b.addr b.size b.align).2.up = d.2) := by
  obtain ⟨i1, i2⟩ := coalescing_inv h hr
  refine ⟨i1, ?_, ?_⟩
  · intro n a hq hn
    simp only [coalescingMR, pimpl, Nat.pos_iff_ne_zero.1 hn, if_false]
    rcases tryAll_eq h hq hn order s T i1 with ⟨j, q, u, f1, f2, f3, f4⟩ | ⟨u, f1, f2, f3⟩
    · rw [f1, f2]; exact ⟨rfl, rfl⟩
    · rw [f1, f2]
  · intro i b hm
    have hne := ((h.live i1).1 _ hm).1
    have hd := h.dealloc i1 hm
    simp only [coalescingMR, pimpl, hne, if_false, recordedDeallocate_eq i2 hm hne]
    exact ⟨hd, hd, trivial⟩

/-- A coalescing resource over a well-behaved family is well-behaved. -/
theorem c15_coalescing_lawful (order : List ι) (ups : ι → MR σ) (u0 : σ)
    (h : FamLawful R G ups u0) : Lawful R G (coalescingMR order ups) ⟨[], u0⟩ := by
  refine h.lawful_of (coalescingMR order ups) ⟨[], u0⟩ (fun s => s.up)
    (fun s T => RecInv s.allocations T) rfl (by simp [RecInv]) (fun s T T' hJ hp => hJ.perm hp)
    ?_ ?_ ?_ ?_
  · intro s T n a hJ hF hq hn
    simp only [coalescingMR, pimpl, Nat.pos_iff_ne_zero.1 hn, if_false]
    rcases tryAll_eq h hq hn order s T hF with ⟨j, q, u, f1, f2, f3, f4⟩ | ⟨u, f1, f2, f3⟩
    · left; rw [f2]
      exact ⟨q, j, rfl, f4, f3, hJ.add j ⟨q, n, a⟩ (h.addr_ne f4).2⟩
    · right; rw [f2]; exact ⟨rfl, f3, hJ⟩
  · intro s T a _ _ _; simp [coalescingMR, pimpl]
  · intro s T i b hJ hF
    have hne := h.addr_ne hF
    have hd := h.dealloc hF List.mem_cons_self
    simp only [coalescingMR, pimpl, hne.1, if_false,
      recordedDeallocate_eq hJ List.mem_cons_self hne.1]
    exact ⟨hd, .free hF (by rw [← hd]), hJ.remove hne.2⟩
  · intro s T n a _ _; simp [coalescingMR, pimpl]

/-- The upstreams `is` are asked one after the other, all throw `bad_alloc`, and leave the world `u'`. -/
def AllRefuse (ups : ι → MR σ) (n a : Nat) : List ι → σ → σ → Prop
  | [], u, u' => u = u'
  | i :: is, u, u' => ∃ v, (ups i).allocate u n a = (.badAlloc, v) ∧ AllRefuse ups n a is v u'

/-- **C15**, for all upstreams, well-behaved or not: the answer is that of the first upstream that does not
throw `bad_alloc` (in particular another exception is passed on, and no later upstream is asked), and
`bad_alloc` if all do. -/
theorem c15_coalescing_first (order : List ι) (ups : ι → MR σ) (s : Coalescing ι σ) (n a : Nat)
    (hn : 0 < n) :
    (∀ pre i post u, order = pre ++ i :: post → AllRefuse ups n a pre s.up u →
      ((ups i).allocate u n a).1 ≠ .badAlloc →
      ((coalescingMR order ups).allocate s n a).1 = ((ups i).allocate u n a).1 ∧
      ((coalescingMR order ups).allocate s n a).2.up = ((ups i).allocate u n a).2) ∧
    (∀ u, AllRefuse ups n a order s.up u →
      ((coalescingMR order ups).allocate s n a).1 = .badAlloc ∧
      ((coalescingMR order ups).allocate s n a).2.up = u) := by
  simp only [coalescingMR, pimpl, Nat.pos_iff_ne_zero.1 hn, if_false]
  constructor
  · intro pre
    induction pre generalizing order s with
    | nil =>
      intro i post u ho hr hb
      simp only [AllRefuse] at hr
      subst hr ho
      simp only [List.nil_append, Coalescing.tryAll]
      cases hx : ((ups i).allocate s.up n a).1 with
      | badAlloc => exact absurd hx hb
      | _ => simp
    | cons j pre ih =>
      intro i post u ho hr hb
      obtain ⟨v, h1, h2⟩ := hr
      subst ho
      simp only [List.cons_append, Coalescing.tryAll, h1]
      exact ih (pre ++ i :: post) { s with up := v } i post u rfl h2 hb
  · induction order generalizing s with
    | nil => intro u hu; simp only [AllRefuse] at hu; simp [Coalescing.tryAll, hu]
    | cons j rest ih =>
      rintro u ⟨v, h1, h2⟩
      simp only [Coalescing.tryAll, h1]
      exact ih { s with up := v } u h2

/-- A request of 2000 bytes is refused by the first memory, and answered by the second one. -/
example : AllRefuse demoFam 2000 8 [false] demoFamInit demoFamInit ∧
    ((demoFam true).allocate demoFamInit 2000 8).1 ≠ .badAlloc := ⟨⟨_, rfl, rfl⟩, by decide +kernel⟩

/-- Non-vacuity: the first memory (1024 bytes) serves the first request, then overflows to the
second one. -/
example : ∃ s T, TReach 64 (coalescingMR [false, true] demoFam)
    (coalescingServes [false, true] demoFam) ⟨[], demoFamInit⟩ s T ∧
    T = [(true, ⟨2 ^ 32, 50, 8⟩), (false, ⟨4096, 1000, 8⟩)] := by
  refine ⟨_, _, TReach.alloc (TReach.alloc TReach.init (n := 1000) (a := 8)
    ⟨by decide, by decide, 3, rfl⟩ (by decide) rfl rfl) (n := 50) (a := 8)
    ⟨by decide, by decide, 3, rfl⟩ (by decide) rfl rfl, ?_⟩
  rfl

end Vecmem.Props
