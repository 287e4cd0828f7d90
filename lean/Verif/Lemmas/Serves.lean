import Verif.Lemmas.Resource
import Mathlib.Data.List.Perm.Basic

/-!
# Resources that serve a relation

`Serves R G m I`: the relation `I` between states and live blocks is kept by correct calls, and in the states
it describes the calls are answered well.  `Reach` is the least such relation; others allow for calls of other
clients of the same resource.
-/

namespace Vecmem

variable {σ : Type} {R : Limits} {G : Nat} {m : MR σ} {s0 : σ}

structure Serves (R : Limits) (G : Nat) (m : MR σ) (I : σ → List Blk → Prop) : Prop where
  live : ∀ {s L}, I s L → (∀ b ∈ L, b.Wf R G) ∧ L.Pairwise Blk.Disjoint
  alloc : ∀ {s L n a}, I s L → IsReq R n a → 0 < n → GoodAnswer G L n a (m.allocate s n a).1
  zero : ∀ {s L a}, I s L → IsReq R 0 a →
    (m.allocate s 0 a).1 = .ok 0 ∨ (m.allocate s 0 a).1 = .badAlloc
  dealloc : ∀ {s L b}, I s L → b ∈ L → (m.deallocate s b.addr b.size b.align).1 = .ok ()
  null : ∀ {s L n a}, I s L → (m.deallocate s 0 n a).1 = .ok ()
  sAlloc : ∀ {s s' L n a p}, I s L → IsReq R n a → 0 < n → m.allocate s n a = (.ok p, s') →
    I s' (⟨p, n, a⟩ :: L)
  sRefuse : ∀ {s s' L n a}, I s L → IsReq R n a → 0 < n → m.allocate s n a = (.badAlloc, s') → I s' L
  sZero : ∀ {s s' L a r}, I s L → IsReq R 0 a → m.allocate s 0 a = (r, s') → I s' L
  sFree : ∀ {s s' L b}, I s (b :: L) → m.deallocate s b.addr b.size b.align = (.ok (), s') → I s' L
  sNull : ∀ {s s' L n a r}, I s L → m.deallocate s 0 n a = (r, s') → I s' L
  perm : ∀ {s L L'}, I s L → L.Perm L' → I s L'

/-- The reachable states of a lawful resource. -/
theorem Lawful.serves (h : Lawful R G m s0) : Serves R G m (Reach R m s0) where
  live := h.live
  alloc := h.alloc
  zero := h.zero
  dealloc := h.dealloc
  null := h.null
  sAlloc := .alloc
  sRefuse := .refuse
  sZero := .zero
  sFree := .free
  sNull := .freeNull
  perm := .perm

variable {I : σ → List Blk → Prop}

/-- Conversely. -/
theorem Serves.reach (h : Serves R G m I) (h0 : I s0 []) {s L} (hr : Reach R m s0 s L) : I s L := by
  induction hr with
  | init => exact h0
  | alloc _ hq hn he ih => exact h.sAlloc ih hq hn he
  | refuse _ hq hn he ih => exact h.sRefuse ih hq hn he
  | zero _ hq he ih => exact h.sZero ih hq he
  | free _ he ih => exact h.sFree ih he
  | freeNull _ he ih => exact h.sNull ih he
  | perm _ hp ih => exact h.perm ih hp

theorem Serves.lawful (h : Serves R G m I) (h0 : I s0 []) : Lawful R G m s0 where
  alloc := fun hr => h.alloc (h.reach h0 hr)
  zero := fun hr => h.zero (h.reach h0 hr)
  dealloc := fun hr => h.dealloc (h.reach h0 hr)
  null := fun hr => h.null (h.reach h0 hr)

/-- The possible answers to a correct request. -/
theorem Serves.answer (h : Serves R G m I) {s L n a} (hr : I s L) (hq : IsReq R n a)
    (hn : 0 < n) : (∃ p s', m.allocate s n a = (.ok p, s')) ∨ ∃ s', m.allocate s n a = (.badAlloc, s') := by
  have hg := h.alloc hr hq hn
  cases hx : m.allocate s n a with
  | mk r s' =>
    rw [hx] at hg
    cases r <;> simp only [GoodAnswer] at hg
    · exact Or.inl ⟨_, _, rfl⟩
    · exact Or.inr ⟨_, rfl⟩

/-- Invariant method for `Serves`. -/
theorem Serves.of_inv
    (hlive : ∀ s L, I s L → (∀ b ∈ L, b.Wf R G) ∧ L.Pairwise Blk.Disjoint)
    (halloc : ∀ s L n a, I s L → IsReq R n a → 0 < n →
      GoodAnswer G L n a (m.allocate s n a).1 ∧
      (∀ p, (m.allocate s n a).1 = .ok p → I (m.allocate s n a).2 (⟨p, n, a⟩ :: L)) ∧
      ((m.allocate s n a).1 = .badAlloc → I (m.allocate s n a).2 L))
    (hzero : ∀ s L a, I s L → IsReq R 0 a →
      ((m.allocate s 0 a).1 = .ok 0 ∨ (m.allocate s 0 a).1 = .badAlloc) ∧ I (m.allocate s 0 a).2 L)
    (hfree : ∀ s L b, I s (b :: L) →
      (m.deallocate s b.addr b.size b.align).1 = .ok () ∧
      I (m.deallocate s b.addr b.size b.align).2 L)
    (hnull : ∀ s L n a, I s L → (m.deallocate s 0 n a).1 = .ok () ∧ I (m.deallocate s 0 n a).2 L)
    (hperm : ∀ s L L', I s L → L.Perm L' → I s L') : Serves R G m I where
  live := hlive _ _
  alloc := fun h hq hn => (halloc _ _ _ _ h hq hn).1
  zero := fun h hq => (hzero _ _ _ h hq).1
  dealloc := fun {s L b} h hb =>
    (hfree s (L.erase b) b (hperm _ _ _ h (List.perm_cons_erase hb))).1
  null := fun h => (hnull _ _ _ _ h).1
  sAlloc := fun {s s' L n a p} h hq hn he => by
    have := (halloc s L n a h hq hn).2.1 p (by rw [he]); rwa [he] at this
  sRefuse := fun {s s' L n a} h hq hn he => by
    have := (halloc s L n a h hq hn).2.2 (by rw [he]); rwa [he] at this
  sZero := fun {s s' L a r} h hq he => by have := (hzero s L a h hq).2; rwa [he] at this
  sFree := fun {s s' L b} h he => by have := (hfree s L b h).2; rwa [he] at this
  sNull := fun {s s' L n a r} h he => by have := (hnull s L n a h).2; rwa [he] at this
  perm := hperm _ _ _

/-- Live blocks are well-formed and disjoint. -/
def Live (R : Limits) (G : Nat) (L : List Blk) : Prop := (∀ b ∈ L, b.Wf R G) ∧ L.Pairwise Blk.Disjoint

theorem Live.cons {L : List Blk} {n a p : Nat} (h : Live R G L) (hq : IsReq R n a) (hn : 0 < n)
    (hg : GoodAnswer G L n a (.ok p)) : Live R G (⟨p, n, a⟩ :: L) := by
  simp only [GoodAnswer] at hg
  refine ⟨?_, List.pairwise_cons.2 ⟨hg.2.2.2, h.2⟩⟩
  intro b hb
  rcases List.mem_cons.1 hb with rfl | hb
  · exact ⟨hg.1, hg.2.1, hg.2.2.1, hn, hq⟩
  · exact h.1 b hb

theorem Live.tail {L : List Blk} {b : Blk} (h : Live R G (b :: L)) : Live R G L :=
  ⟨fun c hc => h.1 c (List.mem_cons_of_mem _ hc), (List.pairwise_cons.1 h.2).2⟩

theorem Live.perm {L L' : List Blk} (h : Live R G L) (hp : L.Perm L') : Live R G L' :=
  ⟨fun b hb => h.1 b (hp.symm.subset hb), hp.pairwise h.2 (fun h => h.symm)⟩

/-- Invariant method for `Serves`: that blocks are well-formed need not be part of the invariant. -/
theorem Serves.of_inv_live
    (halloc : ∀ s L n a, I s L → Live R G L → IsReq R n a → 0 < n →
      GoodAnswer G L n a (m.allocate s n a).1 ∧
      (∀ p, (m.allocate s n a).1 = .ok p → I (m.allocate s n a).2 (⟨p, n, a⟩ :: L)) ∧
      ((m.allocate s n a).1 = .badAlloc → I (m.allocate s n a).2 L))
    (hzero : ∀ s L a, I s L → IsReq R 0 a →
      ((m.allocate s 0 a).1 = .ok 0 ∨ (m.allocate s 0 a).1 = .badAlloc) ∧ I (m.allocate s 0 a).2 L)
    (hfree : ∀ s L b, I s (b :: L) → Live R G (b :: L) →
      (m.deallocate s b.addr b.size b.align).1 = .ok () ∧
      I (m.deallocate s b.addr b.size b.align).2 L)
    (hnull : ∀ s L n a, I s L → (m.deallocate s 0 n a).1 = .ok () ∧ I (m.deallocate s 0 n a).2 L)
    (hperm : ∀ s L L', I s L → L.Perm L' → I s L') : Serves R G m (fun s L => I s L ∧ Live R G L) := by
  refine Serves.of_inv (fun s L h => h.2) ?_ ?_ ?_ ?_ ?_
  · intro s L n a h hq hn
    obtain ⟨h1, h2, h3⟩ := halloc s L n a h.1 h.2 hq hn
    refine ⟨h1, fun p hp => ⟨h2 p hp, h.2.cons hq hn (hp ▸ h1)⟩, fun hb => ⟨h3 hb, h.2⟩⟩
  · intro s L a h hq
    exact ⟨(hzero s L a h.1 hq).1, (hzero s L a h.1 hq).2, h.2⟩
  · intro s L b h
    exact ⟨(hfree s L b h.1 h.2).1, (hfree s L b h.1 h.2).2, h.2.tail⟩
  · intro s L n a h
    exact ⟨(hnull s L n a h.1).1, (hnull s L n a h.1).2, h.2⟩
  · intro s L L' h hp; exact ⟨hperm s L L' h.1 hp, h.2.perm hp⟩

/-- A relation holds pairwise if it holds between any element and the others. -/
theorem pairwise_of_perm {α : Type} {P : α → α → Prop} {L : List α}
    (h : ∀ b L', L.Perm (b :: L') → ∀ c ∈ L', P b c) : L.Pairwise P := by
  rw [List.pairwise_iff_forall_sublist]
  intro a b hs
  obtain ⟨l, hl⟩ := hs.exists_perm_append
  exact h a (b :: l) hl b List.mem_cons_self

end Vecmem
