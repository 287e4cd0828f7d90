import Verif.Spec.History
import Verif.Lemmas.Wrappers
import Verif.Lemmas.Tactics
import Mathlib.Order.Interval.Finset.Nat

namespace Vecmem

/-- Disjoint blocks inside `[lo, hi)` have total size at most `hi - lo`. -/
theorem totalSize_le {L : List Blk} {lo hi : Nat} (hd : L.Pairwise Blk.Disjoint)
    (hin : ∀ b ∈ L, lo ≤ b.addr ∧ b.addr + b.size ≤ hi) : totalSize L ≤ hi - lo := by
  suffices ∃ S : Finset Nat, S ⊆ Finset.Ico lo hi ∧ S.card = totalSize L ∧
      ∀ x ∈ S, ∃ b ∈ L, b.addr ≤ x ∧ x < b.addr + b.size by
    obtain ⟨S, h1, h2, _⟩ := this
    rw [← h2]
    have := Finset.card_le_card h1
    rwa [Nat.card_Ico] at this
  induction L with
  | nil => exact ⟨∅, by simp, by simp [totalSize], by simp⟩
  | cons b L ih =>
    have hd' := List.pairwise_cons.1 hd
    obtain ⟨S, h1, h2, h3⟩ := ih hd'.2 (fun c hc => hin c (List.mem_cons_of_mem _ hc))
    have hb := hin b List.mem_cons_self
    have hdis : Disjoint (Finset.Ico b.addr (b.addr + b.size)) S := by
      rw [Finset.disjoint_left]
      intro x hx hxS
      obtain ⟨c, hc, hx1, hx2⟩ := h3 x hxS
      have := hd'.1 c hc
      rw [Finset.mem_Ico] at hx
      unfold Blk.Disjoint at this
      omega
    refine ⟨Finset.Ico b.addr (b.addr + b.size) ∪ S, ?_, ?_, ?_⟩
    · apply Finset.union_subset _ h1
      intro x hx
      rw [Finset.mem_Ico] at hx ⊢
      omega
    · rw [Finset.card_union_of_disjoint hdis, h2, Nat.card_Ico]
      simp [totalSize]
    · intro x hx
      rcases Finset.mem_union.1 hx with hx | hx
      · rw [Finset.mem_Ico] at hx
        exact ⟨b, List.mem_cons_self, hx⟩
      · obtain ⟨c, hc, h⟩ := h3 x hx
        exact ⟨c, List.mem_cons_of_mem _ hc, h⟩

theorem totalSize_cons (b : Blk) (L : List Blk) : totalSize (b :: L) = b.size + totalSize L := by
  simp [totalSize]

theorem totalSize_perm {L L' : List Blk} (h : L.Perm L') : totalSize L = totalSize L' := by
  unfold totalSize
  exact (h.map _).sum_nat

theorem totalSize_erase {L : List Blk} {b : Blk} (h : b ∈ L) :
    totalSize L = b.size + totalSize (L.erase b) := by
  rw [totalSize_perm (List.perm_cons_erase h), totalSize_cons]

variable {σ : Type} {R : Limits} {G : Nat} {m : MR σ} {s0 : σ}

/-- The total size of all live blocks is below 2^64. -/
theorem Lawful.totalSize_lt (h : Lawful R G m s0) {s L} (hr : Reach R m s0 s L) :
    totalSize L < 2 ^ 64 := by
  obtain ⟨h1, h2⟩ := h.live hr
  have := totalSize_le (lo := 1) (hi := 2 ^ 64) h2 (fun b hb => by
    have := h1 b hb
    unfold Blk.Wf at this
    omega)
  omega

/-- A correct run is a reachable history, the live blocks being the ledger. -/
theorem CorrectRun.reach (h : Lawful R G m s0) : ∀ (calls : List Call) (s : σ) (L : List Blk),
    Reach R m s0 s L → CorrectRun R m s L calls →
    Reach R m s0 (m.run s calls).2 (ledger.go L calls (m.run s calls).1) := by
  intro calls
  induction calls with
  | nil => intro s L hr _; simpa [MR.run, ledger.go] using hr
  | cons c cs ih =>
    intro s L hr hc
    cases c with
    | alloc n a =>
      obtain ⟨hq, hc⟩ := hc
      simp only [MR.run, MR.call]
      rcases Nat.eq_zero_or_pos n with hz | hz
      · subst hz
        have hr' : Reach R m s0 (m.allocate s 0 a).2 L := .zero hr hq rfl
        rcases h.zero hr hq with h0 | h0 <;> rw [h0] at hc ⊢ <;> simp only [ledger.go, if_true] at hc ⊢ <;>
          exact ih _ _ hr' hc
      · have hg := h.alloc hr hq hz
        rcases hg.cases with ⟨p, hp⟩ | hp
        · rw [hp] at hc ⊢
          simp only [Nat.pos_iff_ne_zero.1 hz, if_false] at hc
          simp only [ledger.go, Nat.pos_iff_ne_zero.1 hz, if_false]
          exact ih _ _ (.alloc hr hq hz (by rw [← hp])) hc
        · rw [hp] at hc ⊢
          simp only at hc
          simp only [ledger.go]
          exact ih _ _ (.refuse hr hq hz (by rw [← hp])) hc
    | free p n a =>
      obtain ⟨hq, hc⟩ := hc
      simp only [MR.run, MR.call]
      by_cases hp : p = 0
      · subst hp
        have hd := h.null (n := n) (a := a) hr
        rw [hd]
        simp only [if_true] at hc
        simp only [ledger.go, if_true]
        exact ih _ _ (.freeNull hr rfl) hc
      · simp only [hp, if_false, false_or] at hc hq
        have hd := h.dealloc hr hq
        simp only at hd
        rw [hd]
        simp only [ledger.go, hp, if_false]
        exact ih _ _ (hr.free_mem hq (by rw [← hd])) hc

end Vecmem
