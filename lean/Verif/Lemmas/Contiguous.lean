import Verif.Lemmas.Resource
import Verif.Lemmas.Align
import Verif.Model.Contiguous

namespace Vecmem

open IntMath

namespace Contig

variable {σ : Type}

/-- State invariant: the bump position is inside the upstream block `[p, p + size)`. -/
def Inv (p size : Nat) (c : Contig) : Prop :=
  c.beg = p ∧ c.size = size ∧ p ≤ c.next ∧ c.next ≤ p + size

theorem allocate_eq {p size : Nat} {c : Contig} (h : Inv p size c) (hs : size < 2 ^ 64)
    {n a : Nat} (hn : 0 < n) :
    c.allocate n a =
      if alignUp a c.next + n ≤ p + size then
        (.ok (alignUp a c.next), { c with next := alignUp a c.next + n })
      else (.badAlloc, c) := by
  obtain ⟨h1, h2, h3, h4⟩ := h
  have hge := alignUp_ge a c.next
  have hw : wrap64 (c.size + 2 ^ 64 - (c.next - c.beg)) = size - (c.next - p) := by
    rw [h1, h2]; unfold wrap64; omega
  unfold allocate
  rw [if_neg (by omega), if_neg (by omega)]
  simp only [hw, stdAlign_eq]
  by_cases hc : alignUp a c.next + n ≤ p + size
  · rw [if_pos hc, if_pos (by omega)]
  · rw [if_neg hc, if_neg (by omega)]

theorem mr_allocate_pos (s : Contig × σ) {n : Nat} (hn : 0 < n) (a : Nat) :
    (mr (σ := σ)).allocate s n a =
      ((s.1.allocate n a).1, ((s.1.allocate n a).2, s.2)) := by
  simp [mr, pimpl, impl, Nat.pos_iff_ne_zero.1 hn]

theorem mr_allocate_zero (s : Contig × σ) (a : Nat) :
    (mr (σ := σ)).allocate s 0 a = (.ok 0, s) := by
  simp [mr, pimpl]

theorem mr_deallocate (s : Contig × σ) (q n a : Nat) :
    (mr (σ := σ)).deallocate s q n a = (.ok (), s) := by
  simp [mr, pimpl, impl]

/-- A contiguous resource is lawful, whatever alignments are requested. -/
theorem lawful_inv (R : Limits) {p size : Nat} {c : Contig} (u : σ) (hc : c = ⟨size, p, p⟩)
    (hs : size < 2 ^ 64) (hp : 0 < size → p ≠ 0) (hend : p + size ≤ 2 ^ 64) :
    Lawful R R.align (mr (σ := σ)) (c, u) ∧
    ∀ (s : Contig × σ) L, Reach R (mr (σ := σ)) (c, u) s L → Inv p size s.1 ∧
      ∀ b ∈ L, p ≤ b.addr ∧ b.addr + b.size ≤ s.1.next := by
  refine Lawful.of_inv (fun (s : Contig × σ) L => Inv p size s.1 ∧
    ∀ b ∈ L, p ≤ b.addr ∧ b.addr + b.size ≤ s.1.next) ?_ ?_ ?_ ?_ ?_ ?_
  · subst hc; exact ⟨⟨rfl, rfl, Nat.le_refl _, Nat.le_add_right _ _⟩, by simp⟩
  · intro s L n a ⟨hI, hL⟩ hr hn
    rw [mr_allocate_pos s hn, allocate_eq hI hs hn]
    have hge := alignUp_ge a s.1.next
    obtain ⟨h1, h2, h3, h4⟩ := id hI
    by_cases hc : alignUp a s.1.next + n ≤ p + size
    · rw [if_pos hc]
      refine ⟨⟨?_, by omega, fun _ => alignUp_dvd hr.pos _, ?_⟩, ?_, by simp⟩
      · have := hp (by omega); omega
      · intro b hb; have := hL b hb; right; simp only; omega
      · rintro q ⟨⟩
        refine ⟨⟨h1, h2, by simp only; omega, hc⟩, ?_⟩
        intro b hb
        rcases List.mem_cons.1 hb with rfl | hb
        · simp only; omega
        · have := hL b hb; simp only; omega
    · rw [if_neg hc]
      exact ⟨trivial, by simp, fun _ => ⟨hI, hL⟩⟩
  · intro s L a h _; rw [mr_allocate_zero]; exact ⟨Or.inl rfl, h⟩
  · intro s L b h; rw [mr_deallocate]
    exact ⟨rfl, h.1, fun b' hb' => h.2 b' (List.mem_cons_of_mem _ hb')⟩
  · intro s L n a h; rw [mr_deallocate]; exact ⟨rfl, h⟩
  · intro s L L' h hp; exact ⟨h.1, fun b hb => h.2 b (hp.symm.subset hb)⟩

theorem lawful (R : Limits) {p size : Nat} {c : Contig} (u : σ) (hc : c = ⟨size, p, p⟩)
    (hs : size < 2 ^ 64) (hp : 0 < size → p ≠ 0) (hend : p + size ≤ 2 ^ 64) :
    Lawful R R.align (mr (σ := σ)) (c, u) := (lawful_inv R u hc hs hp hend).1

theorem create_spec {up : MR σ} {u0 u u' : σ} {R : Limits} {G : Nat} {U : List Blk} (h : Lawful R G up u0)
    (hr : Reach R up u0 u U) {size : Nat} (hsz : IsReq R size maxAlign) {c : Contig}
    (hnew : create up u size = (.ok c, u')) :
    ∃ p, up.allocate u size maxAlign = (.ok p, u') ∧ c = ⟨size, p, p⟩ ∧ (0 < size → p ≠ 0) ∧
      p + size ≤ 2 ^ 64 ∧ (0 < size → ∀ b ∈ U, Blk.Disjoint ⟨p, size, maxAlign⟩ b) := by
  have h0 := h.zero (a := maxAlign) hr ⟨⟨Nat.zero_le _, by decide⟩, hsz.2⟩
  have h1 := h.alloc hr hsz
  cases hx : up.allocate u size maxAlign with
  | mk r u1 =>
    simp only [create, hx] at hnew
    cases r <;> simp only [Res.map, Prod.mk.injEq, Res.ok.injEq, reduceCtorEq, false_and] at hnew
    case ok p =>
      obtain ⟨hc, rfl⟩ := hnew
      refine ⟨p, rfl, hc.symm, ?_⟩
      rcases Nat.eq_zero_or_pos size with hz | hz
      · subst hz
        rw [hx] at h0
        simp at h0
        exact ⟨fun h => absurd h (by decide), by omega, fun h => absurd h (by decide)⟩
      · have := h1 hz
        rw [hx] at this
        exact ⟨fun _ => this.1, this.2.1, fun _ => this.2.2.2⟩

/-- What `mr.run` does on arbitrary calls, relative to the bump position. -/
theorem run_spec {p size : Nat} (hs : size < 2 ^ 64) :
    ∀ (calls : List Call) (s : Contig × σ), Inv p size s.1 →
      (∀ n a, Call.alloc n a ∈ calls → 0 < a) →
      let r := (mr (σ := σ)).run s calls
      let bs := servedBlocks calls r.1
      Inv p size r.2.1 ∧ r.2.2 = s.2 ∧ s.1.next ≤ r.2.1.next ∧ bs.Pairwise Blk.Disjoint ∧
        (∀ b ∈ bs, b.align ∣ b.addr ∧ s.1.next ≤ b.addr ∧ b.addr + b.size ≤ r.2.1.next) ∧
        (match bs.getLast? with
          | none => r.2.1.next = s.1.next
          | some b => r.2.1.next = b.addr + b.size) := by
  intro calls
  induction calls with
  | nil => intro s h _; simp [MR.run, servedBlocks, h]
  | cons c cs ih =>
    intro s h ha
    have ha' : ∀ n a, Call.alloc n a ∈ cs → 0 < a :=
      fun n a hm => ha n a (List.mem_cons_of_mem _ hm)
    cases c with
    | free q n a =>
      have := ih s h ha'
      simpa [MR.run, MR.call, mr_deallocate, servedBlocks] using this
    | alloc n a =>
      rcases Nat.eq_zero_or_pos n with hz | hz
      · subst hz
        have := ih s h ha'
        simpa [MR.run, MR.call, mr_allocate_zero, servedBlocks] using this
      · have hpos : 0 < a := ha n a List.mem_cons_self
        have hge := alignUp_ge a s.1.next
        obtain ⟨h1, h2, h3, h4⟩ := id h
        simp only [MR.run, MR.call, mr_allocate_pos s hz, allocate_eq h hs hz]
        by_cases hc : alignUp a s.1.next + n ≤ p + size
        · simp only [if_pos hc, servedBlocks, Nat.pos_iff_ne_zero.1 hz, if_false]
          have := ih ({ s.1 with next := alignUp a s.1.next + n }, s.2)
            ⟨h1, h2, by simp only; omega, hc⟩ ha'
          obtain ⟨i1, i2, i3, i4, i5, i6⟩ := this
          simp only at i1 i2 i3 i4 i5 i6
          refine ⟨i1, i2, by omega, List.pairwise_cons.2 ⟨?_, i4⟩, ?_, ?_⟩
          · intro b hb; have := i5 b hb; left; simp only; omega
          · intro b hb
            rcases List.mem_cons.1 hb with rfl | hb
            · exact ⟨alignUp_dvd hpos _, hge, i3⟩
            · have := i5 b hb; exact ⟨this.1, by omega, this.2.2⟩
          · rw [List.getLast?_cons]
            cases hl : (servedBlocks cs _).getLast? with
            | none => rw [hl] at i6; simpa using i6
            | some b => rw [hl] at i6; simpa using i6
        · simp only [if_neg hc, servedBlocks]
          exact ih s h ha'

end Contig

end Vecmem
