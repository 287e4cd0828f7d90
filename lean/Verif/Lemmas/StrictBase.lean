import Verif.Lemmas.Serves
import Verif.Lemmas.Tactics

/-!
# A base resource that knows its outstanding blocks

For examples: it hands out memory from the bottom up, with gaps, and giving back anything but an outstanding block
is an error.  It models no code.
-/

namespace Vecmem

/-- The next address, and the outstanding blocks. -/
structure Strict where
  next : Nat
  out : List Blk
deriving DecidableEq, Repr

/-- The resource. -/
def strictBase : MR Strict where
  allocate s n a :=
    if n = 0 then (.ok 0, s)
    else if s.next + n + 32 < 2 ^ 64 then (.ok s.next, ⟨(s.next + n + 32) / 16 * 16, ⟨s.next, n, a⟩ :: s.out⟩)
    else (.badAlloc, s)
  deallocate s p n a :=
    if p = 0 then (.ok (), s)
    else if (⟨p, n, a⟩ : Blk) ∈ s.out then (.ok (), ⟨s.next, s.out.erase ⟨p, n, a⟩⟩)
    else (.ub, s)

/-- At the start. -/
def Strict.init : Strict := ⟨4096, []⟩

/-- The invariant. -/
structure Strict.Ok (Z : Nat) (s : Strict) (L : List Blk) : Prop where
  out : s.out.Perm L
  next : 16 ∣ s.next ∧ 0 < s.next
  wf : ∀ b ∈ L, b.Wf ⟨16, Z⟩ 16 ∧ b.addr + b.size < s.next
  gap : L.Pairwise (fun b c => b.addr + b.size < c.addr ∨ c.addr + c.size < b.addr)

theorem strictBase_serves {Z : Nat} : Serves ⟨16, Z⟩ 16 strictBase (Strict.Ok Z) := by
  refine Serves.of_inv ?_ ?_ ?_ ?_ ?_ ?_
  · intro s L h
    refine ⟨fun b hb => (h.wf b hb).1, h.gap.imp ?_⟩
    intro b c hbc; simp only [Blk.Disjoint]; omega
  · intro s L n a h hq hn
    have hn' := Nat.pos_iff_ne_zero.1 hn
    simp only [strictBase, hn', if_false]
    by_cases hs : s.next + n + 32 < 2 ^ 64
    · simp only [hs, if_true]
      obtain ⟨h16, h0⟩ := h.next
      have hg : GoodAnswer 16 L n a (.ok s.next) := by
        refine ⟨by omega, by omega, ?_, ?_⟩
        · obtain ⟨_, h2, k, rfl⟩ := hq
          have hk : k ≤ 4 := by
            by_contra hk
            have : 2 ^ 5 ≤ 2 ^ k := Nat.pow_le_pow_right (by omega) (by omega)
            simp only at h2; omega
          have h2k : 2 ^ k ∣ 16 := Nat.pow_dvd_pow 2 hk (n := 4)
          exact fun _ => Nat.dvd_trans h2k h16
        · intro b hb
          have := (h.wf b hb).2
          simp only [Blk.Disjoint]; omega
      refine ⟨hg, ?_, by simp⟩
      rintro p ⟨⟩
      refine ⟨h.out.cons _, ⟨⟨_, Nat.mul_comm _ _⟩, by simp only; omega⟩, ?_, ?_⟩
      · intro b hb
        rcases List.mem_cons.1 hb with rfl | hb
        · exact ⟨⟨hg.1, hg.2.1, hg.2.2.1, hn, hq⟩, by simp only; omega⟩
        · exact ⟨(h.wf b hb).1, by have := (h.wf b hb).2; simp only; omega⟩
      · refine List.pairwise_cons.2 ⟨?_, h.gap⟩
        intro b hb
        exact .inr (h.wf b hb).2
    · simp only [hs, if_false]
      exact ⟨trivial, by simp, fun _ => h⟩
  · intro s L a h hq; exact ⟨.inl rfl, h⟩
  · intro s L b h
    have h0 := (h.wf b List.mem_cons_self).1.1
    have hm : b ∈ s.out := h.out.symm.subset List.mem_cons_self
    simp only [strictBase, h0, if_false, hm, if_true]
    refine ⟨trivial, ?_, h.next, fun c hc => h.wf c (List.mem_cons_of_mem _ hc), (List.pairwise_cons.1 h.gap).2⟩
    have := h.out.erase b
    simpa using this
  · intro s L n a h; exact ⟨rfl, h⟩
  · intro s L L' h hp
    exact ⟨h.out.trans hp, h.next, fun b hb => h.wf b (hp.symm.subset hb),
      hp.pairwise h.gap fun h => h.symm⟩

theorem Strict.init_ok {Z : Nat} : Strict.Ok Z Strict.init [] :=
  ⟨.refl _, ⟨⟨256, rfl⟩, by decide⟩, by simp, .nil⟩

theorem strictBase_lawful {Z : Nat} : Lawful ⟨16, Z⟩ 16 strictBase .init := strictBase_serves.lawful Strict.init_ok

/-- Blocks never touch. -/
theorem strictBase_gap {Z : Nat} {s s' : Strict} {L : List Blk} {n a p : Nat} (h : Reach ⟨16, Z⟩ strictBase .init s L)
    (hq : IsReq ⟨16, Z⟩ n a) (hn : 0 < n) (he : strictBase.allocate s n a = (.ok p, s')) {b : Blk} (hb : b ∈ L) :
    b.addr + b.size ≠ p ∧ p + n ≠ b.addr := by
  have h' := strictBase_serves.reach Strict.init_ok (.alloc h hq hn he)
  have := (List.pairwise_cons.1 h'.gap).1 b hb
  simp only at this; omega

end Vecmem
