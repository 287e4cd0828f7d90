import Verif.Spec.Resource

namespace Vecmem

theorem Blk.Disjoint.symm {a b : Blk} (h : a.Disjoint b) : b.Disjoint a := by
  unfold Blk.Disjoint at *; omega

theorem Blk.Disjoint.mono {a b a' b' : Blk} (h : a.Disjoint b) (ha : a'.Inside a)
    (hb : b'.Inside b) : a'.Disjoint b' := by
  unfold Blk.Disjoint Blk.Inside at *; omega

theorem Blk.Inside.trans {a b c : Blk} (h : a.Inside b) (h' : b.Inside c) : a.Inside c := by
  unfold Blk.Inside at *; omega

/-- A block with legal data. -/
def Blk.Wf (R : Limits) (G : Nat) (b : Blk) : Prop :=
  b.addr ≠ 0 ∧ b.addr + b.size ≤ 2 ^ 64 ∧ (b.align ≤ G → b.align ∣ b.addr) ∧ 0 < b.size ∧
    IsReq R b.size b.align

variable {σ : Type} {R : Limits} {G : Nat} {m : MR σ} {s0 : σ}

/-- Invariant method for `Lawful`. -/
theorem Lawful.of_inv (I : σ → List Blk → Prop)
    (hinit : I s0 [])
    (halloc : ∀ s L n a, I s L → IsReq R n a → 0 < n →
      GoodAnswer G L n a (m.allocate s n a).1 ∧
      (∀ p, (m.allocate s n a).1 = .ok p → I (m.allocate s n a).2 (⟨p, n, a⟩ :: L)) ∧
      ((m.allocate s n a).1 = .badAlloc → I (m.allocate s n a).2 L))
    (hzero : ∀ s L a, I s L → IsReq R 0 a →
      ((m.allocate s 0 a).1 = .ok 0 ∨ (m.allocate s 0 a).1 = .badAlloc) ∧ I (m.allocate s 0 a).2 L)
    (hfree : ∀ s L b, I s (b :: L) →
      (m.deallocate s b.addr b.size b.align).1 = .ok () ∧
      I (m.deallocate s b.addr b.size b.align).2 L)
    (hnull : ∀ s L n a, I s L → (m.deallocate s 0 n a).1 = .ok () ∧ I (m.deallocate s 0 n a).2 L)
    (hperm : ∀ s L L', I s L → L.Perm L' → I s L') :
    Lawful R G m s0 ∧ ∀ s L, Reach R m s0 s L → I s L := by
  have hI : ∀ s L, Reach R m s0 s L → I s L := by
    intro s L h
    induction h with
    | init => exact hinit
    | alloc _ hr hn he ih =>
      have := (halloc _ _ _ _ ih hr hn).2.1 _ (by rw [he])
      rwa [he] at this
    | refuse _ hr hn he ih =>
      have := (halloc _ _ _ _ ih hr hn).2.2 (by rw [he])
      rwa [he] at this
    | @zero s s' L a r h1 hr he ih => have := (hzero s L a ih hr).2; rwa [he] at this
    | free _ he ih => have := (hfree _ _ _ ih).2; rwa [he] at this
    | @freeNull s s' L n a r h1 he ih => have := (hnull s L n a ih).2; rwa [he] at this
    | perm _ hp ih => exact hperm _ _ _ ih hp
  refine ⟨⟨?_, ?_, ?_, ?_⟩, hI⟩
  · intro s L n a h hr hn; exact (halloc _ _ _ _ (hI _ _ h) hr hn).1
  · intro s L a h hr; exact (hzero _ _ _ (hI _ _ h) hr).1
  · intro s L b h hb
    exact (hfree s (L.erase b) b (hperm _ _ _ (hI _ _ h) (List.perm_cons_erase hb))).1
  · intro s L n a h; exact (hnull _ _ _ _ (hI _ _ h)).1

/-- Every live block of a lawful resource is well-formed, and live blocks are pairwise disjoint. -/
theorem Lawful.live (h : Lawful R G m s0) {s L} (hr : Reach R m s0 s L) :
    (∀ b ∈ L, b.Wf R G) ∧ L.Pairwise Blk.Disjoint := by
  induction hr with
  | init => simp
  | @alloc s s' L n a p h1 hq hn he ih =>
    have hg := h.alloc h1 hq hn
    rw [he] at hg
    simp only [GoodAnswer] at hg
    refine ⟨?_, ?_⟩
    · intro b hb
      rcases List.mem_cons.1 hb with rfl | hb
      · exact ⟨hg.1, hg.2.1, hg.2.2.1, hn, hq⟩
      · exact ih.1 b hb
    · exact List.pairwise_cons.2 ⟨hg.2.2.2, ih.2⟩
  | refuse _ _ _ _ ih => exact ih
  | zero _ _ _ ih => exact ih
  | free _ _ ih =>
    exact ⟨fun b hb => ih.1 b (List.mem_cons_of_mem _ hb), (List.pairwise_cons.1 ih.2).2⟩
  | freeNull _ _ ih => exact ih
  | perm _ hp ih =>
    exact ⟨fun b hb => ih.1 b (hp.symm.subset hb), hp.pairwise ih.2 (fun h => h.symm)⟩

/-- The possible answers to a correct request. -/
theorem Lawful.answer (h : Lawful R G m s0) {s L n a} (hr : Reach R m s0 s L) (hq : IsReq R n a)
    (hn : 0 < n) : (∃ p s', m.allocate s n a = (.ok p, s')) ∨ ∃ s', m.allocate s n a = (.badAlloc, s') := by
  have hg := h.alloc hr hq hn
  cases hx : m.allocate s n a with
  | mk r s' =>
    rw [hx] at hg
    cases r <;> simp only [GoodAnswer] at hg
    · exact Or.inl ⟨_, _, rfl⟩
    · exact Or.inr ⟨_, rfl⟩

/-- Less is considered. -/
def Limits.Le (R R' : Limits) : Prop := R.align ≤ R'.align ∧ R.size ≤ R'.size

theorem IsReq.mono {R R' : Limits} {n a : Nat} (h : IsReq R n a) (hR : R.Le R') : IsReq R' n a :=
  ⟨⟨Nat.le_trans h.1.1 hR.2, h.1.2⟩, Nat.le_trans h.2.1 hR.1, h.2.2⟩

theorem IsReq.pos {R : Limits} {n a : Nat} (h : IsReq R n a) : 0 < a := by
  obtain ⟨_, _, k, rfl⟩ := h; exact Nat.two_pow_pos k

theorem Reach.mono {R R' : Limits} (hR : R.Le R') {s L} (h : Reach R m s0 s L) :
    Reach R' m s0 s L := by
  induction h with
  | init => exact .init
  | alloc _ hr hn he ih => exact .alloc ih (hr.mono hR) hn he
  | refuse _ hr hn he ih => exact .refuse ih (hr.mono hR) hn he
  | zero _ hr he ih => exact .zero ih (hr.mono hR) he
  | free _ he ih => exact .free ih he
  | freeNull _ he ih => exact .freeNull ih he
  | perm _ hp ih => exact .perm ih hp

theorem Lawful.mono {R R' : Limits} {G G' : Nat} (h : Lawful R G m s0) (hR : R'.Le R) (hG : G' ≤ G) :
    Lawful R' G' m s0 := by
  refine ⟨?_, ?_, ?_, ?_⟩
  · intro s L n a hr hq hn
    have := h.alloc (hr.mono hR) (hq.mono hR) hn
    cases hx : (m.allocate s n a).1 <;> rw [hx] at this <;> simp_all [GoodAnswer]
    intro hle; exact this.2.2.1 (by omega)
  · intro s L a hr hq; exact h.zero (hr.mono hR) (hq.mono hR)
  · intro s L b hr hb; exact h.dealloc (hr.mono hR) hb
  · intro s L n a hr; exact h.null (hr.mono hR)

/-- Freeing any member of the live blocks. -/
theorem Reach.free_mem {s s' : σ} {L : List Blk} {b : Blk} (h : Reach R m s0 s L) (hb : b ∈ L)
    (he : m.deallocate s b.addr b.size b.align = (.ok (), s')) :
    Reach R m s0 s' (L.erase b) :=
  .free (.perm h (List.perm_cons_erase hb)) he

theorem servedBlocks_pos : ∀ (cs : List Call) (as : List Answer),
    ∀ b ∈ servedBlocks cs as, 0 < b.size := by
  intro cs
  induction cs with
  | nil => intro as b hb; simp [servedBlocks] at hb
  | cons c cs ih =>
    intro as b hb
    cases as with
    | nil => simp [servedBlocks] at hb
    | cons x xs =>
      cases c with
      | free q n a => simp only [servedBlocks] at hb; exact ih xs b hb
      | alloc n a =>
        cases x with
        | free r => simp only [servedBlocks] at hb; exact ih xs b hb
        | alloc r =>
          cases r with
          | ok p =>
            simp only [servedBlocks] at hb
            split at hb
            · exact ih xs b hb
            · rcases List.mem_cons.1 hb with rfl | hb
              · simp only; omega
              · exact ih xs b hb
          | _ => simp only [servedBlocks] at hb; exact ih xs b hb

end Vecmem
