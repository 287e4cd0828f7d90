import Verif.Spec.Family
import Verif.Lemmas.Resource
import Verif.Model.Wrappers

namespace Vecmem

variable {σ ι : Type} {R : Limits} {G : Nat}

theorem GoodAnswer.mono {G : Nat} {L L' : List Blk} {n a : Nat} {r : Res Nat}
    (h : GoodAnswer G L n a r) (hs : ∀ b ∈ L', b ∈ L) : GoodAnswer G L' n a r := by
  cases r <;> simp only [GoodAnswer] at *
  exact ⟨h.1, h.2.1, h.2.2.1, fun b hb => h.2.2.2 b (hs b hb)⟩

theorem GoodAnswer.cases {G : Nat} {L : List Blk} {n a : Nat} {r : Res Nat}
    (h : GoodAnswer G L n a r) : (∃ p, r = .ok p) ∨ r = .badAlloc := by
  cases r <;> simp [GoodAnswer] at *

/-- Live blocks of a lawful family. -/
theorem FamLawful.live {ups : ι → MR σ} {s0 : σ} (h : FamLawful R G ups s0) {s T}
    (hr : FReach R ups s0 s T) :
    (∀ e ∈ T, e.2.Wf R G) ∧ T.Pairwise (fun e f => e.2.Disjoint f.2) := by
  induction hr with
  | init => simp
  | @alloc s s' T n a p i h1 hq hn he ih =>
    have hg := h.alloc i h1 hq hn
    rw [he] at hg
    simp only [GoodAnswer, List.mem_map, forall_exists_index, and_imp,
      forall_apply_eq_imp_iff₂] at hg
    refine ⟨?_, ?_⟩
    · intro b hb
      rcases List.mem_cons.1 hb with rfl | hb
      · exact ⟨hg.1, hg.2.1, hg.2.2.1, hn, hq⟩
      · exact ih.1 b hb
    · exact List.pairwise_cons.2 ⟨fun e he => hg.2.2.2 e he, ih.2⟩
  | refuse _ _ _ _ _ ih => exact ih
  | zero _ _ _ _ ih => exact ih
  | free _ _ ih =>
    exact ⟨fun b hb => ih.1 b (List.mem_cons_of_mem _ hb), (List.pairwise_cons.1 ih.2).2⟩
  | freeNull _ _ _ ih => exact ih
  | perm _ hp ih =>
    exact ⟨fun b hb => ih.1 b (hp.symm.subset hb), hp.pairwise ih.2 (fun h => h.symm)⟩

/-! ## Pointer maps -/

namespace PMap

variable {β : Type}

theorem lookup_erase (m : List (Nat × β)) (k j : Nat) :
    (erase m k).lookup j = if j = k then none else m.lookup j := by
  induction m with
  | nil => simp [erase]
  | cons e m ih =>
    obtain ⟨x, v⟩ := e
    unfold erase at *
    simp only [List.filter_cons, bne_iff_ne, ne_eq]
    by_cases hxk : x = k
    · subst hxk
      simp only [not_true_eq_false, if_false, ih, List.lookup_cons]
      by_cases hj : j = x
      · simp [hj]
      · have : (j == x) = false := by simpa using hj
        simp [hj, this]
    · simp only [hxk, not_false_eq_true, if_true, List.lookup_cons, ih]
      by_cases hj : j = x
      · subst hj; simp [hxk]
      · have : (j == x) = false := by simpa using hj
        simp only [this]

theorem lookup_emplace (m : List (Nat × β)) (k : Nat) (v : β) (j : Nat) :
    (emplace m k v).lookup j =
      if j = k then some ((m.lookup k).getD v) else m.lookup j := by
  unfold emplace
  cases h : m.lookup k with
  | none =>
    simp only [Option.isSome_none, Bool.false_eq_true, if_false, List.lookup_cons]
    by_cases hj : j = k
    · simp [hj]
    · have : (j == k) = false := by simpa using hj
      simp [this, hj]
  | some w =>
    simp only [Option.isSome_some, if_true, Option.getD_some]
    by_cases hj : j = k
    · subst hj; simp [h]
    · simp [hj]

end PMap

/-! ## Records of choice and coalescing -/

/-- The record map names for each live block the resource serving it, and nothing else. -/
def RecInv (allocs : List (Nat × ι)) (T : List (ι × Blk)) : Prop :=
  (∀ e ∈ T, allocs.lookup e.2.addr = some e.1) ∧
  (∀ k i, allocs.lookup k = some i → ∃ e ∈ T, e.2.addr = k)

theorem RecInv.perm {allocs : List (Nat × ι)} {T T' : List (ι × Blk)} (h : RecInv allocs T)
    (hp : T.Perm T') : RecInv allocs T' :=
  ⟨fun e he => h.1 e (hp.symm.subset he), fun k i hk => by
    obtain ⟨e, he, h'⟩ := h.2 k i hk; exact ⟨e, hp.subset he, h'⟩⟩

theorem addr_ne_of_disjoint {a b : Blk} (h : a.Disjoint b) (ha : 0 < a.size) (hb : 0 < b.size) :
    a.addr ≠ b.addr := by unfold Blk.Disjoint at h; omega

theorem RecInv.add {allocs : List (Nat × ι)} {T : List (ι × Blk)} (h : RecInv allocs T)
    (i : ι) (b : Blk) (hne : ∀ e ∈ T, b.addr ≠ e.2.addr) :
    RecInv (PMap.emplace allocs b.addr i) ((i, b) :: T) := by
  have hnone : allocs.lookup b.addr = none := by
    cases hl : allocs.lookup b.addr with
    | none => rfl
    | some j => obtain ⟨e, he, h'⟩ := h.2 _ _ hl; exact absurd h'.symm (hne e he)
  constructor
  · intro e he
    rcases List.mem_cons.1 he with rfl | he
    · simp [PMap.lookup_emplace, hnone]
    · rw [PMap.lookup_emplace, if_neg (fun h => hne e he h.symm)]; exact h.1 e he
  · intro k j hk
    rw [PMap.lookup_emplace] at hk
    by_cases hkb : k = b.addr
    · exact ⟨(i, b), List.mem_cons_self, hkb.symm⟩
    · rw [if_neg hkb] at hk
      obtain ⟨e, he, h'⟩ := h.2 _ _ hk
      exact ⟨e, List.mem_cons_of_mem _ he, h'⟩

theorem RecInv.remove {allocs : List (Nat × ι)} {T : List (ι × Blk)} {i : ι} {b : Blk}
    (h : RecInv allocs ((i, b) :: T)) (hne : ∀ e ∈ T, b.addr ≠ e.2.addr) :
    RecInv (PMap.erase allocs b.addr) T := by
  constructor
  · intro e he
    rw [PMap.lookup_erase, if_neg (fun h => hne e he h.symm)]
    exact h.1 e (List.mem_cons_of_mem _ he)
  · intro k j hk
    rw [PMap.lookup_erase] at hk
    by_cases hkb : k = b.addr
    · simp [hkb] at hk
    · rw [if_neg hkb] at hk
      obtain ⟨e, he, h'⟩ := h.2 _ _ hk
      rcases List.mem_cons.1 he with rfl | he
      · exact absurd h'.symm hkb
      · exact ⟨e, he, h'⟩

theorem FamLawful.addr_ne {ups : ι → MR σ} {s0 s : σ} {i : ι} {b : Blk} {T : List (ι × Blk)}
    (h : FamLawful R G ups s0) (hr : FReach R ups s0 s ((i, b) :: T)) :
    b.addr ≠ 0 ∧ ∀ e ∈ T, b.addr ≠ e.2.addr := by
  have hl := h.live hr
  have hw := hl.1 (i, b) List.mem_cons_self
  refine ⟨hw.1, ?_⟩
  intro e he
  have hd := (List.pairwise_cons.1 hl.2).1 e he
  have hw' := hl.1 e (List.mem_cons_of_mem _ he)
  exact addr_ne_of_disjoint hd hw.2.2.2.1 hw'.2.2.2.1

theorem recordedDeallocate_eq {ups : ι → MR σ} {allocs : List (Nat × ι)} {T : List (ι × Blk)}
    {i : ι} {b : Blk} (h : RecInv allocs T) (hm : (i, b) ∈ T) (hb : b.addr ≠ 0) (u : σ)
    (n a : Nat) :
    recordedDeallocate ups allocs u b.addr n a =
      (((ups i).deallocate u b.addr n a).1, PMap.erase allocs b.addr,
        ((ups i).deallocate u b.addr n a).2) := by
  have hl := h.1 (i, b) hm
  simp only at hl
  simp [recordedDeallocate, hb, hl]

/-! ## From families to a lawful single resource -/

/-- Invariant method for resources over a family: if the calls keep `FReach` (and an extra invariant
`J`) in step with the client's live blocks, the resource is lawful. -/
theorem FamLawful.lawful_of {S : Type} {ups : ι → MR σ} {u0 : σ} (h : FamLawful R G ups u0)
    (m : MR S) (s0 : S) (proj : S → σ) (J : S → List (ι × Blk) → Prop)
    (hp0 : proj s0 = u0) (hJ0 : J s0 [])
    (hJp : ∀ s T T', J s T → T.Perm T' → J s T')
    (halloc : ∀ s T n a, J s T → FReach R ups u0 (proj s) T → IsReq R n a → 0 < n →
      (∃ p i, (m.allocate s n a).1 = .ok p ∧
        FReach R ups u0 (proj (m.allocate s n a).2) ((i, ⟨p, n, a⟩) :: T) ∧
        GoodAnswer G (T.map (·.2)) n a (.ok p) ∧
        J (m.allocate s n a).2 ((i, ⟨p, n, a⟩) :: T)) ∨
      ((m.allocate s n a).1 = .badAlloc ∧ FReach R ups u0 (proj (m.allocate s n a).2) T ∧
        J (m.allocate s n a).2 T))
    (hzero : ∀ s T a, J s T → FReach R ups u0 (proj s) T → IsReq R 0 a →
      m.allocate s 0 a = (.ok 0, s))
    (hfree : ∀ s T i b, J s ((i, b) :: T) → FReach R ups u0 (proj s) ((i, b) :: T) →
      (m.deallocate s b.addr b.size b.align).1 = .ok () ∧
      FReach R ups u0 (proj (m.deallocate s b.addr b.size b.align).2) T ∧
      J (m.deallocate s b.addr b.size b.align).2 T)
    (hnull : ∀ s T n a, J s T → FReach R ups u0 (proj s) T →
      m.deallocate s 0 n a = (.ok (), s)) :
    Lawful R G m s0 := by
  refine (Lawful.of_inv (fun s L => ∃ T, (T.map (·.2)).Perm L ∧ J s T ∧
    FReach R ups u0 (proj s) T) ?_ ?_ ?_ ?_ ?_ ?_).1
  · exact ⟨[], .refl _, hJ0, hp0 ▸ .init⟩
  · rintro s L n a ⟨T, hT, hJ, hF⟩ hq hn
    rcases halloc s T n a hJ hF hq hn with ⟨p, i, he, hF', hg, hJ'⟩ | ⟨he, hF', hJ'⟩
    · refine ⟨?_, ?_, by simp [he]⟩
      · rw [he]; exact hg.mono (fun b hb => hT.symm.subset hb)
      · intro q hq'
        rw [he] at hq'
        obtain rfl := (Res.ok.inj hq')
        exact ⟨_, by simpa using hT, hJ', hF'⟩
    · refine ⟨by rw [he]; trivial, by simp [he], fun _ => ⟨T, hT, hJ', hF'⟩⟩
  · rintro s L a ⟨T, hT, hJ, hF⟩ hq
    rw [hzero s T a hJ hF hq]
    exact ⟨Or.inl rfl, T, hT, hJ, hF⟩
  · rintro s L b ⟨T, hT, hJ, hF⟩
    have hm : b ∈ T.map (·.2) := hT.symm.subset List.mem_cons_self
    obtain ⟨⟨i, b'⟩, he, rfl⟩ := List.mem_map.1 hm
    obtain ⟨T1, T2, rfl⟩ := List.append_of_mem he
    have hp : (T1 ++ (i, b') :: T2).Perm ((i, b') :: (T1 ++ T2)) := List.perm_middle
    have := hfree s (T1 ++ T2) i b' (hJp _ _ _ hJ hp) (.perm hF hp)
    refine ⟨this.1, T1 ++ T2, ?_, this.2.2, this.2.1⟩
    have h1 := (hp.map (·.2)).symm.trans hT
    simp only [List.map_cons] at h1
    exact h1.cons_inv
  · rintro s L n a ⟨T, hT, hJ, hF⟩
    rw [hnull s T n a hJ hF]
    exact ⟨rfl, T, hT, hJ, hF⟩
  · rintro s L L' ⟨T, hT, hJ, hF⟩ hp
    exact ⟨T, hT.trans hp, hJ, hF⟩

end Vecmem
