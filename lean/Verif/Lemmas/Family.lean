import Verif.Spec.Stack
import Verif.Lemmas.Resource

namespace Vecmem

variable {σ τ ι κ : Type} {R : Limits} {G : Nat}

/-! ## several references to one resource -/

theorem FReach.same {m : MR σ} {s0 s : σ} {T : List (ι × Blk)} (h : FReach R (fun _ : ι => m) s0 s T) :
    Reach R m s0 s (T.map (·.2)) := by
  induction h with
  | init => exact .init
  | alloc i _ hq hn he ih => exact .alloc ih hq hn he
  | refuse i _ hq hn he ih => exact .refuse ih hq hn he
  | zero i _ hq he ih => exact .zero ih hq he
  | free _ he ih => exact .free ih he
  | freeNull i _ he ih => exact .freeNull ih he
  | perm _ hp ih => exact .perm ih (hp.map _)

theorem FamLawful.same {m : MR σ} {s0 : σ} (h : Lawful R G m s0) : FamLawful R G (fun _ : ι => m) s0 where
  alloc := fun _ hr hq hn => h.alloc hr.same hq hn
  zero := fun _ hr hq => h.zero hr.same hq
  dealloc := fun hr hb => h.dealloc hr.same (List.mem_map.2 ⟨_, hb, rfl⟩)
  null := fun _ hr => h.null hr.same

/-! ## some of a family -/

theorem FReach.select {ups : ι → MR σ} {s0 s : σ} {f : κ → ι} {T : List (κ × Blk)}
    (h : FReach R (fun k => ups (f k)) s0 s T) : FReach R ups s0 s (T.map (fun e => (f e.1, e.2))) := by
  induction h with
  | init => exact .init
  | alloc i _ hq hn he ih => exact .alloc (f i) ih hq hn he
  | refuse i _ hq hn he ih => exact .refuse (f i) ih hq hn he
  | zero i _ hq he ih => exact .zero (f i) ih hq he
  | free _ he ih => exact .free ih he
  | freeNull i _ he ih => exact .freeNull (f i) ih he
  | perm _ hp ih => exact .perm ih (hp.map _)

theorem FamLawful.select {ups : ι → MR σ} {s0 : σ} (f : κ → ι) (h : FamLawful R G ups s0) :
    FamLawful R G (fun k => ups (f k)) s0 where
  alloc := fun {s T n a} i hr hq hn => by
    have := h.alloc (f i) hr.select hq hn
    simpa [List.map_map, Function.comp_def] using this
  zero := fun i hr hq => h.zero (f i) hr.select hq
  dealloc := fun hr hb => h.dealloc hr.select (List.mem_map.2 ⟨_, hb, rfl⟩)
  null := fun i hr => h.null (f i) hr.select

/-! ## separate memories -/

variable {m : MR σ} {m' : MR τ} {s0 : σ} {t0 : τ}

/-- The blocks of the first (`false`) or second (`true`) of two resources. -/
def ofMember (i : Bool) (T : List (Bool × Blk)) : List Blk := (T.filter (fun e => e.1 == i)).map (·.2)

theorem mem_ofMember {i : Bool} {T : List (Bool × Blk)} {b : Blk} : b ∈ ofMember i T ↔ (i, b) ∈ T := by
  unfold ofMember
  simp only [List.mem_map, List.mem_filter]
  constructor
  · rintro ⟨⟨j, c⟩, ⟨h1, h2⟩, rfl⟩
    have : j = i := by simpa using h2
    subst this; exact h1
  · intro h; exact ⟨(i, b), ⟨h, by simp⟩, rfl⟩

theorem FReach.pair {s : σ × τ} {T : List (Bool × Blk)} (h : FReach R (pairFam m m') (s0, t0) s T) :
    Reach R m s0 s.1 (ofMember false T) ∧ Reach R m' t0 s.2 (ofMember true T) := by
  induction h with
  | init => exact ⟨.init, .init⟩
  | alloc i _ hq hn he ih =>
    cases i <;> simp only [pairFam, Prod.mk.injEq] at he <;> rw [← he.2] <;> simp only [ofMember, List.filter_cons]
    · exact ⟨.alloc ih.1 hq hn (by rw [← he.1]), ih.2⟩
    · exact ⟨ih.1, .alloc ih.2 hq hn (by rw [← he.1])⟩
  | refuse i _ hq hn he ih =>
    cases i <;> simp only [pairFam, Prod.mk.injEq] at he <;> rw [← he.2]
    · exact ⟨.refuse ih.1 hq hn (by rw [← he.1]), ih.2⟩
    · exact ⟨ih.1, .refuse ih.2 hq hn (by rw [← he.1])⟩
  | zero i _ hq he ih =>
    cases i <;> simp only [pairFam, Prod.mk.injEq] at he <;> rw [← he.2]
    · exact ⟨.zero ih.1 hq rfl, ih.2⟩
    · exact ⟨ih.1, .zero ih.2 hq rfl⟩
  | @free s s' T b i _ he ih =>
    cases i <;> simp only [pairFam, Prod.mk.injEq] at he <;> rw [← he.2] <;>
      simp only [ofMember, List.filter_cons] at ih ⊢
    · exact ⟨.free ih.1 (by rw [← he.1]), ih.2⟩
    · exact ⟨ih.1, .free ih.2 (by rw [← he.1])⟩
  | freeNull i _ he ih =>
    cases i <;> simp only [pairFam, Prod.mk.injEq] at he <;> rw [← he.2]
    · exact ⟨.freeNull ih.1 rfl, ih.2⟩
    · exact ⟨ih.1, .freeNull ih.2 rfl⟩
  | perm _ hp ih =>
    exact ⟨.perm ih.1 ((hp.filter _).map _), .perm ih.2 ((hp.filter _).map _)⟩

theorem FamLawful.pair (h : Lawful R G m s0) (h' : Lawful R G m' t0)
    (hs : SeparateMemories R m s0 m' t0) : FamLawful R G (pairFam m m') (s0, t0) where
  alloc := by
    intro s T n a i hr hq hn
    obtain ⟨r1, r2⟩ := hr.pair
    cases i
    · have hg := h.alloc r1 hq hn
      simp only [pairFam]
      cases hx : m.allocate s.1 n a with
      | mk r s' =>
        rw [hx] at hg
        cases r <;> simp only [GoodAnswer] at hg ⊢
        refine ⟨hg.1, hg.2.1, hg.2.2.1, ?_⟩
        intro b hb
        obtain ⟨⟨j, b⟩, hm, rfl⟩ := List.mem_map.1 hb
        cases j
        · exact hg.2.2.2 b (mem_ofMember.2 hm)
        · exact hs _ _ _ _ (.alloc r1 hq hn hx) r2 _ List.mem_cons_self b (mem_ofMember.2 hm)
    · have hg := h'.alloc r2 hq hn
      simp only [pairFam]
      cases hx : m'.allocate s.2 n a with
      | mk r s' =>
        rw [hx] at hg
        cases r <;> simp only [GoodAnswer] at hg ⊢
        refine ⟨hg.1, hg.2.1, hg.2.2.1, ?_⟩
        intro b hb
        obtain ⟨⟨j, b⟩, hm, rfl⟩ := List.mem_map.1 hb
        cases j
        · exact (hs _ _ _ _ r1 (.alloc r2 hq hn hx) b (mem_ofMember.2 hm) _ List.mem_cons_self).symm
        · exact hg.2.2.2 b (mem_ofMember.2 hm)
  zero := by
    intro s T a i hr hq
    cases i
    · exact h.zero hr.pair.1 hq
    · exact h'.zero hr.pair.2 hq
  dealloc := by
    intro s T b i hr hb
    cases i
    · exact h.dealloc hr.pair.1 (mem_ofMember.2 hb)
    · exact h'.dealloc hr.pair.2 (mem_ofMember.2 hb)
  null := by
    intro s T n a i hr
    cases i
    · exact h.null hr.pair.1
    · exact h'.null hr.pair.2

end Vecmem
