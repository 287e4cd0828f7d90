import Verif.Spec.Logged
import Verif.Lemmas.Resource

namespace Vecmem

variable {σ : Type} {R : Limits} {G : Nat} {m : MR σ} {s0 : σ}

theorem Reach.unlog {c0 : List Call} {s : σ × List Call} {L : List Blk}
    (h : Reach R (logged m) (s0, c0) s L) : Reach R m s0 s.1 L := by
  induction h with
  | init => exact .init
  | @alloc s s' L n a p h1 hq hn he ih =>
    simp only [logged, Prod.mk.injEq] at he
    refine .alloc ih hq hn ?_
    rw [← he.1, ← he.2]
  | @refuse s s' L n a h1 hq hn he ih =>
    simp only [logged, Prod.mk.injEq] at he
    refine .refuse ih hq hn ?_
    rw [← he.1, ← he.2]
  | @zero s s' L a r h1 hq he ih =>
    simp only [logged, Prod.mk.injEq] at he
    refine .zero (r := r) ih hq ?_
    rw [← he.1, ← he.2]
  | @free s s' L b h1 he ih =>
    simp only [logged, Prod.mk.injEq] at he
    refine .free ih ?_
    rw [← he.1, ← he.2]
  | @freeNull s s' L n a r h1 he ih =>
    simp only [logged, Prod.mk.injEq] at he
    refine .freeNull (n := n) (a := a) (r := r) ih ?_
    rw [← he.1, ← he.2]
  | perm _ hp ih => exact .perm ih hp

/-- Recording calls does not change the behaviour. -/
theorem Lawful.logged (h : Lawful R G m s0) (c0 : List Call) : Lawful R G (logged m) (s0, c0) := by
  refine ⟨?_, ?_, ?_, ?_⟩
  · intro s L n a hr hq hn; exact h.alloc hr.unlog hq hn
  · intro s L a hr hq; exact h.zero hr.unlog hq
  · intro s L b hr hb; exact h.dealloc hr.unlog hb
  · intro s L n a hr; exact h.null hr.unlog

/-- Histories can be put one after the other. -/
theorem Reach.trans {s t : σ} {L K : List Blk} (h : Reach R m s0 s L) (h' : Reach R m s t K) :
    Reach R m s0 t (K ++ L) := by
  induction h' with
  | init => exact h
  | alloc _ hq hn he ih => exact .alloc ih hq hn he
  | refuse _ hq hn he ih => exact .refuse ih hq hn he
  | zero _ hq he ih => exact .zero ih hq he
  | free _ he ih => exact .free ih he
  | freeNull _ he ih => exact .freeNull ih he
  | perm _ hp ih => exact .perm ih (hp.append_right _)

/-- A well-behaved resource with some clients can be taken as an initial state for further clients. -/
theorem Lawful.restart {s : σ} {L : List Blk} (h : Lawful R G m s0) (hr : Reach R m s0 s L) :
    Lawful R G m s := by
  refine ⟨?_, ?_, ?_, ?_⟩
  · intro t K n a ht hq hn
    have := h.alloc (hr.trans ht) hq hn
    revert this
    generalize (m.allocate t n a).1 = r
    cases r <;> simp only [GoodAnswer, imp_self]
    rintro ⟨h1, h2, h3, h4⟩
    exact ⟨h1, h2, h3, fun b hb => h4 b (List.mem_append_left _ hb)⟩
  · intro t K a ht hq; exact h.zero (hr.trans ht) hq
  · intro t K b ht hb; exact h.dealloc (hr.trans ht) (List.mem_append_left _ hb)
  · intro t K n a ht; exact h.null (hr.trans ht)

end Vecmem
