import Verif.Lemmas.Debug
import Verif.Props.C01_C02_Contiguous

/-!
# C13 — the debug resource
-/

namespace Vecmem.Props

open Vecmem

variable {σ : Type} {R : Limits} {G : Nat}

/-- **C13, detection.**  Over *any* upstream (correct or not) and after *any* list of calls (correct or
not), with `held` the blocks the client holds according to the calls made and the answers received:
* a deallocation of a non-null pointer that does not match a held block in address, size and alignment
  throws `logic_error` and has no effect at all;
* a matching one is forwarded, with upstream's outcome and effect;
* an allocation for which upstream returns memory sharing a byte with a held block throws
  `logic_error`; if the memory is disjoint from all held blocks it is returned; upstream exceptions are
  passed on. -/
theorem c13_debug_detects (up : MR σ) (u0 : σ) (calls : List Call) :
    let r := (debugMR up).run ⟨[], u0⟩ calls
    let held := ledger calls r.1
    (∀ p n a, p ≠ 0 →
      ((⟨p, n, a⟩ : Blk) ∉ held → (debugMR up).deallocate r.2 p n a = (.logicError, r.2)) ∧
      ((⟨p, n, a⟩ : Blk) ∈ held →
        ((debugMR up).deallocate r.2 p n a).1 = (up.deallocate r.2.up p n a).1 ∧
        ((debugMR up).deallocate r.2 p n a).2.up = (up.deallocate r.2.up p n a).2)) ∧
    (∀ n a, 0 < n →
      ((debugMR up).allocate r.2 n a).2.up = (up.allocate r.2.up n a).2 ∧
      (∀ p, (up.allocate r.2.up n a).1 = .ok p →
        ((∃ b ∈ held, ¬ Blk.Disjoint ⟨p, n, a⟩ b) →
          ((debugMR up).allocate r.2 n a).1 = .logicError) ∧
        ((∀ b ∈ held, Blk.Disjoint ⟨p, n, a⟩ b) →
          ((debugMR up).allocate r.2 n a).1 = .ok p)) ∧
      ((∀ p, (up.allocate r.2.up n a).1 ≠ .ok p) →
        ((debugMR up).allocate r.2 n a).1 = (up.allocate r.2.up n a).1)) := by
  intro r held
  have hI : Debug.Inv r.2 held := Debug.run_inv up calls ⟨[], u0⟩ [] ⟨rfl, .nil, by simp⟩
  refine ⟨?_, ?_⟩
  · intro p n a hp
    obtain ⟨h1, h2⟩ := Debug.deallocate_eq (up := up) hI hp n a
    exact ⟨h1, fun hm => ⟨(h2 hm).1, (h2 hm).2.1⟩⟩
  · intro n a hn
    obtain ⟨h1, h2⟩ := Debug.allocate_eq (up := up) hI hn a
    refine ⟨?_, fun p hp => ⟨fun ho => by rw [(h1 p hp).1 ho], fun hd => by rw [(h1 p hp).2 hd]⟩,
      fun hne => by rw [h2 hne]⟩
    by_cases hok : ∃ p, (up.allocate r.2.up n a).1 = .ok p
    · obtain ⟨p, hp⟩ := hok
      by_cases hov : ∃ b ∈ held, ¬ Blk.Disjoint ⟨p, n, a⟩ b
      · rw [(h1 p hp).1 hov]
      · rw [(h1 p hp).2 (fun b hb => by by_contra hc; exact hov ⟨b, hb, hc⟩)]
    · rw [h2 (fun p hp => hok ⟨p, hp⟩)]

/-- An upstream that serves every request from the same address: a debug resource over it catches the
overlap, a double free and a wrong size. -/
example :
    let up : MR Unit := ⟨fun _ _ _ => (.ok 64, ()), fun _ _ _ _ => (.ok (), ())⟩
    ((debugMR up).run ⟨[], ()⟩
      [.alloc 8 8, .alloc 4 4, .free 64 7 8, .free 64 8 8, .free 64 8 8, .alloc 4 4]).1 =
    [.alloc (.ok 64), .alloc .logicError, .free .logicError, .free (.ok ()), .free .logicError,
      .alloc (.ok 64)] := by decide +kernel

private theorem debug_inv {up : MR σ} {u0 : σ} (h : Lawful R G up u0) :
    Lawful R G (debugMR up) ⟨[], u0⟩ ∧
    ∀ s L, Reach R (debugMR up) ⟨[], u0⟩ s L → Reach R up u0 s.up L ∧
      ∃ acc, acc.Perm L ∧ Debug.Inv s acc := by
  refine Lawful.of_inv (fun (s : Debug σ) L => Reach R up u0 s.up L ∧
      ∃ acc, acc.Perm L ∧ Debug.Inv s acc) ?_ ?_ ?_ ?_ ?_ ?_
  · exact ⟨.init, [], .refl _, rfl, .nil, by simp⟩
  · rintro s L n a ⟨hr, acc, hp, hI⟩ hq hn
    have hg := h.alloc hr hq hn
    obtain ⟨h1, h2⟩ := Debug.allocate_eq (up := up) hI hn a
    rcases hg.cases with ⟨p, hok⟩ | hbad
    · rw [hok] at hg
      have hd : ∀ b ∈ acc, Blk.Disjoint ⟨p, n, a⟩ b := fun b hb => hg.2.2.2 b (hp.subset hb)
      rw [(h1 p hok).2 hd]
      refine ⟨hg, ?_, by simp⟩
      rintro q ⟨⟩
      refine ⟨.alloc hr hq hn (by rw [← hok]), ⟨p, n, a⟩ :: acc, hp.cons _, by simp [hI.1, Debug.enc],
        List.pairwise_cons.2 ⟨hd, hI.2.1⟩, ?_⟩
      intro b hb
      rcases List.mem_cons.1 hb with rfl | hb
      · exact hn
      · exact hI.2.2 b hb
    · rw [h2 (by simp [hbad]), hbad]
      exact ⟨trivial, by simp, fun _ => ⟨.refuse hr hq hn (by rw [← hbad]), acc, hp, hI⟩⟩
  · rintro s L a hI hq
    have : (debugMR up).allocate s 0 a = (.ok 0, s) := by simp [debugMR, pimpl]
    rw [this]; exact ⟨Or.inl rfl, hI⟩
  · rintro s L b ⟨hr, acc, hp, hI⟩
    have hm : b ∈ acc := hp.symm.subset List.mem_cons_self
    have hne := ((h.live hr).1 b List.mem_cons_self).1
    have hd := h.dealloc hr List.mem_cons_self
    obtain ⟨e1, e2, e3⟩ := (Debug.deallocate_eq (up := up) hI hne b.size b.align).2 hm
    rw [e1, e2]
    refine ⟨hd, .free hr (by rw [← hd]), acc.erase b, ?_, ?_, ?_⟩
    · exact ((List.perm_cons_erase hm).symm.trans hp).cons_inv
    · rw [e3, if_pos hd, hI.1]; exact Debug.erase_enc hI.2.1 hI.2.2 hm
    · exact ⟨hI.2.1.sublist List.erase_sublist, fun c hc => hI.2.2 c (List.mem_of_mem_erase hc)⟩
  · rintro s L n a hI
    have : (debugMR up).deallocate s 0 n a = (.ok (), s) := by simp [debugMR, pimpl]
    rw [this]; exact ⟨rfl, hI⟩
  · rintro s L L' ⟨hr, acc, hp, hI⟩ hpp; exact ⟨.perm hr hpp, acc, hp.trans hpp, hI⟩

/-- A debug resource over a well-behaved upstream is well-behaved. -/
theorem c13_debug_lawful (up : MR σ) (u0 : σ) (h : Lawful R G up u0) :
    Lawful R G (debugMR up) ⟨[], u0⟩ := (debug_inv h).1

/-- **C13, transparency.**  Over a well-behaved upstream and for every history of correct calls, the
blocks live in upstream are exactly the client's, and every correct call has exactly the outcome and
effect it would have on upstream directly. -/
theorem c13_debug_transparent (up : MR σ) (u0 : σ) (h : Lawful R G up u0) (s : Debug σ)
    (L : List Blk) (hr : Reach R (debugMR up) ⟨[], u0⟩ s L) :
    Reach R up u0 s.up L ∧
    (∀ n a, IsReq R n a → 0 < n →
      ((debugMR up).allocate s n a).1 = (up.allocate s.up n a).1 ∧
      ((debugMR up).allocate s n a).2.up = (up.allocate s.up n a).2) ∧
    (∀ b ∈ L, ((debugMR up).deallocate s b.addr b.size b.align).1 = .ok () ∧
      ((debugMR up).deallocate s b.addr b.size b.align).2.up =
        (up.deallocate s.up b.addr b.size b.align).2) := by
  obtain ⟨hu, acc, hp, hI⟩ := (debug_inv h).2 s L hr
  refine ⟨hu, ?_, ?_⟩
  · intro n a hq hn
    have hg := h.alloc hu hq hn
    obtain ⟨h1, h2⟩ := Debug.allocate_eq (up := up) hI hn a
    rcases hg.cases with ⟨p, hok⟩ | hbad
    · rw [hok] at hg
      rw [(h1 p hok).2 (fun b hb => hg.2.2.2 b (hp.subset hb)), hok]; exact ⟨rfl, rfl⟩
    · rw [h2 (by simp [hbad])]; exact ⟨rfl, rfl⟩
  · intro b hb
    have hne := ((h.live hu).1 b hb).1
    obtain ⟨e1, e2, _⟩ := (Debug.deallocate_eq (up := up) hI hne b.size b.align).2
      (hp.symm.subset hb)
    exact ⟨by rw [e1]; exact h.dealloc hu hb, e2⟩

/-- Non-vacuity: a correct history with a live block over the demo upstream. -/
example : Reach 64 (debugMR demoBase) ⟨[], demoInit⟩
    ⟨[(4096, (100, 8))], (⟨2 ^ 62, 4096, 4196⟩, ())⟩ [⟨4096, 100, 8⟩] :=
  Reach.alloc (s := ⟨[], demoInit⟩) .init ⟨by decide, by decide, 3, rfl⟩ (by decide) rfl

end Vecmem.Props
