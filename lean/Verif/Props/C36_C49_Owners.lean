import Verif.Lemmas.UniquePtr
import Verif.Props.C01_C02_Contiguous
import Verif.Props.C14_C15_Routing

/-!
# C36, C49, C52 — owning pointers and the object allocator
-/

namespace Vecmem.Props

open Vecmem IntMath

variable {σ ι : Type} {R : Limits} {G : Nat}

/-- A program starts with `N` null pointers. -/
def PWorld.start (u : σ) (N : Nat) : PWorld ι σ := { tr := ⟨u, []⟩, slots := List.replicate N {} }

private theorem start_inv {ups : ι → MR σ} {u0 u : σ} {T : List (ι × Blk)} (hu : FReach R ups u0 u T) (N : Nat) :
    UInv R ups u0 T (PWorld.start (ι := ι) u N).tr (PWorld.start u N).ptrs := by
  have h1 : ∀ N, (List.replicate N ({} : UPtr ι)).flatMap UPtr.owns = [] := by
    intro N; induction N with
    | zero => rfl
    | succ n ih => simp [List.replicate_succ, ih, UPtr.owns]
  have h2 : ∀ N, (List.replicate N ({} : UPtr ι)).flatMap UPtr.objects = [] := by
    intro N; induction N with
    | zero => rfl
    | succ n ih => simp [List.replicate_succ, ih, UPtr.objects]
  refine ⟨?_, ?_, ?_⟩
  · simpa [PWorld.start, PWorld.ptrs, h1] using hu
  · simp only [PWorld.start, PWorld.ptrs, List.append_nil, h1, h2]; exact .nil
  · intro x hx
    simp only [PWorld.start, PWorld.ptrs, List.append_nil] at hx
    rw [(List.mem_replicate.1 hx).2]
    intro h; exact absurd rfl h

private theorem run_inv {ups : ι → MR σ} {u0 : σ} {T : List (ι × Blk)} (h : FamLawful R G ups u0) :
    ∀ (ops : List (POp ι)) (w : PWorld ι σ), UInv R ups u0 T w.tr w.ptrs → (∀ op ∈ ops, op.Valid R w.slots.length) →
      (∀ r ∈ (w.run ups ops).1, r = .ok () ∨ r = .badAlloc) ∧ (w.run ups ops).2.slots.length = w.slots.length ∧
      UInv R ups u0 T (w.run ups ops).2.tr (w.run ups ops).2.ptrs := by
  intro ops
  induction ops with
  | nil => intro w hi _; exact ⟨by simp [PWorld.run], rfl, hi⟩
  | cons op ops ih =>
    intro w hi hv
    obtain ⟨s1, s2, s3⟩ := hi.step h op (hv op List.mem_cons_self)
    obtain ⟨k1, k2, k3⟩ := ih (w.step ups op).2 s3 (by
      rw [s2]; exact fun o ho => hv o (List.mem_cons_of_mem _ ho))
    refine ⟨?_, by rw [← s2]; exact k2, k3⟩
    intro r hr
    rcases List.mem_cons.1 hr with rfl | hr
    · rcases s1 with s1 | ⟨_, s1, _⟩
      · exact Or.inl s1
      · exact Or.inr s1
    · exact k1 r hr

/-- **C36.**  For every family of well-behaved resources in every reachable state, and every program that makes,
moves, swaps, resets, releases and destroys owning pointers: no call is undefined, and none fails except factories, by
`bad_alloc`.  The trace of all allocations, deallocations, constructions and destructions is correct (`Traced`): all
memory is returned at most once, to the resource it is from, with the size and alignment it was requested with, after
all its objects were destroyed; every destroyed object was constructed and not destroyed before.  The memory not yet
returned and the objects not yet destroyed are exactly those of the pointers that are not null, and of those
released. -/
theorem c36_unique_ptr (ups : ι → MR σ) (u0 u : σ) (T : List (ι × Blk)) (h : FamLawful R G ups u0)
    (hu : FReach R ups u0 u T) (N : Nat) (ops : List (POp ι)) (hv : ∀ op ∈ ops, op.Valid R N) :
    let r := (PWorld.start u N).run ups ops
    (∀ o ∈ r.1, o = .ok () ∨ o = .badAlloc) ∧
    Traced r.2.tr.trace ((r.2.slots ++ r.2.released).flatMap UPtr.owns) ((r.2.slots ++ r.2.released).flatMap UPtr.objects) ∧
    FReach R ups u0 r.2.tr.u ((r.2.slots ++ r.2.released).flatMap UPtr.owns ++ T) := by
  obtain ⟨h1, _, h3⟩ := run_inv h ops (PWorld.start u N) (start_inv hu N) (by simpa [PWorld.start] using hv)
  exact ⟨h1, h3.traced, h3.reach⟩

/-- What the end of a pointer (reset, destruction, or being overwritten) does: nothing for a null pointer; otherwise
its objects are destroyed and its block is returned. -/
def endEvents (x : UPtr ι) : List (Ev ι) :=
  x.objects.map .dtor ++ x.owns.map fun e => .free e.1 e.2.addr e.2.size e.2.align

private theorem run_events {ups : ι → MR σ} {w : Tr ι σ} {x : UPtr ι} (hw : x.Wf) (h0 : x.ptr ≠ 0) :
    (x.del.run ups w x.ptr).2.trace = w.trace ++ endEvents x := by
  obtain ⟨i, hmr, hal, _⟩ := hw h0
  have hown : x.owns = [(i, ⟨x.ptr, x.del.size, maxAlign⟩)] := by simp [UPtr.owns, h0, hmr]
  unfold endEvents
  rw [hown, UPtr.objects_eq h0]
  unfold Deleter.run Deleter.count
  rw [hmr]
  simp only [hal, gt_iff_lt, Nat.lt_irrefl, if_false, Tr.deallocate, List.append_assoc]
  rfl

private theorem reset_events {ups : ι → MR σ} {w : PWorld ι σ} (hw : ∀ x ∈ w.slots, x.Wf) (d p : Nat)
    (hd : d < w.slots.length) :
    (w.resetTo ups d p).2.tr.trace = w.tr.trace ++ endEvents (w.slots.getD d {}) ∧
    (w.resetTo ups d p).2.slots = w.slots.set d ⟨p, (w.slots.getD d {}).del⟩ ∧
    (w.resetTo ups d p).2.released = w.released := by
  unfold PWorld.resetTo
  simp only
  by_cases h0 : (w.slots.getD d {}).ptr = 0
  · rw [if_pos h0]
    refine ⟨?_, rfl, rfl⟩
    simp only [endEvents, (UPtr.null_owns h0).1, (UPtr.null_owns h0).2, List.map_nil, List.append_nil]
  · rw [if_neg h0]
    refine ⟨?_, rfl, rfl⟩
    apply run_events _ h0
    apply hw
    simp [List.getD, List.getElem?_eq_getElem hd]

private theorem assign_events {ups : ι → MR σ} {w : PWorld ι σ} (hw : ∀ x ∈ w.slots, x.Wf) (d : Nat) (x : UPtr ι)
    (hd : d < w.slots.length) (hok : (w.assign ups d x).1 = .ok ()) :
    (w.assign ups d x).2.tr.trace = w.tr.trace ++ endEvents (w.slots.getD d {}) ∧
    (w.assign ups d x).2.slots = w.slots.set d x ∧
    (w.assign ups d x).2.released = w.released := by
  obtain ⟨h1, h2, h3⟩ := reset_events (ups := ups) hw d x.ptr hd
  unfold PWorld.assign at hok ⊢
  cases hx : w.resetTo ups d x.ptr with
  | mk r w1 =>
    rw [hx] at h1 h2 h3 hok
    simp only at h1 h2 h3
    cases r <;> simp only [reduceCtorEq] at hok
    simp only
    refine ⟨h1, ?_, h3⟩
    rw [h2, List.set_set]
    simp [List.getD, hd]

/-- **C36, operations.**  In every state reachable by a program, what each operation does, exactly.
* `reset` and the end of a variable destroy each object of the pointer and return its block — nothing for a null
  pointer — and leave it null.
* Moving does this to the target only; the source is null afterwards and the target is what the source was, so that
  nothing happens to the block and the objects of the source; likewise for `swap` and `release`.
* A successful factory makes one allocation, of the size of the elements asked for, constructs each element
  (`make_unique_obj`) or none, and the pointer owns exactly this block and these elements. -/
theorem c36_operations (ups : ι → MR σ) (u0 u : σ) (T : List (ι × Blk)) (h : FamLawful R G ups u0)
    (hu : FReach R ups u0 u T) (N : Nat) (ops : List (POp ι)) (hv : ∀ op ∈ ops, op.Valid R N)
    (w : PWorld ι σ) (hw : w = ((PWorld.start u N).run ups ops).2) :
    w.slots.length = N ∧
    (∀ d, d < N → ∃ w' x, w.step ups (.reset d) = (.ok (), w') ∧ w'.slots = w.slots.set d x ∧ x.ptr = 0 ∧
      w'.released = w.released ∧ w'.tr.trace = w.tr.trace ++ endEvents (w.slots.getD d {})) ∧
    (∀ d s, d < N → s < N → d ≠ s → ∃ w' x, w.step ups (.move d s) = (.ok (), w') ∧ x.ptr = 0 ∧
      w'.slots = (w.slots.set s x).set d (w.slots.getD s {}) ∧ w'.released = w.released ∧
      w'.tr.trace = w.tr.trace ++ endEvents (w.slots.getD d {})) ∧
    (∀ d, d < N → ∃ w', w.step ups (.move d d) = (.ok (), w') ∧ w'.slots = w.slots ∧ w'.released = w.released ∧
      w'.tr.trace = w.tr.trace) ∧
    (∀ d, d < N → ∃ w' x, w.step ups (.release d) = (.ok (), w') ∧ w'.slots = w.slots.set d x ∧ x.ptr = 0 ∧
      w'.tr = w.tr ∧ w'.released.flatMap UPtr.owns = (w.slots.getD d {}).owns ++ w.released.flatMap UPtr.owns) ∧
    (∀ d e, d < N → e < N → ∃ w', w.step ups (.swap d e) = (.ok (), w') ∧ w'.tr = w.tr ∧ w'.released = w.released ∧
      w'.slots = (w.slots.set d (w.slots.getD e {})).set e (w.slots.getD d {})) ∧
    (∀ d i f, (POp.make d i f none).Valid R N →
      match w.step ups (.make d i f none) with
      | (.ok (), w') => ∃ p x, x.ptr = p ∧
          w'.slots = w.slots.set d x ∧ w'.released = w.released ∧
          w'.tr.trace = w.tr.trace ++ [.alloc i p (f.request.2 * f.request.1.size) maxAlign] ++ x.objects.map .ctor ++
            (if f.copies then [.copy p (f.request.2 * f.request.1.size)] else []) ++ endEvents (w.slots.getD d {}) ∧
          x.owns = (if f.request.2 = 0 then [] else [(i, ⟨p, f.request.2 * f.request.1.size, maxAlign⟩)]) ∧
          x.objects = (if f.isObj then (List.range f.request.2).map fun k =>
            ⟨p + k * f.request.1.size, f.request.1.size, f.request.1.align⟩ else [])
      | (.badAlloc, w') => w'.slots = w.slots ∧ w'.released = w.released ∧ w'.tr.trace = w.tr.trace
      | _ => False) := by
  obtain ⟨_, hlen, hinv⟩ := run_inv h ops (PWorld.start u N) (start_inv hu N) (by simpa [PWorld.start] using hv)
  rw [← hw] at hlen hinv
  have hN : w.slots.length = N := by rw [hlen]; simp [PWorld.start]
  have hwf : ∀ x ∈ w.slots, x.Wf := fun x hx => hinv.wf x (List.mem_append_left _ hx)
  subst hN
  refine ⟨rfl, ?_, ?_, ?_, ?_, ?_, ?_⟩
  · intro d hd
    obtain ⟨e1, e2, e3⟩ := reset_events (ups := ups) hwf d 0 hd
    obtain ⟨s1, _⟩ := hinv.step h (.reset d) hd
    refine ⟨_, _, Prod.ext (x := w.step ups (.reset d)) ?_ rfl, e2, rfl, e3, e1⟩
    rcases s1 with s1 | ⟨⟨_, _, _, _, s1⟩, _⟩
    · exact s1
    · simp at s1
  · intro d s hd hs hne
    obtain ⟨s1, _⟩ := hinv.step h (.move d s) ⟨hd, hs⟩
    have hok : (w.step ups (.move d s)).1 = .ok () := by
      rcases s1 with s1 | ⟨⟨_, _, _, _, s1⟩, _⟩
      · exact s1
      · simp at s1
    obtain ⟨e1, e2, e3⟩ := assign_events (ups := ups)
      (w := { w with slots := w.slots.set s { (w.slots.getD s {}) with ptr := 0 } }) (x := w.slots.getD s {}) (d := d)
      (by
        intro x hx
        rcases List.mem_or_eq_of_mem_set hx with hx | rfl
        · exact hwf x hx
        · intro hx0; exact absurd rfl hx0) (by simpa using hd) hok
    refine ⟨_, ⟨0, (w.slots.getD s {}).del⟩, Prod.ext (x := w.step ups (.move d s)) hok rfl, rfl, e2, e3, ?_⟩
    refine e1.trans ?_
    have : (w.slots.set s { (w.slots.getD s {}) with ptr := 0 }).getD d {} = w.slots.getD d {} := by
      simp [List.getD, List.getElem?_set_ne (Ne.symm hne)]
    simp only [this]
  · intro d hd
    obtain ⟨s1, _⟩ := hinv.step h (.move d d) ⟨hd, hd⟩
    have hok : (w.step ups (.move d d)).1 = .ok () := by
      rcases s1 with s1 | ⟨⟨_, _, _, _, s1⟩, _⟩
      · exact s1
      · simp at s1
    obtain ⟨e1, e2, e3⟩ := assign_events (ups := ups)
      (w := { w with slots := w.slots.set d { (w.slots.getD d {}) with ptr := 0 } }) (x := w.slots.getD d {}) (d := d)
      (by
        intro x hx
        rcases List.mem_or_eq_of_mem_set hx with hx | rfl
        · exact hwf x hx
        · intro hx0; exact absurd rfl hx0) (by simpa using hd) hok
    refine ⟨_, Prod.ext (x := w.step ups (.move d d)) hok rfl, ?_, e3, ?_⟩
    · refine e2.trans ?_
      simp [List.getD, List.getElem?_eq_getElem hd]
    · refine e1.trans ?_
      simp [List.getD, hd, endEvents, UPtr.owns, UPtr.objects]
  · intro d hd
    refine ⟨_, ⟨0, (w.slots.getD d {}).del⟩, rfl, rfl, rfl, rfl, ?_⟩
    simp only
    by_cases h0 : (w.slots.getD d {}).ptr = 0
    · rw [if_pos h0, (UPtr.null_owns h0).1]; rfl
    · rw [if_neg h0]; rfl
  · intro d e hd he
    exact ⟨_, rfl, rfl, rfl, rfl⟩
  · intro d i f hv'
    obtain ⟨hd, _, hs, hq⟩ := hv'
    obtain ⟨f1, f2, f3, f4, f5, f6, f7, f8⟩ := f.facts i
    have hb := f8 hq.1.2
    rcases hinv.make h i f hs hq with ⟨x, tr, m1, m2, m3, m4, _⟩ | ⟨tr, m1, m2, _⟩
    · have hstep : w.step ups (.make d i f none) = { w with tr := tr }.assign ups d x := by
        simp only [PWorld.step, m1]
      obtain ⟨w2, k1, k2, k3, k4⟩ := UInv.assign h (w := { w with tr := tr }) hd x m3
      obtain ⟨e1, e2, e3⟩ := assign_events (ups := ups) (w := { w with tr := tr }) hwf d x hd (by rw [k1])
      rw [hstep]
      rw [k1] at e1 e2 e3 ⊢
      have hobj : x.objects = if f.isObj then (List.range f.request.2).map fun k =>
            ⟨x.ptr + k * f.request.1.size, f.request.1.size, f.request.1.align⟩ else [] := by
        by_cases hx0 : x.ptr = 0
        · rw [(UPtr.null_owns hx0).2, m4.1 hx0]; simp
        · rw [UPtr.objects_eq hx0, m2, f5, f3]
          cases f <;> simp [Factory.constructs, Factory.isObj, Factory.request, Factory.elem, elemAt]
      have htr : tr.trace = w.tr.trace ++ [.alloc i x.ptr (f.request.2 * f.request.1.size) maxAlign] ++
          x.objects.map .ctor ++ (if f.copies then [.copy x.ptr (f.request.2 * f.request.1.size)] else []) := by
        have hc : f.constructs = if f.isObj then f.request.2 else 0 := by cases f <;> rfl
        unfold Factory.make Tr.allocate at m1
        simp only [hb, Option.filter_none] at m1
        cases hx : (ups i).allocate w.tr.u (f.request.2 * f.request.1.size) maxAlign with
        | mk r u' =>
          rw [hx] at m1
          cases r <;> simp only [Prod.mk.injEq, Res.ok.injEq, Res.map, reduceCtorEq, false_and] at m1
          obtain ⟨rfl, rfl⟩ := m1
          rw [hobj, hc, ← f6]
          cases f.isObj <;> simp [elemAt]
      refine ⟨x.ptr, x, rfl, e2, e3, ?_, ?_, hobj⟩
      · rw [e1]; simp only [htr]
      · unfold UPtr.owns
        rw [m2, f1, f4, hb]
        by_cases hz : f.request.2 = 0
        · rw [if_pos hz, if_pos (m4.2 hz)]
        · rw [if_neg hz, if_neg (fun h => hz (m4.1 h))]
    · have hstep : w.step ups (.make d i f none) = (.badAlloc, { w with tr := tr }) := by
        simp only [PWorld.step, m1, Res.map]
      rw [hstep]
      exact ⟨rfl, rfl, m2⟩

/-- The hypotheses of `c36_unique_ptr` are met by a program that uses two resources and everything else. -/
example : (∀ op ∈ ([.make 0 false (.objArray ⟨12, 4⟩ 3), .make 1 true (.allocArrayCopy ⟨8, 8⟩ 2), .make 2 true (.obj ⟨8, 8⟩),
      .move 0 2, .swap 0 1, .release 0, .reset 1] : List (POp Bool)), op.Valid 64 3) ∧
    ((PWorld.start demoFamInit 3).run demoFam [.make 0 false (.objArray ⟨12, 4⟩ 3), .make 1 true (.allocArrayCopy ⟨8, 8⟩ 2),
      .make 2 true (.obj ⟨8, 8⟩), .move 0 2, .swap 0 1, .release 0, .reset 1]).2.tr.trace =
    [.alloc false 4096 36 16, .ctor ⟨4096, 12, 4⟩, .ctor ⟨4108, 12, 4⟩, .ctor ⟨4120, 12, 4⟩,
      .alloc true (2 ^ 32) 16 16, .copy (2 ^ 32) 16, .alloc true (2 ^ 32 + 16) 8 16, .ctor ⟨2 ^ 32 + 16, 8, 8⟩,
      .dtor ⟨4096, 12, 4⟩, .dtor ⟨4108, 12, 4⟩, .dtor ⟨4120, 12, 4⟩, .free false 4096 36 16,
      .dtor ⟨2 ^ 32 + 16, 8, 8⟩, .free true (2 ^ 32 + 16) 8 16] := by
  refine ⟨?_, by decide +kernel⟩
  intro op hop
  simp only [List.mem_cons, List.not_mem_nil, or_false] at hop
  rcases hop with rfl | rfl | rfl | rfl | rfl | rfl | rfl
  · exact ⟨by decide, rfl, by decide, ⟨by decide, by decide⟩, by decide, 4, rfl⟩
  · exact ⟨by decide, rfl, by decide, ⟨by decide, by decide⟩, by decide, 4, rfl⟩
  · exact ⟨by decide, rfl, by decide, ⟨by decide, by decide⟩, by decide, 4, rfl⟩
  · exact ⟨by decide, by decide⟩
  · exact ⟨by decide, by decide⟩
  · show 0 < 3; decide
  · show 1 < 3; decide

/-! ## C52: what the factories do not give -/

/-- **C52, partial.**  The objects made by a factory are inside the memory obtained (part of `c36_unique_ptr`), and
aligned for their type, provided the type is not over-aligned and the resource honours the default alignment.

Missing: all other cases.  Over-aligned types may be misaligned (`c52_misaligned`), a count whose byte size is not
representable is not refused (`c52_overflow`), and an exception from a constructor leaks the memory and the objects
constructed before (`c52_leak`). -/
theorem c52_factory_alignment_partial (ups : ι → MR σ) (u0 u : σ) (T : List (ι × Blk)) (h : FamLawful R G ups u0)
    (hu : FReach R ups u0 u T) (i : ι) (f : Factory) (hwf : f.request.1.Wf) (hal : f.request.1.align ≤ maxAlign)
    (hG : maxAlign ≤ G) (hq : IsReq R (f.request.2 * f.request.1.size) maxAlign) (x : UPtr ι) (w' : Tr ι σ)
    (hm : f.make ups ⟨u, []⟩ i none = (.ok x, w')) :
    ∀ k, k < f.request.2 → f.request.1.align ∣ x.ptr + k * f.request.1.size := by
  intro k hk
  obtain ⟨_, _, _, _, _, _, _, f8⟩ := f.facts i
  unfold Factory.make Tr.allocate at hm
  simp only [f8 hq.1.2, Option.filter_none] at hm
  have ha := h.alloc i hu hq (Nat.mul_pos (by omega) hwf.1)
  cases hx : (ups i).allocate u (f.request.2 * f.request.1.size) maxAlign with
  | mk r u' =>
    rw [hx] at hm ha
    cases r <;> simp only [Prod.mk.injEq, Res.ok.injEq, Res.map, reduceCtorEq, false_and] at hm
    obtain ⟨rfl, _⟩ := hm
    simp only [GoodAnswer] at ha
    obtain ⟨_, ⟨e, he⟩, hdv⟩ := hwf
    have h1 : f.request.1.align ∣ maxAlign := by
      rw [he] at hal ⊢
      have : maxAlign = 2 ^ 4 := rfl
      rw [this] at hal ⊢
      exact Nat.pow_dvd_pow 2 ((Nat.pow_le_pow_iff_right (a := 2) (by decide)).1 hal)
    exact Nat.dvd_add (Nat.dvd_trans h1 (ha.2.2.1 hG)) (Nat.dvd_trans hdv (Nat.dvd_mul_left _ _))

/-- A single 64-byte aligned object, made in a resource that has given out one byte. -/
theorem c52_misaligned :
    ((Factory.obj ⟨64, 64⟩).make (fun _ : Unit => demoBase) ⟨(⟨2 ^ 62, 4096, 4097⟩, ()), []⟩ () none).1.map (·.ptr)
      = .ok 4112 ∧ ¬ 64 ∣ 4112 := ⟨by decide +kernel, by decide⟩

/-- An array of 2⁶¹+1 elements of 8 bytes: 8 bytes are allocated, and the factory succeeds. -/
theorem c52_overflow :
    ((Factory.allocArray ⟨8, 8⟩ (2 ^ 61 + 1)).make (fun _ : Unit => demoBase) ⟨demoInit, []⟩ () none).1.map (fun x => (x.ptr, x.del.size))
      = .ok (4096, 8) := by decide +kernel

/-- If the third of five constructors throws, the memory and the first two objects are lost. -/
theorem c52_leak :
    ((Factory.objArray ⟨8, 8⟩ 5).make (fun _ : Unit => demoBase) ⟨demoInit, []⟩ () (some 2)).1 = .logicError ∧
    ((Factory.objArray ⟨8, 8⟩ 5).make (fun _ : Unit => demoBase) ⟨demoInit, []⟩ () (some 2)).2.trace =
      [.alloc () 4096 40 16, .ctor ⟨4096, 8, 8⟩, .ctor ⟨4104, 8, 8⟩] := by
  exact ⟨by decide +kernel, by decide +kernel⟩

/-- **C52, constructors that throw**, for all factories, resources and states, if the byte size is representable.  If the constructor of the object number `k` of those asked for throws, the factory throws;
by then it has allocated the memory and constructed the objects before, and it neither destroys these nor returns the memory.  If no constructor that it calls throws, it does what it does without exceptions. -/
theorem c52_throwing (ups : ι → MR σ) (w : Tr ι σ) (i : ι) (f : Factory) (k : Nat) (hb : f.request.2 * f.request.1.size < 2 ^ 64) :
    (f.isObj = true → k < f.request.2 → ∀ p u', (ups i).allocate w.u (f.request.2 * f.request.1.size) maxAlign = (.ok p, u') →
      f.make ups w i (some k) = (.logicError, ⟨u', w.trace ++ [.alloc i p (f.request.2 * f.request.1.size) maxAlign] ++
        (List.range k).map fun j => .ctor ⟨p + j * f.request.1.size, f.request.1.size, f.request.1.align⟩⟩)) ∧
    (¬ (f.isObj = true ∧ k < f.request.2) → f.make ups w i (some k) = f.make ups w i none) := by
  obtain ⟨_, _, _, _, _, f6, _, f8⟩ := f.facts i
  have hc : f.constructs = if f.isObj then f.request.2 else 0 := by cases f <;> rfl
  refine ⟨fun ho hk p u' ha => ?_, fun hn => ?_⟩
  · unfold Factory.make Tr.allocate
    simp only [f8 hb, ha, hc, ho, if_true, Option.filter, hk, decide_true, List.map_take, ← List.map_take, List.take_range, Nat.min_eq_left (Nat.le_of_lt hk), List.map_map]
    rw [← f6]
    rfl
  · have : Option.filter (fun x => decide (x < f.constructs)) (some k) = none := by
      rw [Option.filter_some, if_neg]
      rw [hc]
      intro h
      simp only [decide_eq_true_eq] at h
      by_cases ho : f.isObj = true
      · rw [if_pos ho] at h; exact hn ⟨ho, h⟩
      · rw [if_neg ho] at h; exact absurd h (Nat.not_lt_zero _)
    unfold Factory.make
    rw [this, Option.filter_none]

/-- The hypotheses are met: `c52_leak` is the case of the third of five objects; and the object number 5 is none of them. -/
example : (Factory.objArray ⟨8, 8⟩ 5).make (fun _ : Unit => demoBase) ⟨demoInit, []⟩ () (some 5) = (Factory.objArray ⟨8, 8⟩ 5).make (fun _ : Unit => demoBase) ⟨demoInit, []⟩ () none ∧
    ((Factory.objArray ⟨8, 8⟩ 5).make (fun _ : Unit => demoBase) ⟨demoInit, []⟩ () (some 5)).1.map (·.ptr) = .ok 4096 :=
  ⟨(c52_throwing _ _ _ _ _ (by decide)).2 (by decide), by decide +kernel⟩

/-! ## C49 -/

/-- **C49, partial.**  For every well-behaved family, element type and count with a representable byte size:
`allocate_object` gives a block of exactly the size of the objects, aligned for them if the resource honours this
alignment, or `bad_alloc`; `deallocate_object` with the same count returns this block.  `new_object` constructs one
object in such a block, `delete_object` destroys it and returns the block; `allocate_bytes` and `deallocate_bytes` do
the same with raw sizes, and nothing for zero bytes and null.

Missing: a count whose byte size is not representable is not refused, see `c49_overflow`; a constructor that throws leaks
the block, see `c49_leak`. -/
theorem c49_allocator_partial (ups : ι → MR σ) (u0 : σ) (T : List (ι × Blk)) (h : FamLawful R G ups u0)
    (w : Tr ι σ) (hu : FReach R ups u0 w.u T) (B : List (ι × Blk)) (O : List Blk) (ht : Traced w.trace B O)
    (hB : ∀ o ∈ O, ∃ e ∈ T, o.Inside e.2) (i : ι) (t : CType) (htw : t.Wf) (n : Nat) (hn : 0 < n)
    (hq : IsReq R (n * t.size) t.align) (hq1 : IsReq R t.size t.align) :
    (match w.allocateObject ups i t n with
      | (.ok p, w') => p ≠ 0 ∧ (t.align ≤ G → t.align ∣ p) ∧ (∀ e ∈ T, Blk.Disjoint ⟨p, n * t.size, t.align⟩ e.2) ∧
          w'.trace = w.trace ++ [.alloc i p (n * t.size) t.align] ∧
          FReach R ups u0 w'.u ((i, ⟨p, n * t.size, t.align⟩) :: T) ∧
          ∃ w'', w'.deallocateObject ups i t p n = (.ok (), w'') ∧
            w''.trace = w'.trace ++ [.free i p (n * t.size) t.align] ∧ FReach R ups u0 w''.u T
      | (.badAlloc, w') => w'.trace = w.trace ∧ FReach R ups u0 w'.u T
      | _ => False) ∧
    (match w.newObject ups i t false with
      | (.ok p, w') => p ≠ 0 ∧ (t.align ≤ G → t.align ∣ p) ∧
          Traced w'.trace ((i, ⟨p, t.size, t.align⟩) :: B) (⟨p, t.size, t.align⟩ :: O) ∧
          FReach R ups u0 w'.u ((i, ⟨p, t.size, t.align⟩) :: T) ∧
          ∃ w'', w'.deleteObject ups i t p = (.ok (), w'') ∧ Traced w''.trace B O ∧ FReach R ups u0 w''.u T
      | (.badAlloc, w') => w'.trace = w.trace ∧ FReach R ups u0 w'.u T
      | _ => False) := by
  have key : ∀ n, 0 < n → IsReq R (n * t.size) t.align →
      (∃ p w', w.allocateObject ups i t n = (.ok p, w') ∧ p ≠ 0 ∧ (t.align ≤ G → t.align ∣ p) ∧
        (∀ e ∈ T, Blk.Disjoint ⟨p, n * t.size, t.align⟩ e.2) ∧
        w'.trace = w.trace ++ [.alloc i p (n * t.size) t.align] ∧
        FReach R ups u0 w'.u ((i, ⟨p, n * t.size, t.align⟩) :: T)) ∨
      ∃ w', w.allocateObject ups i t n = (.badAlloc, w') ∧ w'.trace = w.trace ∧ FReach R ups u0 w'.u T := by
    intro n hn hq
    have hw : wrap64 (n * t.size) = n * t.size := Nat.mod_eq_of_lt hq.1.2
    have hpos : 0 < n * t.size := Nat.mul_pos hn htw.1
    have ha := h.alloc i hu hq hpos
    unfold Tr.allocateObject Tr.allocate
    rw [hw]
    cases hx : (ups i).allocate w.u (n * t.size) t.align with
    | mk r u' =>
      rw [hx] at ha
      cases r <;> simp only [GoodAnswer] at ha
      · refine Or.inl ⟨_, _, rfl, ha.1, ha.2.2.1, ?_, rfl, .alloc i hu hq hpos hx⟩
        intro e he
        exact ha.2.2.2 e.2 (List.mem_map.2 ⟨e, he, rfl⟩)
      · exact Or.inr ⟨_, rfl, rfl, .refuse i hu hq hpos hx⟩
  have del : ∀ n p (w : Tr ι σ), IsReq R (n * t.size) t.align → FReach R ups u0 w.u ((i, ⟨p, n * t.size, t.align⟩) :: T) →
      ∃ w'', w.deallocateObject ups i t p n = (.ok (), w'') ∧
        w''.trace = w.trace ++ [.free i p (n * t.size) t.align] ∧ FReach R ups u0 w''.u T := by
    intro n p w hq hu
    have hw : wrap64 (n * t.size) = n * t.size := Nat.mod_eq_of_lt hq.1.2
    have hd := h.dealloc hu List.mem_cons_self
    unfold Tr.deallocateObject Tr.deallocate
    rw [hw]
    cases hx : (ups i).deallocate w.u p (n * t.size) t.align with
    | mk r u' =>
      simp only at hd
      rw [hx] at hd
      simp only at hd
      subst hd
      exact ⟨_, rfl, rfl, .free hu hx⟩
  refine ⟨?_, ?_⟩
  · rcases key n hn hq with ⟨p, w', h1, h2, h3, h4, h5, h6⟩ | ⟨w', h1, h2, h3⟩
    · rw [h1]; exact ⟨h2, h3, h4, h5, h6, del n p w' hq h6⟩
    · rw [h1]; exact ⟨h2, h3⟩
  · unfold Tr.newObject
    have hq1' : IsReq R (1 * t.size) t.align := by rw [Nat.one_mul]; exact hq1
    rcases key 1 (by decide) hq1' with ⟨p, w', h1, h2, h3, h4, h5, h6⟩ | ⟨w', h1, h2, h3⟩
    · have h6' : FReach R ups u0 w'.u ((i, ⟨p, t.size, t.align⟩) :: T) := by rw [Nat.one_mul] at h6; exact h6
      have he : elemAt t p 0 = ⟨p, t.size, t.align⟩ := by simp [elemAt]
      simp only [h1, Bool.false_eq_true, if_false, he]
      have htr : Traced (w'.trace ++ [.ctor ⟨p, t.size, t.align⟩]) ((i, ⟨p, t.size, t.align⟩) :: B)
          (⟨p, t.size, t.align⟩ :: O) := by
        rw [h5, Nat.one_mul]
        refine .ctor _ (.alloc i p _ _ ht htw.1) ⟨_, List.mem_cons_self, Nat.le_refl _, Nat.le_refl _⟩ ?_
        intro x hx
        obtain ⟨e, he', hin⟩ := hB x hx
        have := h4 e he'
        rw [Nat.one_mul] at this
        exact this.mono ⟨Nat.le_refl _, Nat.le_refl _⟩ hin
      refine ⟨h2, h3, htr, h6', ?_⟩
      unfold Tr.deleteObject
      rw [if_neg h2]
      simp only [he]
      obtain ⟨w'', d1, d2, d3⟩ := del 1 p
        ⟨w'.u, w'.trace ++ [.ctor ⟨p, t.size, t.align⟩] ++ [.dtor ⟨p, t.size, t.align⟩]⟩ hq1' h6
      refine ⟨w'', d1, ?_, d3⟩
      rw [d2, Nat.one_mul]
      refine Traced.free (b := ⟨p, t.size, t.align⟩) htr.dtor ?_
      intro o ho
      obtain ⟨e, he', hin⟩ := hB o ho
      have := (h4 e he').symm
      rw [Nat.one_mul] at this
      exact this.mono hin ⟨Nat.le_refl _, Nat.le_refl _⟩
    · simp only [h1]; exact ⟨h2, h3⟩

/-- `allocate_bytes` and `deallocate_bytes` of a well-behaved resource, all sizes. -/
theorem c49_bytes (ups : ι → MR σ) (u0 : σ) (T : List (ι × Blk)) (h : FamLawful R G ups u0) (w : Tr ι σ)
    (hu : FReach R ups u0 w.u T) (i : ι) (n a : Nat) (hq : IsReq R n a) :
    (match w.allocateBytes ups i n a with
      | (.ok p, w') => if n = 0 then p = 0 ∧ w' = w else p ≠ 0 ∧ FReach R ups u0 w'.u ((i, ⟨p, n, a⟩) :: T) ∧
          ∃ w'', w'.deallocateBytes ups i p n a = (.ok (), w'') ∧ FReach R ups u0 w''.u T
      | (.badAlloc, w') => n ≠ 0 ∧ FReach R ups u0 w'.u T
      | _ => False) ∧
    w.deallocateBytes ups i 0 n a = (.ok (), w) := by
  refine ⟨?_, rfl⟩
  unfold Tr.allocateBytes
  by_cases h0 : n = 0
  · rw [if_pos h0]; simp [h0]
  · rw [if_neg h0]
    have ha := h.alloc i hu hq (by omega)
    unfold Tr.allocate
    cases hx : (ups i).allocate w.u n a with
    | mk r u' =>
      rw [hx] at ha
      cases r <;> simp only [GoodAnswer] at ha
      · simp only [h0, if_false]
        have hr := FReach.alloc i hu hq (by omega) hx
        refine ⟨ha.1, hr, ?_⟩
        have hd := h.dealloc hr List.mem_cons_self
        unfold Tr.deallocateBytes Tr.deallocate
        rw [if_neg ha.1]
        rename_i p
        cases hy : (ups i).deallocate u' p n a with
        | mk r2 u2 =>
          simp only at hd
          rw [hy] at hd
          simp only at hd
          subst hd
          exact ⟨_, rfl, .free hr hy⟩
      · exact ⟨h0, .refuse i hu hq (by omega) hx⟩

/-- The hypotheses of `c49_allocator_partial` are met: three 12-byte objects. -/
example : (CType.mk 12 4).Wf ∧ IsReq 64 (3 * 12) 4 ∧ IsReq 64 12 4 ∧
    (Tr.allocateObject (fun _ : Unit => demoBase) ⟨demoInit, []⟩ () ⟨12, 4⟩ 3).1 = .ok 4096 :=
  ⟨⟨by decide, ⟨2, rfl⟩, by decide⟩, ⟨by decide, by decide, 2, rfl⟩, ⟨by decide, by decide, 2, rfl⟩, by decide +kernel⟩

/-- 2⁶¹+1 objects of 8 bytes are "allocated" in 8 bytes. -/
theorem c49_overflow :
    (Tr.allocateObject (fun _ : Unit => demoBase) ⟨demoInit, []⟩ () ⟨8, 8⟩ (2 ^ 61 + 1)).1 = .ok 4096 ∧
    (Tr.allocateObject (fun _ : Unit => demoBase) ⟨demoInit, []⟩ () ⟨8, 8⟩ (2 ^ 61 + 1)).2.trace = [.alloc () 4096 8 8] :=
  ⟨by decide +kernel, by decide +kernel⟩

/-- If the constructor throws in `new_object`, the block is lost. -/
theorem c49_leak :
    (Tr.newObject (fun _ : Unit => demoBase) ⟨demoInit, []⟩ () ⟨8, 8⟩ true).1 = .logicError ∧
    (Tr.newObject (fun _ : Unit => demoBase) ⟨demoInit, []⟩ () ⟨8, 8⟩ true).2.trace = [.alloc () 4096 8 8] :=
  ⟨by decide +kernel, by decide +kernel⟩

/-- **C49, constructors that throw**, for all resources, types and states: `new_object` throws then, after having allocated a block for the object, which it does not return; if the resource refuses,
the constructor is not called. -/
theorem c49_throwing (ups : ι → MR σ) (w : Tr ι σ) (i : ι) (t : CType) (ht : t.size < 2 ^ 64) :
    (∀ p u', (ups i).allocate w.u t.size t.align = (.ok p, u') → w.newObject ups i t true = (.logicError, ⟨u', w.trace ++ [.alloc i p t.size t.align]⟩)) ∧
    (∀ r u', (ups i).allocate w.u t.size t.align = (r, u') → (∀ p, r ≠ .ok p) → w.newObject ups i t true = (r, ⟨u', w.trace⟩)) := by
  have hw : wrap64 (1 * t.size) = t.size := by rw [Nat.one_mul]; exact Nat.mod_eq_of_lt ht
  refine ⟨fun p u' ha => ?_, fun r u' ha hr => ?_⟩
  · unfold Tr.newObject Tr.allocateObject Tr.allocate
    rw [hw, ha]
    rfl
  · unfold Tr.newObject Tr.allocateObject Tr.allocate
    rw [hw, ha]
    cases r <;> first | rfl | exact absurd rfl (hr _)

/-- The hypotheses are met: `c49_leak` is a case of the first part; here the resource refuses. -/
example : (Tr.newObject (fun _ : Unit => demoBase) ⟨demoInit, []⟩ () ⟨2 ^ 63, 8⟩ true).1 = .badAlloc ∧
    (Tr.newObject (fun _ : Unit => demoBase) ⟨demoInit, []⟩ () ⟨2 ^ 63, 8⟩ true).2.trace = [] :=
  ⟨by decide +kernel, by decide +kernel⟩

end Vecmem.Props
