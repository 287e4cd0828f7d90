import Verif.Lemmas.EdmBlocks
import Verif.Props.C26_C28_Buffers

/-!
# C42: container buffers
-/

namespace Vecmem.Props

open Vecmem IntMath

variable {σ : Type} {R : Limits} {G : Nat}

/-- **C42, partial.**  For every schema, list of capacities and kind of buffer, and any two well-behaved resources with a
common address space: construction fails with `bad_alloc` and returns everything allocated so far, or the buffer owns
disjoint blocks, disjoint from all other live blocks; every variable has memory of the right size and alignment inside
the block of the buffer, no two parts of it overlap (`EdmPlaced`); if the block is smaller than 4 GiB, the memory views of the
container describe disjoint parts of it with all elements, views and size words (`EdmBlocks`); destruction gives all memory
back.

Missing: capacities of 2³² and more are truncated (`c42_capacity_truncated`), and so is the size of the memory views
(`c42_payload_truncated`). -/
theorem c42_edm_buffer_partial (ups : Bool → MR σ) (u0 u : σ) (T : List (Bool × Blk)) (h : FamLawful R G ups u0)
    (hu : FReach R ups u0 u T) (S : Schema) (hS : S ≠ []) (caps : List Nat) (ho : S.Ok caps) (hasHost resizable : Bool)
    (A : Nat) (hA : ∀ v ∈ S, v.type.align ≤ A) (hA8 : 8 ≤ A) (hq : IsReq R (S.room caps A) maxAlign) :
    match EdmBuffer.create ups u S caps hasHost resizable with
    | (.ok b, u') =>
        FReach R ups u0 u' (b.owned ++ T) ∧
        (b.owned ++ T).Pairwise (fun e f => e.2.Disjoint f.2) ∧
        b.mem.ptr ≠ 0 ∧ (b.hostMem.ptr ≠ 0 ↔ hasHost = true) ∧
        EdmPlaced ⟨b.mem.ptr, b.mem.size, maxAlign⟩ ⟨b.hostMem.ptr, b.hostMem.size, maxAlign⟩ S caps hasHost resizable
          b.view ∧
        (b.mem.size < 2 ^ 32 → EdmBlocks ⟨b.mem.ptr, b.mem.size, maxAlign⟩ S caps resizable b.view) ∧
        ∃ u'', b.destroy ups u' = (.ok (), u'') ∧ FReach R ups u0 u'' T
    | (.badAlloc, u') => FReach R ups u0 u' T
    | _ => False := by
  have hwf : ∀ e ∈ S.allRegions caps resizable, e.1.Wf ∧ e.1.align ≤ A := by
    intro e he
    rcases allRegions_mem he with h | ⟨v, hv, h⟩ | ⟨v, hv, h⟩
    · rw [h]; exact ⟨uint_wf, by have : CType.uint.align = 4 := rfl
                                 omega⟩
    · rw [h]; exact ⟨layoutType_wf v, by have := layoutType_align v; omega⟩
    · rw [h]; exact ⟨ho.types v hv, hA v hv⟩
  have hwfl : ∀ e ∈ S.layoutRegions caps, e.1.Wf ∧ e.1.align ≤ A := fun e he =>
    hwf e (List.mem_append_right _ (List.mem_append_left _ he))
  obtain ⟨r1, r2⟩ := neededBytes_room (S := S) (caps := caps) (resizable := resizable) A
  have q1 := IsReq.le hq (Nat.le_trans (neededBytes_mono (maxAlignOf_le fun e he => (hwf e he).2) _) r1)
  have q2 := IsReq.le hq (Nat.le_trans (neededBytes_mono (maxAlignOf_le fun e he => (hwfl e he).2) _) r2)
  have hne2 : S.layoutRegions caps ≠ [] := by simpa [Schema.layoutRegions] using hS
  have hne1 : S.allRegions caps resizable ≠ [] := by unfold Schema.allRegions; simp [hne2]
  unfold EdmBuffer.create
  rw [show S.sizeRegions caps resizable ++ (S.layoutRegions caps ++ S.payloadRegions caps) = S.allRegions caps resizable
    from rfl]
  rcases h.placement hu false hne1 (fun e he => (hwf e he).1) q1 with ⟨m, ps, u1, a1, a2, a3, a4, a5⟩ | ⟨u1, a1, a2⟩
  · have hps := placement_at (fun e he => (hwf e he).1) q1.1.2 a1
    have hend : placeEnd m.ptr (S.allRegions caps resizable) ≤ m.ptr + m.size := by
      rw [a2]
      apply placeEnd_le
      intro e he
      obtain ⟨_, ⟨k, hk⟩, _⟩ := (hwf e he).1
      exact ⟨by rw [hk]; exact Nat.two_pow_pos k, (foldl_max_ge _ 0).2 _ (List.mem_map.2 ⟨e, he, rfl⟩)⟩
    have hm0 : m.ptr ≠ 0 := a5.1
    have hblocks : ∀ hls, m.size < 2 ^ 32 → EdmBlocks ⟨m.ptr, m.size, maxAlign⟩ S caps resizable
        (S.bufferView caps resizable ps hls) := fun hls hlt => bufferView_blocks ho hps a3 rfl hm0 hend hlt hls
    simp only [a1]
    cases hasHost with
    | false =>
      have howned : ∀ e : EdmView, (EdmBuffer.mk e m {}).owned = [(false, m.blk)] := by
        intro e; simp [EdmBuffer.owned, hm0, UniqueAlloc.blk]
      simp only [Bool.false_eq_true, if_false]
      rw [howned]
      refine ⟨a4, (h.live a4).2, hm0, by simp, ?_, hblocks none, ?_⟩
      · exact bufferView_placed ho a3 hm0 rfl (fun l hl => by simp at hl)
      · have : FReach R ups u0 u1 (heldBy [(true, {}), (false, m)] ++ T) := by
          rw [heldBy_cons, if_pos rfl, heldBy_cons, if_neg hm0]; exact a4
        exact unwind_ok h (.ok ()) _ u1 this
    | true =>
      simp only [if_true]
      rcases h.placement a4 true hne2 (fun e he => (hwfl e he).1) q2 with ⟨m2, hps2, u2, b1, b2, b3, b4, b5⟩ | ⟨u2, b1, b2⟩
      · have hm2 : m2.ptr ≠ 0 := b5.1
        have howned : ∀ e : EdmView, (EdmBuffer.mk e m m2).owned = [(true, m2.blk), (false, m.blk)] := by
          intro e; simp [EdmBuffer.owned, hm0, hm2, UniqueAlloc.blk]
        simp only [b1]
        rw [howned]
        refine ⟨b4, (h.live b4).2, hm0, by simp [hm2], ?_, hblocks _, ?_⟩
        · refine bufferView_placed ho a3 hm0 rfl (fun l hl => ?_)
          simp only [Option.some.injEq] at hl
          subst hl
          exact ⟨b3, hm2⟩
        · have : FReach R ups u0 u2 (heldBy [(true, m2), (false, m)] ++ T) := by
            rw [heldBy_cons, if_neg hm2, heldBy_cons, if_neg hm0]; exact b4
          exact unwind_ok h (.ok ()) _ u2 this
      · simp only [b1, Res.map]
        have : FReach R ups u0 u2 (heldBy [(false, m)] ++ T) := by
          rw [heldBy_cons, if_neg hm0]; exact b2
        obtain ⟨u4, d1, d2⟩ := unwind_ok h (.badAlloc : Res EdmBuffer) [(false, m)] u2 this
        simp only [List.map_cons, List.map_nil] at d1
        rw [d1]; exact d2
  · simp only [a1, Res.map]
    exact a2

/-- A schema with a scalar, a vector and two jagged vectors. -/
def demoSchema : Schema := [⟨.scalar, ⟨8, 8⟩⟩, ⟨.vector, ⟨4, 4⟩⟩, ⟨.jagged, ⟨1, 1⟩⟩, ⟨.jagged, ⟨16, 16⟩⟩]

/-- The hypotheses of `c42_edm_buffer_partial` are met by a resizable buffer with separate host memory. -/
example : demoSchema ≠ [] ∧ demoSchema.Ok [2, 0, 3] ∧ (∀ v ∈ demoSchema, v.type.align ≤ 16) ∧
    IsReq 64 (demoSchema.room [2, 0, 3] 16) maxAlign ∧
    ∃ b, (EdmBuffer.create demoFam demoFamInit demoSchema [2, 0, 3] true true).1 = .ok b ∧ b.mem.size < 2 ^ 32 :=
  ⟨by decide,
   ⟨by
      intro v hv
      simp only [demoSchema, List.mem_cons, List.not_mem_nil, or_false] at hv
      rcases hv with rfl | rfl | rfl | rfl
      · exact ⟨by decide, ⟨3, rfl⟩, by decide⟩
      · exact ⟨by decide, ⟨2, rfl⟩, by decide⟩
      · exact ⟨by decide, ⟨0, rfl⟩, by decide⟩
      · exact ⟨by decide, ⟨4, rfl⟩, by decide⟩, by decide, by decide, by decide⟩,
   by decide, ⟨by decide, by decide, 4, rfl⟩, _, rfl, by decide +kernel⟩

/-- An inner capacity of 2³² is accepted, and the inner vector has capacity 0. -/
theorem c42_capacity_truncated :
    ((EdmBuffer.create (fun _ => demoBase) demoInit [⟨.jagged, ⟨1, 1⟩⟩] [2 ^ 32] false false).1.map fun b => b.view.vars) =
      .ok [.jagged ⟨[⟨0, 0, 4120⟩], 4096, 4096⟩] := by decide +kernel

/-- A buffer with two inner vectors of 2³¹ bytes has a payload view of 0 bytes. -/
theorem c42_payload_truncated :
    ((EdmBuffer.create (fun _ => demoBase) demoInit [⟨.jagged, ⟨1, 1⟩⟩] [2 ^ 31, 2 ^ 31] false false).1.map fun b =>
      (b.view.payload, b.view.vars)) =
      .ok (⟨0, 0, 4144⟩, [.jagged ⟨[⟨2 ^ 31, 0, 4144⟩, ⟨2 ^ 31, 0, 4144 + 2 ^ 31⟩], 4096, 4096⟩]) := by decide +kernel

end Vecmem.Props
