import Verif.Lemmas.Copy
import Verif.Props.C26_C28_Buffers

/-!
# C37: copying vectors
-/

namespace Vecmem
namespace Props

open IntMath Prog

variable {σ : Type}

/-- The full C37, for all sources and targets that do not share memory and satisfy `P`: the copy throws `length_error` if
the target's capacity is too small, and then changes nothing; otherwise the target holds the source's elements, and
nothing but bytes of the target changes. -/
def C37Full (P : Mem → View → View → Prop) : Prop :=
  ∀ (m : Mem) (t : Nat) (src dst : View), src.Valid m t → dst.Valid m t → src.Separate t dst → P m src dst →
    if dst.capacity < src.len m then (copyVec t src dst).result m = (.lengthError, m)
    else ∃ m', (copyVec t src dst).result m = (.ok (), m') ∧ View.HoldsCopy m m' t src dst ∧
      ∀ x, ¬ dst.Has t x → m' x = m x

/-- **C37**, partial: it holds if the source is not empty, or the target is not resizable, or is empty.  Missing: an empty
source and a resizable target with elements (`c37_false`). -/
theorem c37_copy_partial :
    C37Full (fun m src dst => src.len m ≠ 0 ∨ dst.sizePtr = 0 ∨ dst.len m = 0) := by
  intro m t src dst hs ht hd hP
  have h := copyView_does hs ht hd
  by_cases h0 : src.len m = 0
  · rw [if_neg (by omega)]
    rw [if_pos h0, if_pos h0] at h
    refine ⟨m, (h.bindActs (acts_retNoEvent m)).result, ?_, fun _ _ => rfl⟩
    have he : src.elems m t = [] := by simp [View.elems, h0]
    unfold View.HoldsCopy
    rw [he, List.nil_append, h0, List.drop_zero]
    split
    · rfl
    · have := (hP.resolve_left (by omega)).resolve_left (by assumption)
      simp [View.elems, this]
  · rw [if_neg h0, if_neg h0] at h
    by_cases h1 : dst.capacity < src.len m
    · rw [if_pos h1]
      rw [if_pos h1, if_pos h1] at h
      exact (Does.bindErr h (fun _ => by simp) (fun _ => 0)).acts.result
    · rw [if_neg h1]
      rw [if_neg h1, if_neg h1] at h
      refine ⟨_, (h.bindActs (acts_retEvent _)).result, ?_, ?_⟩
      · have hpay : ∀ q, q < src.len m * t → dst.HasPayload t (dst.ptr + q) := fun q hq =>
          ⟨by omega, by have := Nat.mul_le_mul_right t (Nat.not_lt.1 h1); omega⟩
        refine holdsCopy_of ht (by omega) ?_ ?_ ?_
        · intro hne
          have e1 : dst.len (writeLE m dst.sizePtr 4 (src.len m)) = src.len m := by
            simp only [View.len, if_neg hne]
            exact readLE_writeLE (by have := View.len_lt hs; simpa [View.len] using this)
          rw [if_neg hne]
          refine (len_of_word fun x hx => ?_).trans e1
          unfold memCopy
          rw [if_neg]
          rintro ⟨a, b⟩
          have := hpay (x - dst.ptr) (by omega)
          rw [show dst.ptr + (x - dst.ptr) = x by omega] at this
          exact ht.apart x ⟨this, hx⟩
        · intro q hq
          unfold memCopy
          rw [if_pos ⟨by omega, by omega⟩, Nat.add_sub_cancel_left]
          split
          · rfl
          · rename_i hne
            refine writeLE_other ?_
            have hsrc := hs.bytes (x := src.ptr + q) (by omega) (by omega)
            by_contra hcon
            exact hd _ ⟨.inl hsrc, .inr ⟨hne, by omega, by omega⟩⟩
        · intro hz q h2 _
          unfold memCopy
          rw [if_neg (by omega), if_pos hz]
      · intro x hx
        unfold memCopy
        rw [if_neg]
        · split
          · rfl
          · rename_i hne
            refine writeLE_other ?_
            by_contra hcon
            exact hx (.inr ⟨hne, by omega, by omega⟩)
        · rintro ⟨a, b⟩
          have := Nat.mul_le_mul_right t (Nat.not_lt.1 h1)
          exact hx (.inl ⟨a, by omega⟩)

/-- A memory in which the word at address 100 is 2, and the byte at each address from 200 on is its address (modulo 256). -/
def demoMem : Mem := fun x => if x = 100 then 2 else if x < 200 then 0 else UInt8.ofNat x

/-- Two bytes in a resizable vector with room for three; a fixed size vector of three bytes; and an empty one. -/
def demoSrc : View := ⟨3, 100, 200⟩
def demoDst : View := ⟨3, 0, 300⟩
def demoEmpty : View := ⟨0, 0, 0⟩

theorem demoSrc_valid : demoSrc.Valid demoMem 1 :=
  ⟨⟨by decide, by decide, by decide, fun x ⟨⟨h1, _⟩, _, _, h4⟩ => by simp only [demoSrc] at h1 h4; omega⟩, by decide⟩

theorem demoDst_valid : demoDst.Valid demoMem 1 :=
  ⟨⟨by decide, by decide, by decide, fun x ⟨_, h, _⟩ => h rfl⟩, by decide⟩

theorem demo_separate : demoSrc.Separate 1 demoDst := by
  rintro x ⟨⟨h1, h2⟩ | ⟨h1, h2, h3⟩, ⟨h4, h5⟩ | ⟨h4, h5, h6⟩⟩ <;> simp only [demoSrc, demoDst] at * <;> omega

/-- The hypotheses of `c37_copy_partial` are met by these, and this is the result: two elements are copied, and the third one
is what it was. -/
example : demoSrc.len demoMem ≠ 0 ∧
    demoDst.elems ((copyVec 1 demoSrc demoDst).result demoMem).2 1 = [[200], [201], [46]] := by decide +kernel

/-- **C37** is false: copying an empty vector into a resizable vector leaves the latter's elements in place. -/
theorem c37_false : ¬ C37Full (fun _ _ _ => True) := by
  intro h
  have hv : demoEmpty.Valid demoMem 1 :=
    ⟨⟨by decide, by decide, by decide, fun x ⟨_, h, _⟩ => h rfl⟩, by decide⟩
  have hsep : demoEmpty.Separate 1 demoSrc := by
    rintro x ⟨⟨h1, h2⟩ | ⟨h1, h2, h3⟩, _⟩
    · simp only [demoEmpty] at h1 h2; omega
    · exact h1 rfl
  have := h demoMem 1 demoEmpty demoSrc hv demoSrc_valid hsep trivial
  rw [if_neg (by decide)] at this
  obtain ⟨m', e, hm, -⟩ := this
  have e' : (copyVec 1 demoEmpty demoSrc).result demoMem = (.ok (), demoMem) := rfl
  rw [e', Prod.mk.injEq] at e
  rw [← e.2] at hm
  exact absurd hm (by unfold View.HoldsCopy; decide +kernel)

/-- **C37**, what is missing: a copy of an empty vector changes nothing, whatever the target is.  (So it does not make a
resizable target empty.) -/
theorem c37_empty (m : Mem) (t : Nat) (src dst : View) (hs : src.Valid m t) (ht : dst.Valid m t) (hd : src.Separate t dst)
    (h0 : src.len m = 0) : (copyVec t src dst).result m = (.ok (), m) := by
  have h := copyView_does hs ht hd
  rw [if_pos h0, if_pos h0] at h
  exact (h.bindActs (acts_retNoEvent m)).result

example : demoEmpty.len demoMem = 0 ∧ demoSrc.elems ((copyVec 1 demoEmpty demoSrc).result demoMem).2 1 = [[200], [201]] := by
  decide +kernel

/-- **C37**, copies to `std::vector`: wherever `resize` puts the array (not on the source's memory), it then holds the
source's elements, and nothing else is changed. -/
theorem c37_to_std (m : Mem) (t : Nat) (src : View) (resize : Nat → Nat) (hs : src.Valid m t)
    (hp : ∀ x, ¬ (src.Has t x ∧ resize (src.len m) ≤ x ∧ x < resize (src.len m) + src.len m * t)) :
    ∃ m', (copyToStd t src resize).result m = (.ok (), m') ∧
      (View.mk (src.len m) 0 (resize (src.len m))).elems m' t = src.elems m t ∧
      ∀ x, ¬ (resize (src.len m) ≤ x ∧ x < resize (src.len m) + src.len m * t) → m' x = m x := by
  have hw : wrap64 (src.len m * t) = src.len m * t := hs.wrap hs.len
  refine ⟨memCopy m (resize (src.len m)) src.ptr (src.len m * t), ?_, ?_, ?_⟩
  · refine ((getSize_does src m).bindActs ?_).result
    rw [hw]
    exact acts_copy (not_overlap_of hp (fun x h1 h2 => .inl (hs.bytes h1 h2)) (fun x h1 h2 => ⟨h1, h2⟩)) (acts_retEvent _)
  · unfold View.elems
    apply List.map_congr_left
    intro i hi
    refine bytesAt_congr fun q hq => ?_
    have hi' : i < src.len m := by simpa [View.len] using List.mem_range.1 hi
    have : (i + 1) * t ≤ src.len m * t := Nat.mul_le_mul_right t hi'
    rw [Nat.succ_mul] at this
    unfold memCopy
    rw [if_pos (by constructor <;> simp only <;> omega), Nat.add_assoc, Nat.add_assoc, Nat.add_sub_cancel_left]
  · intro x hx
    unfold memCopy
    rw [if_neg hx]

example : (⟨2, 0, 300⟩ : View).elems ((copyToStd 1 demoSrc fun _ => 300).result demoMem).2 1 = [[200], [201]] := by
  decide +kernel

/-- **C37**, `to`: with any well-behaved resource, if the source's memory is part of memory in use (`U`), then `to` either
throws `bad_alloc` and changes nothing, or returns a buffer with the source's elements, in its own block of memory, which is
the only memory that changes. -/
theorem c37_to (up : MR σ) (R : Limits) (G : Nat) (u0 u : σ) (U : List Blk) (h : Lawful R G up u0)
    (hu : Reach R up u0 u U) (t : CType) (ht : t.Wf) (m : Mem) (src : View) (hs : src.Valid m t.size)
    (hU : ∀ x, src.Has t.size x → ∃ b ∈ U, b.addr ≤ x ∧ x < b.addr + b.size)
    (hq : IsReq R (neededBytes (max 4 t.align) [(.uint, 0), (t, src.len m)]) maxAlign) :
    match copyTo up t src u m with
    | (.ok b, u', m') =>
        b.view.sizePtr = 0 ∧ b.view.elems m' t.size = src.elems m t.size ∧
        (src.len m = 0 → u' = u ∧ m' = m) ∧
        (src.len m ≠ 0 → ∃ blk : Blk, Reach R up u0 u' (blk :: U) ∧ (∀ x ∈ U, blk.Disjoint x) ∧
          (b.view.payload t).Aligned ∧ (b.view.payload t).Inside blk ∧
          ∀ x, ¬ (blk.addr ≤ x ∧ x < blk.addr + blk.size) → m' x = m x) ∧
        ∃ u'', b.destroy up u' = (.ok (), u'') ∧ Reach R up u0 u'' U
    | (.badAlloc, u', m') => src.len m ≠ 0 ∧ m' = m ∧ Reach R up u0 u' U
    | _ => False := by
  unfold copyTo
  rw [(getSize_does src m).value.1]
  have hc := c27_vector_buffer up u0 u U h hu t ht (src.len m) false hq
  simp only
  cases hx : VecBuffer.create up u t (src.len m) false with
  | mk r u' =>
    rw [hx] at hc
    cases r with
    | badAlloc => exact ⟨hc.1, rfl, hc.2⟩
    | ok b =>
      simp only at hc ⊢
      obtain ⟨c1, c2, c3, c4⟩ := hc
      have hz : b.view.sizePtr = 0 := by
        by_cases h0 : src.len m = 0
        · exact (c2 h0).1
        · obtain ⟨_, _, _, _, _, _, _, c⟩ := c3 h0
          simpa using c
      have hlen : ∀ m', b.view.len m' = src.len m := fun m' => by simp [View.len, hz, c1]
      by_cases h0 : src.len m = 0
      · obtain ⟨_, d2, d3⟩ := c2 h0
        have hval : b.view.Valid m t.size := ⟨⟨fun h => absurd (c1.trans h0) h, fun h => absurd (c1.trans h0) h,
          by rw [c1, h0]; decide, fun x hx => hx.2.1 hz⟩, by rw [hlen, c1]⟩
        have hsep : src.Separate t.size b.view := by
          rintro x ⟨-, ⟨p1, p2⟩ | hx⟩
          · rw [c1, h0] at p2; omega
          · exact hx.1 hz
        have hd := copyView_does hs hval hsep
        rw [if_pos h0, if_pos h0] at hd
        have e : ((setupVec b.view).bind fun e => Prog.wait e <| (copyVec t.size src b.view).bind
            fun e => Prog.wait e (.ret (.ok ()))).result m = (.ok (), m) := by
          rw [setupVec, if_pos (.inl hz)]
          refine Acts.result fun L d => ?_
          obtain ⟨d1, e1⟩ := hd L d
          refine ⟨.ok (), d1, ?_, rfl⟩
          rw [run_bind_ok (b := 0) rfl]
          simp only [run]
          rw [run_bind_ok (p := copyVec t.size src b.view) (b := 0) (t := ⟨m, L, d1⟩)
            (by rw [copyVec, run_bind_ok e1]; rfl)]
          rfl
        rw [e]
        refine ⟨hz, ?_, fun _ => ⟨d3, rfl⟩, fun h => absurd h0 h, c4⟩
        simp only [View.elems, hlen, h0, List.range_zero, List.map_nil]
      · obtain ⟨blk, f1, f2, f3, f4, f5, f6, -⟩ := c3 h0
        have hblk := (h.live f1).1 blk (List.mem_cons_self ..)
        have hpay : ∀ x, b.view.HasPayload t.size x → blk.addr ≤ x ∧ x < blk.addr + blk.size := by
          rintro x ⟨p1, p2⟩
          obtain ⟨i1, i2⟩ := f5
          simp only [View.payload, CType.region] at i1 i2
          omega
        have hval : b.view.Valid m t.size := by
          refine ⟨⟨fun _ => f6, fun _ => ?_, by rw [c1]; exact View.len_lt hs, fun x hx => hx.2.1 hz⟩, by rw [hlen, c1]⟩
          obtain ⟨i1, i2⟩ := f5
          have := hblk.2.1
          simp only [View.payload, CType.region] at i1 i2
          omega
        have hsep : src.Separate t.size b.view := by
          rintro x ⟨hx, hy | hy⟩
          · obtain ⟨o, ho, o1, o2⟩ := hU x hx
            have := hpay x hy
            have := f3 o ho
            unfold Blk.Disjoint at this
            omega
          · exact hy.1 hz
        have hd := copyView_does hs hval hsep
        rw [if_neg h0, if_neg h0, if_neg (by rw [c1]; omega), if_neg (by rw [c1]; omega), if_pos hz] at hd
        have hfull := c37_copy_partial m t.size src b.view hs hval hsep (.inl h0)
        rw [if_neg (by rw [c1]; omega)] at hfull
        obtain ⟨m', g1, g2, g3⟩ := hfull
        have e : ((setupVec b.view).bind fun e => Prog.wait e <| (copyVec t.size src b.view).bind
            fun e => Prog.wait e (.ret (.ok ()))).result m = (.ok (), m') := by
          rw [setupVec, if_pos (.inl hz)]
          have g1' := (hd.bindActs (f := fun b => if b then retEvent else retNoEvent) (acts_retEvent _)).result
          have hm : m' = _ := (Prod.mk.inj (g1.symm.trans g1')).2
          refine Acts.result fun L d => ?_
          obtain ⟨d1, e1⟩ := hd L d
          refine ⟨.ok (), d1, ?_, rfl⟩
          rw [run_bind_ok (b := 0) rfl]
          simp only [run]
          rw [run_bind_ok (p := copyVec t.size src b.view) (b := d1) (t := ⟨m', L, d1⟩)
            (by rw [copyVec, run_bind_ok e1, hm]; rfl)]
          rfl
        rw [e]
        refine ⟨hz, ?_, fun h => absurd h h0, fun _ => ⟨blk, f1, f3, f4, f5, ?_⟩, c4⟩
        · unfold View.HoldsCopy at g2
          rw [if_pos hz] at g2
          rw [g2, List.drop_eq_nil_of_le, List.append_nil]
          simp [View.elems, hlen]
        · intro x hx
          refine g3 x ?_
          rintro (hy | hy)
          · exact hx (hpay x hy)
          · exact hy.1 hz
    | _ => exact hc.elim

/-- **C37**, exceptions in `to`: whatever exception leaves `to` after the buffer was made, the buffer's memory is given back.  (With a
source as in `c37_to` there is none.) -/
theorem c37_to_exception (up : MR σ) (R : Limits) (G : Nat) (u0 u u' : σ) (U : List Blk) (h : Lawful R G up u0)
    (hu : Reach R up u0 u U) (t : CType) (ht : t.Wf) (n : Nat) (b : VecBuffer)
    (hq : IsReq R (neededBytes (max 4 t.align) [(.uint, 0), (t, n)]) maxAlign)
    (hb : VecBuffer.create up u t n false = (.ok b, u')) (e : Res VecBuffer) :
    (dropBuffer up e b u').1 = e ∧ Reach R up u0 (dropBuffer up e b u').2 U := by
  have hc := c27_vector_buffer up u0 u U h hu t ht n false hq
  rw [hb] at hc
  obtain ⟨-, -, -, u'', h1, h2⟩ := hc
  unfold dropBuffer
  rw [h1]
  exact ⟨rfl, h2⟩

/-- The hypotheses of `c37_to` are met after 16 bytes were allocated, with a source of three of these bytes, and this is
the result. -/
example : Reach 64 demoBase demoInit (⟨2 ^ 62, 4096, 4112⟩, ()) [⟨4096, 16, 8⟩] ∧ (View.mk 3 0 4097).Valid demoMem 1 ∧
    (∀ x, (View.mk 3 0 4097).Has 1 x → 4096 ≤ x ∧ x < 4096 + 16) ∧
    IsReq 64 (neededBytes (max 4 1) [(.uint, 0), (⟨1, 1⟩, 3)]) maxAlign ∧
    (match copyTo demoBase ⟨1, 1⟩ ⟨3, 0, 4097⟩ (⟨2 ^ 62, 4096, 4112⟩, ()) demoMem with
      | (.ok b, _, m') => some (b.view, b.view.elems m' 1)
      | _ => none) = some (⟨3, 0, 4112⟩, [[1], [2], [3]]) := by
  refine ⟨Reach.alloc (s := demoInit) .init ⟨by decide, by decide, 3, rfl⟩ (by decide) (by decide +kernel),
    ⟨⟨by decide, by decide, by decide, fun x h => h.2.1 rfl⟩, by decide⟩, ?_, ⟨by decide, by decide, 4, rfl⟩, by decide +kernel⟩
  rintro x (⟨h1, h2⟩ | h)
  · simp only at h1 h2; omega
  · exact absurd rfl h.1

end Props
end Vecmem
