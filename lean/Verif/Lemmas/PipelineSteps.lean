import Verif.Lemmas.Pipeline

/-! # Lemmas for C59: the steps -/

namespace Vecmem

open IntMath Prog

variable {σ : Type} {R : Limits} {G : Nat} {ups : Nat → MR σ} {u0 : σ} {c : PipeCfg} {p : Pipe σ} {ready : Nat → Bool} {T : List (Nat × Blk)}

/-- What is to be shown of a step. -/
def StepOk (c : PipeCfg) (R : Limits) (ups : Nat → MR σ) (u0 : σ) (T : List (Nat × Blk)) (p : Pipe σ) (ready : Nat → Bool)
    (op : PipeOp) : Prop :=
  PipeInv c R ups u0 T (p.exec c ups op).2 (op.ready ready) ∧
  PipeStep c (p.store c ready) op (p.exec c ups op).1 ((p.exec c ups op).2.store c (op.ready ready)) ∧
  ∀ x, InBlocks T x → (p.exec c ups op).2.mem x = p.mem x

/-- Addresses outside all buffers and the other blocks. -/
def Pipe.Free (p : Pipe σ) (T : List (Nat × Blk)) (a n : Nat) : Prop :=
  p.Outside a n ∧ ∀ e ∈ T, a + n ≤ e.2.addr ∨ e.2.addr + e.2.size ≤ a

theorem Pipe.Free.not {a n : Nat} (h : p.Free T a n) {x : Nat} (hx : InBlocks T x) : ¬ (a ≤ x ∧ x < a + n) := by
  obtain ⟨e, he, h1, h2⟩ := hx
  have := h.2 e he
  omega

theorem Store.put_put (S : Store) (k : Nat) (b : Option VBuf) (h : S k = b) : S.put k b = S := by
  funext i
  unfold Store.put
  split
  · rename_i hik; rw [hik, h]
  · rfl

theorem step_create (hl : FamLawful R G ups u0) (hc : c.Wf) (h : PipeInv c R ups u0 T p ready) {k cap : Nat} {r : Bool}
    (hf : (PipeOp.create k cap r).Fits c R (p.Free T) (p.store c ready)) : StepOk c R ups u0 T p ready (.create k cap r) := by
  obtain ⟨h0, hcap, hq⟩ := hf
  have hnone : p.bufs.lookup k = none := by
    cases hb : p.bufs.lookup k with
    | none => rfl
    | some b => rw [Pipe.store_some hb] at h0; cases h0
  have hnk := lookup_none hnone
  have hnk' : ∀ e ∈ p.bufs, e.1 ≠ k := fun e he hc => hnk (hc ▸ List.mem_map.2 ⟨e, he, rfl⟩)
  unfold StepOk
  rcases hl.vecCreate h.reach (c.res k) (hc k).1 hcap (r := r) hq with ⟨b, u', e1, e2, e3, e4, e5⟩ | ⟨u', e1, e2, e3⟩
  · simp only [Pipe.exec, e1]
    have hrd : (PipeOp.create k cap r).ready ready k = (b.view.sizePtr == 0) := by
      simp only [PipeOp.ready, if_true]
      by_cases hz : b.view.sizePtr = 0
      · rcases e4.1 hz with h1 | h1 <;> simp [hz, h1]
      · have : ¬ (r = false ∨ cap = 0) := fun h1 => hz (e4.2 h1)
        simp only [not_or, Bool.not_eq_false] at this
        rw [this.1, bne_iff_ne.2 this.2, beq_eq_false_iff_ne.2 hz]
        rfl
    have hro : ∀ i, i ≠ k → (PipeOp.create k cap r).ready ready i = ready i := fun i hi => by simp [PipeOp.ready, hi]
    have hst : (Pipe.mk u' p.mem ((k, b) :: p.bufs)).store c ((PipeOp.create k cap r).ready ready) =
        (p.store c ready).put k (some ⟨cap, b.view.sizePtr != 0,
          if b.view.sizePtr = 0 then some (b.view.elems p.mem (c.ty k).size) else none⟩) := by
      funext i
      unfold Store.put
      split
      · rename_i hik
        subst hik
        rw [Pipe.store_some (p := Pipe.mk u' p.mem ((i, b) :: p.bufs)) (b := b) (by simp), hrd, e2]
        simp
      · rename_i hik
        unfold Pipe.store
        rw [hro i hik]
        simp only [List.lookup_cons]
        rw [beq_eq_false_iff_ne.2 hik]
    refine ⟨⟨?_, ?_, ?_, ?_, ?_⟩, ?_, fun _ _ => by trivial⟩
    · rw [Pipe.owned_cons, List.append_assoc]; exact e5
    · rw [List.map_cons, List.nodup_cons]; exact ⟨hnk, h.nodup⟩
    · intro e he
      rcases List.mem_cons.1 he with rfl | he
      · exact e3
      · exact h.bufs e he
    · intro e he hr
      rcases List.mem_cons.1 he with rfl | he
      · rw [hrd] at hr
        have hz : b.view.sizePtr = 0 := by simpa using hr
        simp [View.len, hz]
      · rw [hro _ (hnk' e he)] at hr
        exact h.len e he hr
    · intro e he hz
      rcases List.mem_cons.1 he with rfl | he
      · rw [hrd]; simpa using hz
      · rw [hro _ (hnk' e he)]
        exact h.fixed e he hz
    · rw [hst]
      by_cases hz : b.view.sizePtr = 0
      · have := PipeStep.createFixed (c := c) (S := p.store c ready) k cap r (e4.1 hz) (b.view.elems p.mem (c.ty k).size)
          (by rw [elems_length]; simp [View.len, hz, e2]) (elems_sized _ _ _)
        simpa [hz] using this
      · have h1 : ¬ (r = false ∨ cap = 0) := fun h1 => hz (e4.2 h1)
        simp only [not_or, Bool.not_eq_false] at h1
        have := PipeStep.createResizable (c := c) (S := p.store c ready) k cap h1.2
        rw [h1.1, bne_iff_ne.2 hz, if_neg hz]
        exact this
  · simp only [Pipe.exec, e1, Res.map]
    have hst : (Pipe.mk u' p.mem p.bufs).store c ((PipeOp.create k cap r).ready ready) = p.store c ready := by
      funext i
      unfold Pipe.store
      by_cases hik : i = k
      · subst hik; simp [hnone]
      · simp [PipeOp.ready, hik]
    refine ⟨⟨e3, h.nodup, h.bufs, fun e he hr => ?_, fun e he hz => ?_⟩, ?_, fun _ _ => by trivial⟩
    · simp only [PipeOp.ready, if_neg (hnk' e he)] at hr
      exact h.len e he hr
    · simp only [PipeOp.ready, if_neg (hnk' e he)]
      exact h.fixed e he hz
    · rw [hst]
      exact .createFail k cap r e2

theorem step_destroy (hl : FamLawful R G ups u0) (h : PipeInv c R ups u0 T p ready) {k : Nat}
    (hf : (PipeOp.destroy k).Fits c R (p.Free T) (p.store c ready)) : StepOk c R ups u0 T p ready (.destroy k) := by
  obtain ⟨v, hv⟩ := hf
  obtain ⟨b, hb⟩ := Pipe.store_exists hv
  have hm := mem_of_lookup hb
  have hperm := perm_filter h.nodup hm
  unfold StepOk
  simp only [Pipe.exec, hb]
  have hsub : ∀ e ∈ p.bufs.filter (fun e => e.1 != k), e ∈ p.bufs := fun e he => (List.mem_filter.1 he).1
  have hd : (b.destroy (ups (c.res k)) p.res).1 = .ok () ∧
      FReach R ups u0 (b.destroy (ups (c.res k)) p.res).2 ((Pipe.mk p.res p.mem (p.bufs.filter fun e => e.1 != k)).owned c ++ T) := by
    have hr := h.reach
    have hown : (p.owned c).Perm (b.owns (c.res k) ++ (Pipe.mk p.res p.mem (p.bufs.filter fun e => e.1 != k)).owned c) := by
      have h2 := Pipe.owned_cons (c := c) (Pipe.mk p.res p.mem (p.bufs.filter fun e => e.1 != k)) p.res p.mem k b
      rw [← h2]
      unfold Pipe.owned
      exact (hperm.filter _).map _
    have hr' := hr.perm (hown.append_right T)
    rw [List.append_assoc] at hr'
    unfold VecBuffer.owns at hr'
    unfold VecBuffer.destroy
    by_cases hz : b.mem.ptr = 0
    · rw [if_pos hz] at hr'
      rw [UniqueAlloc.destroy, if_pos hz]
      exact ⟨rfl, hr'⟩
    · rw [if_neg hz] at hr'
      obtain ⟨u', d1, d2⟩ := hl.destroy (m := b.mem) hr' hz
      rw [d1]
      exact ⟨rfl, d2⟩
  refine ⟨⟨hd.2, ?_, fun e he => h.bufs e (hsub e he), fun e he => h.len e (hsub e he), fun e he => h.fixed e (hsub e he)⟩, ?_, fun _ _ => by trivial⟩
  · exact h.nodup.sublist (List.filter_sublist.map _)
  · rw [hd.1]
    have : (Pipe.mk (b.destroy (ups (c.res k)) p.res).2 p.mem (p.bufs.filter fun e => e.1 != k)).store c ready =
        (p.store c ready).put k none := by
      funext i
      unfold Store.put Pipe.store
      simp only [lookup_filter]
      by_cases hik : i = k <;> simp [hik]
    show PipeStep c _ _ _ ((Pipe.mk (b.destroy (ups (c.res k)) p.res).2 p.mem (p.bufs.filter fun e => e.1 != k)).store c ready)
    rw [this]
    exact .destroy k

theorem PipeInv.apart (hl : FamLawful R G ups u0) (h : PipeInv c R ups u0 T p ready) {k : Nat} {b : VecBuffer} (hb : (k, b) ∈ p.bufs) {m m' : Mem}
    (hm : ∀ x, ¬ b.view.Has (c.ty k).size x → m' x = m x) :
    ∀ e ∈ p.bufs, e.1 ≠ k → ∀ x, e.2.view.Has (c.ty e.1).size x → m' x = m x :=
  fun _ he hne _ hx => hm _ fun hx' => h.separate hl he hb hne hx hx'

theorem PipeInv.keeps (hl : FamLawful R G ups u0) (h : PipeInv c R ups u0 T p ready) {k : Nat} {b : VecBuffer} (hb : (k, b) ∈ p.bufs) {m m' : Mem}
    (hm : ∀ x, ¬ b.view.Has (c.ty k).size x → m' x = m x) : ∀ x, InBlocks T x → m' x = m x :=
  fun _ hx => hm _ fun hx' => h.frame hl hb hx' hx

theorem step_setup (hl : FamLawful R G ups u0) (h : PipeInv c R ups u0 T p ready) {k : Nat}
    (hf : (PipeOp.setup k).Fits c R (p.Free T) (p.store c ready)) : StepOk c R ups u0 T p ready (.setup k) := by
  obtain ⟨v, hv⟩ := hf
  obtain ⟨b, hb⟩ := Pipe.store_exists hv
  have hm := mem_of_lookup hb
  have hok := h.bufs _ hm
  have hro : ∀ i, i ≠ k → (PipeOp.setup k).ready ready i = ready i := fun i hi => by simp [PipeOp.ready, hi]
  have hrk : (PipeOp.setup k).ready ready k = true := by simp [PipeOp.ready]
  unfold StepOk
  simp only [Pipe.exec, hb, Pipe.onMem]
  by_cases hz : b.view.sizePtr = 0
  · have e := Props.c40_setup_vector_nothing p.mem b.view (.inl hz)
    rw [e]
    have hr : (PipeOp.setup k).ready ready = ready := by
      funext i
      by_cases hik : i = k
      · subst hik; rw [hrk]; exact (h.fixed _ hm hz).symm
      · exact hro i hik
    rw [hr]
    refine ⟨h, ?_, fun _ _ => rfl⟩
    have hs := Pipe.store_some (c := c) (ready := ready) hb
    rw [show (b.view.sizePtr != 0) = false by simp [hz]] at hs
    exact .setupFixed k _ _ hs
  · obtain ⟨m', e1, e2, e3, e4⟩ := Props.c40_setup_vector p.mem (c.ty k).size b.view hok.placed hz (hok.word hz)
    rw [e1]
    obtain ⟨i1, i2⟩ := h.change hb (m' := m') (h.apart hl hm fun x hx => e4 x fun hw => hx (.inr hw)) hro (fun _ => hrk)
      (fun _ => e3.len)
    refine ⟨i1, ?_, h.keeps hl hm fun x hx => e4 x fun hw => hx (.inr hw)⟩
    simp only [i2, Res.map]
    have hs := Pipe.store_some (c := c) (ready := ready) hb
    rw [show (b.view.sizePtr != 0) = true by simp [hz]] at hs ⊢
    rw [if_pos hrk, show b.view.elems m' (c.ty k).size = [] by simp [View.elems, e2]]
    exact .setup k _ _ hs

theorem step_memset (hl : FamLawful R G ups u0) (h : PipeInv c R ups u0 T p ready) {k : Nat} {value : UInt8}
    (hf : (PipeOp.memset k value).Fits c R (p.Free T) (p.store c ready)) : StepOk c R ups u0 T p ready (.memset k value) := by
  obtain ⟨v, hv⟩ := hf
  obtain ⟨b, hb⟩ := Pipe.store_exists hv
  have hm := mem_of_lookup hb
  have hok := h.bufs _ hm
  unfold StepOk
  simp only [Pipe.exec, hb, Pipe.onMem]
  obtain ⟨m', e1, e2⟩ := Props.c40_memset_vector p.mem (c.ty k).size b.view hok.placed value
  rw [e1]
  have hlen : b.view.len m' = b.view.len p.mem := len_of_word fun x hx => (e2 x).2 fun hp => hok.placed.apart x ⟨hp, hx⟩
  obtain ⟨i1, i2⟩ := h.change hb (m' := m') (h.apart hl hm fun x hx => (e2 x).2 fun hw => hx (.inl hw)) (ready' := ready)
    (fun _ _ => rfl) (fun hk => hk) (fun hk => by rw [hlen]; exact h.len _ hm hk)
  refine ⟨i1, ?_, h.keeps hl hm fun x hx => (e2 x).2 fun hw => hx (.inl hw)⟩
  simp only [Res.map]
  rw [show (PipeOp.memset k value).ready ready = ready from rfl, i2]
  have := PipeStep.memset (c := c) k _ _ _ value (Pipe.store_some (c := c) (ready := ready) hb)
  convert this using 4
  by_cases hr : ready k = true
  · rw [if_pos hr, if_pos hr, Option.map_some]
    congr 1
    unfold View.elems
    rw [hlen, List.map_map]
    apply List.map_congr_left
    intro i hi
    have hi := List.mem_range.1 hi
    have hle := h.len _ hm hr
    apply List.ext_getElem?
    intro q
    by_cases hq : q < (c.ty k).size
    · rw [bytesAt_get hq]
      have : (i + 1) * (c.ty k).size ≤ b.view.capacity * (c.ty k).size := Nat.mul_le_mul_right _ (by simp only at hle; omega)
      rw [Nat.succ_mul] at this
      rw [(e2 _).1 ⟨by omega, by omega⟩]
      simp [hq]
    · rw [List.getElem?_eq_none (by rw [bytesAt_length]; omega), List.getElem?_eq_none (by simp; omega)]
  · rw [if_neg hr, if_neg hr]
    rfl

/-! ## Copies -/

theorem copy_into (hl : FamLawful R G ups u0) (h : PipeInv c R ups u0 T p ready) {k : Nat} {b : VecBuffer} (hb : p.bufs.lookup k = some b)
    (hr : ready k = true) {src : View} (hs : src.Valid p.mem (c.ty k).size) (hsep : src.Separate (c.ty k).size b.view) :
    PipeInv c R ups u0 T (p.onMem (copyVec (c.ty k).size src b.view)).2 ready ∧
      CopyStep (p.store c ready) k (src.elems p.mem (c.ty k).size) (p.onMem (copyVec (c.ty k).size src b.view)).1
        ((p.onMem (copyVec (c.ty k).size src b.view)).2.store c ready) ∧
      ∀ x, InBlocks T x → (p.onMem (copyVec (c.ty k).size src b.view)).2.mem x = p.mem x := by
  have hm := mem_of_lookup hb
  have hok := h.bufs _ hm
  have hv : b.view.Valid p.mem (c.ty k).size := ⟨hok.placed, h.len _ hm hr⟩
  have hsk : (p.store c ready).Has k b.view.capacity (b.view.sizePtr != 0) (b.view.elems p.mem (c.ty k).size) := by
    unfold Store.Has
    rw [Pipe.store_some hb, if_pos hr]
  have hlen : (src.elems p.mem (c.ty k).size).length = src.len p.mem := elems_length _ _ _
  by_cases h0 : src.len p.mem = 0
  · have he : src.elems p.mem (c.ty k).size = [] := by simp [View.elems, h0]
    unfold Pipe.onMem
    rw [Props.c37_empty p.mem (c.ty k).size src b.view hs hv hsep h0, he]
    refine ⟨h, ?_, fun _ _ => rfl⟩
    have := CopyStep.fits hsk (new := []) (Nat.zero_le _)
    rw [show copied (b.view.sizePtr != 0) [] (b.view.elems p.mem (c.ty k).size) = b.view.elems p.mem (c.ty k).size from if_pos rfl]
      at this
    rw [show (p.store c ready).put k (some ⟨b.view.capacity, b.view.sizePtr != 0, some (b.view.elems p.mem (c.ty k).size)⟩) =
      p.store c ready from funext fun i => by
        unfold Store.put
        by_cases hi : i = k
        · rw [if_pos hi, hi]; exact hsk.symm
        · rw [if_neg hi]] at this
    exact this
  have hne : src.elems p.mem (c.ty k).size ≠ [] := fun hc => h0 (by rw [← hlen, hc]; rfl)
  have hc := Props.c37_copy_partial p.mem (c.ty k).size src b.view hs hv hsep (.inl h0)
  unfold Pipe.onMem
  split at hc
  · rename_i hlt
    rw [hc]
    exact ⟨h, .tooLong hsk (by rw [hlen]; exact hlt), fun _ _ => rfl⟩
  · rename_i hlt
    obtain ⟨m', e1, e2, e3⟩ := hc
    rw [e1]
    have hle : b.view.len m' ≤ b.view.capacity := by
      rw [← elems_length m' (c.ty k).size, e2, List.length_append, hlen]
      split
      · rename_i hz
        rw [List.length_drop, elems_length]
        have : b.view.len p.mem = b.view.capacity := by simp [View.len, hz]
        omega
      · simp only [List.length_nil]; omega
    obtain ⟨i1, i2⟩ := h.change hb (m' := m') (h.apart hl hm e3) (ready' := ready) (fun _ _ => rfl) (fun hk => hk) (fun _ => hle)
    refine ⟨i1, ?_, h.keeps hl hm e3⟩
    simp only [Res.map]
    rw [i2, if_pos hr, e2]
    have := CopyStep.fits hsk (new := src.elems p.mem (c.ty k).size) (by rw [hlen]; omega)
    unfold copied at this
    rw [if_neg hne, hlen] at this
    by_cases hz : b.view.sizePtr = 0
    · rw [show (b.view.sizePtr != 0) = false by simp [hz]] at this ⊢
      rw [if_pos hz]
      exact this
    · rw [bne_iff_ne.2 hz, if_pos rfl] at this
      rw [bne_iff_ne.2 hz, if_neg hz, List.append_nil]
      exact this

theorem Store.put_same {S : Store} {k : Nat} {b : Option VBuf} (h : S k = b) : S.put k b = S := funext fun i => by
  unfold Store.put
  by_cases hi : i = k
  · rw [if_pos hi, hi]; exact h.symm
  · rw [if_neg hi]

theorem PipeStep.copy_empty {S V : Store} {i j cap cap' : Nat} {r r' : Bool} {l : List Elem} {res : Res PipeOut}
    (hs : PipeStep c S (.copy i j) res V) (hi : S.Has i cap r []) (hj : S.Has j cap' r' l) : res = .ok .unit ∧ V = S := by
  unfold Store.Has at hi hj
  cases hs with
  | copy _ _ h hc =>
    unfold Store.Has at h
    rw [hi] at h
    cases h
    cases hc with
    | tooLong _ hn => exact absurd hn (Nat.not_lt_zero _)
    | fits h _ =>
      refine ⟨rfl, Store.put_same ?_⟩
      unfold Store.Has at h
      rw [h]
      exact congrArg (fun x => some (VBuf.mk _ _ (some x))) (if_pos rfl).symm

theorem step_copy (hl : FamLawful R G ups u0) (h : PipeInv c R ups u0 T p ready) {i j : Nat}
    (hf : (PipeOp.copy i j).Fits c R (p.Free T) (p.store c ready)) : StepOk c R ups u0 T p ready (.copy i j) := by
  obtain ⟨hij, hty, cap, r, l, cap', r', l', h1, h2⟩ := hf
  obtain ⟨a, a1, a2, a3, a4, a5, a6, a7, a8⟩ := h.has h1
  obtain ⟨b, b1, b2, b3, b4, b5, b6, b7, b8⟩ := h.has h2
  unfold StepOk
  simp only [Pipe.exec, a1, b1]
  rw [show (PipeOp.copy i j).ready ready = ready from rfl]
  rw [hty] at a6 a7 ⊢
  obtain ⟨k1, k2, k3⟩ := copy_into hl h b1 b3 a7 (fun x ⟨x1, x2⟩ => h.separate hl a2 b2 hij (by simp only; rw [hty]; exact x1) x2)
  refine ⟨k1, .copy i j h1 ?_, k3⟩
  rw [a6] at k2
  exact k2

theorem putElems_elems {t : Nat} {m : Mem} {at_ : Nat} {l : List Elem} (hs : ∀ e ∈ l, e.length = t) :
    (View.mk l.length 0 at_).elems (Pipe.putElems t m at_ l) t = l := by
  have hlen : (View.mk l.length 0 at_).len (Pipe.putElems t m at_ l) = l.length := by simp [View.len]
  apply List.ext_getElem?
  intro i
  by_cases hi : i < l.length
  · rw [elems_get (by rw [hlen]; exact hi), List.getElem?_eq_getElem hi]
    have ht := hs _ (List.getElem_mem hi)
    have : bytesAt (Pipe.putElems t m at_ l) (at_ + i * t) l[i].length = l[i] := by
      refine bytesAt_eq fun q hq => ?_
      rw [ht] at hq
      have : (i + 1) * t ≤ l.length * t := Nat.mul_le_mul_right t (by omega)
      rw [Nat.succ_mul] at this
      unfold Pipe.putElems
      rw [if_pos (by omega)]
      have hd : (at_ + i * t + q - at_) = q + t * i := by rw [Nat.mul_comm t i]; omega
      rw [hd, Nat.add_mul_div_left _ _ (by omega : 0 < t), Nat.div_eq_of_lt hq, Nat.zero_add, Nat.add_mul_mod_self_left,
        Nat.mod_eq_of_lt hq]
      simp only [List.getD_eq_getElem?_getD, List.getElem?_eq_getElem hi, Option.getD_some]
    rw [ht] at this
    rw [this]
  · rw [List.getElem?_eq_none (by rw [elems_length, hlen]; omega), List.getElem?_eq_none (by omega)]

/-- Addresses outside all buffers. -/
theorem PipeInv.outside (h : PipeInv c R ups u0 T p ready) {a n : Nat} (ho : p.Outside a n) {e : Nat × VecBuffer} (he : e ∈ p.bufs) {x : Nat}
    (hx : e.2.view.Has (c.ty e.1).size x) : ¬ (a ≤ x ∧ x < a + n) := by
  obtain ⟨h1, h2, h3⟩ := (h.bufs e he).inside x hx
  have := ho e he h1
  omega

theorem step_upload (hl : FamLawful R G ups u0) (h : PipeInv c R ups u0 T p ready) {at_ : Nat} {l : List Elem} {k : Nat}
    (hf : (PipeOp.upload at_ l k).Fits c R (p.Free T) (p.store c ready)) : StepOk c R ups u0 T p ready (.upload at_ l k) := by
  obtain ⟨f1, f2, f3, f4, cap, r, l', f5⟩ := hf
  obtain ⟨h', hst⟩ := h.same (m' := Pipe.putElems (c.ty k).size p.mem at_ l) (fun e he x hx => by
    unfold Pipe.putElems
    rw [if_neg (h.outside f3.1 he hx)])
  rw [← hst] at f5
  obtain ⟨b, b1, b2, b3, b4, b5, b6, b7, b8⟩ := h'.has f5
  have b1' : p.bufs.lookup k = some b := b1
  unfold StepOk
  simp only [Pipe.exec, b1']
  rw [show (PipeOp.upload at_ l k).ready ready = ready from rfl]
  have hel : (View.mk l.length 0 at_).elems (Pipe.putElems (c.ty k).size p.mem at_ l) (c.ty k).size = l := putElems_elems f4
  have hne : l.length ≠ 0 → l ≠ [] := fun h hc => h (by rw [hc]; rfl)
  obtain ⟨k1, k2, k3⟩ := copy_into hl h' b1 b3 (src := ⟨l.length, 0, at_⟩)
    ⟨⟨fun h0 => (f2 (hne h0)).1, fun h0 => (f2 (hne h0)).2, f1, fun x hx => hx.2.1 rfl⟩, by simp [View.len]⟩
    (by
      rintro x ⟨x1, x2⟩
      rcases x1 with x1 | x1
      · exact h'.outside (p := { p with mem := Pipe.putElems (c.ty k).size p.mem at_ l }) f3.1 b2 x2 x1
      · exact x1.1 rfl)
  refine ⟨k1, .upload at_ l k ?_, fun x hx => (k3 x hx).trans ?_⟩
  rotate_left
  · show Pipe.putElems (c.ty k).size p.mem at_ l x = p.mem x
    unfold Pipe.putElems
    rw [if_neg (f3.not hx)]
  simp only at k2
  rw [hel, hst] at k2
  exact k2

theorem step_download (h : PipeInv c R ups u0 T p ready) {k at_ : Nat}
    (hf : (PipeOp.download k at_).Fits c R (p.Free T) (p.store c ready)) : StepOk c R ups u0 T p ready (.download k at_) := by
  obtain ⟨cap, r, l, h1, ho⟩ := hf
  obtain ⟨b, b1, b2, b3, b4, b5, b6, b7, b8⟩ := h.has h1
  obtain ⟨m', e1, e2, e3⟩ := Props.c37_to_std p.mem (c.ty k).size b.view (fun _ => at_) b7
    (fun x ⟨x1, x2⟩ => h.outside (b8 ▸ ho.1) b2 x1 x2)
  unfold StepOk
  rw [show (PipeOp.download k at_).ready ready = ready from rfl]
  simp only [Pipe.exec, b1, (getSize_does b.view p.mem).value.1, e1, Res.map]
  obtain ⟨i1, i2⟩ := h.same (m' := m') (fun e he x hx => e3 x (h.outside (b8 ▸ ho.1) he hx))
  refine ⟨i1, ?_, fun x hx => e3 x (b8 ▸ ho.not hx)⟩
  rw [i2, e2, b6]
  exact .download k at_ h1

/-! ## Kernels -/

theorem PipeInv.reads (h : PipeInv c R ups u0 T p ready) : ∀ {ins : List Nat} {ls : List (List Elem)}, (p.store c ready).HasAll ins ls →
    p.reads c ins = .ok ls := by
  intro ins
  induction ins with
  | nil =>
    intro ls hh
    cases ls with
    | nil => rfl
    | cons l ls => exact hh.elim
  | cons i is ih =>
    intro ls hh
    cases ls with
    | nil => exact hh.elim
    | cons l ls =>
      obtain ⟨⟨cap, r, h1⟩, h2⟩ := hh
      obtain ⟨b, b1, b2, b3, b4, b5, b6, b7, b8⟩ := h.has h1
      unfold Pipe.reads
      rw [b1]
      simp only [Pipe.device]
      rw [device_iterate b7, ih h2, b6]
      rfl

theorem step_kernel (hl : FamLawful R G ups u0) (hc : c.Wf) (h : PipeInv c R ups u0 T p ready) {ins : List Nat} {k : Nat}
    {f : List (List Elem) → List (List (ACall Elem))} {sched : List Nat}
    (hf : (PipeOp.kernel ins k f sched).Fits c R (p.Free T) (p.store c ready)) : StepOk c R ups u0 T p ready (.kernel ins k f sched) := by
  obtain ⟨-, ls, cap, l, f1, f2, f3, f4⟩ := hf
  obtain ⟨b, b1, b2, b3, b4, b5, b6, b7, b8⟩ := h.has f2
  have hz : b.view.sizePtr ≠ 0 := bne_iff_ne.1 b5
  have hh := device_holds b7 hz c.dbg (c.dflt k)
  rw [b6] at hh
  unfold StepOk
  rw [show (PipeOp.kernel ins k f sched).ready ready = ready from rfl]
  simp only [Pipe.exec, b1, h.reads f1]
  obtain ⟨g1, g2⟩ := Props.c30_concurrent_appends (p.device c k b) l _ hh (f ls)
    (by rw [show (p.device c k b).cap = cap from b4]; exact f3) (fun q hq x hx => (f4 q hq x hx).1) (sched ++ drain (f ls))
  have g1' : (Conc.kernel (p.device c k b) (f ls) sched).failed = false := g1
  obtain ⟨order, l', o1, o2, o3, o4⟩ := g2 (Conc.kernel_finished g1')
  have hall : (Conc.kernel (p.device c k b) (f ls) sched).vec.All (fun e => e.length = (c.ty k).size) := by
    refine Conc.all_run _ (device_all _ (hc k).2 _ _) (Conc.all_start fun q hq x hx => ?_)
    have := (f4 q hq x hx).2
    cases x <;> first | trivial | (rename_i a; cases a <;> exact this)
  have hlenT : (Conc.kernel (p.device c k b) (f ls) sched).threads.length = (f ls).length := by
    unfold Conc.kernel
    rw [Conc.run_length]
    simp [Conc.start]
  change ∀ i, _ = (Conc.kernel (p.device c k b) (f ls) sched).results i at o1
  change ∀ i, ((Conc.kernel (p.device c k b) (f ls) sched).results i).map _ = _ at o2
  change (Conc.kernel (p.device c k b) (f ls) sched).vec.Holds l' _ at o4
  have hcap : (Conc.kernel (p.device c k b) (f ls) sched).vec.cap = cap := by
    obtain ⟨o, hi⟩ := CInv.run hh (f3.trans (Nat.le_of_eq b4.symm)) (fun q hq x hx => (f4 q hq x hx).1)
      (sched ++ drain (f ls)) (CInv.start hh (f ls))
    exact hi.kind.2.2.2.2.1.trans b4
  generalize Conc.kernel (p.device c k b) (f ls) sched = g at g1' o1 o2 o4 hall hlenT hcap ⊢
  have hfit := o4.fits
  have hel : b.view.elems (b.view.storeDevice (c.ty k).size p.mem g.vec) (c.ty k).size = l' :=
    storeDevice_elems b7.toPlaced (by rw [if_neg hz]; exact o4.size.symm) (by rw [b4, ← hcap]; exact hfit) o4.elems hall.mem
  obtain ⟨i1, i2⟩ := h.change b1 (m' := b.view.storeDevice (c.ty k).size p.mem g.vec) (h.apart hl b2 fun x hx => storeDevice_other hx)
    (ready' := ready) (fun _ _ => rfl) (fun hk => hk)
    (fun _ => by rw [← elems_length _ (c.ty k).size, hel, b4, ← hcap]; exact hfit)
  refine ⟨i1, ?_, h.keeps hl b2 fun x hx => storeDevice_other hx⟩
  rw [i2, if_pos b3, hel, b4, b5, if_neg (by simp [g1'])]
  have hres : ∀ i, (g.threads.map Thread.done).getD i [] = g.results i := by
    intro i
    simp [Conc.results, List.getD_eq_getElem?_getD]
  refine .kernel ins k f sched f1 f2 order _ l' (fun i => by rw [hres, o1]) ?_ ?_
  · apply List.ext_getElem?
    intro i
    have := o2 i
    rw [List.getElem?_map, List.getElem?_map]
    unfold Conc.results at this
    by_cases hi : i < g.threads.length
    · rw [List.getElem?_eq_getElem hi, List.getElem?_eq_getElem (hlenT ▸ hi)] at this ⊢
      simpa using this
    · rw [List.getElem?_eq_none (by omega), List.getElem?_eq_none (by omega)]
      rfl
  · rw [show (p.device c k b).cap = cap from b4] at o3
    exact o3

theorem step_single (hl : FamLawful R G ups u0) (hc : c.Wf) (h : PipeInv c R ups u0 T p ready) {ins : List Nat} {k : Nat}
    {f : List (List Elem) → List (DVOp Elem)}
    (hf : (PipeOp.single ins k f).Fits c R (p.Free T) (p.store c ready)) : StepOk c R ups u0 T p ready (.single ins k f) := by
  obtain ⟨-, ls, cap, r, l, f1, f2, f3, f4, f5⟩ := hf
  obtain ⟨b, b1, b2, b3, b4, b5, b6, b7, b8⟩ := h.has f2
  unfold StepOk
  rw [show (PipeOp.single ins k f).ready ready = ready from rfl]
  simp only [Pipe.exec, b1, h.reads f1]
  have hall : ((p.device c k b).run (f ls)).2.All (fun e => e.length = (c.ty k).size) := by
    refine (device_all _ (hc k).2 _ _).run fun op hop => ?_
    have := f4 op hop
    cases op <;> first | trivial | exact this | (rename_i a; cases a <;> exact this)
  have hcap : (p.device c k b).cap = cap := b4
  have key : ∃ l', VecRun (c.dflt k) cap l (f ls) ((p.device c k b).run (f ls)).1 l' ∧ l'.length ≤ cap ∧
      l'.length = (if b.view.sizePtr = 0 then b.view.capacity else ((p.device c k b).run (f ls)).2.sizeWord) ∧
      ∀ i, i < l'.length → ((p.device c k b).run (f ls)).2.mem i = l'[i]? := by
    by_cases hz : b.view.sizePtr = 0
    · have hh := device_fixed b7 hz c.dbg (c.dflt k)
      rw [b6] at hh
      obtain ⟨l', h1, h2, h3⟩ := hh.run (triv := true) (dflt := c.dflt k) (ops := f ls)
        (f5 (by rw [← b5]; simp [hz])) (by rw [show (View.device _ _ _ _ _).cap = cap from b4]; exact f3)
      rw [show (View.device _ _ _ _ _).cap = cap from b4] at h1
      have hsz : l'.length = cap := h2.size.trans (h3.trans b4)
      refine ⟨l', h1, by omega, by rw [if_pos hz, b4]; exact hsz, fun i hi => h2.elems i ?_⟩
      rw [h3]
      show i < b.view.capacity
      omega
    · have hh := device_holds b7 hz c.dbg (c.dflt k)
      rw [b6] at hh
      obtain ⟨l', h1, h2, h3⟩ := hh.runKind (ops := f ls) (by rw [show (View.device _ _ _ _ _).cap = cap from b4]; exact f3)
      rw [show (View.device _ _ _ _ _).cap = cap from b4] at h1
      have := h2.fits
      refine ⟨l', h1, ?_, by rw [if_neg hz]; exact h2.size.symm, h2.elems⟩
      rw [h3] at this
      exact this.trans (Nat.le_of_eq b4)
  obtain ⟨l', k1, k2, k3, k4⟩ := key
  have hel : b.view.elems (b.view.storeDevice (c.ty k).size p.mem ((p.device c k b).run (f ls)).2) (c.ty k).size = l' :=
    storeDevice_elems b7.toPlaced k3 (by rw [b4]; exact k2) k4 hall.mem
  obtain ⟨i1, i2⟩ := h.change b1 (m' := b.view.storeDevice (c.ty k).size p.mem ((p.device c k b).run (f ls)).2)
    (h.apart hl b2 fun x hx => storeDevice_other hx)
    (ready' := ready) (fun _ _ => rfl) (fun hk => hk)
    (fun _ => by rw [← elems_length _ (c.ty k).size, hel, b4]; exact k2)
  refine ⟨i1, ?_, h.keeps hl b2 fun x hx => storeDevice_other hx⟩
  rw [i2, if_pos b3, hel, b4, b5]
  exact .single ins k f f1 f2 k1

end Vecmem
