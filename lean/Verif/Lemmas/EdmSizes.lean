import Verif.Spec.EdmPipeline
import Verif.Lemmas.EdmSame
import Verif.Lemmas.Tactics

/-! # Lemmas about the number of bytes of containers -/

namespace Vecmem

open IntMath

/-- The bytes of consecutive regions. -/
def regionBytes (ts : List (CType × Nat)) : Nat := (ts.map fun e => e.2 * e.1.size).sum

/-- The bytes that may be between them. -/
def regionPad (ts : List (CType × Nat)) : Nat := (ts.map fun e => e.1.align - 1).sum

theorem placeEnd_bytes : ∀ (ts : List (CType × Nat)) (p : Nat), (∀ e ∈ ts, 0 < e.1.align) →
    p + regionBytes ts ≤ placeEnd p ts ∧ placeEnd p ts ≤ p + regionBytes ts + regionPad ts := by
  intro ts
  induction ts with
  | nil => intro p _; simp [placeEnd, regionBytes, regionPad]
  | cons e ts ih =>
    obtain ⟨t, n⟩ := e
    intro p h
    have ha : 0 < t.align := h (t, n) List.mem_cons_self
    have h' : ∀ e ∈ ts, 0 < e.1.align := fun e he => h e (List.mem_cons_of_mem _ he)
    have hb : regionBytes ((t, n) :: ts) = n * t.size + regionBytes ts := by simp [regionBytes]
    have hp : regionPad ((t, n) :: ts) = (t.align - 1) + regionPad ts := by simp [regionPad]
    rw [hb, hp]
    unfold placeEnd
    split
    · rename_i h0
      obtain ⟨h1, h2⟩ := ih p h'
      subst h0
      omega
    · obtain ⟨h1, h2⟩ := ih (alignUp t.align p + n * t.size) h'
      have := alignUp_ge t.align p
      have := alignUp_lt ha p
      omega

theorem findFirst_bytes : ∀ (ts : List (CType × Nat)) (p : Nat), p ≠ 0 → (∀ e ∈ ts, 0 < e.1.align) → (∃ e ∈ ts, e.2 ≠ 0) →
    findFirst (placeAt p ts) + regionBytes ts ≤ placeEnd p ts ∧
      placeEnd p ts ≤ findFirst (placeAt p ts) + regionBytes ts + regionPad ts := by
  intro ts
  induction ts with
  | nil => rintro p _ _ ⟨e, he, _⟩; simp at he
  | cons e ts ih =>
    obtain ⟨t, n⟩ := e
    intro p hp0 h hex
    have h' : ∀ e ∈ ts, 0 < e.1.align := fun e he => h e (List.mem_cons_of_mem _ he)
    have hb : regionBytes ((t, n) :: ts) = n * t.size + regionBytes ts := by simp [regionBytes]
    have hp : regionPad ((t, n) :: ts) = (t.align - 1) + regionPad ts := by simp [regionPad]
    rw [hb, hp]
    by_cases h0 : n = 0
    · subst h0
      have hex' : ∃ e ∈ ts, e.2 ≠ 0 := by
        obtain ⟨e, he, he0⟩ := hex
        rcases List.mem_cons.1 he with rfl | he
        · exact absurd rfl he0
        · exact ⟨e, he, he0⟩
      obtain ⟨h1, h2⟩ := ih p hp0 h' hex'
      have e1 : placeAt p ((t, 0) :: ts) = 0 :: placeAt p ts := by simp [placeAt]
      have e2 : placeEnd p ((t, 0) :: ts) = placeEnd p ts := by simp [placeEnd]
      have e3 : findFirst (0 :: placeAt p ts) = findFirst (placeAt p ts) := by simp [findFirst]
      rw [e1, e2, e3]
      omega
    · have e1 : placeAt p ((t, n) :: ts) = alignUp t.align p :: placeAt (alignUp t.align p + n * t.size) ts := by simp [placeAt, h0]
      have e2 : placeEnd p ((t, n) :: ts) = placeEnd (alignUp t.align p + n * t.size) ts := by simp [placeEnd, h0]
      have hne : alignUp t.align p ≠ 0 := by have := alignUp_ge t.align p; omega
      have e3 : findFirst (alignUp t.align p :: placeAt (alignUp t.align p + n * t.size) ts) = alignUp t.align p := by
        simp [findFirst, hne]
      rw [e1, e2, e3]
      obtain ⟨h1, h2⟩ := placeEnd_bytes ts (alignUp t.align p + n * t.size) h'
      omega

theorem payload_regionBytes {S : Schema} {caps : List Nat} (ho : S.Ok caps) : regionBytes (S.payloadRegions caps) = S.payloadBytes caps := by
  unfold regionBytes Schema.payloadBytes Schema.payloadRegions
  rw [List.map_map]
  congr 1
  apply List.map_congr_left
  intro v _
  simp only [Function.comp]
  congr 1
  unfold Var.rowCaps
  cases hk : v.kind with
  | scalar => simp [Var.payloadSize, hk]
  | vector => simp [Var.payloadSize, hk]
  | jagged => exact ho.jagged_size hk

theorem payload_regionPad {S : Schema} {caps : List Nat} : regionPad (S.payloadRegions caps) = S.padding := by
  unfold regionPad Schema.padding Schema.payloadRegions
  rw [List.map_map]
  rfl

/-- Containers whose arrays never need the same number of bytes are not copied as one block. -/
theorem differ_oneBlock {S : Schema} {caps caps' : List Nat} {r r' : Bool} {e e' : EdmView} {p p' n n' : Nat} (ho : S.Ok caps) (ho' : S.Ok caps')
    (h : BufferAt S caps r p e) (h' : BufferAt S caps' r' p' e')
    (he : placeEnd p (S.allRegions caps r) ≤ p + n) (he' : placeEnd p' (S.allRegions caps' r') ≤ p' + n')
    (hn : n < 2 ^ 32) (hn' : n' < 2 ^ 32) (hd : SizesDiffer S caps caps') : oneBlock e e' = false := by
  have key : ∀ {caps : List Nat} {r : Bool} {e : EdmView} {p n : Nat}, S.Ok caps → BufferAt S caps r p e →
      placeEnd p (S.allRegions caps r) ≤ p + n → n < 2 ^ 32 → e.payload.ptr ≠ 0 →
      S.payloadBytes caps ≤ e.payload.capacity ∧ e.payload.capacity ≤ S.payloadBytes caps + S.padding := by
    intro caps r e p n ho h he hn h0
    have hal : ∀ x ∈ S.payloadRegions caps, 0 < x.1.align := by
      intro x hx
      obtain ⟨v, hv, rfl⟩ := List.mem_map.1 hx
      obtain ⟨_, ⟨k, hk⟩, _⟩ := ho.types v hv
      simp only
      rw [hk]
      exact Nat.two_pow_pos k
    have hex : ∃ x ∈ S.payloadRegions caps, x.2 ≠ 0 := by
      by_contra hc
      have hall : ∀ x ∈ S.payloadRegions caps, x.2 = 0 := fun x hx => by
        by_contra h0; exact hc ⟨x, hx, h0⟩
      have := h.payload
      rw [memoryView_none (placeAt_none hall _).1] at this
      rw [this] at h0
      exact h0 rfl
    obtain ⟨-, k2⟩ := h.capacity (m := ⟨p, n, 1⟩) he hn hex
    obtain ⟨k3, k4⟩ := findFirst_bytes (S.payloadRegions caps) (S.payloadStart caps r p) (by have := h.ge; have := h.start; omega) hal hex
    rw [payload_regionBytes ho] at k3 k4
    rw [payload_regionPad] at k4
    omega
  cases hob : oneBlock e e' with
  | false => rfl
  | true =>
    exfalso
    simp only [oneBlock, Bool.and_eq_true, decide_eq_true_eq, beq_iff_eq, ne_eq] at hob
    have k1 := key ho h he hn hob.1.1
    have k2 := key ho' h' he' hn' hob.1.2
    rcases hd with hd | hd <;> omega

end Vecmem
