import Verif.Lemmas.WeakKernel
import Verif.Spec.WeakPipeline
import Verif.Lemmas.PipelineKernel

/-!
# Lemmas: programs whose kernels run on weak memory
-/

namespace Vecmem

theorem byte_inj {a b : UInt8} (h : BitVec.ofNat 32 a.toNat = BitVec.ofNat 32 b.toNat) : a = b := by
  have h1 := congrArg BitVec.toNat h
  have ha := a.toNat_lt
  have hb := b.toNat_lt
  rw [BitVec.toNat_ofNat, BitVec.toNat_ofNat, Nat.mod_eq_of_lt (by omega), Nat.mod_eq_of_lt (by omega)] at h1
  exact UInt8.toNat_inj.1 h1

theorem readLE_digit (m : Mem) (k : Nat) : ∀ (a i : Nat), i < k → readLE m a k / 256 ^ i % 256 = (m (a + i)).toNat := by
  induction k with
  | zero => intro a i hi; omega
  | succ k ih =>
    intro a i hi
    have h1 := (m a).toNat_lt
    cases i with
    | zero => simp only [readLE, Nat.pow_zero, Nat.div_one, Nat.add_zero]; omega
    | succ i =>
      rw [Nat.pow_succ, Nat.mul_comm, ← Nat.div_div_eq_div_mul]
      have : readLE m a (k + 1) / 256 = readLE m (a + 1) k := by simp only [readLE]; omega
      rw [this, ih (a + 1) i (by omega), show a + 1 + i = a + (i + 1) by omega]

theorem writeLE_readLE {m m' : Mem} {a k x : Nat} (h1 : a ≤ x) (h2 : x < a + k) : writeLE m a k (readLE m' a k) x = m' x := by
  unfold writeLE
  rw [if_pos ⟨h1, h2⟩]
  have := readLE_digit m' k a (x - a) (by omega)
  rw [show a + (x - a) = x by omega] at this
  apply UInt8.toNat_inj.1
  rw [UInt8.toNat_ofNat', this]

theorem returned_unique {α : Type} {size : Nat} : ∀ {a b : List (ACall α × Nat)} {l : List (WEvent 32)}, a.map (·.1) = b.map (·.1) → Returned size a l → Returned size b l → a = b := by
  intro a
  induction a with
  | nil => intro b l h _ _; cases b with | nil => rfl | cons => cases h
  | cons x a ih =>
    intro b l h ha hb
    cases b with
    | nil => cases h
    | cons y b =>
      cases ha with
      | cons h1 h2 =>
        cases hb with
        | cons h3 h4 =>
          simp only [List.map_cons, List.cons.injEq] at h
          rw [ih h.2 h2 h4]
          congr 1
          exact Prod.ext h.1 (Appending.claims_unique h1 h3).1

theorem View.InVars.shows {t : Nat} {v : View} {V : WVec} {m : AMem 32} {mem : Mem} (h : v.InVars t V (fun a x => x = m a) mem) {dbg : Bool} {dflt : Elem}
    (hdbg : V.dbg = dbg) (hz : v.sizePtr ≠ 0) : V.Shows byteWords (fun a x => x = m a) (v.device dbg dflt t mem) := by
  refine ⟨h.cap, hdbg, by simp [View.device, hz], ?_, ?_⟩
  · obtain ⟨y, h8, h9⟩ := h.size
    exact ⟨y, h8, by simp [View.device, hz, h9]⟩
  · intro q hq
    have hq' : q < v.capacity := hq
    refine ⟨bytesAt mem (v.ptr + q * t) t, by simp only [View.device, if_pos hq'], fun u b hb => ?_⟩
    simp only [byteWords, List.getElem?_map, Option.map_eq_some_iff] at hb
    obtain ⟨x, h8, rfl⟩ := hb
    have hu : u < t := by
      have := (List.getElem?_eq_some_iff.1 h8).1
      rwa [bytesAt_length] at this
    rw [bytesAt_get hu] at h8
    cases h8
    exact h.bytes q u hq' hu

theorem payload_bound {c t i u : Nat} (hi : i < c) (hu : u < t) : i * t + u < c * t := by
  have := Nat.mul_le_mul_right t (show i + 1 ≤ c from hi)
  rw [Nat.add_mul] at this
  omega

end Vecmem
