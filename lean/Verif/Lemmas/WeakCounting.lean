import Verif.Spec.WeakCounting
import Verif.Lemmas.WeakCounters
import Verif.Lemmas.WeakReading
import Verif.Lemmas.WeakAccessLists

/-!
# Kernels that change elements of a vector with atomic operations
-/

namespace Vecmem

variable {w : Nat}

theorem wordBytes_inj {x y : BitVec 32} (h : wordBytes x = wordBytes y) : x = y := by
  simp only [wordBytes, List.cons.injEq, and_true] at h
  obtain ⟨h0, h1, h2, h3⟩ := h
  have h0 := congrArg UInt8.toNat h0
  have h1 := congrArg UInt8.toNat h1
  have h2 := congrArg UInt8.toNat h2
  have h3 := congrArg UInt8.toNat h3
  simp only [UInt8.toNat_ofNat'] at h0 h1 h2 h3
  have hx := x.isLt
  have hy := y.isLt
  apply BitVec.eq_of_toNat_eq
  omega

theorem bytesAt_word {m : Mem} {a : Nat} {y : BitVec 32} (h : y.toNat = readLE m a 4) : bytesAt m a 4 = wordBytes y := by
  have hd := fun i (hi : i < 4) => readLE_digit m 4 a i hi
  rw [← h] at hd
  have key : ∀ i, i < 4 → m (a + i) = UInt8.ofNat (y.toNat / 256 ^ i) := fun i hi => by
    apply UInt8.toNat_inj.1
    rw [UInt8.toNat_ofNat', ← hd i hi]
  have e : bytesAt m a 4 = [m (a + 0), m (a + 1), m (a + 2), m (a + 3)] := rfl
  rw [e, key 0 (by omega), key 1 (by omega), key 2 (by omega), key 3 (by omega)]
  simp [wordBytes]

/-- Every element of four bytes is a number. -/
theorem wordBytes_exists (m : Mem) (a : Nat) : ∃ x, bytesAt m a 4 = wordBytes x :=
  ⟨BitVec.ofNat 32 (readLE m a 4), bytesAt_word (by
    have := readLE_lt m a 4
    rw [BitVec.toNat_ofNat, Nat.mod_eq_of_lt (by simpa using this)])⟩

theorem combined_map {C : Nat → Nat} (hC : ∀ i j, C i = C j → i = j) (i : Nat) (us : List (Nat × AOp w)) (v : BitVec w) :
    combined (C i) (us.map fun u => (C u.1, u.2)) v = combined i us v := by
  unfold combined
  rw [List.filter_map, List.foldl_map]
  congr 1
  refine List.filter_congr fun u _ => ?_
  simp only [Function.comp_apply, decide_eq_decide]
  exact ⟨hC _ _, fun h => h ▸ rfl⟩

/-- The calls of a thread that reads nothing. -/
def countChain (C : Nat → Nat) : List CountCall → CountProg 32
  | [] => .done
  | x :: l => .update (C x.index) x.op x.order (countChain C l)

theorem countChain_code {C : Nat → Nat} {n : Nat} : ∀ {l : List CountCall}, (∀ x ∈ l, x.index < n) → l.foldr (CountCall.code C n) .done = (countChain C l).code
  | [], _ => rfl
  | x :: l, h => by
    rw [List.foldr_cons, countChain_code fun y hy => h y (List.mem_cons_of_mem _ hy)]
    unfold CountCall.code
    rw [if_pos (h x List.mem_cons_self)]
    rfl

theorem countChain_counts {C : Nat → Nat} {kind : Nat → AKind} : ∀ {l : List CountCall}, (∀ x ∈ l, x.op.IsOf (kind (C x.index))) → (countChain C l).Counts (fun _ => false) kind
  | [], _ => trivial
  | x :: _, h => ⟨rfl, h x List.mem_cons_self, countChain_counts fun y hy => h y (List.mem_cons_of_mem _ hy)⟩

theorem countChain_updates {C : Nat → Nat} {m : AMem 32} : ∀ l : List CountCall, (countChain C l).updates m = l.map fun x => (C x.index, x.op)
  | [] => rfl
  | x :: l => by
    show _ :: (countChain C l).updates m = _
    rw [countChain_updates l]
    rfl

variable {ro : Nat → Bool} {m : AMem 32} {C : Nat → Nat} {n : Nat}

theorem given_count (hC : ∀ a, (∃ i, C i = a) → ro a = false) (x : CountCall) (k : WProg 32) : (x.code C n k).given ro m = x.code C n (k.given ro m) := by
  unfold CountCall.code
  split
  · simp only [WProg.given, hC _ ⟨_, rfl⟩]
    rfl
  · rfl

theorem onlyReads_count (hC : ∀ a, (∃ i, C i = a) → ro a = false) (x : CountCall) {k : WProg 32} (hk : k.OnlyReads ro) : (x.code C n k).OnlyReads ro := by
  unfold CountCall.code
  split
  · exact ⟨fun h => absurd ((hC _ ⟨_, rfl⟩).symm.trans h) (by decide), fun _ => hk⟩
  · trivial

/-- Memory after a kernel that has left the numbers `y`. -/
def storeWords (mem : Mem) (p n : Nat) (y : Nat → BitVec 32) : Mem := fun a =>
  if p ≤ a ∧ a < p + n * 4 then UInt8.ofNat ((y ((a - p) / 4)).toNat / 256 ^ ((a - p) % 4)) else mem a

theorem storeWords_read (mem : Mem) (p : Nat) {n : Nat} (y : Nat → BitVec 32) {i : Nat} (hi : i < n) : (y i).toNat = readLE (storeWords mem p n y) (p + i * 4) 4 := by
  have hb : ∀ j, j < 4 → (storeWords mem p n y (p + i * 4 + j)).toNat = (y i).toNat / 256 ^ j % 256 := fun j hj => by
    unfold storeWords
    rw [if_pos ⟨by omega, by omega⟩, show (p + i * 4 + j - p) / 4 = i by omega, show (p + i * 4 + j - p) % 4 = j by omega, UInt8.toNat_ofNat']
  have h0 := hb 0 (by omega)
  have h1 := hb 1 (by omega)
  have h2 := hb 2 (by omega)
  have h3 := hb 3 (by omega)
  have hy := (y i).isLt
  simp only [readLE]
  simp only [Nat.add_assoc, Nat.add_zero, Nat.reducePow, Nat.reduceAdd, Nat.div_one] at h0 h1 h2 h3 ⊢
  rw [h0, h1, h2, h3]
  omega

end Vecmem
