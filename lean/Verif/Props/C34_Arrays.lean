import Verif.Model.Arrays
import Verif.Spec.Iterators
import Verif.Spec.DeviceVector
import Mathlib.Data.Int.Basic

/-!
# C34: fixed-size arrays and reverse iteration
-/

namespace Vecmem
namespace Props

variable {ι α : Type}

/-- **C34**, reverse iterators of any iterators: if the forward iterators are those of a list, then the reverse iterators
from `rbegin()` (made from `end()`) to `rend()` (made from `begin()`) are those of the reversed list, in every way. -/
theorem c34_reverse (I : Iter ι α) (pos : Nat → ι) (l : List α) (h : I.Range pos l) :
    I.rev.Range (fun i => ⟨pos (l.length - i)⟩) l.reverse := by
  refine ⟨?_, ?_, ?_, ?_, ?_, ?_⟩
  · intro i hi
    rw [List.length_reverse] at hi
    have := h.dec (l.length - (i + 1)) (by omega)
    rw [show l.length - (i + 1) + 1 = l.length - i by omega] at this
    simp only [Iter.rev, Rev.inc, this]
  · intro i hi
    rw [List.length_reverse] at hi
    have := h.inc (l.length - (i + 1)) (by omega)
    rw [show l.length - (i + 1) + 1 = l.length - i by omega] at this
    simp only [Iter.rev, Rev.dec, this]
  · intro i j n hi hj e
    rw [List.length_reverse] at hi hj
    simp only [Iter.rev, Rev.add]
    rw [h.sub (l.length - i) (l.length - j) n (by omega) (by omega) (by omega)]
  · intro i j n hi hj e
    rw [List.length_reverse] at hi hj
    simp only [Iter.rev, Rev.sub]
    rw [h.add (l.length - i) (l.length - j) n (by omega) (by omega) (by omega)]
  · intro i hi
    have hi' : i < l.length := by simpa using hi
    have h1 := h.dec (l.length - 1 - i) (by omega)
    rw [show l.length - 1 - i + 1 = l.length - i by omega] at h1
    simp only [Iter.rev, Rev.deref, h1]
    rw [h.deref _ (by omega), List.getElem_reverse]
  · intro i j hi hj
    rw [List.length_reverse] at hi hj
    simp only [Iter.rev, Rev.eq]
    rw [h.eq _ _ (by omega) (by omega)]
    by_cases e : i = j
    · simp [e]
    · rw [decide_eq_false e, decide_eq_false (by omega)]

/-- The loop of a client over such a range uses the elements of the list, in order. -/
theorem c34_loop (I : Iter ι α) (pos : Nat → ι) (l : List α) (h : I.Range pos l) (fuel : Nat)
    (hf : l.length ≤ fuel) : I.walk (pos l.length) fuel (pos 0) = .ok l := by
  have key : ∀ (k i fuel : Nat), i + k = l.length → k ≤ fuel → I.walk (pos l.length) fuel (pos i) = .ok (l.drop i) := by
    intro k
    induction k with
    | zero =>
      intro i fuel hi _
      have he : I.eq (pos i) (pos l.length) = true := by
        rw [h.eq _ _ (by omega) (Nat.le_refl _)]
        exact decide_eq_true (by omega)
      rw [List.drop_of_length_le (by omega)]
      cases fuel <;> simp [Iter.walk, he]
    | succ k ih =>
      intro i fuel hi hk
      cases fuel with
      | zero => omega
      | succ fuel =>
        have he : I.eq (pos i) (pos l.length) = false := by
          rw [h.eq _ _ (by omega) (Nat.le_refl _)]
          exact decide_eq_false (by omega)
        have hlt : i < l.length := by omega
        rw [Iter.walk, he, h.deref i hlt, h.inc i hlt]
        simp only [Bool.false_eq_true, if_false]
        rw [ih (i + 1) fuel (by omega) (by omega)]
        simp only [Res.map]
        rw [← List.drop_eq_getElem_cons hlt]
  have := key l.length 0 fuel (by omega) hf
  simpa using this

/-- **C34**: iterating from `rbegin()` to `rend()` visits the elements in exactly reversed order. -/
theorem c34_reverse_loop (I : Iter ι α) (pos : Nat → ι) (l : List α) (h : I.Range pos l) (fuel : Nat)
    (hf : l.length ≤ fuel) : I.rev.walk ⟨pos 0⟩ fuel ⟨pos l.length⟩ = .ok l.reverse := by
  have := c34_loop I.rev _ l.reverse (c34_reverse I pos l h) fuel (by simpa using hf)
  simpa using this

/-- **C34**: indexing, postfix operators and `!=` of reverse iterators. -/
theorem c34_reverse_operators (I : Iter ι α) (pos : Nat → ι) (l : List α) (h : I.Range pos l) :
    (∀ i, (hi : i < l.length) → Rev.index I ⟨pos l.length⟩ i = .ok (l.reverse[i]'(by simpa using hi))) ∧
    (∀ i, i < l.length → Rev.postInc I ⟨pos (i + 1)⟩ = (⟨pos (i + 1)⟩, ⟨pos i⟩)) ∧
    (∀ i, i < l.length → Rev.postDec I ⟨pos i⟩ = (⟨pos i⟩, ⟨pos (i + 1)⟩)) ∧
    (∀ i j, i ≤ l.length → j ≤ l.length → Rev.ne I ⟨pos i⟩ ⟨pos j⟩ = decide (i ≠ j)) := by
  have hr := c34_reverse I pos l h
  refine ⟨?_, ?_, ?_, ?_⟩
  · intro i hi
    have h1 := hr.add 0 i i (Nat.zero_le _) (by simpa using Nat.le_of_lt hi) (by simp)
    have h2 := hr.deref i (by simpa using hi)
    simp only [Nat.sub_zero] at h1
    rw [Rev.index]
    exact (congrArg (Rev.deref I) h1).trans h2
  · intro i hi
    rw [Rev.postInc, h.dec i hi]
  · intro i hi
    rw [Rev.postDec, h.inc i hi]
  · intro i j hi hj
    rw [Rev.ne, Rev.eq, h.eq i j hi hj]
    simp

/-- **C34**: pointers into a container whose elements are `size` bytes apart are such iterators.  This covers all
containers with contiguous elements: `device_vector`, `device_array`, `static_vector`, `static_array` and `array`. -/
theorem c34_pointers (size : Nat) (hs : 0 < size) (load : Nat → Option α) (p : Nat) (l : List α)
    (hl : ∀ i, i < l.length → load (p + size * i) = l[i]?) :
    (ptrIter size load).Range (fun i => (p + size * i : Nat)) l := by
  refine ⟨?_, ?_, ?_, ?_, ?_, ?_⟩
  · intro i _
    simp only [ptrIter]
    rw [Nat.mul_succ]
    omega
  · intro i _
    simp only [ptrIter]
    rw [Nat.mul_succ]
    omega
  · intro i j n _ _ e
    simp only [ptrIter]
    push_cast
    rw [e, Int.mul_add]
    omega
  · intro i j n _ _ e
    simp only [ptrIter]
    push_cast
    rw [e, Int.mul_sub]
    omega
  · intro i hi
    have := hl i hi
    simp only [ptrIter]
    show (match load (p + size * i) with | some v => Res.ok v | none => Res.ub) = _
    rw [this, List.getElem?_eq_getElem hi]
  · intro i j _ _
    simp only [ptrIter]
    by_cases e : i = j
    · simp [e]
    · rw [decide_eq_false e]
      have : ¬ size * i = size * j := fun he => e (Nat.eq_of_mul_eq_mul_left hs he)
      simp only [beq_eq_false_iff_ne, ne_eq, Int.ofNat_inj]
      omega

/-- The hypotheses are met, and the loop does what it should: three elements of 4 bytes at address 100. -/
example : (ptrIter 4 (fun a => if a = 100 then some 'a' else if a = 104 then some 'b' else if a = 108 then some 'c'
    else none)).rev.walk ⟨100⟩ 3 ⟨112⟩ = .ok ['c', 'b', 'a'] := by rfl

/-- **C34**: two `static_array`s are equal exactly if all their elements are, and `!=` is the opposite; `same` is the
equality of the elements, and their `!=` has to be its opposite. -/
theorem c34_static_array_equality (same : α → α → Prop) (ne : α → α → Bool) (hne : ∀ x y, ne x y = true ↔ ¬ same x y)
    (a b : SArr α) :
    (SArr.eq ne a b = true ↔ ∀ i, i < a.n → same (a.elem i) (b.elem i)) ∧ SArr.ne ne a b = !SArr.eq ne a b := by
  have key : ∀ (k i : Nat), (SArr.eqFrom ne a b i k = true ↔ ∀ j, i ≤ j → j < i + k → same (a.elem j) (b.elem j)) ∧
      SArr.neFrom ne a b i k = !SArr.eqFrom ne a b i k := by
    intro k
    induction k with
    | zero => intro i; exact ⟨⟨fun _ j h1 h2 => by omega, fun _ => rfl⟩, rfl⟩
    | succ k ih =>
      intro i
      by_cases h : ne (a.elem i) (b.elem i) = true
      · refine ⟨⟨fun he => ?_, fun hs => ?_⟩, ?_⟩
        · simp [SArr.eqFrom, h] at he
        · exact absurd (hs i (Nat.le_refl _) (by omega)) ((hne _ _).1 h)
        · simp [SArr.neFrom, SArr.eqFrom, h]
      · have hsame : same (a.elem i) (b.elem i) := Classical.not_not.1 (mt (hne _ _).2 h)
        obtain ⟨ih1, ih2⟩ := ih (i + 1)
        refine ⟨⟨fun he j h1 h2 => ?_, fun hs => ?_⟩, ?_⟩
        · rw [SArr.eqFrom, if_neg h] at he
          by_cases hj : j = i
          · rw [hj]; exact hsame
          · exact ih1.1 he j (by omega) (by omega)
        · rw [SArr.eqFrom, if_neg h]
          exact ih1.2 fun j h1 h2 => hs j (by omega) (by omega)
        · rw [SArr.neFrom, if_neg h, SArr.eqFrom, if_neg h]
          exact ih2
  obtain ⟨h1, h2⟩ := key a.n 0
  refine ⟨⟨fun he i hi => h1.1 he i (Nat.zero_le _) (by omega), fun hs => h1.2 fun j _ hj => hs j (by omega)⟩, h2⟩

/-- The hypothesis is met by the natural numbers. -/
example : (SArr.eq (fun x y => x != y) ⟨3, fun i => i⟩ ⟨3, fun i => if i = 2 then 7 else i⟩ = false) ∧
    ∀ x y : Nat, (x != y) = true ↔ ¬ x = y := by
  constructor
  · rfl
  · intro x y; simp

/-- **C34**: `at` of a `static_array` gives the element, and throws exactly for positions out of range. -/
theorem c34_static_array_at (a : SArr α) (i : Nat) :
    (i < a.n → a.at_ i = .ok (a.elem i) ∧ a.index i = .ok (a.elem i)) ∧ (a.at_ i = .outOfRange ↔ a.n ≤ i) := by
  refine ⟨fun h => ?_, fun h => ?_, fun h => ?_⟩
  · simp [SArr.at_, SArr.index, h]
  · by_cases hi : i < a.n
    · simp [SArr.at_, SArr.index, hi] at h
    · omega
  · simp [SArr.at_, h]

/-- **C34**: `front` and `back` of a `static_array` that is not empty. -/
theorem c34_static_array_ends (a : SArr α) (h : 0 < a.n) (hw : a.n < 2 ^ 64) :
    a.front = .ok (a.elem 0) ∧ a.back = .ok (a.elem (a.n - 1)) := by
  have hb : (a.n + 2 ^ 64 - 1) % 2 ^ 64 = a.n - 1 := by omega
  have hl : a.n - 1 < a.n := by omega
  refine ⟨by simp [SArr.front, SArr.index, h], ?_⟩
  rw [SArr.back, hb, SArr.index, if_pos hl]

/-- **C34**: `fill` sets every element, also if the value is an element of the array itself. -/
theorem c34_static_array_fill (a : SArr α) (v : Arg α) (i : Nat) (hi : i < a.n) :
    (a.fill v).elem i = a.read v ∧ (a.fill v).n = a.n := by
  have key : ∀ (k j : Nat) (b : SArr α), b.read v = a.read v →
      (b.fillFrom v j k).n = b.n ∧ ∀ q, (b.fillFrom v j k).elem q = if j ≤ q ∧ q < j + k then a.read v else b.elem q := by
    intro k
    induction k with
    | zero => intro j b _; exact ⟨rfl, fun q => by rw [if_neg (by omega)]; rfl⟩
    | succ k ih =>
      intro j b hb
      have hr : (b.put j (b.read v)).read v = a.read v := by
        cases v with
        | val x => rfl
        | elem m =>
          show (if m = j then b.read (.elem m) else b.elem m) = _
          split
          · exact hb
          · exact hb
      obtain ⟨h1, h2⟩ := ih (j + 1) (b.put j (b.read v)) hr
      refine ⟨h1, fun q => ?_⟩
      rw [SArr.fillFrom, h2]
      by_cases hq : q = j
      · subst hq
        rw [if_neg (by omega), if_pos (by omega), ← hb]
        exact if_pos rfl
      · by_cases hq2 : j ≤ q ∧ q < j + (k + 1)
        · rw [if_pos (by omega), if_pos hq2]
        · rw [if_neg (by omega), if_neg hq2]
          exact if_neg hq
  obtain ⟨h1, h2⟩ := key a.n 0 a rfl
  exact ⟨by rw [SArr.fill, h2, if_pos (by omega)], h1⟩

example : ((⟨3, fun i => i + 10⟩ : SArr Nat).fill (.elem 1)).elem 2 = 11 := by rfl

/-- A `vecmem::array` that has been constructed. -/
def ArrayHolds (a : RArr α) (l : List α) : Prop := a.elems = l ∧ a.size = l.length

/-- **C34**, `vecmem::array`: a new one has the elements it was asked for. -/
theorem c34_array_new (dflt : α) (n : Nat) : ArrayHolds (RArr.create dflt n) (List.replicate n dflt) :=
  ⟨rfl, by simp [RArr.create]⟩

/-- **C34**, `vecmem::array`: `at`, `front` and `back` give the elements, and throw exactly if there is none;
assignments change the element only. -/
theorem c34_array_access (a : RArr α) (l : List α) (h : ArrayHolds a l) :
    (∀ i, (hi : i < l.length) → a.at_ i = .ok l[i] ∧ a.index i = .ok l[i]) ∧
    (∀ i, a.at_ i = .outOfRange ↔ l.length ≤ i) ∧
    (∀ v, l.head? = some v → a.front = .ok v) ∧ (a.front = .outOfRange ↔ l = []) ∧
    (∀ v, l.getLast? = some v → a.back = .ok v) ∧ (a.back = .outOfRange ↔ l = []) ∧
    (∀ i v, i < l.length → (a.write i v).1 = .ok () ∧ ArrayHolds (a.write i v).2 (l.set i v)) := by
  obtain ⟨rfl, hs⟩ := h
  have hidx : ∀ i, (hi : i < a.elems.length) → a.index i = .ok a.elems[i] := by
    intro i hi
    rw [RArr.index, List.getElem?_eq_getElem hi]
  have hat : ∀ i, (hi : i < a.elems.length) → a.at_ i = .ok a.elems[i] := by
    intro i hi
    rw [RArr.at_, if_neg (by omega), hidx i hi]
  have hne : ∀ {x : α}, (Res.ok x : Res α) ≠ .outOfRange := fun e => nomatch e
  refine ⟨fun i hi => ⟨hat i hi, hidx i hi⟩, ?_, ?_, ?_, ?_, ?_, ?_⟩
  · intro i
    constructor
    · intro e
      by_cases hi : i < a.elems.length
      · rw [hat i hi] at e; exact absurd e hne
      · omega
    · intro hi
      rw [RArr.at_, if_pos (by omega)]
  · intro v hv
    have hpos : 0 < a.elems.length := by
      cases he : a.elems with
      | nil => rw [he] at hv; cases hv
      | cons x l => simp
    rw [RArr.front, if_neg (by omega), hidx 0 hpos]
    rw [List.head?_eq_getElem?, List.getElem?_eq_getElem hpos] at hv
    rw [Option.some.inj hv]
  · constructor
    · intro e
      cases he : a.elems with
      | nil => rfl
      | cons x l =>
        have hpos : 0 < a.elems.length := by rw [he]; simp
        rw [RArr.front, if_neg (by omega), hidx 0 hpos] at e
        exact absurd e hne
    · intro e
      rw [RArr.front, if_pos (by rw [hs, e]; rfl)]
  · intro v hv
    have hpos : 0 < a.elems.length := by
      cases he : a.elems with
      | nil => rw [he] at hv; cases hv
      | cons x l => simp
    rw [RArr.back, if_neg (by omega), hidx _ (by omega)]
    rw [List.getLast?_eq_getElem?, List.getElem?_eq_getElem (by omega)] at hv
    simp only [hs]
    rw [Option.some.inj hv]
  · constructor
    · intro e
      cases he : a.elems with
      | nil => rfl
      | cons x l =>
        have hpos : 0 < a.elems.length := by rw [he]; simp
        rw [RArr.back, if_neg (by omega), hidx _ (by omega)] at e
        exact absurd e hne
    · intro e
      rw [RArr.back, if_pos (by rw [hs, e]; rfl)]
  · intro i v hi
    rw [RArr.write, hat i hi]
    exact ⟨rfl, rfl, by simpa using hs⟩

/-- **C34**, `vecmem::array`: `fill` sets every element, also if the value is an element of the array itself. -/
theorem c34_array_fill (a : RArr α) (l : List α) (h : ArrayHolds a l) (v : Arg α) (x : α) (hv : v.value l = some x) :
    ∃ b, a.fill v = .ok b ∧ ArrayHolds b (List.replicate l.length x) := by
  obtain ⟨rfl, hs⟩ := h
  have key : ∀ (k j : Nat) (l : List α), v.value l = some x → j + k = l.length → l.take j = List.replicate j x →
      RArr.fillFrom l v j k = .ok (List.replicate l.length x) := by
    intro k
    induction k with
    | zero =>
      intro j l _ hl ht
      have : l.take j = l := List.take_of_length_le (by omega)
      rw [RArr.fillFrom]
      rw [this] at ht
      rw [show l.length = j by omega, ← ht]
    | succ k ih =>
      intro j l hl hlen ht
      have hv' : v.value (l.set j x) = some x := by
        cases v with
        | val y => exact hl
        | elem m =>
          simp only [Arg.value] at hl ⊢
          rw [List.getElem?_set]
          split
          · rw [if_pos (by omega)]
          · exact hl
      have := ih (j + 1) (l.set j x) hv' (by rw [List.length_set]; omega) (by
        rw [List.take_add_one, List.take_set_of_le (Nat.le_refl _), ht, List.getElem?_set_self (by omega)]
        simp only [Option.toList_some]
        rw [List.replicate_succ'])
      rw [List.length_set] at this
      rw [RArr.fillFrom]
      have hm : RArr.read l v = some x := by
        cases v with
        | val y => exact hl
        | elem m => exact hl
      rw [hm]
      exact this
  refine ⟨{ a with elems := List.replicate a.elems.length x }, ?_, rfl, by simpa using hs⟩
  rw [RArr.fill, hs, key a.elems.length 0 a.elems hv (by omega) (by simp)]
  rfl

example : ∃ b, (RArr.mk 3 [1, 2, 3]).fill (.elem 2) = .ok b ∧ ArrayHolds b [3, 3, 3] :=
  c34_array_fill _ [1, 2, 3] ⟨rfl, rfl⟩ (.elem 2) 3 rfl

/-- **C34**, `vecmem::array`: iterating from `begin()` to `end()` visits the elements in order, and from `rbegin()` to `rend()`
in reversed order.  `load` says which objects are in memory: those of the array from `p` on. -/
theorem c34_array_iterators (a : RArr α) (l : List α) (h : ArrayHolds a l) (elemSize : Nat) (hs : 0 < elemSize) (p : Nat)
    (load : Nat → Option α) (hl : ∀ i, i < l.length → load (p + elemSize * i) = l[i]?) :
    (ptrIter elemSize load).walk (a.bounds elemSize p).2 l.length (a.bounds elemSize p).1 = .ok l ∧
    (ptrIter elemSize load).rev.walk ⟨(a.bounds elemSize p).1⟩ l.length ⟨(a.bounds elemSize p).2⟩ = .ok l.reverse := by
  have hr := c34_pointers elemSize hs load p l hl
  have e1 : (a.bounds elemSize p).1 = ((p + elemSize * 0 : Nat) : Int) := by simp [RArr.bounds]
  have e2 : (a.bounds elemSize p).2 = ((p + elemSize * l.length : Nat) : Int) := by simp [RArr.bounds, h.2]
  rw [e1, e2]
  exact ⟨c34_loop _ _ l hr _ (Nat.le_refl _), c34_reverse_loop _ _ l hr _ (Nat.le_refl _)⟩

example : (ptrIter 4 (fun a => [(100, 'a'), (104, 'b'), (108, 'c')].lookup a)).walk ((RArr.mk 3 ['a', 'b', 'c']).bounds 4 100).2 3
    ((RArr.mk 3 ['a', 'b', 'c']).bounds 4 100).1 = .ok ['a', 'b', 'c'] := by rfl

/-- **C34**, `device_array`: with assertions enabled it cannot be made from a view with too few elements. -/
theorem c34_device_array_small (n size : Nat) (mem : Nat → Option α) :
    DArr.ofView true n size mem = .ub ↔ size < n := by
  rw [DArr.ofView]
  by_cases h : n ≤ size
  · rw [if_neg (by simp [h])]; simp [h]
  · rw [if_pos (by simp; omega)]; simp; omega

example : DArr.ofView true 3 2 (fun i => ['a', 'b'][i]?) = .ub := by rfl

/-- **C34**, `device_array`: made from a view with enough elements, it gives its elements, and with assertions enabled
a position out of range does not get past `at`. -/
theorem c34_device_array (dbg : Bool) (n : Nat) (l : List α) (hn : n ≤ l.length) :
    ∃ a : DArr α, DArr.ofView dbg n l.length (fun i => l[i]?) = .ok a ∧ a.n = n ∧ (a.empty = true ↔ n = 0) ∧
      (∀ i, (hi : i < n) → a.at_ i = .ok (l[i]'(by omega)) ∧ a.index i = .ok (l[i]'(by omega))) ∧
      (∀ h : 0 < a.n, ∃ h0 : 0 < n, a.front h = .ok (l[0]'(by omega)) ∧ a.back h = .ok (l[n - 1]'(by omega))) ∧
      (dbg = true → ∀ i, n ≤ i → a.at_ i = .ub) := by
  refine ⟨⟨dbg, n, fun i => l[i]?⟩, ?_, rfl, ?_, ?_, ?_, ?_⟩
  · rw [DArr.ofView, if_neg (by simp; intro _; omega)]
  · simp [DArr.empty]
  · intro i hi
    have : l[i]? = some (l[i]'(by omega)) := List.getElem?_eq_getElem (by omega)
    refine ⟨?_, ?_⟩
    · rw [DArr.at_, if_neg (by simp; intro _; exact hi), DArr.index]
      simp only [this]
    · rw [DArr.index]
      simp only [this]
  · intro h
    have h0 : 0 < n := h
    have e1 : l[0]? = some (l[0]'(by omega)) := List.getElem?_eq_getElem (by omega)
    have e2 : l[n - 1]? = some (l[n - 1]'(by omega)) := List.getElem?_eq_getElem (by omega)
    refine ⟨h0, ?_, ?_⟩
    · simp only [DArr.front, DArr.index, e1]
    · simp only [DArr.back, DArr.index, e2]
  · intro hd i hi
    rw [DArr.at_, if_pos (by simp [hd, hi])]

end Props
end Vecmem
