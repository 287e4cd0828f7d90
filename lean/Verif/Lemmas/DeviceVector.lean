import Verif.Spec.DeviceVector
import Verif.Lemmas.Tactics

/-! # Lemmas about the device vector -/

namespace Vecmem
namespace DV

variable {α : Type}

/-- The cells from `pos` on, `n` of them, hold `c`. -/
def fill (s : DV α) (pos n : Nat) (c : Option α) : DV α :=
  { s with mem := fun i => if pos ≤ i ∧ i < pos + n then c else s.mem i }

theorem put_fill (s : DV α) (pos n : Nat) (c : Option α) :
    (s.put pos c).fill (pos + 1) n c = s.fill pos (n + 1) c := by
  simp only [put, fill, mk.injEq, true_and]
  funext i
  by_cases h1 : i = pos
  · subst h1; simp
  · by_cases h2 : pos ≤ i ∧ i < pos + (n + 1)
    · rw [if_pos h2, if_pos (by omega)]
    · rw [if_neg h2, if_neg (by omega), if_neg h1]

theorem fill_zero (s : DV α) (pos : Nat) (c : Option α) : s.fill pos 0 c = s := by
  cases s
  simp only [fill, mk.injEq, true_and]
  funext i
  rw [if_neg (by omega)]

theorem construct_ok {s : DV α} {pos : Nat} {a : Arg α} {v : α} (hp : pos < s.cap) (hv : s.read a = some v) :
    s.construct pos a = (.ok (), s.put pos (some v)) := by
  simp [construct, hp, hv]

theorem destruct_ok {s : DV α} {pos : Nat} {v : α} (hp : pos < s.cap) (hv : s.mem pos = some v) :
    s.destruct pos = (.ok (), if s.trivialDtor then s else s.put pos none) := by
  cases ht : s.trivialDtor <;> simp [destruct, hp, hv, ht]

theorem read_put {s : DV α} {pos : Nat} {a : Arg α} {v : α} (hv : s.read a = some v) :
    (s.put pos (some v)).read a = some v := by
  cases a with
  | val w => exact hv
  | elem k =>
    simp only [read, put] at hv ⊢
    split
    · rfl
    · exact hv

theorem constructs_ok (n : Nat) : ∀ {s : DV α} {pos : Nat} {a : Arg α} {v : α}, pos + n ≤ s.cap → s.cap < 2 ^ 32 →
    s.read a = some v → s.constructs pos a n = (.ok (), s.fill pos n (some v)) := by
  induction n with
  | zero => intro s pos a v _ _ _; rw [fill_zero]; rfl
  | succ n ih =>
    intro s pos a v hp hc hv
    rw [constructs, Nat.mod_eq_of_lt (by omega), construct_ok (by omega) hv]
    rw [← put_fill]
    exact ih (s := s.put pos (some v)) (by show pos + 1 + n ≤ s.cap; omega) hc (read_put hv)

theorem destructs_ok (n : Nat) : ∀ {s : DV α} {pos : Nat}, pos + n ≤ s.cap → s.cap < 2 ^ 32 →
    (∀ i, pos ≤ i → i < pos + n → (s.mem i).isSome) →
    s.destructs pos n = (.ok (), if s.trivialDtor then s else s.fill pos n none) := by
  induction n with
  | zero =>
    intro s pos _ _ _
    rw [fill_zero, ite_self]
    rfl
  | succ n ih =>
    intro s pos hp hc hv
    obtain ⟨v, hv0⟩ := Option.isSome_iff_exists.1 (hv pos (by omega) (by omega))
    rw [destructs, Nat.mod_eq_of_lt (by omega), destruct_ok (by omega) hv0]
    cases ht : s.trivialDtor with
    | true =>
      have := ih (s := s) (pos := pos + 1) (by omega) hc (fun i h1 h2 => hv i (by omega) (by omega))
      simpa [ht] using this
    | false =>
      have := ih (s := s.put pos none) (pos := pos + 1) (by show pos + 1 + n ≤ s.cap; omega) hc (by
        intro i h1 h2
        simp only [put]
        rw [if_neg (by omega)]
        exact hv i (by omega) (by omega))
      have ht' : (s.put pos none).trivialDtor = false := ht
      rw [ht'] at this
      simp only [Bool.false_eq_true, if_false] at this ⊢
      rw [this, put_fill]

theorem Holds.read {s : DV α} {l f} (h : s.Holds l f) {a : Arg α} {v : α} (hv : a.value l = some v) :
    s.read a = some v := by
  cases a with
  | val w => exact hv
  | elem k =>
    have hk : k < l.length := by
      have := List.getElem?_eq_some_iff.1 hv
      exact this.1
    rw [DV.read, h.elems k hk]
    exact hv

theorem Holds.live {s : DV α} {l f} (h : s.Holds l f) {i : Nat} (hi : i < l.length) : s.mem i = some l[i] := by
  rw [h.elems i hi, List.getElem?_eq_getElem hi]

/-- Adding values behind the list. -/
theorem Holds.append {s : DV α} {l f} (h : s.Holds l f) {t : DV α} {new : List α} (hk : s.SameKind t)
    (hsz : t.sizeWord = l.length + new.length) (hfit : l.length + new.length ≤ s.cap)
    (hold : ∀ i, i < l.length → t.mem i = s.mem i) (hnew : ∀ i, i < new.length → t.mem (l.length + i) = new[i]?)
    (hrest : ∀ i, l.length + new.length ≤ i → t.mem i = s.mem i) : t.Holds (l ++ new) f := by
  obtain ⟨k1, k2, k3, k4, k5, k6⟩ := hk
  refine ⟨k6.trans h.resizable, ?_, ?_, k5 ▸ h.word, ?_, ?_, ?_⟩
  · rw [List.length_append]; exact hsz
  · rw [List.length_append, k5]; exact hfit
  · intro i hi
    rw [List.length_append] at hi
    by_cases h1 : i < l.length
    · rw [hold i h1, h.elems i h1, List.getElem?_append_left h1]
    · have := hnew (i - l.length) (by omega)
      rw [show l.length + (i - l.length) = i by omega] at this
      rw [this, List.getElem?_append_right (by omega)]
  · intro ht i hi hc
    rw [List.length_append] at hi
    rw [k5] at hc
    rw [hrest i hi]
    exact h.raw (k2 ▸ ht) i (by omega) hc
  · intro i hi
    rw [k5] at hi
    rw [hrest i (by omega)]
    exact h.outside i hi

/-- Keeping the first `n`. -/
theorem Holds.take {s : DV α} {l f} (h : s.Holds l f) {t : DV α} {n : Nat} (hn : n ≤ l.length) (hk : s.SameKind t)
    (hsz : t.sizeWord = n) (hold : ∀ i, i < n → t.mem i = s.mem i)
    (hgone : s.trivialDtor = false → ∀ i, n ≤ i → i < l.length → t.mem i = none)
    (hrest : ∀ i, l.length ≤ i → t.mem i = s.mem i) : t.Holds (l.take n) f := by
  obtain ⟨k1, k2, k3, k4, k5, k6⟩ := hk
  have hl : (l.take n).length = n := by rw [List.length_take]; omega
  have hfit := h.fits
  refine ⟨k6.trans h.resizable, by omega, by omega, k5 ▸ h.word, ?_, ?_, ?_⟩
  · intro i hi
    rw [hl] at hi
    rw [hold i hi, h.elems i (by omega), List.getElem?_take_of_lt hi]
  · intro ht i hi hc
    rw [hl] at hi
    rw [k5] at hc
    rw [k2] at ht
    by_cases h1 : i < l.length
    · exact hgone ht i hi h1
    · rw [hrest i (by omega)]
      exact h.raw ht i (by omega) hc
  · intro i hi
    rw [k5] at hi
    rw [hrest i (by omega)]
    exact h.outside i hi

/-- Appending copies of a value. -/
theorem bulkAppend_ok {s : DV α} {l f} (h : s.Holds l f) {n : Nat} {a : Arg α} {v : α} (hv : a.value l = some v)
    (hn : l.length + n ≤ s.cap) : ∃ t, s.bulkAppend n a = (.ok l.length, t) ∧ t.Holds (l ++ List.replicate n v) f ∧
      s.SameKind t := by
  have hw := h.word
  have hr := h.read hv
  refine ⟨{ s.fill l.length n (some v) with sizeWord := l.length + n }, ?_, ?_, rfl, rfl, rfl, rfl, rfl, rfl⟩
  · have h1 : (l.length + n) % 2 ^ 32 = l.length + n := Nat.mod_eq_of_lt (by omega)
    have hr' : ({ s with sizeWord := l.length + n } : DV α).read a = some v := by
      cases a <;> exact hr
    have hc := constructs_ok n (s := { s with sizeWord := l.length + n }) (pos := l.length) hn hw hr'
    rw [bulkAppend, if_neg (by simp [h.resizable])]
    simp only [fetchAdd, h.size, h1, hc, hn, decide_true]
    simp [Res.map, fill]
  · apply h.append (new := List.replicate n v)
    · exact ⟨rfl, rfl, rfl, rfl, rfl, rfl⟩
    · simp
    · simpa using hn
    · intro i hi
      show (if l.length ≤ i ∧ i < l.length + n then some v else s.mem i) = s.mem i
      rw [if_neg (by omega)]
    · intro i hi
      rw [List.length_replicate] at hi
      show (if l.length ≤ l.length + i ∧ l.length + i < l.length + n then some v else s.mem _) = _
      rw [if_pos (by omega), List.getElem?_replicate, if_pos hi]
    · intro i hi
      rw [List.length_replicate] at hi
      show (if l.length ≤ i ∧ i < l.length + n then some v else s.mem i) = s.mem i
      rw [if_neg (by omega)]

theorem pushBack_eq {s : DV α} {l f} (h : s.Holds l f) {a : Arg α} {v : α} (hv : a.value l = some v)
    (hn : l.length + 1 ≤ s.cap) : ∃ t, s.pushBack a = (.ok l.length, t) ∧ s.emplaceBack a = (.ok l.length, t) ∧
      t.Holds (l ++ [v]) f ∧ s.SameKind t := by
  have hw := h.word
  have hr := h.read hv
  refine ⟨{ s with sizeWord := l.length + 1, mem := fun i => if i = l.length then some v else s.mem i },
    ?_, ?_, ?_, rfl, rfl, rfl, rfl, rfl, rfl⟩
  · have h1 : (l.length + 1) % 2 ^ 32 = l.length + 1 := Nat.mod_eq_of_lt (by omega)
    have hr' : ({ s with sizeWord := l.length + 1 } : DV α).read a = some v := by
      cases a <;> exact hr
    have hc := construct_ok (s := { s with sizeWord := l.length + 1 }) (pos := l.length) hn hr'
    have hlt : l.length < s.cap := hn
    rw [pushBack, if_neg (by simp [h.resizable])]
    simp only [fetchAdd, h.size, h1, hc, hlt, decide_true]
    simp [Res.map, put]
  · have h1 : (l.length + 1) % 2 ^ 32 = l.length + 1 := Nat.mod_eq_of_lt (by omega)
    have hr' : ({ s with sizeWord := l.length + 1 } : DV α).read a = some v := by
      cases a <;> exact hr
    have hlt : l.length < s.cap := hn
    rw [emplaceBack, if_neg (by simp [h.resizable])]
    simp only [fetchAdd, h.size, h1, hr', hlt, decide_true]
    simp [put]
  · apply h.append (new := [v])
    · exact ⟨rfl, rfl, rfl, rfl, rfl, rfl⟩
    · rfl
    · exact hn
    · intro i hi
      show (if i = l.length then some v else s.mem i) = s.mem i
      rw [if_neg (by omega)]
    · intro i hi
      have : i = 0 := by simp at hi; omega
      subst this
      show (if l.length + 0 = l.length then some v else s.mem _) = _
      simp
    · intro i hi
      show (if i = l.length then some v else s.mem i) = s.mem i
      rw [if_neg (by simp at hi; omega)]

theorem bulkAppendImplicit_ok {s : DV α} {l f} (h : s.Holds l f) {n : Nat} (ht : s.trivialDtor = true)
    (hn : l.length + n ≤ s.cap) : ∃ t new, s.bulkAppendImplicit n = (.ok l.length, t) ∧ new.length = n ∧
      t.Holds (l ++ new) f ∧ s.SameKind t := by
  have hw := h.word
  have h1 : (l.length + n) % 2 ^ 32 = l.length + n := Nat.mod_eq_of_lt (by omega)
  refine ⟨{ s.implicit l.length n with sizeWord := l.length + n },
    (List.range n).map (fun i => (s.mem (l.length + i)).getD (s.junk (l.length + i))), ?_, by simp, ?_,
    rfl, rfl, rfl, rfl, rfl, rfl⟩
  · rw [bulkAppendImplicit, if_neg (by simp [h.resizable])]
    simp only [fetchAdd, h.size, h1, hn, decide_true]
    simp [implicit]
  · apply h.append
    · exact ⟨rfl, rfl, rfl, rfl, rfl, rfl⟩
    · simp
    · simpa using hn
    · intro i hi
      show (if l.length ≤ i ∧ i < l.length + n ∧ i < s.cap then _ else s.mem i) = s.mem i
      rw [if_neg (by omega)]
    · intro i hi
      simp only [List.length_map, List.length_range] at hi
      show (if l.length ≤ l.length + i ∧ l.length + i < l.length + n ∧ l.length + i < s.cap then _ else s.mem _) = _
      rw [if_pos (by omega)]
      simp [hi]
    · intro i hi
      simp only [List.length_map, List.length_range] at hi
      show (if l.length ≤ i ∧ i < l.length + n ∧ i < s.cap then _ else s.mem i) = s.mem i
      rw [if_neg (by omega)]

theorem popBack_ok {s : DV α} {l f} (h : s.Holds l f) (hl : l ≠ []) :
    ∃ t, s.popBack = (.ok (l.length - 1), t) ∧ t.Holds l.dropLast f ∧ s.SameKind t := by
  have hw := h.word
  have hfit := h.fits
  have hpos : 0 < l.length := List.length_pos_iff.2 hl
  have h1 : (l.length + 2 ^ 32 - 1) % 2 ^ 32 = l.length - 1 := by
    rw [show l.length + 2 ^ 32 - 1 = (l.length - 1) + 2 ^ 32 by omega, Nat.add_mod_right]
    exact Nat.mod_eq_of_lt (by omega)
  have hv := h.live (i := l.length - 1) (by omega)
  have hd := destruct_ok (s := { s with sizeWord := l.length - 1 }) (pos := l.length - 1)
    (by show _ < s.cap; omega) hv
  refine ⟨if s.trivialDtor then { s with sizeWord := l.length - 1 }
    else { s with sizeWord := l.length - 1 }.put (l.length - 1) none, ?_, ?_, ?_⟩
  · rw [popBack, if_neg (by simp [h.resizable])]
    simp only [h.size, h1, hd]
    simp [Res.map]
  · rw [List.dropLast_eq_take]
    apply h.take (by omega)
    · split <;> exact ⟨rfl, rfl, rfl, rfl, rfl, rfl⟩
    · split <;> rfl
    · intro i hi
      split
      · rfl
      · show (if i = l.length - 1 then none else s.mem i) = s.mem i
        rw [if_neg (by omega)]
    · intro ht i h1 h2
      rw [ht]
      show (if i = l.length - 1 then none else s.mem i) = none
      rw [if_pos (by omega)]
    · intro i hi
      split
      · rfl
      · show (if i = l.length - 1 then none else s.mem i) = s.mem i
        rw [if_neg (by omega)]
  · split <;> exact ⟨rfl, rfl, rfl, rfl, rfl, rfl⟩

/-- Destroying the elements from `n` on, and setting the size. -/
theorem shrink_ok {s : DV α} {l f} (h : s.Holds l f) {n : Nat} (hn : n ≤ l.length) :
    ∃ t, s.destructs n (l.length - n) = (.ok (), t) ∧ { t with sizeWord := n }.Holds (l.take n) f ∧ s.SameKind t := by
  have hw := h.word
  have hfit := h.fits
  refine ⟨_, destructs_ok (l.length - n) (by omega) hw ?_, ?_, ?_⟩
  · intro i h1 h2
    rw [h.live (by omega)]
    rfl
  · apply h.take hn
    · split <;> exact ⟨rfl, rfl, rfl, rfl, rfl, rfl⟩
    · rfl
    · intro i hi
      split
      · rfl
      · show (if n ≤ i ∧ i < n + (l.length - n) then none else s.mem i) = s.mem i
        rw [if_neg (by omega)]
    · intro ht i h1 h2
      rw [ht]
      show (if n ≤ i ∧ i < n + (l.length - n) then none else s.mem i) = none
      rw [if_pos (by omega)]
    · intro i hi
      split
      · rfl
      · show (if n ≤ i ∧ i < n + (l.length - n) then none else s.mem i) = s.mem i
        rw [if_neg (by omega)]
  · split <;> exact ⟨rfl, rfl, rfl, rfl, rfl, rfl⟩

theorem clear_ok {s : DV α} {l f} (h : s.Holds l f) :
    ∃ t, s.clear = (.ok (), t) ∧ t.Holds [] f ∧ s.SameKind t ∧ (s.trivialDtor = true → t.mem = s.mem) := by
  obtain ⟨t, e, ht, hk⟩ := shrink_ok h (Nat.zero_le _)
  rw [List.take_zero, Nat.sub_zero] at *
  refine ⟨{ t with sizeWord := 0 }, ?_, ht, hk, ?_⟩
  · simp only [clear, h.resizable, h.size, e]
    rfl
  · intro htr
    have hw := h.word
    have hfit := h.fits
    have h2 := destructs_ok l.length (s := s) (pos := 0) (by omega) hw (by
      intro i h1 h2
      rw [h.live (by omega)]
      rfl)
    rw [h2, htr] at e
    simp only [if_true, Prod.mk.injEq, true_and] at e
    rw [← e]

theorem assign_ok {s : DV α} {l f} (h : s.Holds l f) {n : Nat} {a : Arg α} {v : α} (hv : a.value l = some v)
    (hn : n ≤ s.cap) (ha : s.trivialDtor = true ∨ ∃ w, a = .val w) :
    ∃ t, s.assign n a = (.ok (), t) ∧ t.Holds (List.replicate n v) f ∧ s.SameKind t := by
  obtain ⟨t, e, ht, hk, hm⟩ := clear_ok h
  have hw := h.word
  have hkk := hk
  obtain ⟨k1, k2, k3, k4, k5, k6⟩ := hkk
  have hr : ({ t with sizeWord := n } : DV α).read a = some v := by
    rcases ha with ha | ⟨w, rfl⟩
    · have := h.read hv
      cases a with
      | val w => exact this
      | elem k =>
        show t.mem k = some v
        rw [hm ha]
        exact this
    · exact hv
  refine ⟨({ t with sizeWord := n } : DV α).fill 0 n (some v), ?_, ?_, ?_⟩
  rotate_left
  · apply ht.append (t := ({ t with sizeWord := n } : DV α).fill 0 n (some v))
    · exact ⟨rfl, rfl, rfl, rfl, rfl, rfl⟩
    · simp [fill]
    · simpa using k5 ▸ hn
    · intro i hi; simp at hi
    · intro i hi
      rw [List.length_replicate] at hi
      show (if 0 ≤ 0 + i ∧ 0 + i < 0 + n then some v else t.mem _) = _
      rw [if_pos (by omega), List.getElem?_replicate, if_pos hi]
    · intro i hi
      simp only [List.length_nil, List.length_replicate] at hi
      show (if 0 ≤ i ∧ i < 0 + n then some v else t.mem i) = t.mem i
      rw [if_neg (by omega)]
  · exact hk
  · have hc := constructs_ok n (s := { t with sizeWord := n }) (pos := 0) (by show 0 + n ≤ t.cap; omega)
      (by show t.cap < _; omega) hr
    have hn' : s.cap ≥ n := hn
    simp only [assign, h.resizable, e, hc, hn', decide_true]
    simp

theorem resize_ok {s : DV α} {l f} (h : s.Holds l f) {n : Nat} {a : Arg α} {v : α} (hv : a.value l = some v)
    (hn : n ≤ s.cap) :
    ∃ t, s.resize n a = (.ok (), t) ∧ t.Holds (l.take n ++ List.replicate (n - l.length) v) f ∧ s.SameKind t := by
  have hw := h.word
  have hfit := h.fits
  have hkk : s.SameKind s := ⟨rfl, rfl, rfl, rfl, rfl, rfl⟩
  rcases Nat.lt_trichotomy n l.length with hlt | heq | hgt
  · obtain ⟨t, e, ht, hk⟩ := shrink_ok h (Nat.le_of_lt hlt)
    refine ⟨{ t with sizeWord := n }, ?_, ?_, hk⟩
    · simp only [resize, h.resizable, h.size, e, hlt]
      rw [if_neg (by simp), if_neg (by omega)]
      simp
    · rw [show n - l.length = 0 by omega]
      simpa using ht
  · refine ⟨s, ?_, ?_, hkk⟩
    · simp [resize, h.resizable, h.size, heq]
    · subst heq
      simpa using h
  · have hr := h.read hv
    have hc := constructs_ok (n - l.length) (s := s) (pos := l.length) (by omega) hw hr
    refine ⟨{ s.fill l.length (n - l.length) (some v) with sizeWord := n }, ?_, ?_, rfl, rfl, rfl, rfl, rfl, rfl⟩
    · simp only [resize, h.resizable, h.size, hc]
      rw [if_neg (by simp), if_neg (by omega), if_neg (by omega)]
    · rw [List.take_of_length_le (by omega)]
      apply h.append
      · exact ⟨rfl, rfl, rfl, rfl, rfl, rfl⟩
      · simp only [List.length_replicate]; omega
      · simp only [List.length_replicate]; omega
      · intro i hi
        show (if l.length ≤ i ∧ i < l.length + (n - l.length) then some v else s.mem i) = s.mem i
        rw [if_neg (by omega)]
      · intro i hi
        rw [List.length_replicate] at hi
        show (if l.length ≤ l.length + i ∧ l.length + i < l.length + (n - l.length) then some v else s.mem _) = _
        rw [if_pos (by omega), List.getElem?_replicate, if_pos hi]
      · intro i hi
        rw [List.length_replicate] at hi
        show (if l.length ≤ i ∧ i < l.length + (n - l.length) then some v else s.mem i) = s.mem i
        rw [if_neg (by omega)]

theorem resizeImplicit_ok {s : DV α} {l f} (h : s.Holds l f) {n : Nat} (ht : s.trivialDtor = true) (hn : n ≤ s.cap) :
    ∃ t new, s.resizeImplicit n = (.ok (), t) ∧ new.length = n - l.length ∧ t.Holds (l.take n ++ new) f ∧
      s.SameKind t := by
  have hw := h.word
  have hfit := h.fits
  refine ⟨{ s.implicit l.length (n - l.length) with sizeWord := n },
    (List.range (n - l.length)).map (fun i => (s.mem (l.length + i)).getD (s.junk (l.length + i))), ?_, by simp, ?_,
    rfl, rfl, rfl, rfl, rfl, rfl⟩
  · simp [resizeImplicit, h.resizable, h.size, hn]
  · by_cases hlt : n ≤ l.length
    · rw [show n - l.length = 0 by omega]
      simp only [List.range_zero, List.map_nil, List.append_nil]
      apply h.take hlt
      · exact ⟨rfl, rfl, rfl, rfl, rfl, rfl⟩
      · rfl
      · intro i hi
        show (if l.length ≤ i ∧ i < l.length + 0 ∧ i < s.cap then _ else s.mem i) = s.mem i
        rw [if_neg (by omega)]
      · intro hf; rw [ht] at hf; exact absurd hf (by decide)
      · intro i hi
        show (if l.length ≤ i ∧ i < l.length + 0 ∧ i < s.cap then _ else s.mem i) = s.mem i
        rw [if_neg (by omega)]
    · rw [List.take_of_length_le (by omega)]
      apply h.append
      · exact ⟨rfl, rfl, rfl, rfl, rfl, rfl⟩
      · simp only [List.length_map, List.length_range]; omega
      · simp only [List.length_map, List.length_range]; omega
      · intro i hi
        show (if l.length ≤ i ∧ i < l.length + (n - l.length) ∧ i < s.cap then _ else s.mem i) = s.mem i
        rw [if_neg (by omega)]
      · intro i hi
        simp only [List.length_map, List.length_range] at hi
        show (if l.length ≤ l.length + i ∧ l.length + i < l.length + (n - l.length) ∧ l.length + i < s.cap then _
          else s.mem _) = _
        rw [if_pos (by omega)]
        simp [hi]
      · intro i hi
        simp only [List.length_map, List.length_range] at hi
        show (if l.length ≤ i ∧ i < l.length + (n - l.length) ∧ i < s.cap then _ else s.mem i) = s.mem i
        rw [if_neg (by omega)]

theorem readFrom_ok {s : DV α} (n : Nat) : ∀ {pos : Nat} {l : List α}, l.length = n →
    (∀ i, i < n → s.mem (pos + i) = l[i]?) → s.readFrom pos n = .ok l := by
  induction n with
  | zero => intro pos l hl _; rw [List.length_eq_zero_iff.1 hl]; rfl
  | succ n ih =>
    intro pos l hl hm
    cases l with
    | nil => simp at hl
    | cons v l =>
      have h0 := hm 0 (by omega)
      have := ih (pos := pos + 1) (l := l) (by simpa using hl) (by
        intro i hi
        have := hm (i + 1) (by omega)
        rw [show pos + 1 + i = pos + (i + 1) by omega, this, List.getElem?_cons_succ])
      simp only [Nat.add_zero, List.getElem?_cons_zero] at h0
      simp [readFrom, deref, h0, this, Res.map]

theorem snocInd {motive : List α → Prop} (nil : motive []) (append_singleton : ∀ l v, motive l → motive (l ++ [v])) :
    ∀ l, motive l := by
  intro l
  have : ∀ m : List α, motive m.reverse := by
    intro m
    induction m with
    | nil => exact nil
    | cons v m ih => rw [List.reverse_cons]; exact append_singleton _ v ih
  simpa using this l.reverse

theorem readBack_ok {s : DV α} (l : List α) : (∀ i, i < l.length → s.mem i = l[i]?) →
    s.readBack l.length l.length = .ok l.reverse := by
  induction l using snocInd with
  | nil => intro _; rfl
  | append_singleton l v ih =>
    intro hm
    have h0 := hm l.length (by simp)
    rw [List.getElem?_append_right (by omega)] at h0
    simp only [Nat.sub_self, List.getElem?_cons_zero] at h0
    have := ih (by
      intro i hi
      rw [hm i (by simp; omega), List.getElem?_append_left hi])
    rw [List.length_append]
    simp only [List.length_cons, List.length_nil, Nat.zero_add]
    rw [readBack, show l.length + 1 - 1 = l.length by omega, deref, h0]
    simp [this, Res.map]

theorem Holds.size_eq {s : DV α} {l f} (h : s.Holds l f) : s.size = l.length := by
  simp [DV.size, h.resizable, h.size]

theorem back_ok {s : DV α} {l : List α} (hsz : s.size = l.length) (hw : l.length < 2 ^ 32) (hl : l ≠ [])
    (hm : ∀ i, i < l.length → s.mem i = l[i]?) : ∃ v, l.getLast? = some v ∧ s.back = .ok v := by
  have hpos : 0 < l.length := List.length_pos_iff.2 hl
  have h1 : (l.length + 2 ^ 32 - 1) % 2 ^ 32 = l.length - 1 := by
    rw [show l.length + 2 ^ 32 - 1 = (l.length - 1) + 2 ^ 32 by omega, Nat.add_mod_right]
    exact Nat.mod_eq_of_lt (by omega)
  refine ⟨l[l.length - 1], ?_, ?_⟩
  · rw [List.getLast?_eq_getElem?, List.getElem?_eq_getElem]
  · have := hm (l.length - 1) (by omega)
    rw [List.getElem?_eq_getElem (by omega)] at this
    rw [back, if_neg (by simp [hsz, hpos]), hsz, h1, deref, this]

theorem step_ok {s : DV α} {l f} (h : s.Holds l f) {op : DVOp α} (hf : op.Fits s.trivialDtor s.cap l) :
    ∃ r t l', s.step op = (.ok r, t) ∧ VecStep s.dflt s.cap l op r l' ∧ t.Holds l' f ∧ s.SameKind t := by
  have hw := h.word
  have hfit := h.fits
  have hsz := h.size_eq
  have hkk : s.SameKind s := ⟨rfl, rfl, rfl, rfl, rfl, rfl⟩
  cases op with
  | push a =>
    obtain ⟨v, hv⟩ := Option.isSome_iff_exists.1 hf.1
    obtain ⟨t, e, -, ht, hk⟩ := pushBack_eq h hv hf.2
    exact ⟨_, t, _, by simp only [step, e]; rfl, .push hv, ht, hk⟩
  | emplace a =>
    obtain ⟨v, hv⟩ := Option.isSome_iff_exists.1 hf.1
    obtain ⟨t, -, e, ht, hk⟩ := pushBack_eq h hv hf.2
    exact ⟨_, t, _, by simp only [step, e]; rfl, .emplace hv, ht, hk⟩
  | bulk n =>
    obtain ⟨t, e, ht, hk⟩ := bulkAppend_ok h (a := .val s.dflt) rfl hf
    exact ⟨_, t, _, by simp only [step, bulkAppendDefault, e]; rfl, .bulk n, ht, hk⟩
  | bulkValue n a =>
    obtain ⟨v, hv⟩ := Option.isSome_iff_exists.1 hf.1
    obtain ⟨t, e, ht, hk⟩ := bulkAppend_ok h hv hf.2
    exact ⟨_, t, _, by simp only [step, e]; rfl, .bulkValue n hv, ht, hk⟩
  | bulkImplicit n =>
    obtain ⟨t, new, e, hl, ht, hk⟩ := bulkAppendImplicit_ok h hf.1 hf.2
    exact ⟨_, t, _, by simp only [step, e]; rfl, .bulkImplicit n new hl, ht, hk⟩
  | pop =>
    obtain ⟨t, e, ht, hk⟩ := popBack_ok h hf
    exact ⟨_, t, _, by simp only [step, e]; rfl, .pop, ht, hk⟩
  | clear =>
    obtain ⟨t, e, ht, hk, -⟩ := clear_ok h
    exact ⟨_, t, _, by simp only [step, e]; rfl, .clear, ht, hk⟩
  | resize n =>
    obtain ⟨t, e, ht, hk⟩ := resize_ok h (a := .val s.dflt) rfl hf
    exact ⟨_, t, _, by simp only [step, resizeDefault, e]; rfl, .resize n, ht, hk⟩
  | resizeValue n a =>
    obtain ⟨v, hv⟩ := Option.isSome_iff_exists.1 hf.1
    obtain ⟨t, e, ht, hk⟩ := resize_ok h hv hf.2
    exact ⟨_, t, _, by simp only [step, e]; rfl, .resizeValue n hv, ht, hk⟩
  | resizeImplicit n =>
    obtain ⟨t, new, e, hl, ht, hk⟩ := resizeImplicit_ok h hf.1 hf.2
    exact ⟨_, t, _, by simp only [step, e]; rfl, .resizeImplicit n new hl, ht, hk⟩
  | assign n a =>
    obtain ⟨v, hv⟩ := Option.isSome_iff_exists.1 hf.1
    obtain ⟨t, e, ht, hk⟩ := assign_ok h hv hf.2.1 hf.2.2
    exact ⟨_, t, _, by simp only [step, e]; rfl, .assign n hv, ht, hk⟩
  | at_ i =>
    have hi : i < l.length := hf
    refine ⟨.val l[i], s, l, ?_, .at_ i (List.getElem?_eq_getElem hi), h, hkk⟩
    simp [step, at_, hsz, hi, deref, h.live hi, Res.map]
  | index i =>
    have hi : i < l.length := hf
    refine ⟨.val l[i], s, l, ?_, .index i (List.getElem?_eq_getElem hi), h, hkk⟩
    simp [step, index, deref, h.live hi, Res.map]
  | write c i v =>
    have hi : i < l.length := hf
    refine ⟨.unit, s.put i (some v), l.set i v, ?_, .write c i v, ?_, hkk⟩
    · simp [step, write, hsz, hi, h.live hi, Res.map]
    · refine ⟨h.resizable, ?_, ?_, hw, ?_, ?_, ?_⟩
      · rw [List.length_set]; exact h.size
      · rw [List.length_set]; exact hfit
      · intro j hj
        rw [List.length_set] at hj
        show (if j = i then some v else s.mem j) = _
        rw [List.getElem?_set]
        by_cases hji : j = i
        · subst hji; simp [hi]
        · rw [if_neg hji, if_neg (fun e => hji e.symm), h.elems j hj]
      · intro ht j hj hc
        rw [List.length_set] at hj
        show (if j = i then some v else s.mem j) = _
        rw [if_neg (by omega)]
        exact h.raw ht j hj hc
      · intro j hj
        have hj' : s.cap ≤ j := hj
        show (if j = i then some v else s.mem j) = _
        rw [if_neg (by omega)]
        exact h.outside j hj
  | front =>
    have hpos : 0 < l.length := List.length_pos_iff.2 hf
    refine ⟨.val l[0], s, l, ?_, .front ?_, h, hkk⟩
    · simp [step, front, hsz, hpos, deref, h.live hpos, Res.map]
    · rw [List.head?_eq_getElem?, List.getElem?_eq_getElem]
  | back =>
    obtain ⟨v, hv, e⟩ := back_ok hsz (by omega) hf h.elems
    exact ⟨.val v, s, l, by simp only [step, e]; rfl, .back hv, h, hkk⟩
  | size => exact ⟨_, s, l, by simp only [step, hsz], .size, h, hkk⟩
  | empty =>
    refine ⟨.bool (l.length == 0), s, l, by simp only [step, hsz], ?_, h, hkk⟩
    have : (l.length == 0) = l.isEmpty := by cases l <;> rfl
    rw [this]
    exact .empty
  | capacity => exact ⟨_, s, l, rfl, .capacity, h, hkk⟩
  | iterate =>
    have := readFrom_ok (s := s) l.length (pos := 0) (l := l) rfl (by
      intro i hi; rw [Nat.zero_add]; exact h.elems i hi)
    exact ⟨_, s, l, by simp only [step, iterate, hsz, this]; rfl, .iterate, h, hkk⟩
  | iterateBack =>
    have := readBack_ok l h.elems
    exact ⟨_, s, l, by simp only [step, iterateBack, hsz, this]; rfl, .iterateBack, h, hkk⟩

end DV
end Vecmem
