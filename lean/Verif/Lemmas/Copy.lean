import Verif.Spec.Copy
import Verif.Lemmas.CopyProg
import Verif.Lemmas.Tactics
import Mathlib.Tactic.Tauto

/-! # Lemmas about copying vectors -/

namespace Vecmem

open IntMath Prog

theorem memPut_uint (m : Mem) (dst v : Nat) : memPut m dst 4 (Local.uint v).bytes 0 = writeLE m dst 4 v := by
  funext x
  simp only [memPut, writeLE, Local.uint, Nat.zero_add]
  split
  · rename_i h
    rw [if_pos ⟨by omega, by omega⟩]
    simp
  · rfl

theorem getSize_does (v : View) (m : Mem) : (getSize v).Does m (.ok (v.len m)) m := by
  unfold getSize View.len
  by_cases h : v.sizePtr = 0
  · rw [if_pos h, if_pos h]; exact does_ret _ _
  · rw [if_neg h, if_neg h]
    intro L d
    refine ⟨d + 1, run_scope (l' := ⟨4, memPut (Local.uint 0).bytes 0 4 m v.sizePtr⟩) ?_ (by simp)⟩
    have h1 : (L ++ [Local.uint 0])[L.length]? = some (Local.uint 0) := by simp
    simp only [run, COp.exec, h1, sync]
    rw [if_pos (by decide : 0 + 4 ≤ (Local.uint 0).size)]
    simp only [List.set_append_right _ _ (Nat.le_refl _), Nat.sub_self, List.set_cons_zero]
    have h2 : (L ++ [(⟨(Local.uint 0).size, memPut (Local.uint 0).bytes 0 4 m v.sizePtr⟩ : Local)])[L.length]? =
      some ⟨(Local.uint 0).size, memPut (Local.uint 0).bytes 0 4 m v.sizePtr⟩ := by simp
    rw [h2]
    simp only [Prod.mk.injEq, Res.ok.injEq]
    refine ⟨?_, rfl⟩
    simp only [readLE, memPut]
    simp

theorem putSize_does (n : Nat) (dst : View) (m : Mem) :
    (putSize n dst).Does m (.ok ()) (if dst.sizePtr = 0 then m else writeLE m dst.sizePtr 4 n) := by
  unfold putSize
  by_cases h : dst.sizePtr = 0
  · rw [if_pos h, if_pos h]; exact does_ret _ _
  · rw [if_neg h, if_neg h]
    intro L d
    refine ⟨d + 1, run_scope (l' := Local.uint n) ?_ (by simp)⟩
    have h1 : (L ++ [Local.uint n])[L.length]? = some (Local.uint n) := by simp
    simp only [run, COp.exec, h1, sync]
    rw [if_pos (show 0 + 4 ≤ (Local.uint n).size from Nat.le_refl 4)]
    simp only [run, memPut_uint]

theorem View.len_lt {m : Mem} {t : Nat} {v : View} (h : v.Valid m t) : v.len m < 2 ^ 32 :=
  Nat.lt_of_le_of_lt h.len h.word32

theorem View.Valid.wrap {m : Mem} {t : Nat} {v : View} (h : v.Valid m t) {n : Nat} (hn : n ≤ v.capacity) :
    wrap64 (n * t) = n * t := by
  unfold wrap64
  refine Nat.mod_eq_of_lt (Nat.lt_of_le_of_lt (Nat.mul_le_mul_right t hn) ?_)
  by_cases h0 : v.capacity = 0
  · rw [h0]; simp
  · have := h.ptr h0
    have := h.space
    omega

/-- The bytes of a vector up to its size are in its payload. -/
theorem View.Valid.bytes {m : Mem} {t : Nat} {v : View} (h : v.Valid m t) {x : Nat} (h1 : v.ptr ≤ x)
    (h2 : x < v.ptr + v.len m * t) : v.HasPayload t x :=
  ⟨h1, Nat.lt_of_lt_of_le h2 (Nat.add_le_add_left (Nat.mul_le_mul_right t h.len) _)⟩

theorem not_overlap_of {n src dst : Nat} {P Q : Nat → Prop} (h : ∀ x, ¬ (P x ∧ Q x))
    (h1 : ∀ x, src ≤ x → x < src + n → P x) (h2 : ∀ x, dst ≤ x → x < dst + n → Q x) : ¬ overlap n src dst := by
  rintro ⟨a, b⟩
  rcases Nat.le_total src dst with hs | hs
  · exact h dst ⟨h1 dst hs b, h2 dst (Nat.le_refl _) (by omega)⟩
  · exact h src ⟨h1 src (Nat.le_refl _) (by omega), h2 src hs a⟩

/-- `copy_view_impl`. -/
theorem copyView_does {m : Mem} {t : Nat} {src dst : View} (hs : src.Valid m t) (ht : dst.Valid m t)
    (hd : src.Separate t dst) :
    (copyView t src dst).Does m
      (if src.len m = 0 then .ok false else if dst.capacity < src.len m then .lengthError else .ok true)
      (if src.len m = 0 then m else if dst.capacity < src.len m then m else
        memCopy (if dst.sizePtr = 0 then m else writeLE m dst.sizePtr 4 (src.len m)) dst.ptr src.ptr (src.len m * t)) := by
  unfold copyView
  refine (getSize_does src m).bind ?_
  by_cases h0 : src.len m = 0
  · rw [if_pos h0, if_pos h0, if_pos h0]; exact does_ret _ _
  · rw [if_neg h0, if_neg h0, if_neg h0]
    by_cases h1 : dst.capacity < src.len m
    · rw [if_pos h1, if_pos h1, if_pos h1]; exact does_ret _ _
    · rw [if_neg h1, if_neg h1, if_neg h1]
      refine (putSize_does _ dst m).bind ?_
      have hb : src.len m * t ≤ src.capacity * t := Nat.mul_le_mul_right t hs.len
      have hb' : src.len m * t ≤ dst.capacity * t := Nat.mul_le_mul_right t (by omega)
      rw [hs.wrap hs.len]
      refine does_copy ?_ (does_ret _ _)
      exact not_overlap_of hd (fun x h1 h2 => .inl (hs.bytes h1 h2)) (fun x h1 h2 => .inl ⟨h1, by omega⟩)

theorem bytesAt_congr {m m' : Mem} {p p' n : Nat} (h : ∀ i, i < n → m' (p' + i) = m (p + i)) :
    bytesAt m' p' n = bytesAt m p n := by
  unfold bytesAt
  apply List.map_congr_left
  intro i hi
  exact h i (List.mem_range.1 hi)

/-- What the target holds after its size word was written and the elements were copied (possibly with more bytes behind
them). -/
theorem holdsCopy_of {m m' : Mem} {t : Nat} {src dst : View} (hto : dst.Valid m t)
    (hl : src.len m ≤ dst.capacity)
    (hlen : dst.sizePtr ≠ 0 → dst.len m' = src.len m)
    (hbytes : ∀ q, q < src.len m * t → m' (dst.ptr + q) = m (src.ptr + q))
    (hrest : dst.sizePtr = 0 → ∀ q, src.len m * t ≤ q → q < dst.capacity * t → m' (dst.ptr + q) = m (dst.ptr + q)) :
    View.HoldsCopy m m' t src dst := by
  unfold View.HoldsCopy
  have hel : ∀ i, i < src.len m → bytesAt m' (dst.ptr + i * t) t = bytesAt m (src.ptr + i * t) t := by
    intro i hi
    refine bytesAt_congr fun q hq => ?_
    have : (i + 1) * t ≤ src.len m * t := Nat.mul_le_mul_right t hi
    rw [Nat.succ_mul] at this
    rw [Nat.add_assoc, Nat.add_assoc]
    exact hbytes _ (by omega)
  by_cases h0 : dst.sizePtr = 0
  · rw [if_pos h0]
    have e1 : dst.len m' = dst.capacity := by simp [View.len, h0]
    have e2 : dst.len m = dst.capacity := by simp [View.len, h0]
    apply List.ext_getElem?
    intro i
    simp only [View.elems, e1, e2, List.getElem?_append, List.length_map, List.length_range, List.getElem?_map,
      List.getElem?_drop]
    by_cases hi : i < src.len m
    · rw [if_pos hi, List.getElem?_range (by omega), List.getElem?_range hi]
      simp only [Option.map_some, hel i hi]
    · rw [if_neg hi, show src.len m + (i - src.len m) = i by omega]
      by_cases hc : i < dst.capacity
      · rw [List.getElem?_range hc]
        simp only [Option.map_some, Option.some.injEq]
        refine bytesAt_congr fun q hq => ?_
        have h1 : src.len m * t ≤ i * t := Nat.mul_le_mul_right t (by omega)
        have h2 : (i + 1) * t ≤ dst.capacity * t := Nat.mul_le_mul_right t hc
        rw [Nat.succ_mul] at h2
        rw [Nat.add_assoc]
        exact hrest h0 _ (by omega) (by omega)
      · rw [List.getElem?_eq_none (by simpa using Nat.le_of_not_lt hc)]
        rfl
  · rw [if_neg h0, List.append_nil]
    unfold View.elems
    rw [hlen h0]
    apply List.map_congr_left
    intro i hi
    exact hel i (List.mem_range.1 hi)

theorem len_of_word {m m' : Mem} {v : View} (h : ∀ x, v.HasWord x → m' x = m x) : v.len m' = v.len m := by
  unfold View.len
  split
  · rfl
  · rename_i h0
    exact readLE_congr fun x h1 h2 => h x ⟨h0, h1, h2⟩

/-! ## Jagged vectors -/

theorem readLE_shift {b m : Mem} {a p k : Nat} (h : ∀ q, q < k → b (a + q) = m (p + q)) : readLE b a k = readLE m p k := by
  induction k generalizing a p with
  | zero => rfl
  | succ k ih =>
    simp only [readLE]
    have h0 := h 0 (by omega)
    rw [Nat.add_zero, Nat.add_zero] at h0
    rw [h0, ih (a := a + 1) (p := p + 1)]
    intro q hq
    have := h (q + 1) (by omega)
    rw [show a + 1 + q = a + (q + 1) by omega, show p + 1 + q = p + (q + 1) by omega, this]

theorem uints_read (vs : List Nat) (j : Nat) : readLE (Local.uints vs).bytes (4 * j) 4 = vs.getD j 0 % 2 ^ 32 := by
  rw [show (2 : Nat) ^ 32 = 256 ^ 4 by decide]
  refine readLE_of_bytes fun i hi => ?_
  have h1 : (4 * j + i) / 4 = j := by omega
  have h2 : (4 * j + i) % 4 = i := by omega
  simp only [Local.uints, h1, h2]

theorem View.Valid.len_zero {m : Mem} {t : Nat} {v : View} (h : v.Valid m t) (h0 : v.capacity = 0) : v.len m = 0 := by
  have := h.len
  omega

theorem getSizes_does {m : Mem} {t : Nat} {vs : List View} (h : JagValid m t vs) :
    (getSizes vs).Does m (.ok (vs.map (·.len m))) m := by
  unfold getSizes
  intro L d
  cases hf : vs.findIdx? (fun v => decide (v.capacity ≠ 0 ∧ v.sizePtr ≠ 0)) with
  | none =>
    refine ⟨d, run_scope (l' := Local.uints (List.replicate vs.length 0)) ?_ (by simp)⟩
    simp only [run, Prod.mk.injEq, Res.ok.injEq, and_true]
    apply List.map_congr_left
    intro v hv
    have := List.findIdx?_eq_none_iff.1 hf v hv
    simp only [decide_eq_false_iff_not] at this
    by_cases h0 : v.sizePtr = 0
    · simp [View.len, h0]
    · have h1 : v.capacity = 0 := by
        by_contra hc
        exact this ⟨hc, h0⟩
      rw [(h.inner v hv).len_zero h1, h1]
  | some i =>
    obtain ⟨hi, hp, hlt⟩ := List.findIdx?_eq_some_iff_getElem.1 hf
    simp only [decide_eq_true_eq] at hp
    have hw : wrap64 (4 * (vs.length - i)) = 4 * (vs.length - i) := by
      unfold wrap64
      exact Nat.mod_eq_of_lt (by have := h.count; omega)
    have hgd : vs.getD i ⟨0, 0, 0⟩ = vs[i] := by simp [hi]
    have hl1 : (L ++ [Local.uints (List.replicate vs.length 0)])[L.length]? =
      some (Local.uints (List.replicate vs.length 0)) := by simp
    have hsz : (Local.uints (List.replicate vs.length 0)).size = 4 * vs.length := by simp [Local.uints]
    refine ⟨d + 1, run_scope (l' := ⟨4 * vs.length, memPut (Local.uints (List.replicate vs.length 0)).bytes (4 * i)
      (4 * (vs.length - i)) m vs[i].sizePtr⟩) ?_ (by simp)⟩
    simp only [run, COp.exec, hl1, hw, hgd, sync, hsz]
    rw [if_pos (by omega)]
    simp only [List.set_append_right _ _ (Nat.le_refl _), Nat.sub_self, List.set_cons_zero]
    have h2 : ∀ l : Local, (L ++ [l])[L.length]? = some l := by simp
    rw [h2]
    simp only [Prod.mk.injEq, Res.ok.injEq, and_true]
    rcases h.words with hz | ⟨hd, hd0, hadj⟩
    · exact absurd (hz _ (List.getElem_mem hi)) hp.2
    · apply List.ext_getElem?
      intro j
      simp only [readUints, List.getElem?_map]
      by_cases hj : j < vs.length
      · rw [List.getElem?_range hj, List.getElem?_eq_getElem hj]
        simp only [Option.map_some, Option.some.injEq]
        have ej := hadj j _ (List.getElem?_eq_getElem hj)
        have ei := hadj i _ (List.getElem?_eq_getElem hi)
        by_cases hji : j < i
        · have hc : vs[j].capacity = 0 := by
            have := hlt j hji
            simp only [Bool.not_eq_true, decide_eq_false_iff_not] at this
            by_contra hc
            refine this (by simpa using ⟨hc, by omega⟩)
          rw [(h.inner _ (List.getElem_mem hj)).len_zero hc]
          rw [readLE_congr (m' := (Local.uints (List.replicate vs.length 0)).bytes), uints_read]
          · simp [List.getD, hj]
          · intro x h1 h2
            unfold memPut
            rw [if_neg (by omega)]
        · rw [View.len, if_neg (by omega)]
          refine readLE_shift fun q hq => ?_
          unfold memPut
          rw [if_pos (by omega), ei, ej]
          congr 1
          omega
      · rw [List.getElem?_eq_none (by simpa using hj), List.getElem?_eq_none (by omega)]
        rfl

/-- Whether some size is above the capacity. -/
def TooLarge (vs : List View) (ns : List Nat) : Prop :=
  ∃ (i : Nat) (v : View) (n : Nat), vs[i]? = some v ∧ ns[i]? = some n ∧ v.capacity < n

theorem tooLarge_cons {v : View} {n : Nat} {vs : List View} {ns : List Nat} :
    TooLarge (v :: vs) (n :: ns) ↔ v.capacity < n ∨ TooLarge vs ns := by
  constructor
  · rintro ⟨i, w, k, h1, h2, h3⟩
    cases i with
    | zero =>
      simp only [List.getElem?_cons_zero, Option.some.injEq] at h1 h2
      subst h1 h2
      exact .inl h3
    | succ i => exact .inr ⟨i, w, k, by simpa using h1, by simpa using h2, h3⟩
  · rintro (h | ⟨i, w, k, h1, h2, h3⟩)
    · exact ⟨0, v, n, rfl, rfl, h⟩
    · exact ⟨i + 1, w, k, by simpa using h1, by simpa using h2, h3⟩

theorem checkSizes_large : ∀ (vs : List View) (ns : List Nat) (p : Bool), vs.length = ns.length →
    ((∀ v ∈ vs, v.sizePtr = 0) ∨ p = true ∧ ∀ v ∈ vs, v.sizePtr ≠ 0) →
    (TooLarge vs ns → checkSizes p vs ns = .lengthError) ∧
    (¬ TooLarge vs ns → checkSizes p vs ns = .ok (p && vs.all fun v => v.sizePtr ≠ 0)) := by
  intro vs
  induction vs with
  | nil =>
    intro ns p hl _
    refine ⟨?_, fun _ => by cases ns <;> simp [checkSizes]⟩
    rintro ⟨i, v, n, h1, -⟩
    simp at h1
  | cons v vs ih =>
    intro ns p hl hc
    cases ns with
    | nil => simp at hl
    | cons n ns =>
      have hl' : vs.length = ns.length := by simpa using hl
      rw [tooLarge_cons]
      unfold checkSizes
      by_cases h1 : v.capacity < n
      · rw [if_pos h1]
        exact ⟨fun _ => rfl, fun h => absurd (.inl h1) h⟩
      · rw [if_neg h1]
        rcases hc with hz | ⟨rfl, hnz⟩
        · have hv := hz v (List.mem_cons_self ..)
          obtain ⟨i1, i2⟩ := ih ns false hl' (.inl fun w hw => hz w (List.mem_cons_of_mem _ hw))
          rw [if_pos hv]
          refine ⟨fun h => i1 (h.resolve_left h1), fun h => ?_⟩
          rw [i2 (fun h' => h (.inr h'))]
          simp [hv]
        · have hv := hnz v (List.mem_cons_self ..)
          obtain ⟨i1, i2⟩ := ih ns true hl' (.inr ⟨rfl, fun w hw => hnz w (List.mem_cons_of_mem _ hw)⟩)
          rw [if_neg hv, if_pos rfl]
          refine ⟨fun h => i1 (h.resolve_left h1), fun h => ?_⟩
          rw [i2 (fun h' => h (.inr h'))]
          simp [hv]

/-- The memory after `set_sizes`. -/
def sizesSet (m : Mem) (vs : List View) (ns : List Nat) : Mem :=
  match vs with
  | [] => m
  | v :: _ => if v.sizePtr = 0 then m else memPut m v.sizePtr (4 * ns.length) (Local.uints ns).bytes 0

theorem words_cases {vs : List View} (h : WordsAdjacent vs) :
    (∀ v ∈ vs, v.sizePtr = 0) ∨ ∀ v ∈ vs, v.sizePtr ≠ 0 := by
  rcases h with h | ⟨d, d0, h⟩
  · exact .inl h
  · refine .inr fun v hv => ?_
    obtain ⟨i, hi⟩ := List.mem_iff_getElem?.1 hv
    rw [h i v hi]
    omega

theorem setSizes_large {m : Mem} {vs : List View} {ns : List Nat} (hl : vs.length = ns.length) (hw : WordsAdjacent vs)
    (ht : TooLarge vs ns) (slot : Nat) : (setSizes slot ns vs).Does m .lengthError m := by
  obtain ⟨i, v, n, h1, h2, h3⟩ := ht
  have hpos : vs.length ≠ 0 := by
    intro h0
    rw [List.length_eq_zero_iff] at h0
    subst h0
    simp at h1
  unfold setSizes
  rw [if_neg (by omega), if_neg (by omega)]
  rw [(checkSizes_large vs ns true hl ((words_cases hw).imp id fun h => ⟨rfl, h⟩)).1 ⟨i, v, n, h1, h2, h3⟩]
  exact does_ret _ _

theorem setSizes_ok {m : Mem} {vs : List View} {ns : List Nat} (hl : vs.length = ns.length) (hw : WordsAdjacent vs)
    (hc : vs.length * 4 < 2 ^ 64) (ht : ¬ TooLarge vs ns) (L : List Local) (d : Nat) :
    ∃ e d', (setSizes L.length ns vs).run ⟨m, L ++ [Local.uints ns], d⟩ =
      (.ok e, ⟨sizesSet m vs ns, L ++ [Local.uints ns], d'⟩) := by
  unfold setSizes
  cases vs with
  | nil =>
    cases ns with
    | nil => exact ⟨0, d, rfl⟩
    | cons => simp at hl
  | cons v vs =>
    rw [if_neg (by simp), if_neg (by omega)]
    rw [(checkSizes_large (v :: vs) ns true hl ((words_cases hw).imp id fun h => ⟨rfl, h⟩)).2 ht]
    have hn : (List.length ns) * 4 < 2 ^ 64 := by rw [← hl]; exact hc
    have hwr : wrap64 (4 * ns.length) = 4 * ns.length := by
      unfold wrap64
      exact Nat.mod_eq_of_lt (by omega)
    rcases words_cases hw with hz | hnz
    · have hv := hz v (List.mem_cons_self ..)
      refine ⟨0, d, ?_⟩
      simp [Prog.bind, hv, retNoEvent, run, sizesSet]
    · have hv := hnz v (List.mem_cons_self ..)
      have hall : ((v :: vs).all fun v => decide (v.sizePtr ≠ 0)) = true := by
        rw [List.all_eq_true]
        intro w hw
        exact decide_eq_true (hnz w hw)
      refine ⟨d + 1, d + 1, ?_⟩
      have h1 : (L ++ [Local.uints ns])[L.length]? = some (Local.uints ns) := by simp
      rw [hall]
      simp only [Prog.bind, Bool.and_self, if_true, retEvent, run, COp.exec, h1, hwr, List.getD_cons_zero]
      rw [if_pos (show 0 + 4 * ns.length ≤ (Local.uints ns).size by simp [Local.uints])]
      simp only [sizesSet, if_neg hv]

/-- What `set_sizes` has done. -/
theorem sizesSet_spec {m : Mem} {vs : List View} {ns : List Nat} (hl : vs.length = ns.length) (hw : WordsAdjacent vs)
    (h32 : ∀ n ∈ ns, n < 2 ^ 32) :
    (∀ (i : Nat) (v : View) (n : Nat), vs[i]? = some v → ns[i]? = some n → v.sizePtr ≠ 0 → v.len (sizesSet m vs ns) = n) ∧
    (∀ x, (∀ v ∈ vs, ¬ v.HasWord x) → sizesSet m vs ns x = m x) := by
  cases vs with
  | nil => exact ⟨fun i v n h => by simp at h, fun _ _ => rfl⟩
  | cons w ws =>
    simp only [sizesSet]
    rcases hw with hz | ⟨hd, hd0, hadj⟩
    · have hv := hz w (List.mem_cons_self ..)
      rw [if_pos hv]
      refine ⟨fun i v n h1 _ h3 => ?_, fun _ _ => rfl⟩
      exact absurd (hz v (List.mem_iff_getElem?.2 ⟨i, h1⟩)) h3
    · have h0 := hadj 0 w rfl
      rw [if_neg (by omega)]
      refine ⟨fun i v n h1 h2 h3 => ?_, fun x hx => ?_⟩
      · have hv := hadj i v h1
        obtain ⟨hi, -⟩ := List.getElem?_eq_some_iff.1 h2
        rw [View.len, if_neg h3, readLE_shift (m := (Local.uints ns).bytes) (p := 4 * i), uints_read]
        · rw [List.getD_eq_getElem?_getD, h2]
          exact Nat.mod_eq_of_lt (h32 n (List.mem_iff_getElem?.2 ⟨i, h2⟩))
        · intro q hq
          unfold memPut
          rw [if_pos (by omega)]
          congr 1
          omega
      · unfold memPut
        rw [if_neg]
        rintro ⟨a, b⟩
        have hidx : (x - w.sizePtr) / 4 < (w :: ws).length := by rw [hl]; omega
        have hv := hadj _ _ (List.getElem?_eq_getElem hidx)
        refine hx _ (List.getElem_mem hidx) ⟨by omega, by omega, by omega⟩

/-- Rows of `ns` elements were copied from `src` to `dst`, and nothing else was changed. -/
def CopiedRows (m m' : Mem) (t : Nat) (ns : List Nat) (src dst : List View) : Prop :=
  (∀ (i : Nat) (n : Nat) (v w : View), ns[i]? = some n → src[i]? = some v → dst[i]? = some w →
    ∀ q, q < n * t → m' (w.ptr + q) = m (v.ptr + q)) ∧
  ∀ x, (∀ (i : Nat) (n : Nat) (w : View), ns[i]? = some n → dst[i]? = some w → ¬ (w.ptr ≤ x ∧ x < w.ptr + n * t)) →
    m' x = m x

theorem copyViews_does (dbg : Bool) {t : Nat} : ∀ (ns : List Nat) (src dst : List View) (m : Mem),
    src.length = ns.length → dst.length = ns.length →
    (∀ (i : Nat) (n : Nat) (v w : View), ns[i]? = some n → src[i]? = some v → dst[i]? = some w →
      n ≤ v.capacity ∧ n ≤ w.capacity ∧ wrap64 (n * t) = n * t ∧ (n ≠ 0 → v.ptr ≠ 0 ∧ w.ptr ≠ 0)) →
    dst.Pairwise (fun v w => ∀ x, ¬ (v.HasPayload t x ∧ w.HasPayload t x)) →
    (∀ v ∈ src, ∀ w ∈ dst, ∀ x, ¬ (v.HasPayload t x ∧ w.HasPayload t x)) →
    ∃ m', (copyViews dbg t ns src dst).Does m (.ok ()) m' ∧ CopiedRows m m' t ns src dst := by
  intro ns
  induction ns with
  | nil =>
    intro src dst m h1 h2 _ _ _
    exact ⟨m, by unfold copyViews; exact does_ret _ _, fun i n v w h => by simp at h, fun _ _ => rfl⟩
  | cons n ns ih =>
    intro src dst m h1 h2 hr hp hs
    cases src with
    | nil => simp at h1
    | cons v src =>
      cases dst with
      | nil => simp at h2
      | cons w dst =>
        obtain ⟨r1, r2, r3, r4⟩ := hr 0 n v w rfl rfl rfl
        rw [List.pairwise_cons] at hp
        have hvw := hs v (List.mem_cons_self ..) w (List.mem_cons_self ..)
        have hnv : n * t ≤ v.capacity * t := Nat.mul_le_mul_right t r1
        have hnw : n * t ≤ w.capacity * t := Nat.mul_le_mul_right t r2
        have hno : ¬ overlap (n * t) v.ptr w.ptr :=
          not_overlap_of hvw (fun x a b => ⟨a, by omega⟩) (fun x a b => ⟨a, by omega⟩)
        -- the memory after this row
        have key : ∀ m1 : Mem, (∀ q, q < n * t → m1 (w.ptr + q) = m (v.ptr + q)) →
            (∀ x, ¬ (w.ptr ≤ x ∧ x < w.ptr + n * t) → m1 x = m x) →
            ∃ m', (copyViews dbg t ns src dst).Does m1 (.ok ()) m' ∧ CopiedRows m m' t (n :: ns) (v :: src) (w :: dst) := by
          intro m1 e1 e2
          obtain ⟨m', d1, d2, d3⟩ := ih src dst m1 (by simpa using h1) (by simpa using h2)
            (fun i => by simpa using hr (i + 1)) hp.2
            (fun v hv w hw => hs v (List.mem_cons_of_mem _ hv) w (List.mem_cons_of_mem _ hw))
          have hlater : ∀ (i k : Nat) (u : View), ns[i]? = some k → dst[i]? = some u → ∀ x,
              u.ptr ≤ x ∧ x < u.ptr + k * t → u ∈ dst ∧ u.HasPayload t x := by
            intro i k u hk hu x hx
            have hi : i < src.length := by
              obtain ⟨hi, -⟩ := List.getElem?_eq_some_iff.1 hk
              simp at h1
              omega
            obtain ⟨-, c2, -⟩ := hr (i + 1) k src[i] u (by simpa using hk) (by simp [hi]) (by simpa using hu)
            have := Nat.mul_le_mul_right t c2
            exact ⟨List.mem_iff_getElem?.2 ⟨i, hu⟩, hx.1, by omega⟩
          refine ⟨m', d1, ?_, ?_⟩
          · intro i k a b hk ha hb q hq
            cases i with
            | zero =>
              simp only [List.getElem?_cons_zero, Option.some.injEq] at hk ha hb
              subst hk ha hb
              rw [d3, e1 q hq]
              intro i k u hk hu hx
              obtain ⟨hu1, hu2⟩ := hlater i k u hk hu _ hx
              exact hp.1 u hu1 (w.ptr + q) ⟨⟨by omega, by omega⟩, hu2⟩
            | succ i =>
              simp only [List.getElem?_cons_succ] at hk ha hb
              rw [d2 i k a b hk ha hb q hq]
              refine e2 _ ?_
              rintro ⟨x1, x2⟩
              obtain ⟨c1, c2, -⟩ := hr (i + 1) k a b (by simpa using hk) (by simpa using ha) (by simpa using hb)
              have := Nat.mul_le_mul_right t c1
              exact hs a (List.mem_cons_of_mem _ (List.mem_iff_getElem?.2 ⟨i, ha⟩)) w (List.mem_cons_self ..) (a.ptr + q)
                ⟨⟨by omega, by omega⟩, ⟨x1, by omega⟩⟩
          · intro x hx
            rw [d3 x (fun i k u hk hu => hx (i + 1) k u (by simpa using hk) (by simpa using hu))]
            exact e2 x (hx 0 n w rfl rfl)
        unfold copyViews
        by_cases h0 : n = 0
        · rw [if_pos h0]
          subst h0
          exact key m (fun q hq => by omega) (fun _ _ => rfl)
        · rw [if_neg h0, if_neg (by simp [r1, r2, r4 h0]), r3]
          obtain ⟨m', d1, d2⟩ := key (memCopy m w.ptr v.ptr (n * t))
            (fun q hq => by unfold memCopy; rw [if_pos (by omega), Nat.add_sub_cancel_left])
            (fun x hx => by unfold memCopy; rw [if_neg hx])
          exact ⟨m', does_copy hno d1, d2⟩

/-- The vectors lie one after the other, starting at `p`. -/
def RowChain (t : Nat) : Nat → List View → Prop
  | _, [] => True
  | p, v :: vs => v.ptr = p ∧ RowChain t (p + v.capacity * t) vs

theorem chain_of_contiguous {t : Nat} : ∀ {v : View} {vs : List View}, isContiguous t (v :: vs) = true →
    RowChain t v.ptr (v :: vs) := by
  intro v vs
  induction vs generalizing v with
  | nil => intro _; exact ⟨rfl, True.intro⟩
  | cons w vs ih =>
    intro h
    simp only [isContiguous, Bool.and_eq_true, beq_iff_eq] at h
    refine ⟨rfl, ?_⟩
    rw [h.1]
    exact ih h.2

theorem chain_ptr {t : Nat} : ∀ {vs : List View} {p : Nat}, RowChain t p vs → ∀ (i : Nat) (v : View), vs[i]? = some v →
    v.ptr = p + ((vs.map (·.capacity)).take i).sum * t ∧
    ((vs.map (·.capacity)).take i).sum + v.capacity ≤ (vs.map (·.capacity)).sum := by
  intro vs
  induction vs with
  | nil => intro p _ i v h; simp at h
  | cons w vs ih =>
    intro p hc i v h
    obtain ⟨hw, hc⟩ := hc
    cases i with
    | zero =>
      simp only [List.getElem?_cons_zero, Option.some.injEq] at h
      subst h
      simp [hw]
    | succ i =>
      obtain ⟨h1, h2⟩ := ih hc i v (by simpa using h)
      simp only [List.map_cons, List.take_succ_cons, List.sum_cons]
      rw [h1, Nat.add_mul]
      omega

theorem chain_covers {t : Nat} : ∀ {vs : List View} {p x : Nat}, RowChain t p vs → p ≤ x →
    x < p + (vs.map (·.capacity)).sum * t → ∃ v ∈ vs, v.HasPayload t x := by
  intro vs
  induction vs with
  | nil => intro p x _ h1 h2; simp at h2; omega
  | cons w vs ih =>
    intro p x hc h1 h2
    obtain ⟨hw, hc⟩ := hc
    simp only [List.map_cons, List.sum_cons, Nat.add_mul] at h2
    by_cases hx : x < p + w.capacity * t
    · exact ⟨w, List.mem_cons_self .., by omega, by rw [hw]; exact hx⟩
    · obtain ⟨v, hv, hp⟩ := ih (x := x) hc (by omega) (by omega)
      exact ⟨v, List.mem_cons_of_mem _ hv, hp⟩

theorem chain_space {t : Nat} {N : Nat} : ∀ {vs : List View} {p : Nat}, RowChain t p vs → (∀ v ∈ vs, v.capacity ≠ 0 → v.ptr + v.capacity * t ≤ N) →
    (vs.map (·.capacity)).sum ≠ 0 → p + (vs.map (·.capacity)).sum * t ≤ N := by
  intro vs
  induction vs with
  | nil => intro p _ _ h; simp at h
  | cons w vs ih =>
    intro p hc hv hs
    obtain ⟨hw, hc⟩ := hc
    simp only [List.map_cons, List.sum_cons, Nat.add_mul]
    have h1 := hv w (List.mem_cons_self ..)
    by_cases h0 : (vs.map (·.capacity)).sum = 0
    · rw [List.map_cons, List.sum_cons] at hs
      rw [h0] at hs ⊢
      have := h1 (by omega)
      omega
    · have := ih hc (fun v hx => hv v (List.mem_cons_of_mem _ hx)) h0
      omega

theorem copied_of_chain {t : Nat} {src dst : List View} {p p' : Nat} (hs : RowChain t p src) (hd : RowChain t p' dst)
    (he : src.map (·.capacity) = dst.map (·.capacity)) (m : Mem) :
    CopiedRows m (memCopy m p' p ((src.map (·.capacity)).sum * t)) t (src.map (·.capacity)) src dst := by
  refine ⟨?_, ?_⟩
  · intro i n v w hn hv hw q hq
    rw [List.getElem?_map, hv] at hn
    simp only [Option.map_some, Option.some.injEq] at hn
    subst hn
    obtain ⟨s1, s2⟩ := chain_ptr hs i v hv
    obtain ⟨d1, d2⟩ := chain_ptr hd i w hw
    rw [← he] at d1
    have := Nat.mul_le_mul_right t s2
    rw [Nat.add_mul] at this
    unfold memCopy
    rw [if_pos (by omega), d1, s1]
    congr 1
    omega
  · intro x hx
    unfold memCopy
    rw [if_neg]
    rintro ⟨a, b⟩
    rw [he] at b
    obtain ⟨w, hw, c1, c2⟩ := chain_covers hd a b
    obtain ⟨i, hi⟩ := List.mem_iff_getElem?.1 hw
    exact hx i w.capacity w (by rw [he, List.getElem?_map, hi]; rfl) hi ⟨c1, c2⟩

theorem copyFirst_does (dbg : Bool) {t total : Nat} : ∀ (src dst : List View) (m : Mem) (p p' : Nat),
    RowChain t p src → RowChain t p' dst → src.map (·.capacity) = dst.map (·.capacity) →
    (∀ v ∈ src ++ dst, v.capacity ≠ 0 → v.ptr ≠ 0) → total = (src.map (·.capacity)).sum * t →
    ¬ overlap total p p' →
    (copyFirst dbg total (src.map (·.capacity)) src dst).Does m (.ok ())
      (if (src.map (·.capacity)).sum = 0 then m else memCopy m p' p total) := by
  intro src
  induction src with
  | nil =>
    intro dst m p p' _ _ _ _ _ _
    rw [if_pos (by simp)]
    simp only [List.map_nil, copyFirst]
    exact does_ret _ _
  | cons v src ih =>
    intro dst m p p' hs hd he hn ht ho
    cases dst with
    | nil => simp at he
    | cons w dst =>
      obtain ⟨s1, s2⟩ := hs
      obtain ⟨d1, d2⟩ := hd
      simp only [List.map_cons, List.cons.injEq] at he
      obtain ⟨e1, e2⟩ := he
      simp only [List.map_cons, copyFirst]
      by_cases h0 : v.capacity = 0
      · rw [if_pos h0]
        rw [h0, Nat.zero_mul, Nat.add_zero] at s2
        rw [← e1, h0, Nat.zero_mul, Nat.add_zero] at d2
        have := ih dst m p p' s2 d2 e2 (fun u hu => hn u (by
          simp only [List.cons_append, List.mem_cons, List.mem_append] at hu ⊢
          tauto)) (by simpa [h0] using ht) ho
        simpa [h0] using this
      · have hw0 : w.capacity ≠ 0 := by rw [← e1]; exact h0
        rw [if_neg h0, if_neg (by simp [hn v (by simp) h0, hn w (by simp) hw0]), if_neg (by simp; omega), s1, d1]
        exact does_copy ho (does_ret _ _)

end Vecmem
