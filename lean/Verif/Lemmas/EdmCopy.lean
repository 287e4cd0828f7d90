import Verif.Spec.EdmCopy
import Verif.Lemmas.CopyJagged
import Verif.Lemmas.Tactics

/-! # Lemmas about copies of containers, variable by variable -/

namespace Vecmem

open IntMath Prog

variable {m : Mem} {t : Nat} {x y : VarView}

theorem VarView.has_iff {a : Nat} : x.Has t a ↔ JagHas t x.rows a := by
  unfold VarView.Has VarView.HasPayload VarView.HasWord JagHas View.Has
  constructor
  · rintro (⟨v, hv, h⟩ | ⟨v, hv, h⟩)
    · exact ⟨v, hv, .inl h⟩
    · exact ⟨v, hv, .inr h⟩
  · rintro ⟨v, hv, h | h⟩
    · exact .inl ⟨v, hv, h⟩
    · exact .inr ⟨v, hv, h⟩

/-- The elements of a row from the bytes. -/
theorem holdsRow_of {m m' : Mem} {t : Nat} {v w : View} (hc : v.len m ≤ w.capacity)
    (hword : w.sizePtr ≠ 0 → w.len m' = v.len m)
    (hbytes : ∀ q, q < v.len m * t → m' (w.ptr + q) = m (v.ptr + q)) : v.HoldsRow m m' t w := by
  have hel : ∀ q, q < v.len m → bytesAt m' (w.ptr + q * t) t = bytesAt m (v.ptr + q * t) t := by
    intro q hq
    refine bytesAt_congr fun z hz => ?_
    have : (q + 1) * t ≤ v.len m * t := Nat.mul_le_mul_right t hq
    rw [Nat.succ_mul] at this
    rw [Nat.add_assoc, Nat.add_assoc]
    exact hbytes _ (by omega)
  unfold View.HoldsRow
  split
  · rename_i hz
    have hwl : w.len m' = w.capacity := by simp [View.len, hz]
    rw [List.prefix_iff_getElem?]
    intro q hq
    have hq' : q < v.len m := by simpa [View.elems] using hq
    simp only [View.elems, hwl, List.getElem?_map, List.getElem_map, List.getElem_range]
    rw [List.getElem?_range (by omega)]
    simp only [Option.map_some, hel q hq']
  · rename_i hz
    unfold View.elems
    rw [hword hz]
    apply List.map_congr_left
    intro q hq
    exact hel q (List.mem_range.1 hq)

theorem HoldsRow.len {m m' : Mem} {t : Nat} {v w : View} (h : v.HoldsRow m m' t w) (h0 : w.sizePtr ≠ 0) :
    w.len m' = v.len m := by
  unfold View.HoldsRow at h
  rw [if_neg h0] at h
  have := congrArg List.length h
  simpa [View.elems] using this

/-- What is copied does not depend on other bytes. -/
theorem HoldsRow.congr {m m1 m' m'' : Mem} {t : Nat} {v w : View} (h : v.HoldsRow m m' t w)
    (hs : v.elems m1 t = v.elems m t) (hw : w.elems m'' t = w.elems m' t) : v.HoldsRow m1 m'' t w := by
  unfold View.HoldsRow at *
  rw [hs, hw]
  exact h

/-- One variable. -/
theorem copyVar_does (dbg : Bool) (ht : 0 < t) (hk : x.kind = y.kind) (hx : JagValid m t x.rows) (hy : JagValid m t y.rows)
    (hsep : ∀ a, ¬ (x.Has t a ∧ y.Has t a))
    (hne : ∀ v w, x = .vector v → y = .vector w → w.sizePtr ≠ 0 → v.len m = 0 → w.len m = 0) :
    (¬ x.CanHold m y ∧ (copyVar dbg t x y).Does m .lengthError m) ∨
    x.CanHold m y ∧ ∃ m', (copyVar dbg t x y).Does m (.ok ()) m' ∧ x.Holds m m' t y ∧ ∀ a, ¬ y.Has t a → m' a = m a := by
  cases x with
  | scalar p =>
    cases y with
    | vector w => simp [VarView.kind] at hk
    | jagged k => simp [VarView.kind] at hk
    | scalar q =>
      right
      refine ⟨⟨.inr rfl, ?_⟩, memCopy m q p t, ?_, ?_, ?_⟩
      · intro k v w h1 h2
        cases k with
        | zero =>
          simp only [VarView.rows, List.getElem?_cons_zero, Option.some.injEq] at h1 h2
          subst h1 h2
          exact Nat.le_refl _
        | succ k => simp [VarView.rows] at h1
      · unfold copyVar
        refine does_copy ?_ (does_ret _ _)
        refine not_overlap_of hsep (fun a h1 h2 => ?_) (fun a h1 h2 => ?_)
        · exact .inl ⟨⟨1, 0, p⟩, by simp [VarView.rows], h1, by simpa using h2⟩
        · exact .inl ⟨⟨1, 0, q⟩, by simp [VarView.rows], h1, by simpa using h2⟩
      · intro k v w h1 h2
        cases k with
        | succ k => simp [VarView.rows] at h1
        | zero =>
          simp only [VarView.rows, List.getElem?_cons_zero, Option.some.injEq] at h1 h2
          subst h1 h2
          refine holdsRow_of (Nat.le_refl _) (fun h => absurd rfl h) ?_
          intro z hz
          have hz' : z < t := by simpa [View.len] using hz
          simp only [memCopy]
          rw [if_pos (by omega)]
          congr 1
          omega
      · intro a ha
        unfold memCopy
        rw [if_neg]
        rintro ⟨h1, h2⟩
        exact ha (.inl ⟨⟨1, 0, q⟩, by simp [VarView.rows], h1, by simpa using h2⟩)
  | vector v =>
    cases y with
    | scalar w => simp [VarView.kind] at hk
    | jagged k => simp [VarView.kind] at hk
    | vector w =>
      have hv := hx.inner v (by simp [VarView.rows])
      have hw := hy.inner w (by simp [VarView.rows])
      have hs : v.Separate t w := by
        intro a ⟨h1, h2⟩
        exact hsep a ⟨VarView.has_iff.2 ⟨v, by simp [VarView.rows], h1⟩, VarView.has_iff.2 ⟨w, by simp [VarView.rows], h2⟩⟩
      have hcan : (VarView.vector v).CanHold m (.vector w) ↔ v.len m ≤ w.capacity := by
        constructor
        · intro h
          exact h.2 0 v w rfl rfl
        · intro h
          refine ⟨.inr rfl, ?_⟩
          intro k a b h1 h2
          cases k with
          | succ k => simp [VarView.rows] at h1
          | zero =>
            simp only [VarView.rows, List.getElem?_cons_zero, Option.some.injEq] at h1 h2
            subst h1 h2
            exact h
      have hholds : ∀ m', v.HoldsRow m m' t w → (VarView.vector v).Holds m m' t (.vector w) := by
        intro m' h k a b h1 h2
        cases k with
        | succ k => simp [VarView.rows] at h1
        | zero =>
          simp only [VarView.rows, List.getElem?_cons_zero, Option.some.injEq] at h1 h2
          subst h1 h2
          exact h
      have hdo := copyView_does hv hw hs
      rw [hcan]
      unfold copyVar
      by_cases h0 : v.len m = 0
      · right
        rw [if_pos h0, if_pos h0] at hdo
        refine ⟨by omega, m, hdo.bind (does_ret _ _), hholds _ (holdsRow_of (by omega) ?_ ?_), fun _ _ => rfl⟩
        · intro hz
          rw [hne v w rfl rfl hz h0, h0]
        · intro q hq
          rw [h0] at hq
          omega
      · rw [if_neg h0, if_neg h0] at hdo
        by_cases h1 : w.capacity < v.len m
        · left
          rw [if_pos h1, if_pos h1] at hdo
          exact ⟨by omega, Does.bindErr hdo (fun _ => by simp) (fun _ => ())⟩
        · right
          rw [if_neg h1, if_neg h1] at hdo
          have hb : v.len m * t ≤ v.capacity * t := Nat.mul_le_mul_right t hv.len
          have hb' : v.len m * t ≤ w.capacity * t := Nat.mul_le_mul_right t (by omega)
          refine ⟨by omega, _, hdo.bind (does_ret _ _), hholds _ (holdsRow_of (by omega) ?_ ?_), ?_⟩
          · intro hz
            rw [View.len, if_neg hz, if_neg hz]
            have h32 := View.len_lt hv
            rw [readLE_congr (m' := writeLE m w.sizePtr 4 (v.len m)), readLE_writeLE (by omega)]
            intro a a1 a2
            unfold memCopy
            rw [if_neg]
            rintro ⟨b1, b2⟩
            exact hw.apart a ⟨⟨b1, by omega⟩, hz, a1, a2⟩
          · intro q hq
            unfold memCopy
            rw [if_pos (by omega)]
            have : v.ptr + (w.ptr + q - w.ptr) = v.ptr + q := by omega
            rw [this]
            split
            · rfl
            · rename_i hz
              apply writeLE_other
              by_contra hc
              exact hs (v.ptr + q) ⟨.inl ⟨by omega, by omega⟩, .inr ⟨hz, by omega, by omega⟩⟩
          · intro a ha
            have ha' : ¬ w.Has t a := fun h => ha (VarView.has_iff.2 ⟨w, by simp [VarView.rows], h⟩)
            unfold memCopy
            rw [if_neg (fun h => ha' (.inl ⟨h.1, by omega⟩))]
            split
            · rfl
            · rename_i hz
              apply writeLE_other
              by_contra hc
              exact ha' (.inr ⟨hz, by omega, by omega⟩)
  | jagged j =>
    cases y with
    | scalar w => simp [VarView.kind] at hk
    | vector k => simp [VarView.kind] at hk
    | jagged k =>
      have hs : ∀ a, ¬ (JagHas t j.views a ∧ JagHas t k.views a) := fun a h =>
        hsep a ⟨VarView.has_iff.2 h.1, VarView.has_iff.2 h.2⟩
      unfold copyVar
      by_cases hl : j.views.length = k.views.length
      · rcases copyViewJag_does dbg m t ht j k hx hy hs hl with ⟨⟨i, v, w, h1, h2, h3⟩, h4⟩ | ⟨b, m', h1, h2, h3⟩
        · left
          refine ⟨fun h => ?_, Does.bindErr h4 (fun _ => by simp) (fun _ => ())⟩
          have := h.2 i v w h1 h2
          omega
        · right
          exact ⟨⟨.inr hl, fun i v w hv hw => (h2 i v w hv hw).1⟩, m', h1.bind (does_ret _ _),
            fun i v w hv hw => (h2 i v w hv hw).2, fun a ha => h3 a fun h => ha (VarView.has_iff.2 h)⟩
      · have hdo := copyViewJag_unequal dbg hx hl
        by_cases h0 : j.views = []
        · right
          rw [if_pos h0] at hdo
          refine ⟨⟨.inl h0, ?_⟩, m, hdo.bind (does_ret _ _), ?_, fun _ _ => rfl⟩ <;>
          · intro i v w h1
            simp [VarView.rows, h0] at h1
        · left
          rw [if_neg h0] at hdo
          refine ⟨fun h => ?_, Does.bindErr hdo (fun _ => by simp) (fun _ => ())⟩
          rcases h.1 with h | h
          · exact h0 h
          · exact hl h

/-! ## all variables -/

variable {S : Schema} {xs ys : List VarView} {v : Var}

theorem VarsPlaced.tail (h : VarsPlaced (v :: S) (x :: xs)) : VarsPlaced S xs where
  count := by simpa using h.count
  each := fun i a b ha hb => h.each (i + 1) a b (by simpa using ha) (by simpa using hb)
  apart := fun i j a b c d hij ha hb hc hd =>
    h.apart (i + 1) (j + 1) a b c d (by omega) (by simpa using ha) (by simpa using hb) (by simpa using hc) (by simpa using hd)
  words := fun i j a b hij ha hb => h.words (i + 1) (j + 1) a b (by omega) (by simpa using ha) (by simpa using hb)
  vectors := fun i j a b ha hb => h.vectors (i + 1) (j + 1) a b (by simpa using ha) (by simpa using hb)

theorem VarsValid.tail (h : VarsValid m (v :: S) (x :: xs)) : VarsValid m S xs :=
  ⟨h.toVarsPlaced.tail, fun x hx => h.sizes x (List.mem_cons_of_mem _ hx)⟩

theorem VarsValid.head (h : VarsValid m (v :: S) (x :: xs)) :
    x.kind = v.kind ∧ 0 < v.type.size ∧ JagValid m v.type.size x.rows := by
  obtain ⟨h1, h2, h3⟩ := h.each 0 v x rfl rfl
  exact ⟨h1, h2, h3, h.sizes x List.mem_cons_self⟩

theorem elems_of_has {m m' : Mem} {u : View} (hu : u.len m ≤ u.capacity) (hx : u ∈ x.rows) (h : ∀ a, x.Has t a → m' a = m a) :
    u.elems m' t = u.elems m t ∧ u.len m' = u.len m := by
  refine ⟨elems_congr hu fun a ha => h a (VarView.has_iff.2 ⟨u, hx, ha⟩), ?_⟩
  exact len_of_word fun a ha => h a (.inr ⟨u, hx, ha⟩)

theorem VarsValid.congr {m m' : Mem} (h : VarsValid m S xs) (he : ∀ a, VarsHave S xs a → m' a = m a) : VarsValid m' S xs := by
  refine ⟨h.toVarsPlaced, fun x hx u hu => ?_⟩
  obtain ⟨i, hi⟩ := List.mem_iff_getElem?.1 hx
  have hlt := (List.getElem?_eq_some_iff.1 hi).1
  have hlt' : i < S.length := by rw [← h.count]; exact hlt
  rw [len_of_word (m := m)]
  · exact h.sizes x hx u hu
  · intro a ha
    exact he a ⟨i, S[i], x, List.getElem?_eq_getElem hlt', hi, .inr ⟨u, hu, ha⟩⟩

theorem varsHave_cons {a : Nat} : VarsHave (v :: S) (x :: xs) a ↔ x.Has v.type.size a ∨ VarsHave S xs a := by
  constructor
  · rintro ⟨i, w, z, h1, h2, h3⟩
    cases i with
    | zero =>
      simp only [List.getElem?_cons_zero, Option.some.injEq] at h1 h2
      subst h1 h2
      exact .inl h3
    | succ i => exact .inr ⟨i, w, z, by simpa using h1, by simpa using h2, h3⟩
  · rintro (h | ⟨i, w, z, h1, h2, h3⟩)
    · exact ⟨0, v, x, rfl, rfl, h⟩
    · exact ⟨i + 1, w, z, by simpa using h1, by simpa using h2, h3⟩

/-- All vectors have the same size. -/
theorem VarsPlaced.len_eq (h : VarsPlaced S xs) {i j : Nat} {a b : View} (ha : xs[i]? = some (.vector a))
    (hb : xs[j]? = some (.vector b)) : a.len m = b.len m := by
  obtain ⟨h1, h2⟩ := h.vectors i j a b ha hb
  unfold View.len
  rw [h1, h2]

/-- A copy of all variables. -/
theorem copyVars_does (dbg : Bool) : ∀ (S : Schema) (xs ys : List VarView) (m : Mem), VarsValid m S xs → VarsValid m S ys →
    (∀ a, ¬ (VarsHave S xs a ∧ VarsHave S ys a)) →
    (∀ (i : Nat) (a b : View), xs[i]? = some (.vector a) → ys[i]? = some (.vector b) → b.sizePtr ≠ 0 → a.len m = 0 →
      b.len m = 0) →
    ∃ m', (∀ a, ¬ VarsHave S ys a → m' a = m a) ∧
      ((¬ (∀ (i : Nat) (x y : VarView), xs[i]? = some x → ys[i]? = some y → x.CanHold m y) ∧
          (copyVars dbg S xs ys).Does m .lengthError m') ∨
        (∀ (i : Nat) (x y : VarView), xs[i]? = some x → ys[i]? = some y → x.CanHold m y) ∧
          (copyVars dbg S xs ys).Does m (.ok ()) m' ∧
          ∀ (i : Nat) (v : Var) (x y : VarView), S[i]? = some v → xs[i]? = some x → ys[i]? = some y →
            x.Holds m m' v.type.size y) := by
  intro S
  induction S with
  | nil =>
    intro xs ys m hx hy _ _
    refine ⟨m, fun _ _ => rfl, .inr ⟨?_, by unfold copyVars; exact does_ret _ _, fun i v x y h => by simp at h⟩⟩
    intro i x y h
    have := hx.count
    simp only [List.length_nil, List.length_eq_zero_iff] at this
    subst this
    simp at h
  | cons v S ih =>
    intro xs ys m hx hy hsep hne
    obtain ⟨x, xs, rfl⟩ := List.exists_cons_of_length_eq_add_one (hx.count.trans (List.length_cons ..))
    obtain ⟨y, ys, rfl⟩ := List.exists_cons_of_length_eq_add_one (hy.count.trans (List.length_cons ..))
    obtain ⟨kx, tpos, jx⟩ := hx.head
    obtain ⟨ky, _, jy⟩ := hy.head
    have hsep0 : ∀ a, ¬ (x.Has v.type.size a ∧ y.Has v.type.size a) := fun a h =>
      hsep a ⟨varsHave_cons.2 (.inl h.1), varsHave_cons.2 (.inl h.2)⟩
    unfold copyVars
    rcases copyVar_does dbg tpos (kx.trans ky.symm) jx jy hsep0
      (fun a b ha hb => hne 0 a b (by simp [ha]) (by simp [hb])) with ⟨c1, c2⟩ | ⟨c1, m1, c2, c3, c4⟩
    · refine ⟨m, fun _ _ => rfl, .inl ⟨fun h => c1 (h 0 x y rfl rfl), ?_⟩⟩
      exact Does.bindErr c2 (fun _ => by simp) (fun _ => ())
    · -- the source is as it was
      have hxs : ∀ a, VarsHave (v :: S) (x :: xs) a → m1 a = m a := fun a ha => c4 a fun h =>
        hsep a ⟨ha, varsHave_cons.2 (.inl h)⟩
      have hxs' : ∀ a, VarsHave S xs a → m1 a = m a := fun a ha => hxs a (varsHave_cons.2 (.inr ha))
      -- other variables of the target
      have hpay : ∀ (j : Nat) (w : Var) (z : VarView), S[j]? = some w → ys[j]? = some z → ∀ a, z.HasPayload w.type.size a →
          ¬ y.Has v.type.size a := by
        intro j w z hw hz a ha h
        exact hy.apart (j + 1) 0 w v z y (by omega) (by simpa using hw) rfl (by simpa using hz) rfl a ⟨ha, h⟩
      have hother : ∀ (j : Nat) (z : VarView), ys[j]? = some z → (z.kind = .jagged ∨ y.kind = .jagged ∨ y.kind = .scalar) →
          ∀ a, z.HasWord a → ¬ y.Has v.type.size a := by
        intro j z hz hk a ha h
        have hj : j < S.length := by
          have := hy.tail.count
          have := (List.getElem?_eq_some_iff.1 hz).1
          omega
        rcases h with h | h
        · exact hy.apart 0 (j + 1) v S[j] y z (by omega) rfl (by simp [List.getElem?_eq_getElem hj]) rfl (by simpa using hz) a
            ⟨h, .inr ha⟩
        · rcases hk with hk | hk | hk
          · exact hy.words (j + 1) 0 z y (by omega) (by simpa using hz) rfl hk a ⟨ha, h⟩
          · exact hy.words 0 (j + 1) y z (by omega) rfl (by simpa using hz) hk a ⟨h, ha⟩
          · cases y with
            | scalar p =>
              obtain ⟨u, hu, h0, _⟩ := h
              simp only [VarView.rows, List.mem_singleton] at hu
              subst hu
              exact h0 rfl
            | vector => simp [VarView.kind] at hk
            | jagged => simp [VarView.kind] at hk
      -- sizes of other variables of the target
      have hlen : ∀ (j : Nat) (z : VarView), ys[j]? = some z → ∀ u ∈ z.rows, u.len m1 = u.len m ∨
          ∃ a b, x = .vector a ∧ y = .vector b ∧ z = .vector u ∧ u.sizePtr ≠ 0 ∧ u.len m1 = a.len m ∧
            a.len m ≤ u.capacity := by
        intro j z hz u hu
        have hun : (z.kind = .jagged ∨ y.kind = .jagged ∨ y.kind = .scalar) → u.len m1 = u.len m := fun hk =>
          len_of_word fun a ha => c4 a (hother j z hz hk a ⟨u, hu, ha⟩)
        cases z with
        | jagged k => exact .inl (hun (.inl rfl))
        | scalar q =>
          left
          simp only [VarView.rows, List.mem_singleton] at hu
          subst hu
          rfl
        | vector w =>
          simp only [VarView.rows, List.mem_singleton] at hu
          subst hu
          cases y with
          | jagged k => exact .inl (hun (.inr (.inl rfl)))
          | scalar q => exact .inl (hun (.inr (.inr rfl)))
          | vector b =>
            obtain ⟨e1, e2⟩ := hy.vectors 0 (j + 1) b u rfl (by simpa using hz)
            by_cases h0 : u.sizePtr = 0
            · left
              simp [View.len, h0]
            · right
              cases x with
              | scalar p => simp [VarView.kind] at kx ky; rw [← kx] at ky; simp at ky
              | jagged p => simp [VarView.kind] at kx ky; rw [← kx] at ky; simp at ky
              | vector a =>
                have hl := HoldsRow.len (c3 0 a b rfl rfl) (by rw [e1]; exact h0)
                refine ⟨a, b, rfl, rfl, rfl, h0, ?_, ?_⟩
                · rw [← hl]
                  unfold View.len
                  rw [e1, e2]
                · rw [← e2]
                  exact c1.2 0 a b rfl rfl
      have hys : VarsValid m1 S ys := by
        refine ⟨hy.tail.toVarsPlaced, fun z hz u hu => ?_⟩
        obtain ⟨j, hj⟩ := List.mem_iff_getElem?.1 hz
        rcases hlen j z hj u hu with h | ⟨a, b, _, _, _, _, h1, h2⟩
        · rw [h]
          exact hy.sizes z (List.mem_cons_of_mem _ hz) u hu
        · omega
      have hxlen : ∀ (i : Nat) (z : VarView), xs[i]? = some z → ∀ u ∈ z.rows, u.len m1 = u.len m := by
        intro i z hz u hu
        have hj : i < S.length := by
          have := hx.tail.count
          have := (List.getElem?_eq_some_iff.1 hz).1
          omega
        exact len_of_word fun a ha => hxs' a ⟨i, S[i], z, List.getElem?_eq_getElem hj, hz, .inr ⟨u, hu, ha⟩⟩
      have hcan : ∀ (i : Nat) (z w : VarView), xs[i]? = some z → ys[i]? = some w → (z.CanHold m1 w ↔ z.CanHold m w) := by
        intro i z w hz _
        unfold VarView.CanHold
        have : ∀ (k : Nat) (u : View), z.rows[k]? = some u → u.len m1 = u.len m := fun k u hu =>
          hxlen i z hz u (List.mem_of_getElem? hu)
        constructor
        · rintro ⟨h1, h2⟩
          refine ⟨h1, fun k a b ha hb => ?_⟩
          have h3 := h2 k a b ha hb
          rwa [this k a ha] at h3
        · rintro ⟨h1, h2⟩
          refine ⟨h1, fun k a b ha hb => ?_⟩
          rw [this k a ha]
          exact h2 k a b ha hb
      obtain ⟨m', f1, f2⟩ := ih xs ys m1 (hx.tail.congr hxs') hys
        (fun a h => hsep a ⟨varsHave_cons.2 (.inr h.1), varsHave_cons.2 (.inr h.2)⟩) (by
          intro i a b ha hb h0 hl
          rw [hxlen i _ ha a (by simp [VarView.rows])] at hl
          rcases hlen i _ hb b (by simp [VarView.rows]) with h | ⟨a', b', hx', _, _, _, h1, h2⟩
          · rw [h]
            exact hne (i + 1) a b (by simpa using ha) (by simpa using hb) h0 hl
          · rw [h1, ← hl]
            subst hx'
            exact hx.len_eq (i := 0) (j := i + 1) rfl (by simpa using ha))
      refine ⟨m', ?_, ?_⟩
      · intro a ha
        rw [varsHave_cons, not_or] at ha
        rw [f1 a ha.2, c4 a ha.1]
      · rcases f2 with ⟨g1, g2⟩ | ⟨g1, g2, g3⟩
        · left
          refine ⟨fun h => g1 fun i z w hz hw => (hcan i z w hz hw).2 (h (i + 1) z w (by simpa using hz) (by simpa using hw)), ?_⟩
          exact c2.bind g2
        · right
          refine ⟨?_, c2.bind g2, ?_⟩
          · intro i z w hz hw
            cases i with
            | zero =>
              simp only [List.getElem?_cons_zero, Option.some.injEq] at hz hw
              subst hz hw
              exact c1
            | succ i =>
              simp only [List.getElem?_cons_succ] at hz hw
              exact (hcan i z w hz hw).1 (g1 i z w hz hw)
          · intro i c z w hc hz hw
            cases i with
            | succ i =>
              simp only [List.getElem?_cons_succ] at hc hz hw
              intro k a b ha hb
              have ham : a ∈ z.rows := List.mem_of_getElem? ha
              refine HoldsRow.congr (g3 i c z w hc hz hw k a b ha hb) ?_ rfl
              exact (elems_congr (hx.sizes z (List.mem_cons_of_mem _ (List.mem_of_getElem? hz)) a ham) fun q hq =>
                hxs' q ⟨i, c, z, hc, hz, VarView.has_iff.2 ⟨a, ham, hq⟩⟩).symm
            | zero =>
              simp only [List.getElem?_cons_zero, Option.some.injEq] at hc hz hw
              obtain rfl : c = v := hc.symm
              obtain rfl : z = x := hz.symm
              obtain rfl : w = y := hw.symm
              intro k a b ha hb
              have hbm : b ∈ w.rows := List.mem_of_getElem? hb
              have hold := c3 k a b ha hb
              -- bytes of the elements
              have hnot : ∀ q, w.HasPayload c.type.size q → m' q = m1 q := by
                intro q hq
                refine f1 q ?_
                rintro ⟨j, d, z', hd, hz', h⟩
                exact hy.apart 0 (j + 1) c d w z' (by omega) rfl (by simpa using hd) rfl (by simpa using hz') q ⟨hq, h⟩
              have hlenb : b.len m' = b.len m1 := by
                by_cases hv : w.kind = .vector ∧ ∃ (j : Nat) (u : View), ys[j]? = some (.vector u)
                · obtain ⟨hv, j, u, hu⟩ := hv
                  cases w with
                  | scalar => simp [VarView.kind] at hv
                  | jagged => simp [VarView.kind] at hv
                  | vector b' =>
                    have : b' = b := by
                      cases k with
                      | zero => simpa [VarView.rows] using hb
                      | succ k => simp [VarView.rows] at hb
                    subst this
                    obtain ⟨e1, e2⟩ := hy.vectors 0 (j + 1) b' u rfl (by simpa using hu)
                    by_cases h0 : b'.sizePtr = 0
                    · simp [View.len, h0]
                    · have hl1 := HoldsRow.len hold h0
                      have hj : j < S.length := by
                        have := hy.tail.count
                        have := (List.getElem?_eq_some_iff.1 hu).1
                        omega
                      have hjx : j < xs.length := by rw [hx.tail.count]; exact hj
                      have hxj := List.getElem?_eq_getElem hjx
                      have hSj := List.getElem?_eq_getElem hj
                      have k1 := (hx.tail.each j _ _ hSj hxj).1
                      have k2 := (hy.tail.each j _ _ hSj hu).1
                      cases hxx : xs[j] with
                      | scalar => rw [hxx] at k1; rw [← k1] at k2; simp [VarView.kind] at k2
                      | jagged => rw [hxx] at k1; rw [← k1] at k2; simp [VarView.kind] at k2
                      | vector a' =>
                        rw [hxx] at hxj
                        have hl2 := HoldsRow.len (g3 j _ _ _ hSj hxj hu 0 a' u rfl rfl) (by rw [← e1]; exact h0)
                        have : b'.len m' = u.len m' := by unfold View.len; rw [e1, e2]
                        rw [this, hl2, hl1, hxlen j _ hxj a' (by simp [VarView.rows])]
                        have kz : z = .vector a := by
                          cases z with
                          | scalar => simp [VarView.kind] at kx ky; rw [← kx] at ky; simp at ky
                          | jagged => simp [VarView.kind] at kx ky; rw [← kx] at ky; simp at ky
                          | vector a'' =>
                            cases k with
                            | zero => simpa [VarView.rows] using ha
                            | succ k => simp [VarView.rows] at ha
                        subst kz
                        exact hx.len_eq (i := j + 1) (j := 0) (by simpa using hxj) rfl
                · refine len_of_word fun q hq => f1 q ?_
                  rintro ⟨j, d, z', hd, hz', h⟩
                  rcases h with h | h
                  · exact hy.apart (j + 1) 0 d c z' w (by omega) (by simpa using hd) rfl (by simpa using hz') rfl q
                      ⟨h, .inr ⟨b, hbm, hq⟩⟩
                  · by_cases hj : w.kind = .jagged
                    · exact hy.words 0 (j + 1) w z' (by omega) rfl (by simpa using hz') hj q ⟨⟨b, hbm, hq⟩, h⟩
                    · cases z' with
                      | jagged => exact hy.words (j + 1) 0 _ w (by omega) (by simpa using hz') rfl rfl q ⟨h, ⟨b, hbm, hq⟩⟩
                      | scalar p =>
                        obtain ⟨u, hu, h0, _⟩ := h
                        simp only [VarView.rows, List.mem_singleton] at hu
                        subst hu
                        exact h0 rfl
                      | vector u =>
                        cases hwk : w with
                        | scalar p =>
                          subst hwk
                          simp only [VarView.rows, List.mem_singleton] at hbm
                          subst hbm
                          exact hq.1 rfl
                        | jagged => exact hj (by rw [hwk]; rfl)
                        | vector => exact hv ⟨by rw [hwk]; rfl, j, u, hz'⟩
              refine HoldsRow.congr hold rfl ?_
              have hb1 : b.len m1 ≤ b.capacity := by
                by_cases h0 : b.sizePtr = 0
                · simp [View.len, h0]
                · rw [HoldsRow.len hold h0]
                  exact c1.2 k a b ha hb
              unfold View.elems
              rw [hlenb]
              apply List.map_congr_left
              intro q hq
              rw [List.mem_range] at hq
              refine bytesAt_congr fun r hr => hnot _ ⟨b, hbm, by omega, ?_⟩
              have := Nat.mul_le_mul_right c.type.size (show q + 1 ≤ b.capacity by omega)
              rw [Nat.succ_mul] at this
              omega

end Vecmem
