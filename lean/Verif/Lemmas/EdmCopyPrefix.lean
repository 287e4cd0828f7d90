import Verif.Lemmas.EdmCopy

/-! # Lemmas about copies of containers, variable by variable: which variables are copied -/

namespace Vecmem

open IntMath Prog

variable {m : Mem} {t : Nat} {x y : VarView}

/-- One variable, with anything in it. -/
theorem copyVar_cases (dbg : Bool) (ht : 0 < t) (hk : x.kind = y.kind) (hx : JagValid m t x.rows) (hy : JagValid m t y.rows)
    (hsep : ∀ a, ¬ (x.Has t a ∧ y.Has t a)) :
    (x.Nothing m ∧ (copyVar dbg t x y).Does m (.ok ()) m) ∨
    (¬ x.Nothing m ∧ ¬ x.CanHold m y ∧ (copyVar dbg t x y).Does m .lengthError m) ∨
    (¬ x.Nothing m ∧ x.CanHold m y ∧ ∃ m', (copyVar dbg t x y).Does m (.ok ()) m' ∧ x.Holds m m' t y ∧
      ∀ a, ¬ y.Has t a → m' a = m a) := by
  by_cases h0 : x.Nothing m
  · left
    refine ⟨h0, ?_⟩
    cases x with
    | scalar => cases h0
    | vector v =>
      cases y with
      | scalar w => simp [VarView.kind] at hk
      | jagged k => simp [VarView.kind] at hk
      | vector w =>
        have hs : v.Separate t w := by
          intro a ⟨h1, h2⟩
          exact hsep a ⟨VarView.has_iff.2 ⟨v, by simp [VarView.rows], h1⟩, VarView.has_iff.2 ⟨w, by simp [VarView.rows], h2⟩⟩
        have := copyView_does (hx.inner v (by simp [VarView.rows])) (hy.inner w (by simp [VarView.rows])) hs
        rw [if_pos (show v.len m = 0 from h0), if_pos (show v.len m = 0 from h0)] at this
        exact this.bind (does_ret _ _)
    | jagged j =>
      cases y with
      | scalar w => simp [VarView.kind] at hk
      | vector w => simp [VarView.kind] at hk
      | jagged k =>
        have h0 : j.views = [] := h0
        have : (copyViewJag dbg t j k).Does m (.ok false) m := by
          unfold copyViewJag
          simp only
          rw [if_neg (by simp [h0]), if_pos (by simp [h0])]
          exact does_ret _ _
        exact this.bind (does_ret _ _)
  · right
    rcases copyVar_does dbg ht hk hx hy hsep (fun v w hv _ _ hl => absurd (by rw [hv]; exact hl) h0) with h | h
    · exact .inl ⟨h0, h⟩
    · exact .inr ⟨h0, h⟩

variable {S : Schema} {xs ys : List VarView} {v : Var}

/-- The first `n` variables are copied, as far as there is anything to copy, and then the copy ends or fails. -/
structure Copied (dbg : Bool) (S : Schema) (xs ys : List VarView) (m : Mem) (n : Nat) (m' : Mem) : Prop where
  frame : ∀ a, (∀ (i : Nat) (v : Var) (x y : VarView), i < n → S[i]? = some v → xs[i]? = some x → ys[i]? = some y → ¬ x.Nothing m →
    ¬ y.Has v.type.size a) → m' a = m a
  holds : ∀ (i : Nat) (v : Var) (x y : VarView), i < n → S[i]? = some v → xs[i]? = some x → ys[i]? = some y → ¬ x.Nothing m →
    x.CanHold m y ∧ x.Holds m m' v.type.size y
  ends : (n = S.length ∧ (copyVars dbg S xs ys).Does m (.ok ()) m') ∨
    ∃ x y, n < S.length ∧ xs[n]? = some x ∧ ys[n]? = some y ∧ ¬ x.Nothing m ∧ ¬ x.CanHold m y ∧ (copyVars dbg S xs ys).Does m .lengthError m'

/-- A copy of all variables. -/
theorem copyVars_cases (dbg : Bool) : ∀ (S : Schema) (xs ys : List VarView) (m : Mem), VarsValid m S xs → VarsValid m S ys →
    (∀ a, ¬ (VarsHave S xs a ∧ VarsHave S ys a)) → ∃ n m', Copied dbg S xs ys m n m' := by
  intro S
  induction S with
  | nil =>
    intro xs ys m _ _ _
    refine ⟨0, m, fun _ _ => rfl, fun i _ _ _ h => by omega, .inl ⟨rfl, ?_⟩⟩
    unfold copyVars
    exact does_ret _ _
  | cons v S ih =>
    intro xs ys m hx hy hsep
    obtain ⟨x, xs, rfl⟩ := List.exists_cons_of_length_eq_add_one (hx.count.trans (List.length_cons ..))
    obtain ⟨y, ys, rfl⟩ := List.exists_cons_of_length_eq_add_one (hy.count.trans (List.length_cons ..))
    obtain ⟨kx, tpos, jx⟩ := hx.head
    obtain ⟨ky, _, jy⟩ := hy.head
    have hsep0 : ∀ a, ¬ (x.Has v.type.size a ∧ y.Has v.type.size a) := fun a h =>
      hsep a ⟨varsHave_cons.2 (.inl h.1), varsHave_cons.2 (.inl h.2)⟩
    rcases copyVar_cases dbg tpos (kx.trans ky.symm) jx jy hsep0 with ⟨c0, c2⟩ | ⟨c0, c1, c2⟩ | ⟨c0, c1, m1, c2, c3, c4⟩
    · -- nothing to copy
      obtain ⟨n, m', f⟩ := ih xs ys m hx.tail hy.tail
        (fun a h => hsep a ⟨varsHave_cons.2 (.inr h.1), varsHave_cons.2 (.inr h.2)⟩)
      refine ⟨n + 1, m', ?_, ?_, ?_⟩
      · intro a ha
        exact f.frame a fun i w z u hi hw hz hu => ha (i + 1) w z u (by omega) (by simpa using hw) (by simpa using hz) (by simpa using hu)
      · intro i w z u hi hw hz hu hn
        cases i with
        | zero =>
          simp only [List.getElem?_cons_zero, Option.some.injEq] at hz
          subst hz
          exact absurd c0 hn
        | succ i => exact f.holds i w z u (by omega) (by simpa using hw) (by simpa using hz) (by simpa using hu) hn
      · unfold copyVars
        rcases f.ends with ⟨e1, e2⟩ | ⟨z, u, e1, e2, e3, e4, e5, e6⟩
        · exact .inl ⟨by simp [e1], c2.bind e2⟩
        · exact .inr ⟨z, u, by simpa using e1, by simpa using e2, by simpa using e3, e4, e5, c2.bind e6⟩
    · refine ⟨0, m, fun _ _ => rfl, fun i _ _ _ h => by omega, .inr ⟨x, y, by simp, rfl, rfl, c0, c1, ?_⟩⟩
      unfold copyVars
      exact Does.bindErr c2 (fun _ => by simp) (fun _ => ())
    · -- the source is as it was
      have hxs : ∀ a, VarsHave (v :: S) (x :: xs) a → m1 a = m a := fun a ha => c4 a fun h =>
        hsep a ⟨ha, varsHave_cons.2 (.inl h)⟩
      have hxs' : ∀ a, VarsHave S xs a → m1 a = m a := fun a ha => hxs a (varsHave_cons.2 (.inr ha))
      -- other variables of the target
      have hpay : ∀ (j : Nat) (w : Var) (z : VarView), S[j]? = some w → ys[j]? = some z → ∀ a, z.HasPayload w.type.size a →
          ¬ y.Has v.type.size a := by
        intro j w z hw hz a ha h
        exact hy.apart (j + 1) 0 w v z y (by omega) (by simpa using hw) rfl (by simpa using hz) rfl a ⟨ha, h⟩
      have hother : ∀ (j : Nat) (z : VarView), ys[j]? = some z → (z.kind = .jagged ∨ y.kind = .jagged ∨ y.kind = .scalar) →
          ∀ a, z.HasWord a → ¬ y.Has v.type.size a := by
        intro j z hz hk a ha h
        have hj : j < S.length := by
          have := hy.tail.count
          have := (List.getElem?_eq_some_iff.1 hz).1
          omega
        rcases h with h | h
        · exact hy.apart 0 (j + 1) v S[j] y z (by omega) rfl (by simp [List.getElem?_eq_getElem hj]) rfl (by simpa using hz) a
            ⟨h, .inr ha⟩
        · rcases hk with hk | hk | hk
          · exact hy.words (j + 1) 0 z y (by omega) (by simpa using hz) rfl hk a ⟨ha, h⟩
          · exact hy.words 0 (j + 1) y z (by omega) rfl (by simpa using hz) hk a ⟨h, ha⟩
          · cases y with
            | scalar p =>
              obtain ⟨u, hu, h0, _⟩ := h
              simp only [VarView.rows, List.mem_singleton] at hu
              subst hu
              exact h0 rfl
            | vector => simp [VarView.kind] at hk
            | jagged => simp [VarView.kind] at hk
      -- sizes of other variables of the target
      have hlen : ∀ (j : Nat) (z : VarView), ys[j]? = some z → ∀ u ∈ z.rows, u.len m1 = u.len m ∨
          ∃ a b, x = .vector a ∧ y = .vector b ∧ z = .vector u ∧ u.sizePtr ≠ 0 ∧ u.len m1 = a.len m ∧
            a.len m ≤ u.capacity := by
        intro j z hz u hu
        have hun : (z.kind = .jagged ∨ y.kind = .jagged ∨ y.kind = .scalar) → u.len m1 = u.len m := fun hk =>
          len_of_word fun a ha => c4 a (hother j z hz hk a ⟨u, hu, ha⟩)
        cases z with
        | jagged k => exact .inl (hun (.inl rfl))
        | scalar q =>
          left
          simp only [VarView.rows, List.mem_singleton] at hu
          subst hu
          rfl
        | vector w =>
          simp only [VarView.rows, List.mem_singleton] at hu
          subst hu
          cases y with
          | jagged k => exact .inl (hun (.inr (.inl rfl)))
          | scalar q => exact .inl (hun (.inr (.inr rfl)))
          | vector b =>
            obtain ⟨e1, e2⟩ := hy.vectors 0 (j + 1) b u rfl (by simpa using hz)
            by_cases h0 : u.sizePtr = 0
            · left
              simp [View.len, h0]
            · right
              cases x with
              | scalar p => simp [VarView.kind] at kx ky; rw [← kx] at ky; simp at ky
              | jagged p => simp [VarView.kind] at kx ky; rw [← kx] at ky; simp at ky
              | vector a =>
                have hl := HoldsRow.len (c3 0 a b rfl rfl) (by rw [e1]; exact h0)
                refine ⟨a, b, rfl, rfl, rfl, h0, ?_, ?_⟩
                · rw [← hl]
                  unfold View.len
                  rw [e1, e2]
                · rw [← e2]
                  exact c1.2 0 a b rfl rfl
      have hys : VarsValid m1 S ys := by
        refine ⟨hy.tail.toVarsPlaced, fun z hz u hu => ?_⟩
        obtain ⟨j, hj⟩ := List.mem_iff_getElem?.1 hz
        rcases hlen j z hj u hu with h | ⟨a, b, _, _, _, _, h1, h2⟩
        · rw [h]
          exact hy.sizes z (List.mem_cons_of_mem _ hz) u hu
        · omega
      have hxlen : ∀ (i : Nat) (z : VarView), xs[i]? = some z → ∀ u ∈ z.rows, u.len m1 = u.len m := by
        intro i z hz u hu
        have hj : i < S.length := by
          have := hx.tail.count
          have := (List.getElem?_eq_some_iff.1 hz).1
          omega
        exact len_of_word fun a ha => hxs' a ⟨i, S[i], z, List.getElem?_eq_getElem hj, hz, .inr ⟨u, hu, ha⟩⟩
      have hcan : ∀ (i : Nat) (z w : VarView), xs[i]? = some z → ys[i]? = some w → (z.CanHold m1 w ↔ z.CanHold m w) := by
        intro i z w hz _
        unfold VarView.CanHold
        have : ∀ (k : Nat) (u : View), z.rows[k]? = some u → u.len m1 = u.len m := fun k u hu =>
          hxlen i z hz u (List.mem_of_getElem? hu)
        constructor
        · rintro ⟨h1, h2⟩
          refine ⟨h1, fun k a b ha hb => ?_⟩
          have h3 := h2 k a b ha hb
          rwa [this k a ha] at h3
        · rintro ⟨h1, h2⟩
          refine ⟨h1, fun k a b ha hb => ?_⟩
          rw [this k a ha]
          exact h2 k a b ha hb
      have hnot : ∀ (i : Nat) (z : VarView), xs[i]? = some z → (z.Nothing m1 ↔ z.Nothing m) := by
        intro i z hz
        cases z with
        | scalar => exact Iff.rfl
        | jagged => exact Iff.rfl
        | vector u =>
          show u.len m1 = 0 ↔ u.len m = 0
          rw [hxlen i _ hz u (by simp [VarView.rows])]
      obtain ⟨n, m', f⟩ := ih xs ys m1 (hx.tail.congr hxs') hys
        (fun a h => hsep a ⟨varsHave_cons.2 (.inr h.1), varsHave_cons.2 (.inr h.2)⟩)
      have f1 : ∀ a, (∀ (i : Nat) (w : Var) (z u : VarView), i < n → S[i]? = some w → xs[i]? = some z → ys[i]? = some u → ¬ z.Nothing m →
          ¬ u.Has w.type.size a) → m' a = m1 a := fun a ha =>
        f.frame a fun i w z u hi hw hz hu hn => ha i w z u hi hw hz hu fun h => hn ((hnot i z hz).2 h)
      have g3 : ∀ (i : Nat) (w : Var) (z u : VarView), i < n → S[i]? = some w → xs[i]? = some z → ys[i]? = some u → ¬ z.Nothing m →
          z.CanHold m1 u ∧ z.Holds m1 m' w.type.size u := fun i w z u hi hw hz hu hn =>
        f.holds i w z u hi hw hz hu fun h => hn ((hnot i z hz).1 h)
      refine ⟨n + 1, m', ?_, ?_, ?_⟩
      · intro a ha
        rw [f1 a fun i w z u hi hw hz hu => ha (i + 1) w z u (by omega) (by simpa using hw) (by simpa using hz) (by simpa using hu)]
        exact c4 a (ha 0 v x y (by omega) rfl rfl rfl c0)
      · intro i c z w hi hc hz hw hn
        cases i with
        | succ i =>
          simp only [List.getElem?_cons_succ] at hc hz hw
          obtain ⟨g4, g5⟩ := g3 i c z w (by omega) hc hz hw hn
          refine ⟨(hcan i z w hz hw).1 g4, ?_⟩
          intro k a b ha hb
          have ham : a ∈ z.rows := List.mem_of_getElem? ha
          refine HoldsRow.congr (g5 k a b ha hb) ?_ rfl
          exact (elems_congr (hx.sizes z (List.mem_cons_of_mem _ (List.mem_of_getElem? hz)) a ham) fun q hq =>
            hxs' q ⟨i, c, z, hc, hz, VarView.has_iff.2 ⟨a, ham, hq⟩⟩).symm
        | zero =>
          simp only [List.getElem?_cons_zero, Option.some.injEq] at hc hz hw
          obtain rfl : c = v := hc.symm
          obtain rfl : z = x := hz.symm
          obtain rfl : w = y := hw.symm
          refine ⟨c1, ?_⟩
          intro k a b ha hb
          have hbm : b ∈ w.rows := List.mem_of_getElem? hb
          have hold := c3 k a b ha hb
          -- bytes of the elements
          have hpayload : ∀ q, w.HasPayload c.type.size q → m' q = m1 q := by
            intro q hq
            refine f1 q ?_
            intro j d z' y' _ hd _ hy' _ h
            exact hy.apart 0 (j + 1) c d w y' (by omega) rfl (by simpa using hd) rfl (by simpa using hy') q ⟨hq, h⟩
          have hlenb : b.len m' = b.len m1 := by
            by_cases hv : w.kind = .vector ∧ ∃ (j : Nat) (u : View), j < n ∧ ys[j]? = some (.vector u) ∧ ∃ z', xs[j]? = some z' ∧ ¬ z'.Nothing m
            · obtain ⟨hv, j, u, hjn, hu, z', hz', hzn⟩ := hv
              cases w with
              | scalar => simp [VarView.kind] at hv
              | jagged => simp [VarView.kind] at hv
              | vector b' =>
                have : b' = b := by
                  cases k with
                  | zero => simpa [VarView.rows] using hb
                  | succ k => simp [VarView.rows] at hb
                subst this
                obtain ⟨e1, e2⟩ := hy.vectors 0 (j + 1) b' u rfl (by simpa using hu)
                by_cases h0 : b'.sizePtr = 0
                · simp [View.len, h0]
                · have hl1 := HoldsRow.len hold h0
                  have hj : j < S.length := by
                    have := hy.tail.count
                    have := (List.getElem?_eq_some_iff.1 hu).1
                    omega
                  have hSj := List.getElem?_eq_getElem hj
                  have k1 := (hx.tail.each j _ _ hSj hz').1
                  have k2 := (hy.tail.each j _ _ hSj hu).1
                  cases z' with
                  | scalar => rw [← k1] at k2; simp [VarView.kind] at k2
                  | jagged => rw [← k1] at k2; simp [VarView.kind] at k2
                  | vector a' =>
                    have hl2 := HoldsRow.len ((g3 j _ _ _ hjn hSj hz' hu hzn).2 0 a' u rfl rfl) (by rw [← e1]; exact h0)
                    have : b'.len m' = u.len m' := by unfold View.len; rw [e1, e2]
                    rw [this, hl2, hl1, hxlen j _ hz' a' (by simp [VarView.rows])]
                    have kz : z = .vector a := by
                      cases z with
                      | scalar => simp [VarView.kind] at kx ky; rw [← kx] at ky; simp at ky
                      | jagged => simp [VarView.kind] at kx ky; rw [← kx] at ky; simp at ky
                      | vector a'' =>
                        cases k with
                        | zero => simpa [VarView.rows] using ha
                        | succ k => simp [VarView.rows] at ha
                    subst kz
                    exact hx.len_eq (i := j + 1) (j := 0) (by simpa using hz') rfl
            · refine len_of_word fun q hq => f1 q ?_
              intro j d z' y' hjn hd hz' hy' hzn h
              rcases h with h | h
              · exact hy.apart (j + 1) 0 d c y' w (by omega) (by simpa using hd) rfl (by simpa using hy') rfl q
                  ⟨h, .inr ⟨b, hbm, hq⟩⟩
              · by_cases hj : w.kind = .jagged
                · exact hy.words 0 (j + 1) w y' (by omega) rfl (by simpa using hy') hj q ⟨⟨b, hbm, hq⟩, h⟩
                · cases y' with
                  | jagged => exact hy.words (j + 1) 0 _ w (by omega) (by simpa using hy') rfl rfl q ⟨h, ⟨b, hbm, hq⟩⟩
                  | scalar p =>
                    obtain ⟨u, hu, h0, _⟩ := h
                    simp only [VarView.rows, List.mem_singleton] at hu
                    subst hu
                    exact h0 rfl
                  | vector u =>
                    cases hwk : w with
                    | scalar p =>
                      subst hwk
                      simp only [VarView.rows, List.mem_singleton] at hbm
                      subst hbm
                      exact hq.1 rfl
                    | jagged => exact hj (by rw [hwk]; rfl)
                    | vector => exact hv ⟨by rw [hwk]; rfl, j, u, hjn, hy', z', hz', hzn⟩
          refine HoldsRow.congr hold rfl ?_
          have hb1 : b.len m1 ≤ b.capacity := by
            by_cases h0 : b.sizePtr = 0
            · simp [View.len, h0]
            · rw [HoldsRow.len hold h0]
              exact c1.2 k a b ha hb
          unfold View.elems
          rw [hlenb]
          apply List.map_congr_left
          intro q hq
          rw [List.mem_range] at hq
          refine bytesAt_congr fun r hr => hpayload _ ⟨b, hbm, by omega, ?_⟩
          have := Nat.mul_le_mul_right c.type.size (show q + 1 ≤ b.capacity by omega)
          rw [Nat.succ_mul] at this
          omega
      · unfold copyVars
        rcases f.ends with ⟨e1, e2⟩ | ⟨z, u, e1, e2, e3, e4, e5, e6⟩
        · exact .inl ⟨by simp [e1], c2.bind e2⟩
        · exact .inr ⟨z, u, by simpa using e1, by simpa using e2, by simpa using e3, fun h => e4 ((hnot n z e2).2 h),
            fun h => e5 ((hcan n z u e2 e3).2 h), c2.bind e6⟩

/-- Variables that are not copied are as they were, if the size that all vectors have is not the size of anything else. -/
theorem Copied.same {dbg : Bool} {n : Nat} {m' : Mem} (h : Copied dbg S xs ys m n m') (hx : VarsValid m S xs) (hy : VarsValid m S ys)
    (hvec : (∀ w, VarView.vector w ∈ ys → w.sizePtr = 0) ∨ ∀ y ∈ ys, y.kind ≠ .jagged) {i : Nat} {v : Var} {x y : VarView}
    (hv : S[i]? = some v) (hxi : xs[i]? = some x) (hyi : ys[i]? = some y) (hi : n ≤ i ∨ x.Nothing m) (a : Nat)
    (ha : y.Has v.type.size a) : m' a = m a := by
  refine h.frame a ?_
  intro k w z u hk hw hz hu hn hka
  have hne : i ≠ k := by
    rintro rfl
    rw [hxi] at hz
    cases hz
    rcases hi with hi | hi
    · omega
    · exact hn hi
  rcases ha with ha | ha
  · exact hy.apart i k v w y u hne hv hw hyi hu a ⟨ha, hka⟩
  rcases hka with hka | hka
  · exact hy.apart k i w v u y (Ne.symm hne) hw hv hu hyi a ⟨hka, .inr ha⟩
  have hscalar : ∀ p, ¬ (VarView.scalar p).HasWord a := by
    rintro p ⟨r, hr, h0, _⟩
    simp only [VarView.rows, List.mem_singleton] at hr
    subst hr
    exact h0 rfl
  cases y with
  | scalar p => exact hscalar p ha
  | jagged j => exact hy.words i k _ u hne hyi hu rfl a ⟨ha, hka⟩
  | vector b =>
    cases u with
    | scalar p => exact hscalar p hka
    | jagged j => exact hy.words k i _ _ (Ne.symm hne) hu hyi rfl a ⟨hka, ha⟩
    | vector b' =>
      have vec : ∀ {j : Nat} {s : Var} {z : VarView} {c : View}, S[j]? = some s → xs[j]? = some z → ys[j]? = some (.vector c) → ∃ d, z = .vector d := by
        intro j s z c hs hz hc
        have k1 := (hx.each j s z hs hz).1
        have k2 := (hy.each j s _ hs hc).1
        cases z with
        | scalar => rw [← k1] at k2; simp [VarView.kind] at k2
        | jagged => rw [← k1] at k2; simp [VarView.kind] at k2
        | vector d => exact ⟨d, rfl⟩
      obtain ⟨d, rfl⟩ := vec hv hxi hyi
      obtain ⟨d', rfl⟩ := vec hw hz hu
      have hl : d.len m = d'.len m := hx.len_eq hxi hz
      rcases hi with hi | hi
      · rcases hvec with hvec | hvec
        · obtain ⟨r, hr, h0, _⟩ := ha
          simp only [VarView.rows, List.mem_singleton] at hr
          subst hr
          exact h0 (hvec r (List.mem_of_getElem? hyi))
        · have hlt := (List.getElem?_eq_some_iff.1 hv).1
          rcases h.ends with ⟨e, _⟩ | ⟨z, u, e1, e2, e3, e4, e5, -⟩
          · omega
          · have hs := List.getElem?_eq_getElem e1
            refine e5 ?_
            cases u with
            | jagged => exact absurd rfl (hvec _ (List.mem_of_getElem? e3))
            | scalar p =>
              have k1 := (hx.each n _ z hs e2).1
              have k2 := (hy.each n _ _ hs e3).1
              cases z with
              | vector => rw [← k1] at k2; simp [VarView.kind] at k2
              | jagged => rw [← k1] at k2; simp [VarView.kind] at k2
              | scalar p' =>
                refine ⟨.inr rfl, ?_⟩
                intro k v w h1 h2
                have h1 := List.mem_of_getElem? h1
                have h2 := List.mem_of_getElem? h2
                simp only [VarView.rows, List.mem_singleton] at h1 h2
                subst h1 h2
                exact Nat.le_refl _
            | vector c =>
              obtain ⟨c', rfl⟩ := vec hs e2 e3
              have hc := (h.holds k w _ _ hk hw hz hu hn).1.2 0 d' b' rfl rfl
              have hcl : c'.len m = d'.len m := hx.len_eq e2 hz
              have hcc := (hy.vectors n k c b' e3 hu).2
              refine ⟨.inr rfl, ?_⟩
              intro k v w h1 h2
              have h1 := List.mem_of_getElem? h1
              have h2 := List.mem_of_getElem? h2
              simp only [VarView.rows, List.mem_singleton] at h1 h2
              subst h1 h2
              omega
      · refine hn ?_
        show d'.len m = 0
        rw [← hl]
        exact hi

/-- The copy of containers one variable after the other. -/
theorem copyEdm_cases {dbg : Bool} {src dst : EdmView} (hs : VarsValid m S src.vars)
    (hd : VarsValid m S dst.vars) (hsep : ∀ a, ¬ (VarsHave S src.vars a ∧ VarsHave S dst.vars a)) (h1 : oneBlock src dst = false) :
    ∃ n m', Copied dbg S src.vars dst.vars m n m' ∧
      ((n = S.length ∧ (copyEdm dbg S src dst).result m = (.ok (), m')) ∨ (n < S.length ∧ (copyEdm dbg S src dst).result m = (.lengthError, m'))) := by
  obtain ⟨n, m', h⟩ := copyVars_cases dbg S src.vars dst.vars m hs hd hsep
  refine ⟨n, m', h, ?_⟩
  have hdef : copyEdm dbg S src dst = (copyVars dbg S src.vars dst.vars).bind fun _ => retEvent := by
    unfold copyEdm
    rw [h1]
    rfl
  rw [hdef]
  rcases h.ends with ⟨e1, e2⟩ | ⟨_, _, e1, _, _, _, _, e2⟩
  · exact .inl ⟨e1, (e2.bindActs (acts_retEvent m')).result⟩
  · exact .inr ⟨e1, (e2.bindErr (f := fun _ => retEvent) (by simp [Res.Exc]) fun _ => 0).acts.result⟩

end Vecmem
