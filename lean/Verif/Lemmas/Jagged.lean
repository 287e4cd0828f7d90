import Verif.Spec.Jagged
import Verif.Lemmas.DeviceVector
import Verif.Spec.Iterators

/-! # Lemmas about jagged device vectors -/

namespace Vecmem

variable {α σ : Type}

theorem DV.step_fixed_ok {s : DV α} {l : List α} (h : s.HoldsFixed l) {op : DVOp α} (hk : op.keepsSize = true)
    (hf : op.Fits s.trivialDtor s.cap l) :
    ∃ r t l', s.step op = (.ok r, t) ∧ VecStep s.dflt s.cap l op r l' ∧ t.HoldsFixed l' ∧ s.SameKind t ∧
      t.sizeWord = s.sizeWord ∧ ∀ i, s.cap ≤ i → t.mem i = s.mem i := by
  obtain ⟨hs, hc, hw, hm⟩ := h
  have hsz : s.size = l.length := by simp [DV.size, hs, hc]
  have hkk : s.SameKind s := ⟨rfl, rfl, rfl, rfl, rfl, rfl⟩
  have hh : s.HoldsFixed l := ⟨hs, hc, hw, hm⟩
  cases op with
  | at_ i =>
    have hi : i < l.length := hf
    have := hm i hi
    rw [List.getElem?_eq_getElem hi] at this
    refine ⟨.val l[i], s, l, ?_, .at_ i (List.getElem?_eq_getElem hi), hh, hkk, rfl, fun _ _ => rfl⟩
    simp [DV.step, DV.at_, DV.deref, this, hsz, hi, Res.map]
  | index i =>
    have hi : i < l.length := hf
    have := hm i hi
    rw [List.getElem?_eq_getElem hi] at this
    refine ⟨.val l[i], s, l, ?_, .index i (List.getElem?_eq_getElem hi), hh, hkk, rfl, fun _ _ => rfl⟩
    simp [DV.step, DV.index, DV.deref, this, Res.map]
  | write c i v =>
    have hi : i < l.length := hf
    have := hm i hi
    rw [List.getElem?_eq_getElem hi] at this
    refine ⟨.unit, s.put i (some v), l.set i v, ?_, .write c i v, ⟨hs, by rw [List.length_set]; exact hc, hw, ?_⟩, hkk,
      rfl, ?_⟩
    · simp [DV.step, DV.write, this, hsz, hi, Res.map]
    · intro j hj
      rw [List.length_set] at hj
      show (if j = i then some v else s.mem j) = _
      rw [List.getElem?_set]
      by_cases hji : j = i
      · subst hji; simp [hi]
      · rw [if_neg hji, if_neg (fun e => hji e.symm), hm j hj]
    · intro j hj
      exact if_neg (by omega)
  | front =>
    have hl : l ≠ [] := hf
    have hpos : 0 < l.length := List.length_pos_iff.2 hl
    have := hm 0 hpos
    rw [List.getElem?_eq_getElem hpos] at this
    refine ⟨.val l[0], s, l, ?_, .front (by rw [List.head?_eq_getElem?, List.getElem?_eq_getElem hpos]), hh, hkk, rfl,
      fun _ _ => rfl⟩
    simp [DV.step, DV.front, DV.deref, this, hsz, hpos, Res.map]
  | back =>
    obtain ⟨w, hw', e⟩ := DV.back_ok hsz (by omega) hf hm
    exact ⟨.val w, s, l, by simp only [DV.step, e]; rfl, .back hw', hh, hkk, rfl, fun _ _ => rfl⟩
  | size => exact ⟨.num l.length, s, l, by simp only [DV.step, hsz], .size, hh, hkk, rfl, fun _ _ => rfl⟩
  | empty =>
    refine ⟨.bool l.isEmpty, s, l, ?_, .empty, hh, hkk, rfl, fun _ _ => rfl⟩
    have : (l.length == 0) = l.isEmpty := by cases l <;> rfl
    simp only [DV.step, hsz, this]
  | capacity => exact ⟨.num s.cap, s, l, rfl, .capacity, hh, hkk, rfl, fun _ _ => rfl⟩
  | iterate =>
    have := DV.readFrom_ok (s := s) l.length (pos := 0) (l := l) rfl (by
      intro i hi; rw [Nat.zero_add]; exact hm i hi)
    exact ⟨.vals l, s, l, by simp only [DV.step, DV.iterate, hsz, this]; rfl, .iterate, hh, hkk, rfl, fun _ _ => rfl⟩
  | iterateBack =>
    have := DV.readBack_ok (s := s) l hm
    exact ⟨.vals l.reverse, s, l, by simp only [DV.step, DV.iterateBack, hsz, this]; rfl, .iterateBack, hh, hkk, rfl,
      fun _ _ => rfl⟩
  | _ => simp [DVOp.keepsSize] at hk

/-- An operation on a vector of either kind. -/
theorem DV.step_any_ok {s : DV α} {l : List α} (h : s.HoldsAny l) {op : DVOp α}
    (hk : op.keepsSize = true ∨ s.hasSize = true) (hf : op.Fits s.trivialDtor s.cap l) :
    ∃ r t l', s.step op = (.ok r, t) ∧ VecStep s.dflt s.cap l op r l' ∧ t.HoldsAny l' ∧ s.SameKind t ∧
      (s.hasSize = false → t.sizeWord = s.sizeWord) ∧ ∀ i, s.cap ≤ i → t.mem i = s.mem i := by
  rcases h with h | h
  · obtain ⟨r, t, l', h1, h2, h3, h4, h5, h6⟩ := DV.step_fixed_ok h (hk.resolve_right (by simp [h.1])) hf
    exact ⟨r, t, l', h1, h2, .inl h3, h4, fun _ => h5, h6⟩
  · obtain ⟨r, t, l', h1, h2, h3, h4⟩ := DV.step_ok h hf
    refine ⟨r, t, l', h1, h2, .inr ⟨h3.resizable, h3.size, h3.fits, h3.word, h3.elems, h3.raw, fun _ _ => rfl⟩, h4,
      fun e => ?_, ?_⟩
    · rw [h.resizable] at e; cases e
    · intro i hi
      exact h3.outside i (by rw [h4.2.2.2.2.1]; exact hi)

/-- What a vector holds depends on its payload and size only. -/
theorem DV.HoldsAny.congr {s t : DV α} {l : List α} (h : s.HoldsAny l) (hk : s.SameKind t)
    (hs : s.hasSize = true → t.sizeWord = s.sizeWord) (hm : ∀ i, i < s.cap → t.mem i = s.mem i) : t.HoldsAny l := by
  obtain ⟨k1, k2, k3, k4, k5, k6⟩ := hk
  rcases h with ⟨h1, h2, h3, h4⟩ | h
  · refine .inl ⟨k6.trans h1, k5.trans h2, by rw [k5]; exact h3, fun i hi => ?_⟩
    rw [hm i (by omega), h4 i hi]
  · refine .inr ⟨k6.trans h.resizable, (hs h.resizable).trans h.size, by rw [k5]; exact h.fits, by rw [k5]; exact h.word,
      ?_, ?_, fun _ _ => rfl⟩
    · intro i hi
      have := h.fits
      rw [hm i (by omega), h.elems i hi]
    · intro ht i h1 h2
      rw [k5] at h2
      rw [hm i h2, h.raw (k2 ▸ ht) i h1 h2]

theorem store_row_mem {k : JKind α} (hk : 0 < k.size) (m : JMem α) (v : View) (d : DV α) (i : Nat) :
    ((m.store k v d).row k v).mem i = d.mem i := by
  show (if v.ptr ≤ v.ptr + k.size * i ∧ (v.ptr + k.size * i - v.ptr) % k.size = 0 then
    d.mem ((v.ptr + k.size * i - v.ptr) / k.size) else _) = _
  rw [Nat.add_sub_cancel_left, Nat.mul_mod_right, Nat.mul_div_cancel_left _ hk, if_pos ⟨by omega, rfl⟩]

theorem store_other_mem {k : JKind α} (hk : 0 < k.size) {m : JMem α} {v w : View} {d : DV α} (ha : v.Apart k.size w)
    (hd : ∀ i, v.capacity ≤ i → d.mem i = (m.row k v).mem i) {q : Nat} (hq : q < w.capacity) :
    ((m.store k v d).row k w).mem q = (m.row k w).mem q := by
  show (if v.ptr ≤ w.ptr + k.size * q ∧ (w.ptr + k.size * q - v.ptr) % k.size = 0 then
    d.mem ((w.ptr + k.size * q - v.ptr) / k.size) else m.cells (w.ptr + k.size * q)) = m.cells (w.ptr + k.size * q)
  split
  · rename_i h
    obtain ⟨h1, h2⟩ := h
    obtain ⟨c, hc⟩ := Nat.dvd_of_mod_eq_zero h2
    rw [hc, Nat.mul_div_cancel_left _ hk]
    have haddr : w.ptr + k.size * q = v.ptr + k.size * c := by omega
    by_cases hcap : v.capacity ≤ c
    · rw [hd c hcap]
      show m.cells (v.ptr + k.size * c) = _
      rw [haddr]
    · have e1 : k.size * c + k.size ≤ k.size * v.capacity := by
        rw [← Nat.mul_succ]; exact Nat.mul_le_mul_left _ (by omega)
      have e2 : k.size * q + k.size ≤ k.size * w.capacity := by
        rw [← Nat.mul_succ]; exact Nat.mul_le_mul_left _ (by omega)
      rcases ha.1 with h | h | h | h <;> omega
  · rfl

theorem access_ok {k : JKind α} {m : JMem α} {j : JView} {rows} (h : JHolds k m j rows) {x : JView.Access}
    (hx : x.pos rows.length < rows.length) {v : View} (hv : m.views (j.ptr + viewSize * x.pos rows.length) = some v) :
    j.access k.dbg m x = .ok v := by
  have hs := h.size
  have hw := h.word
  have hpos : 0 < rows.length := by omega
  cases x with
  | at_ i =>
    have hi : i < rows.length := hx
    have hv' : m.views (j.ptr + viewSize * i) = some v := hv
    simp [JView.access, JView.at_, JView.index, hs, hi, hv']
  | index i =>
    have hv' : m.views (j.ptr + viewSize * i) = some v := hv
    simp [JView.access, JView.index, hv']
  | front =>
    have hv' : m.views (j.ptr + viewSize * 0) = some v := hv
    rw [JView.access, JView.front, if_neg (by simp [hs, hpos]), JView.index, hv']
  | back =>
    have hv' : m.views (j.ptr + viewSize * (rows.length - 1)) = some v := hv
    have hb : (rows.length + 2 ^ 64 - 1) % 2 ^ 64 = rows.length - 1 := by omega
    rw [JView.access, JView.back, if_neg (by simp [hs, hpos]), JView.index, hs, hb, hv']

theorem jstep_ok {k : JKind α} {m : JMem α} {j : JView} {rows} (h : JHolds k m j rows) {x : JView.Access} {op : DVOp α}
    {l : List α} (hl : rows[x.pos rows.length]? = some l) {v : View}
    (hv : m.views (j.ptr + viewSize * x.pos rows.length) = some v)
    (hk : op.keepsSize = true ∨ v.sizePtr ≠ 0) (hf : op.Fits k.trivialDtor v.capacity l) :
    ∃ r m' l', j.step k m x op = (.ok r, m') ∧ VecStep k.dflt v.capacity l op r l' ∧
      JHolds k m' j (rows.set (x.pos rows.length) l') ∧ m'.views = m.views := by
  obtain ⟨hx, -⟩ := List.getElem?_eq_some_iff.1 hl
  obtain ⟨v', hv', hrow⟩ := h.row _ _ hl
  rw [hv] at hv'
  cases hv'
  obtain ⟨r, t, l', e, h1, h2, h3, h4, h5⟩ := DV.step_any_ok hrow (op := op) (by
    rcases hk with hk | hk
    · exact .inl hk
    · exact .inr (by simp [JMem.row, hk])) hf
  obtain ⟨k1, k2, k3, k4, k5, k6⟩ := h3
  refine ⟨r, m.store k v t, l', ?_, h1, ?_, rfl⟩
  · rw [JView.step, access_ok h hx hv]
    simp only [e]
  · refine ⟨h.elemSize, by rw [List.length_set]; exact h.size, by rw [List.length_set]; exact h.word, ?_, ?_⟩
    · intro i q hi
      by_cases hix : x.pos rows.length = i
      · subst hix
        rw [List.getElem?_set_self hx] at hi
        cases hi
        refine ⟨v, hv, h2.congr ⟨k1.symm, k2.symm, k3.symm, k4.symm, k5.symm, k6.symm⟩ ?_ ?_⟩
        · intro hs
          have : v.sizePtr ≠ 0 := by
            rw [k6] at hs
            simpa [JMem.row] using hs
          show (if v.sizePtr ≠ 0 ∧ v.sizePtr = v.sizePtr then t.sizeWord else _) = _
          rw [if_pos ⟨this, rfl⟩]
        · intro i _
          exact store_row_mem h.elemSize m v t i
      · rw [List.getElem?_set_ne hix] at hi
        obtain ⟨w, hw, hwrow⟩ := h.row i q hi
        obtain ⟨hir, -⟩ := List.getElem?_eq_some_iff.1 hi
        have ha := h.apart _ _ v w hx hir hix hv hw
        refine ⟨w, hw, hwrow.congr ⟨rfl, rfl, rfl, rfl, rfl, rfl⟩ ?_ ?_⟩
        · intro _
          show (if v.sizePtr ≠ 0 ∧ w.sizePtr = v.sizePtr then t.sizeWord else m.sizes w.sizePtr) = _
          rw [if_neg]
          · rfl
          · rintro ⟨h1, h2⟩
            exact ha.2 h1 h2.symm
        · intro q hq
          exact store_other_mem h.elemSize ha h5 hq
    · intro i i' a b hi hi' hne ha hb
      rw [List.length_set] at hi hi'
      exact h.apart i i' a b hi hi' hne ha hb

theorem initViews_ok (n : Nat) : ∀ (m : JMem α) (p i : Nat),
    (initViews m p i n).cells = m.cells ∧ (initViews m p i n).sizes = m.sizes := by
  induction n with
  | zero => intros; exact ⟨rfl, rfl⟩
  | succ n ih => intro m p i; exact ih _ _ _

theorem fillViews_ok (vs : List HostVec) : ∀ (m : JMem α) (p i : Nat),
    (fillViews m p i vs).cells = m.cells ∧ (fillViews m p i vs).sizes = m.sizes ∧
    (∀ a, (∀ q, q < vs.length → a ≠ p + viewSize * (i + q)) → (fillViews m p i vs).views a = m.views a) ∧
    ∀ q v, vs[q]? = some v → (fillViews m p i vs).views (p + viewSize * (i + q)) = some ⟨v.size % 2 ^ 32, 0, v.data⟩ := by
  induction vs with
  | nil => intro m p i; exact ⟨rfl, rfl, fun _ _ => rfl, fun q v h => by simp at h⟩
  | cons v vs ih =>
    intro m p i
    obtain ⟨h1, h2, h3, h4⟩ := ih (m.putView (p + viewSize * i) ⟨v.size % 2 ^ 32, 0, v.data⟩) p (i + 1)
    refine ⟨h1, h2, ?_, ?_⟩
    · intro a ha
      rw [fillViews, h3 a]
      · have := ha 0 (by simp)
        exact if_neg this
      · intro q hq
        have := ha (q + 1) (by simpa using hq)
        rwa [show i + 1 + q = i + (q + 1) by omega]
    · intro q w hq
      cases q with
      | zero =>
        simp only [List.getElem?_cons_zero, Option.some.injEq] at hq
        subst hq
        rw [fillViews, h3]
        · exact if_pos rfl
        · intro q _
          simp only [viewSize]
          omega
      | succ q =>
        rw [List.getElem?_cons_succ] at hq
        rw [fillViews, show i + (q + 1) = i + 1 + q by omega]
        exact h4 q w hq

/-- Sizes of the views and rows. -/
theorem getJagged_holds {k : JKind α} (hk : 0 < k.size) {up : MR σ} {u u' : σ} {m m' : JMem α} {vs : List HostVec}
    {rows : List (List α)} (h : HostHolds k m vs rows) (h32 : ∀ l ∈ rows, l.length < 2 ^ 32)
    (hn : rows.length < 2 ^ 64) {b : UniqueAlloc} {j : JView}
    (e : getJagged up u m vs = (.ok (b, j), u', m')) :
    JHolds k m' j rows ∧ m'.cells = m.cells ∧ ∀ i v, vs[i]? = some v →
      m'.views (j.ptr + viewSize * i) = some ⟨v.size % 2 ^ 32, 0, v.data⟩ := by
  unfold getJagged at e
  cases hr : allocOuter up u vs.length with
  | mk r u1 =>
    rw [hr] at e
    cases r with
    | ok b' =>
      simp only [Prod.mk.injEq, Res.ok.injEq] at e
      obtain ⟨⟨rfl, rfl⟩, rfl, rfl⟩ := e
      obtain ⟨i1, i2⟩ := initViews_ok vs.length m b'.ptr 0
      obtain ⟨f1, f2, f3, f4⟩ := fillViews_ok vs (initViews m b'.ptr 0 vs.length) b'.ptr 0
      simp only [Nat.zero_add] at f4
      have hview : ∀ i v, vs[i]? = some v →
          (fillViews (initViews m b'.ptr 0 vs.length) b'.ptr 0 vs).views (b'.ptr + viewSize * i) =
            some ⟨v.size % 2 ^ 32, 0, v.data⟩ := fun i v hv => f4 i v hv
      refine ⟨⟨hk, h.length, hn, ?_, ?_⟩, f1.trans i1, hview⟩
      · intro i l hl
        obtain ⟨hi, rfl⟩ := List.getElem?_eq_some_iff.1 hl
        have hiv : i < vs.length := by rw [h.length]; exact hi
        have hvs : vs[i]? = some vs[i] := List.getElem?_eq_getElem hiv
        obtain ⟨e1, e2⟩ := h.elems i _ _ hvs hl
        have h3 := h32 _ (List.getElem_mem hi)
        have e3 : vs[i].size % 2 ^ 32 = rows[i].length := by rw [e1, Nat.mod_eq_of_lt h3]
        refine ⟨_, hview i _ hvs, .inl ⟨rfl, e3, ?_, ?_⟩⟩
        · show vs[i].size % 2 ^ 32 < 2 ^ 32
          omega
        · intro q hq
          show (fillViews (initViews m b'.ptr 0 vs.length) b'.ptr 0 vs).cells (vs[i].data + k.size * q) = _
          rw [f1, i1]
          exact e2 q hq
      · intro i i' v w hi hi' hne hv hw
        have hiv : i < vs.length := by rw [h.length]; exact hi
        have hiv' : i' < vs.length := by rw [h.length]; exact hi'
        have h1 : vs[i]? = some vs[i] := List.getElem?_eq_getElem hiv
        have h2 : vs[i']? = some vs[i'] := List.getElem?_eq_getElem hiv'
        have hr1 : rows[i]? = some rows[i] := List.getElem?_eq_getElem hi
        have hr2 : rows[i']? = some rows[i'] := List.getElem?_eq_getElem hi'
        rw [hview i _ h1] at hv
        rw [hview i' _ h2] at hw
        cases hv
        cases hw
        have s1 := (h.elems i _ _ h1 hr1).1
        have s2 := (h.elems i' _ _ h2 hr2).1
        have b1 := h32 _ (List.getElem_mem hi)
        have b2 := h32 _ (List.getElem_mem hi')
        have m1 : vs[i].size % 2 ^ 32 = vs[i].size := Nat.mod_eq_of_lt (by omega)
        have m2 : vs[i'].size % 2 ^ 32 = vs[i'].size := Nat.mod_eq_of_lt (by omega)
        refine ⟨?_, fun e => absurd rfl e⟩
        have := h.apart i i' _ _ hne h1 h2
        simp only [m1, m2]
        exact this
    | _ => simp [Res.map] at e

end Vecmem
