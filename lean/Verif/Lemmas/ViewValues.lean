import Verif.Spec.ViewValues
import Verif.Lemmas.BufferMoves
import Verif.Lemmas.CopyJagged

namespace Vecmem

/-! ## conversions and assignments are copies -/

theorem LeafView.convert_eq (l : LeafView) : l.convert = l := by cases l <;> rfl

theorem LeafView.assign_eq {l k : LeafView} : l.assign k = k := by
  cases l <;> cases k <;> rfl

theorem zipWith_assign : ∀ {l k : List LeafView}, l.length = k.length → List.zipWith LeafView.assign l k = k
  | [], [], _ => rfl
  | a :: l, b :: k, h => by
    rw [List.zipWith_cons_cons, LeafView.assign_eq, zipWith_assign (Nat.succ.inj h)]

theorem EdmRef.convert_eq (e : EdmRef) : e.convert = e := by
  obtain ⟨c, vs, a, b, d, f⟩ := e
  unfold EdmRef.convert
  rw [show List.map LeafView.convert vs = vs from by rw [show LeafView.convert = id from funext LeafView.convert_eq, List.map_id]]
  rfl

theorem EdmRef.assign_eq {e f : EdmRef} (h : e.vars.length = f.vars.length) : e.assign f = f := by
  unfold EdmRef.assign
  rw [zipWith_assign h]
  rfl

theorem ViewVal.construct_eq (a b : ViewType) (v : ViewVal) : v.construct a b = v := by
  unfold ViewVal.construct
  split
  · rfl
  · cases v with
    | leaf l => exact congrArg ViewVal.leaf l.convert_eq
    | edm e => exact congrArg ViewVal.edm e.convert_eq

/-- The value has the form that its type says. -/
def ViewVal.Formed : ViewType → ViewVal → Prop
  | .leaf k _, .leaf l => l.kind = k
  | .edm vars, .edm e => e.vars.map LeafView.kind = vars.map (·.1)
  | _, _ => False

/-- Lists of kinds are the same if their elements are. -/
theorem kinds_eq {vs ws : List (VarKind × QType)} (hl : vs.length = ws.length)
    (h : ∀ (i : Nat) (x y : VarKind × QType), vs[i]? = some x → ws[i]? = some y → x.1 = y.1) : vs.map (·.1) = ws.map (·.1) := by
  apply List.ext_getElem (by simpa using hl)
  intro i h1 h2
  simp only [List.length_map] at h1 h2
  rw [List.getElem_map, List.getElem_map]
  exact h i _ _ (List.getElem?_eq_getElem h1) (List.getElem?_eq_getElem h2)

theorem ViewVal.Formed.length {vars : List (VarKind × QType)} {e : EdmRef} (h : (ViewVal.edm e).Formed (.edm vars)) :
    e.vars.length = vars.length := by
  have := congrArg List.length (show e.vars.map LeafView.kind = vars.map (·.1) from h)
  simpa using this

theorem from_length {a b : List (VarKind × QType)} (h : (ViewType.edm a).from (.edm b) = true) : a.length = b.length := by
  simp only [ViewType.from, edmFrom, Bool.or_eq_true, beq_iff_eq, ViewType.edm.injEq, Bool.and_eq_true] at h
  rcases h with h | h
  · rw [h]
  · exact h.1.1

theorem ViewVal.assign_eq {a b : ViewType} {v w : ViewVal} (hf : a.from b = true) (hv : v.Formed a) (hw : w.Formed b) :
    v.assign a b w = w := by
  unfold ViewVal.assign
  split
  · rfl
  · cases v with
    | leaf l =>
      cases w with
      | leaf k => exact congrArg ViewVal.leaf LeafView.assign_eq
      | edm f => rfl
    | edm e =>
      cases w with
      | leaf k => rfl
      | edm f =>
        cases a with
        | leaf => cases hv
        | edm vs =>
          cases b with
          | leaf => cases hw
          | edm ws =>
            have h1 : e.vars.length = vs.length := hv.length
            have h2 : f.vars.length = ws.length := hw.length
            simp only [EdmRef.assign_eq (h1.trans ((from_length hf).trans h2.symm))]

/-! ## what the compiler allows -/

theorem leafFrom_iff {a b : VarKind × QType} :
    leafFrom a b = true ↔ a.1 = b.1 ∧ a.2.base = b.2.base ∧ (b.2.const = true → a.2.const = true) := by
  obtain ⟨k, ⟨t, c⟩⟩ := a
  obtain ⟨l, ⟨u, d⟩⟩ := b
  simp only [leafFrom, isSameNc, Bool.and_eq_true, Bool.or_eq_true, beq_iff_eq, QType.mk.injEq, Bool.not_eq_true']
  cases c <;> cases d <;> simp

theorem noMore_refl (a : ViewType) : a.NoMoreThan a :=
  ⟨rfl, fun i x y hx hy => by rw [hx] at hy; cases hy; exact ⟨rfl, rfl, id⟩⟩

theorem noMore_trans {a b c : ViewType} (h : a.NoMoreThan b) (k : b.NoMoreThan c) : a.NoMoreThan c := by
  refine ⟨h.1.trans k.1, fun i x z hx hz => ?_⟩
  have hi : i < b.leaves.length := by
    rw [k.1]; exact (List.getElem?_eq_some_iff.1 hz).1
  obtain ⟨p1, p2, p3⟩ := h.2 i x _ hx (List.getElem?_eq_getElem hi)
  obtain ⟨q1, q2, q3⟩ := k.2 i _ z (List.getElem?_eq_getElem hi) hz
  exact ⟨p1.trans q1, p2.trans q2, fun w => p3 (q3 w)⟩

theorem from_noMore {a b : ViewType} (h : a.from b = true) : a.NoMoreThan b := by
  by_cases hab : a = b
  · rw [hab]; exact noMore_refl b
  · unfold ViewType.from at h
    rw [Bool.or_eq_true, beq_iff_eq] at h
    replace h := h.resolve_left hab
    cases a with
    | leaf k t =>
      cases b with
      | leaf l u =>
        refine ⟨rfl, fun i x y hx hy => ?_⟩
        cases i with
        | zero =>
          simp only [ViewType.leaves, List.getElem?_cons_zero, Option.some.injEq] at hx hy
          subst hx hy
          exact leafFrom_iff.1 h
        | succ i => simp [ViewType.leaves] at hx
      | edm => cases h
    | edm vs =>
      cases b with
      | leaf => cases h
      | edm ws =>
        simp only [edmFrom, Bool.and_eq_true, beq_iff_eq] at h
        refine ⟨h.1.1, fun i x y hx hy => ?_⟩
        refine leafFrom_iff.1 ?_
        have hm : leafFrom x y ∈ List.zipWith leafFrom vs ws :=
          List.mem_of_getElem? (i := i) (by rw [List.getElem?_zipWith, show vs[i]? = some x from hx, show ws[i]? = some y from hy])
        exact List.all_eq_true.1 h.1.2 _ hm

/-- Views of types of which one may be made from the other are of the same form. -/
theorem from_formed {a b : ViewType} {v : ViewVal} (h : a.from b = true) (hv : v.Formed b) : v.Formed a := by
  have hn := from_noMore h
  cases b with
  | leaf l u =>
    cases a with
    | leaf k t =>
      cases v with
      | leaf w =>
        have := (hn.2 0 (k, t) (l, u) rfl rfl).1
        exact Eq.trans hv this.symm
      | edm => cases hv
    | edm vs =>
      simp [ViewType.from] at h
  | edm ws =>
    cases a with
    | leaf k t => simp [ViewType.from] at h
    | edm vs =>
      cases v with
      | leaf => cases hv
      | edm e => exact Eq.trans hv (kinds_eq hn.1 fun i x y hx hy => (hn.2 i x y hx hy).1).symm

/-- ... and show the same. -/
theorem from_shows {a b : ViewType} {v : ViewVal} (h : a.from b = true) (sz : Nat → Nat) (m : Mem) : v.shows sz m a = v.shows sz m b := by
  have hn := from_noMore h
  cases b with
  | leaf l u =>
    cases a with
    | leaf k t =>
      cases v with
      | leaf w =>
        have := (hn.2 0 (k, t) (l, u) rfl rfl).2.1
        show some (Shown.leaf (w.shows m (sz t.base))) = some (Shown.leaf (w.shows m (sz u.base)))
        rw [show t.base = u.base from this]
      | edm => rfl
    | edm vs => simp [ViewType.from] at h
  | edm ws =>
    cases a with
    | leaf k t => simp [ViewType.from] at h
    | edm vs =>
      cases v with
      | leaf => rfl
      | edm e =>
        simp only [ViewVal.shows]
        congr 2
        apply List.ext_getElem?
        intro i
        rw [List.getElem?_zipWith, List.getElem?_zipWith]
        have hl : vs.length = ws.length := hn.1
        by_cases hi : i < vs.length
        · have hj : i < ws.length := by omega
          rw [List.getElem?_eq_getElem hi, List.getElem?_eq_getElem hj]
          have := (hn.2 i vs[i] ws[i] (List.getElem?_eq_getElem hi) (List.getElem?_eq_getElem hj)).2.1
          cases e.vars[i]? with
          | none => rfl
          | some l => simp only [this]
        · rw [List.getElem?_eq_none (l := vs) (by omega), List.getElem?_eq_none (l := ws) (by omega)]

/-! ## views in memory -/

theorem readView_congr {m m' : Mem} {p : Nat} (h : ∀ x, p ≤ x → x < p + viewSize → m x = m' x) : readView m p = readView m' p := by
  unfold viewSize at h
  unfold readView
  rw [readLE_congr (fun x h1 h2 => h x (by omega) (by omega)), readLE_congr (a := p + 8) (fun x h1 h2 => h x (by omega) (by omega)),
    readLE_congr (a := p + 16) (fun x h1 h2 => h x (by omega) (by omega))]

theorem readView_inRange (m : Mem) (p : Nat) : (readView m p).InRange :=
  ⟨by have := readLE_lt m p 4; norm_num at this ⊢; exact this, by have := readLE_lt m (p + 8) 8; norm_num at this ⊢; exact this,
    by have := readLE_lt m (p + 16) 8; norm_num at this ⊢; exact this⟩

theorem readView_writeViews {m : Mem} {p : Nat} {v : View} (h : v.InRange) : readView (writeViews m p [v]) p = v := by
  obtain ⟨h1, h2, h3⟩ := h
  unfold readView writeViews writeViews
  rw [readLE_writeLE_other (a := p + 16) (b := p) (by omega), readLE_writeLE_other (a := p + 8) (b := p) (by omega),
    readLE_writeLE (by norm_num; omega), readLE_writeLE_other (a := p + 16) (b := p + 8) (by omega), readLE_writeLE (by norm_num; omega),
    readLE_writeLE (by norm_num; omega)]

theorem putBytes_other {m : Mem} {p x : Nat} {l : List UInt8} (h : ¬ (p ≤ x ∧ x < p + l.length)) : putBytes m p l x = m x := if_neg h

/-! ## views that do not give access to `Z` -/

variable {sz : Nat → Nat} {Z : Nat → Prop} {slots : Nat → Nat → Prop} {m m' : Mem}

/-- A view of a variable is as good as before if the views in memory are. -/
theorem leaf_clear_mono {b : Nat} {l : LeafView} (h : l.Clear sz Z slots m b)
    (hs : ∀ p, slots p b → (readView m p).Clear Z slots (sz b) → (readView m' p).Clear Z slots (sz b)) : l.Clear sz Z slots m' b := by
  cases l with
  | scalar p => exact h
  | vector v => exact h
  | jagged j => exact fun host i hi => ⟨(h host i hi).1, hs _ (h host i hi).1 (h host i hi).2⟩

theorem leaf_good_mono {k : VarKind × QType} {l : LeafView} (h : l.Good sz Z slots m k)
    (hs : ∀ p b, slots p b → (readView m p).Clear Z slots (sz b) → (readView m' p).Clear Z slots (sz b)) : l.Good sz Z slots m' k :=
  ⟨h.1, h.2.1, fun hc => leaf_clear_mono (h.2.2 hc) fun p hp => hs p _ hp⟩

/-- The view of a variable is good. -/
def ViewVal.Good (sz : Nat → Nat) (Z : Nat → Prop) (slots : Nat → Nat → Prop) (m : Mem) : ViewType → ViewVal → Prop
  | .leaf k t, .leaf l => l.Good sz Z slots m (k, t)
  | .edm vars, .edm e => e.Good sz Z slots m vars
  | _, _ => False

theorem ViewVal.Good.formed {a : ViewType} {v : ViewVal} (h : v.Good sz Z slots m a) : v.Formed a := by
  cases a with
  | leaf k t =>
    cases v with
    | leaf l => exact h.1
    | edm => cases h
  | edm vs =>
    cases v with
    | leaf => cases h
    | edm e =>
      apply List.ext_getElem (by simpa using h.1)
      intro i h1 h2
      simp only [List.length_map] at h1 h2
      rw [List.getElem_map, List.getElem_map]
      exact (h.2.1 i _ _ (List.getElem?_eq_getElem h2) (List.getElem?_eq_getElem h1)).1

theorem val_good_mono {a : ViewType} {v : ViewVal} (h : v.Good sz Z slots m a)
    (hs : ∀ p b, slots p b → (readView m p).Clear Z slots (sz b) → (readView m' p).Clear Z slots (sz b)) : v.Good sz Z slots m' a := by
  cases a with
  | leaf k t =>
    cases v with
    | leaf l => exact leaf_good_mono h hs
    | edm => cases h
  | edm vs =>
    cases v with
    | leaf => cases h
    | edm e => exact ⟨h.1, fun i k l hk hl => leaf_good_mono (h.2.1 i k l hk hl) hs, h.2.2⟩

theorem leaf_good_from {a b : VarKind × QType} {l : LeafView} (h : a.1 = b.1 ∧ a.2.base = b.2.base ∧ (b.2.const = true → a.2.const = true))
    (hl : l.Good sz Z slots m b) : l.Good sz Z slots m a :=
  ⟨hl.1.trans h.1.symm, hl.2.1, fun hc => by
    rw [h.2.1]
    refine hl.2.2 ?_
    cases hb : b.2.const with
    | false => rfl
    | true => rw [h.2.2 hb] at hc; cases hc⟩

theorem val_good_from {a b : ViewType} {v : ViewVal} (hf : a.from b = true) (h : v.Good sz Z slots m b) : v.Good sz Z slots m a := by
  have hn := from_noMore hf
  have hfm := from_formed hf h.formed
  cases b with
  | leaf l u =>
    cases a with
    | leaf k t =>
      cases v with
      | leaf w => exact leaf_good_from (hn.2 0 (k, t) (l, u) rfl rfl) h
      | edm => cases h
    | edm vs => simp [ViewType.from] at hf
  | edm ws =>
    cases a with
    | leaf k t => simp [ViewType.from] at hf
    | edm vs =>
      cases v with
      | leaf => cases h
      | edm e =>
        have hl : vs.length = ws.length := hn.1
        refine ⟨hfm.length, fun i k l hk hi => ?_, fun hc => h.2.2 ?_⟩
        · have hj : i < ws.length := hl ▸ (List.getElem?_eq_some_iff.1 hk).1
          exact leaf_good_from (hn.2 i k _ hk (List.getElem?_eq_getElem hj)) (h.2.1 i _ l (List.getElem?_eq_getElem hj) hi)
        · rw [List.any_eq_false] at hc ⊢
          intro y hy hyc
          obtain ⟨i, hi, rfl⟩ := List.getElem_of_mem hy
          have hj : i < vs.length := by omega
          exact hc _ (List.getElem_mem hj) ((hn.2 i vs[i] ws[i] (List.getElem?_eq_getElem hj) (List.getElem?_eq_getElem hi)).2.2 hyc)

/-- What holds in every state: all views are good, and `Z` is as it was. -/
structure ViewInv (sz : Nat → Nat) (Z : Nat → Prop) (slots : Nat → Nat → Prop) (m0 : Mem) (s : ViewVars) : Prop where
  good : ∀ x a v, s.vars.lookup x = some (a, v) → v.Good sz Z slots s.mem a
  same : ∀ x, Z x → s.mem x = m0 x

variable {m0 : Mem} {s : ViewVars}

theorem inv_put (h : ViewInv sz Z slots m0 s) {x : Nat} {a : ViewType} {v : ViewVal} (hv : v.Good sz Z slots s.mem a) :
    ViewInv sz Z slots m0 (s.put x a v) := by
  refine ⟨fun y b w hw => ?_, h.same⟩
  rw [show (s.put x a v).vars = putVar s.vars x (a, v) from rfl, lookup_putVar] at hw
  split at hw
  · cases hw; exact hv
  · exact h.good y b w hw

/-- Writing to memory that is neither `Z` nor holds views. -/
theorem inv_write (h : ViewInv sz Z slots m0 s) (hm : ∀ x, m' x ≠ s.mem x → ¬ Z x ∧ ¬ InSlot slots x) :
    ViewInv sz Z slots m0 { s with mem := m' } := by
  have heq : ∀ x, Z x ∨ InSlot slots x → m' x = s.mem x := fun x hx => by
    by_contra hc
    rcases hx with hx | hx
    · exact (hm x hc).1 hx
    · exact (hm x hc).2 hx
  refine ⟨fun x a v hv => val_good_mono (h.good x a v hv) fun p b hp hr => ?_, fun x hx => (heq x (.inl hx)).trans (h.same x hx)⟩
  rwa [← readView_congr (fun x h1 h2 => (heq x (.inr ⟨p, b, hp, h1, h2⟩)).symm)]

/-- Replacing a row. -/
theorem inv_slot (hs : SlotsApart Z slots) (h : ViewInv sz Z slots m0 s) {p b : Nat} {v : View} (hp : slots p b) (hr : v.InRange)
    (hv : v.Clear Z slots (sz b)) : ViewInv sz Z slots m0 { s with mem := writeViews s.mem p [v] } := by
  have hoth : ∀ x, ¬ (p ≤ x ∧ x < p + viewSize) → writeViews s.mem p [v] x = s.mem x := fun x hx =>
    writeViews_other (by simpa using hx)
  refine ⟨fun x a w hw => val_good_mono (h.good x a w hw) fun q c hq hc => ?_, fun x hx => ?_⟩
  · show (readView (writeViews s.mem p [v]) q).Clear Z slots (sz c)
    rcases hs.1 q p c b hq hp with ⟨h1, h2⟩ | h'
    · subst h1 h2
      rw [readView_writeViews hr]
      exact hv
    · rw [readView_congr (m' := s.mem)]
      · exact hc
      · intro y h1 h2
        refine hoth y fun hy => ?_
        rcases h' with h' | h' <;> omega
  · exact (hoth x fun hx' => hs.2 x hx ⟨p, b, hp, hx'.1, hx'.2⟩).trans (h.same x hx)

end Vecmem
