import Verif.Lemmas.ViewValues

namespace Vecmem

variable {sz : Nat → Nat} {Z : Nat → Prop} {slots : Nat → Nat → Prop} {m0 : Mem} {s s' : ViewVars} {b : Bool}

/-! ## what an accepted step has done -/

theorem exec_init {x y : Nat} {a : ViewType} (he : s.exec sz (.init x a y) = .ok b s') :
    ∃ c v, s.vars.lookup y = some (c, v) ∧ a.from c = true ∧ s' = s.put x a v := by
  simp only [ViewVars.exec] at he
  split at he
  · cases he
  · next c v hl =>
    split at he
    · next hf =>
      simp only [ViewVars.made, ViewRes.ok.injEq] at he
      exact ⟨c, v, hl, hf, by rw [← he.2, ViewVal.construct_eq]⟩
    · cases he

theorem exec_assign {x y : Nat} (he : s.exec sz (.assign x y) = .ok b s') :
    ∃ a w c v, s.vars.lookup x = some (a, w) ∧ s.vars.lookup y = some (c, v) ∧ a.from c = true ∧ s' = s.put x a (w.assign a c v) := by
  simp only [ViewVars.exec] at he
  split at he
  · next a w c v hx hy =>
    split at he
    · next hf =>
      cases he
      exact ⟨a, w, c, v, hx, hy, hf, rfl⟩
    · cases he
  · cases he

theorem exec_equal {x y : Nat} (he : s.exec sz (.equal x y) = .ok b s') :
    s' = s ∧ ((∃ t u v w, s.vars.lookup x = some (.leaf .vector t, .leaf (.vector v)) ∧
        s.vars.lookup y = some (.leaf .vector u, .leaf (.vector w)) ∧ t.base = u.base ∧ b = v.eq w) ∨
      ∃ t u v w, s.vars.lookup x = some (.leaf .jagged t, .leaf (.jagged v)) ∧
        s.vars.lookup y = some (.leaf .jagged u, .leaf (.jagged w)) ∧ t.base = u.base ∧ b = v.eq w) := by
  simp only [ViewVars.exec] at he
  split at he
  · next t v u w hx hy =>
    split at he
    · next ht => cases he; exact ⟨rfl, .inl ⟨t, u, v, w, hx, hy, ht, rfl⟩⟩
    · cases he
  · next t v u w hx hy =>
    split at he
    · next ht => cases he; exact ⟨rfl, .inr ⟨t, u, v, w, hx, hy, ht, rfl⟩⟩
    · cases he
  · cases he
  · cases he

theorem exec_get {x y k : Nat} {a : ViewType} (he : s.exec sz (.get x a y k) = .ok b s') :
    ∃ vars e kind t l, s.vars.lookup y = some (.edm vars, .edm e) ∧ vars[k]? = some (kind, t) ∧ e.vars[k]? = some l ∧
      a.from (.leaf kind t) = true ∧ s' = s.put x a (.leaf l) := by
  simp only [ViewVars.exec] at he
  split at he
  · next vars e hy =>
    split at he
    · next kind t l hk hl =>
      split at he
      · next hf =>
        simp only [ViewVars.made, ViewRes.ok.injEq] at he
        exact ⟨vars, e, kind, t, l, hy, hk, hl, hf, by rw [← he.2, ViewVal.construct_eq]⟩
      · cases he
    · cases he
  · cases he
  · cases he

theorem exec_set {x k y : Nat} (he : s.exec sz (.set x k y) = .ok b s') :
    ∃ vars e kind t l c, s.vars.lookup x = some (.edm vars, .edm e) ∧ s.vars.lookup y = some (c, .leaf l) ∧ vars[k]? = some (kind, t) ∧
      (ViewType.leaf kind t).from c = true ∧ s' = s.put x (.edm vars) (.edm { e with vars := e.vars.set k l }) := by
  simp only [ViewVars.exec] at he
  split at he
  · next vars e c l hx hy =>
    split at he
    · next kind t l' hk hl =>
      split at he
      · next hf =>
        simp only [ViewRes.ok.injEq] at he
        refine ⟨vars, e, kind, t, l, c, hx, hy, hk, hf, ?_⟩
        rw [← he.2]
        congr 3
        rw [LeafView.assign_eq, ite_self]
      · cases he
    · cases he
  · cases he
  · cases he

theorem exec_row {x y i : Nat} {t : QType} {host : Bool} (he : s.exec sz (.row x t y host i) = .ok b s') :
    ∃ u j, s.vars.lookup y = some (.leaf .jagged u, .leaf (.jagged j)) ∧ (ViewType.leaf .vector t).from (.leaf .vector u) = true ∧
      i < j.size ∧ s' = s.put x (.leaf .vector t) (.leaf (.vector (readView s.mem (j.slot host i)))) := by
  simp only [ViewVars.exec] at he
  split at he
  · next u j hy =>
    split at he
    · next hf =>
      split at he
      · next hi =>
        simp only [ViewVars.made, ViewRes.ok.injEq] at he
        exact ⟨u, j, hy, hf, hi, by rw [← he.2, ViewVal.construct_eq]⟩
      · cases he
    · cases he
  · cases he
  · cases he

theorem exec_setRow {x i y : Nat} {host : Bool} (he : s.exec sz (.setRow x host i y) = .ok b s') :
    ∃ t j u v, s.vars.lookup x = some (.leaf .jagged t, .leaf (.jagged j)) ∧ s.vars.lookup y = some (.leaf .vector u, .leaf (.vector v)) ∧
      (ViewType.leaf .vector t).from (.leaf .vector u) = true ∧ i < j.size ∧
      s' = { s with mem := writeViews s.mem (j.slot host i) [v] } := by
  simp only [ViewVars.exec] at he
  split at he
  · next t j u v hx hy =>
    split at he
    · next hf =>
      split at he
      · next hi =>
        simp only [ViewRes.ok.injEq] at he
        refine ⟨t, j, u, v, hx, hy, hf, hi, ?_⟩
        rw [← he.2, show (if t = u then v else (readView s.mem (j.slot host i)).assign v) = v from by split <;> rfl]
      · cases he
    · cases he
  · cases he
  · cases he

/-- Steps that write elements, sizes and blocks of bytes change memory only, and only what a view for writing gives access to. -/
theorem exec_writes {op : ViewOp} (ho : (∃ x i e, op = .write x i e) ∨ (∃ x n, op = .writeSize x n) ∨ ∃ x p i c, op = .writePart x p i c)
    (he : s.exec sz op = .ok b s') :
    ∃ m', s' = { s with mem := m' } ∧
      ((∃ x t p, s.vars.lookup x = some (.leaf .scalar t, .leaf (.scalar p)) ∧ t.const = false ∧ p ≠ 0 ∧
          ∀ z, m' z ≠ s.mem z → p ≤ z ∧ z < p + sz t.base) ∨
        (∃ x t v, s.vars.lookup x = some (.leaf .vector t, .leaf (.vector v)) ∧ t.const = false ∧
          ∀ z, m' z ≠ s.mem z → v.Has (sz t.base) z) ∨
        ∃ x vars e p, s.vars.lookup x = some (.edm vars, .edm e) ∧ vars.any (·.2.const) = false ∧
          ∀ z, m' z ≠ s.mem z → (e.part p).HasPayload 1 z) := by
  rcases ho with ⟨x, i, e, rfl⟩ | ⟨x, n, rfl⟩ | ⟨x, p, i, c, rfl⟩
  · simp only [ViewVars.exec] at he
    split at he
    · next t p hx =>
      split at he
      · cases he
      · next hc =>
        split at he
        · next hi =>
          cases he
          refine ⟨_, rfl, .inl ⟨x, t, p, hx, by simpa using hc, hi.1, fun z hz => ?_⟩⟩
          by_contra hn
          exact hz (putBytes_other (by rw [hi.2.2]; exact hn))
        · cases he
    · next t v hx =>
      split at he
      · cases he
      · next hc =>
        split at he
        · next hi =>
          cases he
          refine ⟨_, rfl, .inr (.inl ⟨x, t, v, hx, by simpa using hc, fun z hz => .inl ?_⟩)⟩
          by_contra hn
          refine hz (putBytes_other fun hh => hn ?_)
          rw [hi.2] at hh
          have : (i + 1) * sz t.base ≤ v.capacity * sz t.base := Nat.mul_le_mul_right _ hi.1
          rw [Nat.succ_mul] at this
          exact ⟨by omega, by omega⟩
        · cases he
    · cases he
    · cases he
  · simp only [ViewVars.exec] at he
    split at he
    · next t v hx =>
      split at he
      · cases he
      · next hc =>
        split at he
        · cases he
        · next hp =>
          cases he
          refine ⟨_, rfl, .inr (.inl ⟨x, t, v, hx, by simpa using hc, fun z hz => .inr ⟨hp, ?_⟩⟩)⟩
          by_contra hn
          exact hz (writeLE_other (by omega))
    · cases he
    · cases he
  · simp only [ViewVars.exec] at he
    split at he
    · next vars e hx =>
      split at he
      · cases he
      · next hc =>
        split at he
        · next hi =>
          cases he
          refine ⟨_, rfl, .inr (.inr ⟨x, vars, e, p, hx, by simpa using hc, fun z hz => ?_⟩)⟩
          by_contra hn
          refine hz (putBytes_other fun hh => hn ?_)
          simp only [List.length_cons, List.length_nil] at hh
          exact ⟨by omega, by omega⟩
        · cases he
    · cases he
    · cases he

/-! ## the invariant -/

theorem edm_make_good (x : List (VarKind × QType)) (c : Nat) (size : View)
    (h : x.any (·.2.const) = false → ∀ z, size.HasPayload 1 z → ¬ Z z ∧ ¬ InSlot slots z) :
    (EdmRef.make (x.map (·.1)) c size).Good sz Z slots s.mem x := by
  refine ⟨by simp [EdmRef.make], fun i k l hk hl => ?_, fun hc p z hz => ?_⟩
  · simp only [EdmRef.make, List.map_map, List.getElem?_map, hk, Option.map_some, Option.some.injEq, Function.comp_apply] at hl
    subst hl
    obtain ⟨k, t⟩ := k
    cases k with
    | scalar => exact ⟨rfl, fun v hv => (by cases hv), fun _ h0 => absurd rfl h0⟩
    | vector =>
      refine ⟨rfl, fun v hv => ?_, fun _ z hz => ?_⟩
      · cases hv; exact ⟨by norm_num, by norm_num, by norm_num⟩
      · rcases hz with ⟨h1, h2⟩ | ⟨h1, _⟩
        · simp only [Nat.zero_mul, Nat.add_zero] at h2; omega
        · exact absurd rfl h1
    | jagged => exact ⟨rfl, fun v hv => (by cases hv), fun _ _ i hi => absurd hi (Nat.not_lt_zero i)⟩
  · cases p with
    | size => exact h hc z hz
    | payload =>
      obtain ⟨h1, h2⟩ := hz
      simp only [EdmRef.part, EdmRef.make, View.ofFixed, Nat.zero_mul, Nat.add_zero] at h2
      omega

theorem view_inv_step (hs : SlotsApart Z slots) (h : ViewInv sz Z slots m0 s) {op : ViewOp} (hf : op.Fits sz Z slots s)
    (he : s.exec sz op = .ok b s') : ViewInv sz Z slots m0 s' := by
  have hw : ((∃ x i e, op = .write x i e) ∨ (∃ x n, op = .writeSize x n) ∨ ∃ x p i c, op = .writePart x p i c) →
      ViewInv sz Z slots m0 s' := fun ho => by
    obtain ⟨m', rfl, h1⟩ := exec_writes ho he
    refine inv_write h fun z hz => ?_
    rcases h1 with ⟨x, t, p, hx, hc, h0, hh⟩ | ⟨x, t, v, hx, hc, hh⟩ | ⟨x, vars, e, p, hx, hc, hh⟩
    · exact (h.good x _ _ hx).2.2 hc h0 z (hh z hz).1 (hh z hz).2
    · exact (h.good x _ _ hx).2.2 hc z (hh z hz)
    · exact (h.good x _ _ hx).2.2 hc p z (hh z hz)
  cases op with
  | vecFixed x t size ptr => cases he; exact inv_put h hf
  | vecResizable x t capacity size ptr => cases he; exact inv_put h hf
  | jag x t size ptr hostPtr => cases he; exact inv_put h hf
  | edm x vars capacity size => cases he; exact inv_put h (edm_make_good vars capacity size hf)
  | edmFilled x vars e => cases he; exact inv_put h hf
  | init x a y =>
    obtain ⟨c, v, hy, hfr, rfl⟩ := exec_init he
    exact inv_put h (val_good_from hfr (h.good y c v hy))
  | assign x y =>
    obtain ⟨a, w, c, v, hx, hy, hfr, rfl⟩ := exec_assign he
    rw [ViewVal.assign_eq hfr (h.good x a w hx).formed (h.good y c v hy).formed]
    exact inv_put h (val_good_from hfr (h.good y c v hy))
  | equal x y =>
    obtain ⟨rfl, -⟩ := exec_equal he
    exact h
  | get x a y k =>
    obtain ⟨vars, e, kind, t, l, hy, hk, hl, hfr, rfl⟩ := exec_get he
    exact inv_put h (val_good_from hfr (show (ViewVal.leaf l).Good sz Z slots s.mem (.leaf kind t) from (h.good y _ _ hy).2.1 k _ l hk hl))
  | set x k y =>
    obtain ⟨vars, e, kind, t, l, c, hx, hy, hk, hfr, rfl⟩ := exec_set he
    refine inv_put h ⟨by rw [List.length_set]; exact (h.good x _ _ hx).1, fun i q r hq hr => ?_, fun hc p => (h.good x _ _ hx).2.2 hc p⟩
    by_cases hik : i = k
    · subst hik
      have hlt : i < e.vars.length := by rw [(h.good x _ _ hx).1]; exact (List.getElem?_eq_some_iff.1 hk).1
      rw [List.getElem?_set_self hlt] at hr
      cases hr
      rw [hk] at hq
      cases hq
      exact val_good_from hfr (h.good y c _ hy)
    · rw [List.getElem?_set_ne (fun hc => hik hc.symm)] at hr
      exact (h.good x _ _ hx).2.1 i q r hq hr
  | row x t y host i =>
    obtain ⟨u, j, hy, hfr, hi, rfl⟩ := exec_row he
    refine inv_put h (val_good_from hfr (show LeafView.Good sz Z slots s.mem (.vector, u) _ from ⟨rfl, fun v hv => ?_, fun hc => ?_⟩))
    · cases hv; exact readView_inRange _ _
    · exact ((h.good y _ _ hy).2.2 hc host i hi).2
  | setRow x host i y =>
    obtain ⟨t, j, u, v, hx, hy, hfr, hi, rfl⟩ := exec_setRow he
    have ht : t.const = false := hf t (by simp [ViewVars.type, hx])
    have hg := val_good_from hfr (h.good y _ _ hy)
    have hj := (h.good x _ _ hx).2.2 ht host i hi
    exact inv_slot hs h hj.1 (hg.2.1 v rfl) (hg.2.2 ht)
  | write x i e => exact hw (.inl ⟨x, i, e, rfl⟩)
  | writeSize x n => exact hw (.inr (.inl ⟨x, n, rfl⟩))
  | writePart x p i c => exact hw (.inr (.inr ⟨x, p, i, c, rfl⟩))

theorem view_inv (hs : SlotsApart Z slots) (h : ViewReach sz Z slots m0 s) : ViewInv sz Z slots m0 s := by
  induction h with
  | init => exact ⟨fun x a v hv => (by cases hv), fun _ _ => rfl⟩
  | step _ hf he ih => exact view_inv_step hs ih hf he

/-! ## types -/

/-- All variables hold values of the forms that their types say. -/
def ViewVars.Formed (s : ViewVars) : Prop := ∀ x a v, s.vars.lookup x = some (a, v) → v.Formed a

theorem formed_put (h : s.Formed) {x : Nat} {a : ViewType} {v : ViewVal} (hv : v.Formed a) : (s.put x a v).Formed := by
  intro y b w hw
  rw [show (s.put x a v).vars = putVar s.vars x (a, v) from rfl, lookup_putVar] at hw
  split at hw
  · cases hw; exact hv
  · exact h y b w hw

theorem formed_step (h : s.Formed) {op : ViewOp} (ht : op.Typed) (he : s.exec sz op = .ok b s') : s'.Formed := by
  have hw : ((∃ x i e, op = .write x i e) ∨ (∃ x n, op = .writeSize x n) ∨ ∃ x p i c, op = .writePart x p i c) → s'.Formed := fun ho => by
    obtain ⟨m', rfl, -⟩ := exec_writes ho he
    exact h
  cases op with
  | vecFixed x t size ptr => cases he; exact formed_put h rfl
  | vecResizable x t capacity size ptr => cases he; exact formed_put h rfl
  | jag x t size ptr hostPtr => cases he; exact formed_put h rfl
  | edm x vars capacity size =>
    cases he
    refine formed_put h ?_
    show List.map LeafView.kind (EdmRef.make _ _ _).vars = _
    simp only [EdmRef.make, List.map_map]
    apply List.map_congr_left
    rintro ⟨k, t⟩ _
    cases k <;> rfl
  | edmFilled x vars e =>
    cases he
    exact formed_put h ht
  | init x a y =>
    obtain ⟨c, v, hy, hfr, rfl⟩ := exec_init he
    exact formed_put h (from_formed hfr (h y c v hy))
  | assign x y =>
    obtain ⟨a, w, c, v, hx, hy, hfr, rfl⟩ := exec_assign he
    rw [ViewVal.assign_eq hfr (h x a w hx) (h y c v hy)]
    exact formed_put h (from_formed hfr (h y c v hy))
  | equal x y =>
    obtain ⟨rfl, -⟩ := exec_equal he
    exact h
  | get x a y k =>
    obtain ⟨vars, e, kind, t, l, hy, hk, hl, hfr, rfl⟩ := exec_get he
    refine formed_put h (from_formed hfr ?_)
    have hm : e.vars.map LeafView.kind = vars.map (·.1) := h y _ _ hy
    have := congrArg (fun q : List VarKind => q[k]?) hm
    simp only [List.getElem?_map, hk, hl, Option.map_some, Option.some.injEq] at this
    exact this
  | set x k y =>
    obtain ⟨vars, e, kind, t, l, c, hx, hy, hk, hfr, rfl⟩ := exec_set he
    have hm : e.vars.map LeafView.kind = vars.map (·.1) := h x _ _ hx
    refine formed_put h (show List.map LeafView.kind (e.vars.set k l) = vars.map (·.1) from ?_)
    have hkind : l.kind = kind := from_formed (v := .leaf l) hfr (h y _ _ hy)
    apply List.ext_getElem?
    intro i
    rw [List.map_set, hm]
    by_cases hik : k = i
    · subst hik
      have hlt : k < (vars.map (·.1)).length := by rw [List.length_map]; exact (List.getElem?_eq_some_iff.1 hk).1
      rw [List.getElem?_set_self hlt, List.getElem?_map, hk, hkind]
      rfl
    · rw [List.getElem?_set_ne hik]
  | row x t y host i =>
    obtain ⟨u, j, hy, hfr, hi, rfl⟩ := exec_row he
    exact formed_put h rfl
  | setRow x host i y =>
    obtain ⟨t, j, u, v, hx, hy, hfr, hi, rfl⟩ := exec_setRow he
    exact h
  | write x i e => exact hw (.inl ⟨x, i, e, rfl⟩)
  | writeSize x n => exact hw (.inr (.inl ⟨x, n, rfl⟩))
  | writePart x p i c => exact hw (.inr (.inr ⟨x, p, i, c, rfl⟩))

end Vecmem
