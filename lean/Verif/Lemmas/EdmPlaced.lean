import Verif.Lemmas.EdmAlike

/-! # The variables of a buffer may be set up -/

namespace Vecmem

open IntMath

variable {S : Schema} {caps : List Nat} {resizable hasHost : Bool} {m mh : Blk} {e : EdmView}

theorem Blk.Disjoint.at {b c : Blk} (h : b.Disjoint c) (a : Nat) : ¬ (b.At a ∧ c.At a) := by
  unfold Blk.Disjoint at h
  unfold Blk.At
  omega

theorem payload_at_iff {t : CType} {v : View} {a : Nat} : (v.payload t).At a ↔ v.HasPayload t.size a := Iff.rfl

theorem word_at_of {v : View} {a : Nat} (h : v.HasWord a) : v.sizeWord.At a := by
  obtain ⟨_, h1, h2⟩ := h
  exact ⟨h1, h2⟩

theorem inner_placed {t : CType} {vs : List View} (hm : m.addr ≠ 0) (hs : m.addr + m.size ≤ 2 ^ 64) (hc : ∀ c ∈ caps, c < 2 ^ 32)
    (hl : caps.length < 2 ^ 32) (h : InnerVectors m t caps resizable vs) : JagPlaced t.size vs := by
  have hcap : ∀ v ∈ vs, v.capacity < 2 ^ 32 := fun v hv => hc _ (by rw [← h.capacities]; exact List.mem_map.2 ⟨v, hv, rfl⟩)
  have hbefore : ∀ v ∈ vs, ∀ w ∈ vs, ∀ x, ¬ (w.HasPayload t.size x ∧ v.HasWord x) := by
    rintro v hv w hw x ⟨⟨a1, a2⟩, b0, b1, b2⟩
    cases hr : resizable with
    | false =>
      have := h.words v hv
      rw [hr] at this
      exact b0 this
    | true =>
      have hw0 : w.capacity ≠ 0 := fun h0 => by rw [h0] at a2; omega
      have := h.before hr v hv w hw hw0
      omega
  refine ⟨?_, ?_, ?_, ?_⟩
  · intro v hv
    refine ⟨?_, ?_, hcap v hv, hbefore v hv v hv⟩
    · intro h0
      have := (h.payload v hv h0).2.1
      simp only [View.payload, CType.region] at this
      omega
    · intro h0
      have := (h.payload v hv h0).2.2
      simp only [View.payload, CType.region] at this
      omega
  · rw [List.pairwise_iff_getElem]
    intro i j hi hj hij x
    have hvm := List.getElem_mem hi
    have hwm := List.getElem_mem hj
    rintro ⟨a | a, b | b⟩
    · have := List.pairwise_iff_getElem.1 h.payloads i j hi hj hij
      obtain ⟨a1, a2⟩ := a
      obtain ⟨b1, b2⟩ := b
      omega
    · exact hbefore _ hwm _ hvm x ⟨a, b⟩
    · exact hbefore _ hvm _ hwm x ⟨b, a⟩
    · obtain ⟨a0, a1, a2⟩ := a
      obtain ⟨b0, b1, b2⟩ := b
      cases hr : resizable with
      | false =>
        have := h.words _ hvm
        rw [hr] at this
        exact a0 this
      | true =>
        obtain ⟨d, hd⟩ := h.adjacent hr
        have e1 := hd i _ (List.getElem?_eq_getElem hi)
        have e2 := hd j _ (List.getElem?_eq_getElem hj)
        omega
  · cases hr : resizable with
    | false =>
      refine .inl fun v hv => ?_
      have := h.words v hv
      rw [hr] at this
      exact this
    | true =>
      obtain ⟨d, hd⟩ := h.adjacent hr
      cases vs with
      | nil => exact .inl fun v hv => by simp at hv
      | cons v vs =>
        refine .inr ⟨d, ?_, hd⟩
        have e1 := hd 0 v rfl
        have := h.words v List.mem_cons_self
        rw [hr] at this
        have := this.1
        omega
  · have : vs.length = caps.length := by rw [← h.capacities, List.length_map]
    omega

/-- Every byte of a variable is in one of its regions, or in the size word of the container. -/
theorem region_of_has (h : EdmPlaced m mh S caps hasHost resizable e) {i : Nat} {v : Var} {x : VarView} (hv : S[i]? = some v)
    (hx : e.vars[i]? = some x) {a : Nat} :
    (x.HasPayload v.type.size a → ∃ b ∈ x.regions v.type resizable, b.At a) ∧
    (x.HasWord a → (x.kind = .jagged ∧ ∃ b ∈ x.regions v.type resizable, b.At a) ∨
      (x.kind = .vector ∧ resizable = true ∧ S.hasJagged = false ∧ (CType.uint.region e.size.ptr 1).At a)) := by
  have hf := h.vars i v x hv hx
  unfold VarView.Fits at hf
  cases x with
  | scalar p =>
    refine ⟨?_, ?_⟩
    · rintro ⟨w, hw, hp⟩
      simp only [VarView.rows, List.mem_singleton] at hw
      subst hw
      exact ⟨_, List.mem_singleton.2 rfl, hp⟩
    · rintro ⟨w, hw, h0, _⟩
      simp only [VarView.rows, List.mem_singleton] at hw
      subst hw
      exact absurd rfl h0
  | vector w =>
    refine ⟨?_, ?_⟩
    · rintro ⟨z, hz, hp⟩
      simp only [VarView.rows, List.mem_singleton] at hz
      subst hz
      exact ⟨_, List.mem_singleton.2 rfl, hp⟩
    · rintro ⟨z, hz, hp⟩
      simp only [VarView.rows, List.mem_singleton] at hz
      subst hz
      have hk : v.kind = .vector := by
        cases hk : v.kind with
        | vector => rfl
        | scalar => rw [hk] at hf; exact hf.elim
        | jagged => rw [hk] at hf; exact hf.elim
      rw [hk] at hf
      simp only at hf
      have h0 := hp.1
      rw [hf.2.1] at h0
      cases hr : resizable with
      | false => rw [hr] at h0; simp at h0
      | true =>
        cases hj : S.hasJagged with
        | true => rw [hr, hj] at h0; simp at h0
        | false =>
          refine .inr ⟨rfl, rfl, rfl, ?_⟩
          have := hf.2.1
          rw [hr, hj] at this
          simp only [Bool.not_false, Bool.and_self, if_true] at this
          obtain ⟨_, h1, h2⟩ := hp
          rw [this] at h1 h2
          exact ⟨h1, h2⟩
  | jagged j =>
    have hk : v.kind = .jagged := by
      cases hk : v.kind with
      | jagged => rfl
      | scalar => rw [hk] at hf; exact hf.elim
      | vector => rw [hk] at hf; exact hf.elim
    rw [hk] at hf
    simp only at hf
    refine ⟨?_, ?_⟩
    · rintro ⟨w, hw, hp⟩
      exact ⟨w.payload v.type, List.mem_cons_of_mem _ (List.mem_append_right _ (List.mem_map.2 ⟨w, hw, rfl⟩)), hp⟩
    · rintro ⟨w, hw, hp⟩
      refine .inl ⟨rfl, w.sizeWord, List.mem_cons_of_mem _ (List.mem_append_left _ ?_), word_at_of hp⟩
      cases hr : resizable with
      | true => rw [if_pos rfl]; exact List.mem_map.2 ⟨w, hw, rfl⟩
      | false =>
        have := hf.1.words w hw
        rw [hr] at this
        exact absurd this hp.1

theorem regions_apart (h : EdmPlaced m mh S caps hasHost resizable e) {i j : Nat} {v w : Var} {x y : VarView} (hij : i ≠ j)
    (hv : S[i]? = some v) (hw : S[j]? = some w) (hx : e.vars[i]? = some x) (hy : e.vars[j]? = some y) {b c : Blk}
    (hb : b ∈ x.regions v.type resizable) (hc : c ∈ y.regions w.type resizable) : b.Disjoint c := by
  have hd := (List.pairwise_append.1 h.disjoint).2.1
  rw [List.pairwise_flatMap] at hd
  have hp := List.pairwise_iff_getElem.1 hd.2
  have zi : (S.zip e.vars)[i]? = some (v, x) := List.getElem?_zip_eq_some.2 ⟨hv, hx⟩
  have zj : (S.zip e.vars)[j]? = some (w, y) := List.getElem?_zip_eq_some.2 ⟨hw, hy⟩
  obtain ⟨li, ei⟩ := List.getElem?_eq_some_iff.1 zi
  obtain ⟨lj, ej⟩ := List.getElem?_eq_some_iff.1 zj
  rcases Nat.lt_or_gt_of_ne hij with hlt | hlt
  · have := hp i j li lj hlt b (by rw [ei]; exact hb) c (by rw [ej]; exact hc)
    exact this
  · have := hp j i lj li hlt c (by rw [ej]; exact hc) b (by rw [ei]; exact hb)
    exact this.symm

theorem word_apart (h : EdmPlaced m mh S caps hasHost resizable e) (hr : resizable = true) (hj : S.hasJagged = false)
    {i : Nat} {v : Var} {x : VarView} (hv : S[i]? = some v) (hx : e.vars[i]? = some x) {b : Blk}
    (hb : b ∈ x.regions v.type resizable) : (CType.uint.region e.size.ptr 1).Disjoint b := by
  have hd := (List.pairwise_append.1 h.disjoint).2.2
  refine hd _ (by rw [hr, hj]; simp) b (List.mem_flatMap.2 ⟨(v, x), ?_, hb⟩)
  exact List.mem_of_getElem? (List.getElem?_zip_eq_some.2 ⟨hv, hx⟩)

/-- The variables of a buffer may be set up. -/
theorem EdmPlaced.varsPlaced (h : EdmPlaced m mh S caps hasHost resizable e) (ho : S.Ok caps) (hm : m.addr ≠ 0)
    (hs : m.addr + m.size ≤ 2 ^ 64) : VarsPlaced S e.vars := by
  have hkind : ∀ {i : Nat} {v : Var} {x : VarView}, S[i]? = some v → e.vars[i]? = some x → x.kind = v.kind := by
    intro i v x hv hx
    have hf := h.vars i v x hv hx
    unfold VarView.Fits at hf
    cases hk : v.kind <;> cases x <;> rw [hk] at hf <;> first | rfl | exact hf.elim
  have hvar : ∀ {i : Nat} {x : VarView}, e.vars[i]? = some x → ∃ v, S[i]? = some v := by
    intro i x hx
    have hi := (List.getElem?_eq_some_iff.1 hx).1
    rw [h.count] at hi
    exact ⟨_, List.getElem?_eq_getElem hi⟩
  refine ⟨h.count, ?_, ?_, ?_, ?_⟩
  · intro i v x hv hx
    refine ⟨hkind hv hx, (ho.types v (List.mem_of_getElem? hv)).1, ?_⟩
    have hf := h.vars i v x hv hx
    have hk := hkind hv hx
    unfold VarView.Fits at hf
    cases x with
    | scalar p =>
      rw [← hk] at hf
      simp only [VarView.kind, CType.region, Blk.Inside] at hf
      refine ⟨?_, by simp [VarView.rows], .inl (by simp [VarView.rows]), by simp [VarView.rows]⟩
      intro z hz
      simp only [VarView.rows, List.mem_singleton] at hz
      subst hz
      exact ⟨fun _ => by simp only; omega, fun _ => by simp only; omega, by simp, fun a ⟨_, h2⟩ => h2.1 rfl⟩
    | vector w =>
      rw [← hk] at hf
      simp only [VarView.kind] at hf
      obtain ⟨f1, f2, f3⟩ := hf
      have hcount := ho.count
      have hne : w.capacity ≠ 0 → caps ≠ [] := by
        intro h0 hc
        rw [hc] at f1
        exact h0 f1
      refine ⟨?_, by simp [VarView.rows], ?_, by simp [VarView.rows]⟩
      · intro z hz
        simp only [VarView.rows, List.mem_singleton] at hz
        subst hz
        refine ⟨?_, ?_, by omega, ?_⟩
        · intro h0
          have := (f3 (hne h0)).2
          simp only [View.payload, CType.region, Blk.Inside] at this
          omega
        · intro h0
          have := (f3 (hne h0)).2
          simp only [View.payload, CType.region, Blk.Inside] at this
          omega
        · rintro a ⟨a1, a2⟩
          obtain ⟨b, hb, hba⟩ := (region_of_has h hv hx).1 ⟨z, by simp [VarView.rows], a1⟩
          rcases (region_of_has h hv hx).2 ⟨z, by simp [VarView.rows], a2⟩ with ⟨hkj, _⟩ | ⟨_, hr, hj, hw⟩
          · simp [VarView.kind] at hkj
          · exact (word_apart h hr hj hv hx hb).at a ⟨hw, hba⟩
      · by_cases h0 : w.sizePtr = 0
        · exact .inl (by simpa [VarView.rows] using h0)
        · refine .inr ⟨w.sizePtr, h0, ?_⟩
          intro k z hz
          cases k with
          | zero => simp [VarView.rows] at hz; subst hz; rfl
          | succ k => simp [VarView.rows] at hz
    | jagged j =>
      rw [← hk] at hf
      simp only [VarView.kind] at hf
      exact inner_placed hm hs ho.caps32 ho.count hf.1
  · rintro i j v w x y hij hv hw hx hy a ⟨h1, h2⟩
    obtain ⟨b, hb, hba⟩ := (region_of_has h hv hx).1 h1
    rcases h2 with h2 | h2
    · obtain ⟨c, hc, hca⟩ := (region_of_has h hw hy).1 h2
      exact (regions_apart h hij hv hw hx hy hb hc).at a ⟨hba, hca⟩
    · rcases (region_of_has h hw hy).2 h2 with ⟨_, c, hc, hca⟩ | ⟨_, hr, hj, hc⟩
      · exact (regions_apart h hij hv hw hx hy hb hc).at a ⟨hba, hca⟩
      · exact (word_apart h hr hj hv hx hb).at a ⟨hc, hba⟩
  · rintro i j x y hij hx hy hk a ⟨h1, h2⟩
    obtain ⟨v, hv⟩ := hvar hx
    obtain ⟨w, hw⟩ := hvar hy
    have hjag : S.hasJagged = true := mem_jagged hv (by rw [← hkind hv hx]; exact hk)
    rcases (region_of_has h hv hx).2 h1 with ⟨_, b, hb, hba⟩ | ⟨_, _, hj, _⟩
    · rcases (region_of_has h hw hy).2 h2 with ⟨_, c, hc, hca⟩ | ⟨_, _, hj, _⟩
      · exact (regions_apart h hij hv hw hx hy hb hc).at a ⟨hba, hca⟩
      · rw [hjag] at hj; simp at hj
    · rw [hjag] at hj; simp at hj
  · intro i j v w hx hy
    obtain ⟨s, hs1⟩ := hvar hx
    obtain ⟨t, ht1⟩ := hvar hy
    have f1 := h.vars i s _ hs1 hx
    have f2 := h.vars j t _ ht1 hy
    have k1 := hkind hs1 hx
    have k2 := hkind ht1 hy
    unfold VarView.Fits at f1 f2
    rw [← k1] at f1
    rw [← k2] at f2
    simp only [VarView.kind] at f1 f2
    exact ⟨by rw [f1.2.1, f2.2.1], by rw [f1.1, f2.1]⟩

/-- All bytes of the variables of a buffer are in its block. -/
theorem EdmPlaced.has_inside (h : EdmPlaced m mh S caps hasHost resizable e) {a : Nat} (ha : VarsHave S e.vars a) : m.At a := by
  obtain ⟨i, v, x, hv, hx, hp⟩ := ha
  have hf := h.vars i v x hv hx
  unfold VarView.Fits at hf
  have inside : ∀ {b : Blk}, b.Inside m → b.At a → m.At a := by
    intro b h1 h2
    unfold Blk.Inside at h1
    unfold Blk.At at h2 ⊢
    omega
  cases x with
  | scalar p =>
    have hk : v.kind = .scalar := by cases hk : v.kind <;> rw [hk] at hf <;> first | rfl | exact hf.elim
    rw [hk] at hf
    simp only at hf
    rcases hp with ⟨w, hw, hp⟩ | ⟨w, hw, hp⟩
    · simp only [VarView.rows, List.mem_singleton] at hw
      subst hw
      exact inside hf.2 hp
    · simp only [VarView.rows, List.mem_singleton] at hw
      subst hw
      exact absurd rfl hp.1
  | vector w =>
    have hk : v.kind = .vector := by cases hk : v.kind <;> rw [hk] at hf <;> first | rfl | exact hf.elim
    rw [hk] at hf
    simp only at hf
    rcases hp with hp | hp
    · obtain ⟨z, hz, hp⟩ := hp
      simp only [VarView.rows, List.mem_singleton] at hz
      subst hz
      refine inside (hf.2.2 ?_).2 hp
      intro hc
      rw [hc] at hf
      obtain ⟨p1, p2⟩ := hp
      rw [hf.1] at p2
      simp only [List.length_nil] at p2
      omega
    · rcases (region_of_has h hv hx).2 hp with ⟨hkj, _⟩ | ⟨_, hr, hj, hw⟩
      · simp [VarView.kind] at hkj
      · exact inside (h.word hr hj).2.2 hw
  | jagged j =>
    have hk : v.kind = .jagged := by cases hk : v.kind <;> rw [hk] at hf <;> first | rfl | exact hf.elim
    rw [hk] at hf
    simp only at hf
    rcases hp with ⟨w, hw, hp⟩ | ⟨w, hw, hp⟩
    · simp only [VarView.rows] at hw
      refine inside (hf.1.payload w hw ?_).2 hp
      intro h0
      obtain ⟨p1, p2⟩ := hp
      rw [h0] at p2
      omega
    · simp only [VarView.rows] at hw
      have := hf.1.words w hw
      cases hr : resizable with
      | false => rw [hr] at this; exact absurd this hp.1
      | true => rw [hr] at this; exact inside this.2.2 (word_at_of hp)

end Vecmem
