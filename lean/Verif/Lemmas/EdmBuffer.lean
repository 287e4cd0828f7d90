import Verif.Spec.EdmBuffer
import Verif.Lemmas.Placement

namespace Vecmem

open IntMath

variable {S : Schema} {caps : List Nat} {resizable : Bool} {m mh : Blk} {ps : List Nat}

/-! ## the rows of a jagged vector -/

theorem jagViews_mem {t : CType} {hdr data : Nat} (hc : ∀ c ∈ caps, c < 2 ^ 32) {w : View}
    (hw : w ∈ jagViews t hdr data caps 0 0) : ∃ i c, i < caps.length ∧ caps[i]? = some c ∧ w.capacity = c ∧
      w.sizePtr = (if hdr ≠ 0 then hdr + 4 * i else 0) ∧ w.ptr = data + t.size * (caps.take i).sum := by
  obtain ⟨i, hi⟩ := List.mem_iff_getElem?.1 hw
  rw [jagViews_get] at hi
  cases hx : caps[i]? with
  | none => rw [hx] at hi; simp at hi
  | some c =>
    rw [hx] at hi
    simp only [Option.map_some, Option.some.injEq] at hi
    subst hi
    have := Nat.mod_eq_of_lt (hc c (List.mem_of_getElem? hx))
    exact ⟨i, c, (List.getElem?_eq_some_iff.1 hx).1, hx, this, by simp, by simp⟩

theorem jagViews_row {t : CType} {hdr data : Nat} (hc : ∀ c ∈ caps, c < 2 ^ 32) {w : View}
    (hw : w ∈ jagViews t hdr data caps 0 0) : (w.payload t).Inside (t.region data caps.sum) := by
  obtain ⟨i, c, _, h1, h2, _, h4⟩ := jagViews_mem hc hw
  have hle := Nat.mul_le_mul_left t.size (sum_take_add_le h1)
  rw [Nat.mul_add] at hle
  simp only [View.payload, CType.region, Blk.Inside, h2, h4]
  rw [Nat.mul_comm c, Nat.mul_comm caps.sum]
  omega

theorem jagViews_word {t : CType} {hdr data : Nat} (hc : ∀ c ∈ caps, c < 2 ^ 32) (h0 : hdr ≠ 0) {w : View}
    (hw : w ∈ jagViews t hdr data caps 0 0) : w.sizeWord.Inside (CType.uint.region hdr caps.length) := by
  obtain ⟨i, c, hi, _, _, h3, _⟩ := jagViews_mem hc hw
  rw [if_pos h0] at h3
  simp only [View.sizeWord, CType.region, CType.uint, Blk.Inside, h3]
  omega

/-! ## positions in the list of regions -/

/-- All regions of a buffer. -/
def Schema.allRegions (S : Schema) (caps : List Nat) (resizable : Bool) : List (CType × Nat) :=
  S.sizeRegions caps resizable ++ (S.layoutRegions caps ++ S.payloadRegions caps)

/-- The number of size regions. -/
def Schema.words (S : Schema) (caps : List Nat) (resizable : Bool) : Nat := (S.sizeRegions caps resizable).length

theorem layout_at {i : Nat} {v : Var} (h : S[i]? = some v) :
    (S.allRegions caps resizable)[S.words caps resizable + i]? = some (v.layoutType, v.layoutSize caps) := by
  have hi := (List.getElem?_eq_some_iff.1 h).1
  unfold Schema.allRegions Schema.words
  rw [List.getElem?_append_right (by omega), Nat.add_sub_cancel_left,
    List.getElem?_append_left (by simpa [Schema.layoutRegions] using hi)]
  simp [Schema.layoutRegions, h]

theorem payload_at {i : Nat} {v : Var} (h : S[i]? = some v) :
    (S.allRegions caps resizable)[S.words caps resizable + S.length + i]? = some (v.type, v.payloadSize caps) := by
  unfold Schema.allRegions Schema.words
  rw [List.getElem?_append_right (by omega), Nat.add_assoc, Nat.add_sub_cancel_left,
    List.getElem?_append_right (by simp [Schema.layoutRegions])]
  simp [Schema.layoutRegions, Schema.payloadRegions, h]

theorem words_at (hr : resizable = true) (hj : S.hasJagged = true) {i : Nat} {v : Var} (h : S[i]? = some v) :
    (S.allRegions caps resizable)[i]? = some (.uint, v.layoutSize caps) := by
  have hi := (List.getElem?_eq_some_iff.1 h).1
  subst hr
  unfold Schema.allRegions
  rw [List.getElem?_append_left (by simpa [Schema.sizeRegions, hj] using hi)]
  simp [Schema.sizeRegions, hj, h]

theorem word_at (hr : resizable = true) (hj : S.hasJagged = false) :
    (S.allRegions caps resizable)[0]? = some (.uint, 1) := by
  subst hr
  simp [Schema.allRegions, Schema.sizeRegions, hj]

theorem words_jagged (hr : resizable = true) (hj : S.hasJagged = true) : S.words caps resizable = S.length := by
  subst hr
  simp [Schema.words, Schema.sizeRegions, hj]

theorem words_vector (hr : resizable = true) (hj : S.hasJagged = false) : S.words caps resizable = 1 := by
  subst hr
  simp [Schema.words, Schema.sizeRegions, hj]

/-- The address of the size of variable `i`. -/
def Schema.sizePtr (S : Schema) (resizable : Bool) (ps : List Nat) (i : Nat) (v : Var) : Nat :=
  if resizable then
    if S.hasJagged then (if v.kind = .jagged then ps.getD i 0 else 0) else ps.getD 0 0
  else 0

theorem bufferView_var (S : Schema) (caps : List Nat) (resizable : Bool) (ps : List Nat) (hps : Option (List Nat))
    (i : Nat) :
    (S.bufferView caps resizable ps hps).vars[i]? = S[i]?.map fun v =>
      v.makeView caps (S.sizePtr resizable ps i v) (ps.getD (S.words caps resizable + i) 0)
        ((hps.getD []).getD i 0) (ps.getD (S.words caps resizable + S.length + i) 0) := by
  unfold Schema.bufferView makeViews
  simp only [List.getElem?_mapIdx]
  cases hv : S[i]? with
  | none => rfl
  | some v =>
    have hi := (List.getElem?_eq_some_iff.1 hv).1
    simp only [Option.map_some, Option.some.injEq]
    congr 1
    · unfold Schema.sizePtr
      cases resizable with
      | false => simp
      | true =>
        cases hj : S.hasJagged with
        | false =>
          have : (S.sizeRegions caps true).length = 1 := by simp [Schema.sizeRegions, hj]
          simp [this, List.getD_eq_getElem?_getD, List.getElem?_take]
        | true =>
          have : (S.sizeRegions caps true).length = S.length := by simp [Schema.sizeRegions, hj]
          by_cases hk : v.kind = .jagged
          · simp [this, hk, List.getD_eq_getElem?_getD, List.getElem?_take, hi]
          · simp [hk]
    · simp [List.getD_eq_getElem?_getD, List.getElem?_take, hi, Schema.words]
    · simp [List.getD_eq_getElem?_getD, Schema.words, Nat.add_assoc]

theorem bufferView_count (S : Schema) (caps : List Nat) (resizable : Bool) (ps : List Nat) (hps : Option (List Nat)) :
    (S.bufferView caps resizable ps hps).vars.length = S.length := by
  simp [Schema.bufferView, makeViews]

theorem bufferView_word (hr : resizable = true) (hj : S.hasJagged = false) (hps : Option (List Nat)) :
    (S.bufferView caps resizable ps hps).size = ⟨4, 0, ps.getD 0 0⟩ := by
  subst hr
  have : (S.sizeRegions caps true).length = 1 := by simp [Schema.sizeRegions, hj]
  simp [Schema.bufferView, Schema.sizeView, hj, this, List.getD_eq_getElem?_getD, List.getElem?_take]

theorem bufferView_fixed (hr : resizable = false) (hps : Option (List Nat)) :
    (S.bufferView caps resizable ps hps).size = ⟨0, 0, 0⟩ := by
  subst hr
  simp [Schema.bufferView, Schema.sizeView]

theorem mem_jagged {i : Nat} {v : Var} (h : S[i]? = some v) (hk : v.kind = .jagged) : S.hasJagged = true := by
  unfold Schema.hasJagged
  rw [List.any_eq_true]
  exact ⟨v, List.mem_of_getElem? h, by simp [hk]⟩

/-! ## the variables -/

theorem Schema.Ok.jagged_size (ho : S.Ok caps) {v : Var} (hk : v.kind = .jagged) : v.payloadSize caps = caps.sum := by
  unfold Var.payloadSize
  rw [hk]
  exact Nat.mod_eq_of_lt ho.total

theorem layoutType_jagged {v : Var} (hk : v.kind = .jagged) : v.layoutType = .view := by simp [Var.layoutType, hk]

theorem layoutSize_jagged {v : Var} (hk : v.kind = .jagged) : v.layoutSize caps = caps.length := by
  simp [Var.layoutSize, hk]

/-- The data of jagged variable `i`: the position of its size words and of its elements. -/
theorem jagged_inner (ho : S.Ok caps) (h : PlacedIn m (S.allRegions caps resizable) ps) (hm : m.addr ≠ 0)
    {i : Nat} {v : Var} (hv : S[i]? = some v) (hk : v.kind = .jagged) :
    InnerVectors m v.type caps resizable
      (jagViews v.type (S.sizePtr resizable ps i v) (ps.getD (S.words caps resizable + S.length + i) 0) caps 0 0) := by
  have hj := mem_jagged hv hk
  have hi := (List.getElem?_eq_some_iff.1 hv).1
  have hp := payload_at (caps := caps) (resizable := resizable) hv
  rw [ho.jagged_size hk] at hp
  apply jagViews_inner ho.caps32
  · intro h0
    exact ⟨hm, (h.fit hp h0).2⟩
  · intro hr hne
    have hw := words_at (caps := caps) hr hj hv
    rw [layoutSize_jagged hk] at hw
    have hl : caps.length ≠ 0 := fun h => hne (List.length_eq_zero_iff.1 h)
    have hpt : S.sizePtr resizable ps i v = ps.getD i 0 := by unfold Schema.sizePtr; simp [hr, hj, hk]
    rw [hpt]
    obtain ⟨f1, f2⟩ := h.fit hw hl
    refine ⟨h.nonnull hm hw hl, f1, f2, ?_⟩
    intro h0
    have := h.lt (k := i) (l := S.words caps resizable + S.length + i) (by omega) hw hp hl h0
    simp only [CType.uint] at this
    omega
  · intro hr
    unfold Schema.sizePtr; simp [hr]

theorem var_fits (ho : S.Ok caps) (h : PlacedIn m (S.allRegions caps resizable) ps) (hm : m.addr ≠ 0)
    {hasHost : Bool} {hps : Option (List Nat)} (hh : hasHost = hps.isSome)
    (hhp : ∀ l, hps = some l → PlacedIn mh (S.layoutRegions caps) l ∧ mh.addr ≠ 0)
    {i : Nat} {v : Var} {x : VarView} (hv : S[i]? = some v)
    (hx : (S.bufferView caps resizable ps hps).vars[i]? = some x) :
    x.Fits m mh hasHost resizable caps
      (if resizable && !S.hasJagged then (S.bufferView caps resizable ps hps).size.ptr else 0) v := by
  rw [bufferView_var, hv, Option.map_some, Option.some.injEq] at hx
  subst hx
  have hi := (List.getElem?_eq_some_iff.1 hv).1
  have hp := payload_at (caps := caps) (resizable := resizable) hv
  have hl := layout_at (caps := caps) (resizable := resizable) hv
  unfold Var.makeView VarView.Fits
  cases hk : v.kind with
  | scalar =>
    have hsz : v.payloadSize caps = 1 := by simp [Var.payloadSize, hk]
    rw [hsz] at hp
    exact h.fit hp (by simp)
  | vector =>
    have hsz : v.payloadSize caps = caps.length := by simp [Var.payloadSize, hk]
    rw [hsz] at hp
    simp only
    refine ⟨Nat.mod_eq_of_lt ho.count, ?_, ?_⟩
    · unfold Schema.sizePtr
      cases resizable with
      | false => simp
      | true =>
        cases hj : S.hasJagged with
        | false => rw [bufferView_word rfl hj]; simp
        | true => simp [hk]
    · intro hne
      have hl : caps.length ≠ 0 := fun h => hne (List.length_eq_zero_iff.1 h)
      have := h.fit hp hl
      simp only [View.payload, Nat.mod_eq_of_lt ho.count]
      exact this
  | jagged =>
    rw [ho.jagged_size hk] at hp
    rw [layoutType_jagged hk, layoutSize_jagged hk] at hl
    simp only
    refine ⟨jagged_inner ho h hm hv hk, ?_, ?_⟩
    · intro w hw
      obtain ⟨j, c, _, h1, _, _, h4⟩ := jagViews_mem ho.caps32 hw
      have ht := ho.types v (List.mem_of_getElem? hv)
      simp only [View.payload, CType.region, Blk.Aligned, h4]
      refine Nat.dvd_add ?_ (Nat.dvd_trans ht.2.2 (Nat.dvd_mul_right _ _))
      by_cases h0 : caps.sum = 0
      · rw [h.null hp h0]; exact Nat.dvd_zero _
      · exact (h.fit hp h0).1
    · intro hne
      have hl0 : caps.length ≠ 0 := fun h => hne (List.length_eq_zero_iff.1 h)
      obtain ⟨f1, f2⟩ := h.fit hl hl0
      refine ⟨f1, f2, ?_⟩
      cases hps with
      | none => subst hh; simp
      | some l =>
        subst hh
        obtain ⟨g1, g2⟩ := hhp l rfl
        have hlr : (S.layoutRegions caps)[i]? = some (CType.view, caps.length) := by
          simp [Schema.layoutRegions, hv, layoutType_jagged hk, layoutSize_jagged hk]
        have := g1.nonnull g2 hlr hl0
        simp only [Option.getD_some, Option.isSome_some, if_true]
        rw [if_pos this]
        exact g1.fit hlr hl0

/-! ## disjointness -/

/-- The regions (by their position in the list of regions) that variable `i` uses. -/
def Schema.Uses (S : Schema) (caps : List Nat) (resizable : Bool) (i k : Nat) : Prop :=
  k = S.words caps resizable + i ∨ k = S.words caps resizable + S.length + i ∨
    resizable = true ∧ S.hasJagged = true ∧ k = i

theorem var_regions (ho : S.Ok caps) (h : PlacedIn m (S.allRegions caps resizable) ps) (hm : m.addr ≠ 0)
    {hps : Option (List Nat)} {i : Nat} {v : Var} {x : VarView} (hv : S[i]? = some v)
    (hx : (S.bufferView caps resizable ps hps).vars[i]? = some x) :
    ∀ b ∈ x.regions v.type resizable, ∃ k f, (S.allRegions caps resizable)[k]? = some f ∧
      b.Inside (f.1.region (ps.getD k 0) f.2) ∧ S.Uses caps resizable i k := by
  rw [bufferView_var, hv, Option.map_some, Option.some.injEq] at hx
  subst hx
  have hi := (List.getElem?_eq_some_iff.1 hv).1
  have hp := payload_at (caps := caps) (resizable := resizable) hv
  have hl := layout_at (caps := caps) (resizable := resizable) hv
  intro b hb
  unfold Var.makeView at hb
  cases hk : v.kind with
  | scalar =>
    have hsz : v.payloadSize caps = 1 := by simp [Var.payloadSize, hk]
    rw [hsz] at hp
    rw [hk] at hb
    simp only [VarView.regions, List.mem_singleton] at hb
    subst hb
    exact ⟨_, _, hp, .refl _, Or.inr (Or.inl rfl)⟩
  | vector =>
    have hsz : v.payloadSize caps = caps.length := by simp [Var.payloadSize, hk]
    rw [hsz] at hp
    rw [hk] at hb
    simp only [VarView.regions, List.mem_singleton] at hb
    subst hb
    refine ⟨_, _, hp, ?_, Or.inr (Or.inl rfl)⟩
    simp only [View.payload, Nat.mod_eq_of_lt ho.count]
    exact .refl _
  | jagged =>
    rw [ho.jagged_size hk] at hp
    rw [layoutType_jagged hk, layoutSize_jagged hk] at hl
    rw [hk] at hb
    have hj := mem_jagged hv hk
    simp only [VarView.regions, List.mem_cons, List.mem_append, List.mem_map, jagViews_length] at hb
    rcases hb with rfl | hb | ⟨w, hw, rfl⟩
    · exact ⟨_, _, hl, .refl _, Or.inl rfl⟩
    · cases hr : resizable with
      | false => simp [hr] at hb
      | true =>
        subst hr
        simp only [if_true, List.mem_map] at hb
        obtain ⟨w, hw, rfl⟩ := hb
        have hne : caps.length ≠ 0 := by
          obtain ⟨j, _, hj, _⟩ := jagViews_mem ho.caps32 hw
          omega
        have hwd := words_at (caps := caps) rfl hj hv
        rw [layoutSize_jagged hk] at hwd
        have hpt : S.sizePtr true ps i v = ps.getD i 0 := by unfold Schema.sizePtr; simp [hj, hk]
        rw [hpt] at hw
        exact ⟨_, _, hwd, jagViews_word ho.caps32 (h.nonnull hm hwd hne) hw, Or.inr (Or.inr ⟨rfl, hj, rfl⟩)⟩
    · exact ⟨_, _, hp, jagViews_row ho.caps32 hw, Or.inr (Or.inl rfl)⟩

theorem Uses.ne {i j k l : Nat} (hi : i < S.length) (hj : j < S.length) (hij : i ≠ j)
    (h1 : S.Uses caps resizable i k) (h2 : S.Uses caps resizable j l) : k ≠ l := by
  rcases h1 with rfl | rfl | ⟨a, b, rfl⟩ <;> rcases h2 with rfl | rfl | ⟨c, d, rfl⟩
  · omega
  · omega
  · rw [words_jagged c d]; omega
  · omega
  · omega
  · rw [words_jagged c d]; omega
  · rw [words_jagged a b]; omega
  · rw [words_jagged a b]; omega
  · exact hij

theorem var_regions_pairwise (ho : S.Ok caps) (h : PlacedIn m (S.allRegions caps resizable) ps) (hm : m.addr ≠ 0)
    {hps : Option (List Nat)} {i : Nat} {v : Var} {x : VarView} (hv : S[i]? = some v)
    (hx : (S.bufferView caps resizable ps hps).vars[i]? = some x) :
    (x.regions v.type resizable).Pairwise Blk.Disjoint := by
  rw [bufferView_var, hv, Option.map_some, Option.some.injEq] at hx
  subst hx
  have hi := (List.getElem?_eq_some_iff.1 hv).1
  have hp := payload_at (caps := caps) (resizable := resizable) hv
  have hl := layout_at (caps := caps) (resizable := resizable) hv
  unfold Var.makeView
  cases hk : v.kind with
  | scalar => simp [VarView.regions]
  | vector => simp [VarView.regions]
  | jagged =>
    rw [ho.jagged_size hk] at hp
    rw [layoutType_jagged hk, layoutSize_jagged hk] at hl
    have hj := mem_jagged hv hk
    have hin := jagged_inner ho h hm hv hk
    simp only [VarView.regions, jagViews_length]
    have hpay : (List.map (fun w : View => w.payload v.type) (jagViews v.type (S.sizePtr resizable ps i v)
        (ps.getD (S.words caps resizable + S.length + i) 0) caps 0 0)).Pairwise Blk.Disjoint := by
      rw [List.pairwise_map]
      exact hin.payloads.imp (fun hvw => Or.inl hvw)
    have hlp : ∀ b ∈ List.map (fun w : View => w.payload v.type) (jagViews v.type (S.sizePtr resizable ps i v)
        (ps.getD (S.words caps resizable + S.length + i) 0) caps 0 0),
        b.Inside (v.type.region (ps.getD (S.words caps resizable + S.length + i) 0) caps.sum) := by
      intro b hb
      obtain ⟨w, hw, rfl⟩ := List.mem_map.1 hb
      exact jagViews_row ho.caps32 hw
    cases hr : resizable with
    | false =>
      subst hr
      simp only [Bool.false_eq_true, if_false, List.nil_append]
      refine List.pairwise_cons.2 ⟨?_, hpay⟩
      intro b hb
      exact (h.apart (by omega) hl hp).mono (.refl _) (hlp b hb)
    | true =>
      subst hr
      simp only [if_true]
      have hwd := words_at (caps := caps) rfl hj hv
      rw [layoutSize_jagged hk] at hwd
      have hpt : S.sizePtr true ps i v = ps.getD i 0 := by unfold Schema.sizePtr; simp [hj, hk]
      have hww : ∀ b ∈ List.map (fun w : View => w.sizeWord) (jagViews v.type (S.sizePtr true ps i v)
          (ps.getD (S.words caps true + S.length + i) 0) caps 0 0),
          b.Inside (CType.uint.region (ps.getD i 0) caps.length) := by
        intro b hb
        obtain ⟨w, hw, rfl⟩ := List.mem_map.1 hb
        have hne : caps.length ≠ 0 := by
          obtain ⟨j, _, hj, _⟩ := jagViews_mem ho.caps32 hw
          omega
        rw [hpt] at hw
        exact jagViews_word ho.caps32 (h.nonnull hm hwd hne) hw
      have hK := words_jagged (caps := caps) (resizable := true) rfl hj
      refine List.pairwise_cons.2 ⟨?_, List.pairwise_append.2 ⟨?_, hpay, ?_⟩⟩
      · intro b hb
        rcases List.mem_append.1 hb with hb | hb
        · exact (h.apart (by omega) hl hwd).mono (.refl _) (hww b hb)
        · exact (h.apart (by omega) hl hp).mono (.refl _) (hlp b hb)
      · obtain ⟨hd, hh⟩ := hin.adjacent rfl
        rw [List.pairwise_map, List.pairwise_iff_getElem]
        intro a b ha hb hab
        have e1 := hh a _ (List.getElem?_eq_getElem ha)
        have e2 := hh b _ (List.getElem?_eq_getElem hb)
        refine Or.inl ?_
        simp only [View.sizeWord, CType.region, CType.uint, e1, e2]; omega
      · intro a ha b hb
        exact (h.apart (by omega) hwd hp).mono (hww a ha) (hlp b hb)

theorem bufferView_placed (ho : S.Ok caps) (h : PlacedIn m (S.allRegions caps resizable) ps) (hm : m.addr ≠ 0)
    {hasHost : Bool} {hps : Option (List Nat)} (hh : hasHost = hps.isSome)
    (hhp : ∀ l, hps = some l → PlacedIn mh (S.layoutRegions caps) l ∧ mh.addr ≠ 0) :
    EdmPlaced m mh S caps hasHost resizable (S.bufferView caps resizable ps hps) := by
  have hget : ∀ i (hi : i < (S.zip (S.bufferView caps resizable ps hps).vars).length), ∃ v x,
      (S.zip (S.bufferView caps resizable ps hps).vars)[i] = (v, x) ∧ S[i]? = some v ∧
      (S.bufferView caps resizable ps hps).vars[i]? = some x ∧ i < S.length := by
    intro i hi
    have := List.getElem?_zip_eq_some.1 (List.getElem?_eq_getElem hi)
    exact ⟨_, _, rfl, this.1, this.2, (List.getElem?_eq_some_iff.1 this.1).1⟩
  refine ⟨Nat.mod_eq_of_lt ho.count, bufferView_count .., ?_, ?_, ?_, ?_, ?_⟩
  · intro i v x hv hx
    exact var_fits ho h hm hh hhp hv hx
  · intro hr hj
    have hw := word_at (caps := caps) hr hj
    rw [bufferView_word hr hj]
    exact ⟨h.nonnull hm hw (by simp), h.fit hw (by simp)⟩
  · intro hr
    rw [bufferView_fixed hr]
  · unfold EdmView.regions
    rw [List.pairwise_append]
    refine ⟨by split <;> simp, ?_, ?_⟩
    · rw [List.pairwise_flatMap]
      refine ⟨?_, ?_⟩
      · intro a ha
        obtain ⟨i, hi, rfl⟩ := List.getElem_of_mem ha
        obtain ⟨v, x, e, hv, hx, _⟩ := hget i hi
        rw [e]
        exact var_regions_pairwise ho h hm hv hx
      · rw [List.pairwise_iff_getElem]
        intro i j hi hj hij b hb c hc
        obtain ⟨v, x, e, hv, hx, hi'⟩ := hget i hi
        obtain ⟨w, y, f, hw, hy, hj'⟩ := hget j hj
        rw [e] at hb
        rw [f] at hc
        obtain ⟨k, g, k1, k2, k3⟩ := var_regions ho h hm hv hx b hb
        obtain ⟨l, g', l1, l2, l3⟩ := var_regions ho h hm hw hy c hc
        exact (h.apart (Uses.ne hi' hj' (by omega) k3 l3) k1 l1).mono k2 l2
    · intro a ha b hb
      cases hc : (resizable && !S.hasJagged) with
      | false => simp [hc] at ha
      | true =>
        simp only [hc, if_true, List.mem_singleton] at ha
        subst ha
        simp only [Bool.and_eq_true, Bool.not_eq_true'] at hc
        obtain ⟨hr, hj⟩ := hc
        obtain ⟨y, hy, hb⟩ := List.mem_flatMap.1 hb
        obtain ⟨i, hi, rfl⟩ := List.getElem_of_mem hy
        obtain ⟨v, x, e, hv, hx, _⟩ := hget i hi
        rw [e] at hb
        obtain ⟨k, g, k1, k2, k3⟩ := var_regions ho h hm hv hx b hb
        rw [bufferView_word hr hj]
        refine (h.apart ?_ (word_at hr hj) k1).mono (.refl _) k2
        rcases k3 with rfl | rfl | ⟨_, h2, _⟩
        · rw [words_vector hr hj]; omega
        · rw [words_vector hr hj]; omega
        · rw [hj] at h2; exact absurd h2 (by simp)
  · intro hhost
    subst hh
    obtain ⟨l, rfl⟩ := Option.isSome_iff_exists.1 hhost
    obtain ⟨g1, g2⟩ := hhp l rfl
    unfold EdmView.hostLayouts
    rw [List.pairwise_filterMap, List.pairwise_iff_getElem]
    have key : ∀ i (hi : i < (S.bufferView caps resizable ps (some l)).vars.length) b,
        (match (S.bufferView caps resizable ps (some l)).vars[i] with
          | .jagged j => some (CType.view.region j.hostPtr j.views.length)
          | _ => none) = some b → ∃ v, S[i]? = some v ∧
            b.Inside (CType.region v.layoutType (l.getD i 0) (v.layoutSize caps)) := by
      intro i hi b hb
      have hx := List.getElem?_eq_getElem hi
      rw [bufferView_var] at hx
      cases hv : S[i]? with
      | none => rw [hv] at hx; simp at hx
      | some v =>
        rw [hv, Option.map_some, Option.some.injEq] at hx
        rw [← hx] at hb
        refine ⟨v, rfl, ?_⟩
        unfold Var.makeView at hb
        cases hk : v.kind with
        | scalar => rw [hk] at hb; simp at hb
        | vector => rw [hk] at hb; simp at hb
        | jagged =>
          rw [hk] at hb
          simp only [Option.some.injEq, jagViews_length, Option.getD_some] at hb
          subst hb
          rw [layoutType_jagged hk, layoutSize_jagged hk]
          have hlr : (S.layoutRegions caps)[i]? = some (CType.view, caps.length) := by
            simp [Schema.layoutRegions, hv, layoutType_jagged hk, layoutSize_jagged hk]
          by_cases h0 : caps.length = 0
          · have hl := layout_at (caps := caps) (resizable := resizable) hv
            rw [layoutType_jagged hk, layoutSize_jagged hk] at hl
            rw [g1.null hlr h0, h.null hl h0]
            simp only [ne_eq, not_true_eq_false, if_false]
            exact .refl _
          · rw [if_pos (g1.nonnull g2 hlr h0)]
            exact .refl _
    intro i j hi hj hij b hb c hc
    obtain ⟨v, hv, hb'⟩ := key i hi b hb
    obtain ⟨w, hw, hc'⟩ := key j hj c hc
    have e1 : (S.layoutRegions caps)[i]? = some (v.layoutType, v.layoutSize caps) := by
      simp [Schema.layoutRegions, hv]
    have e2 : (S.layoutRegions caps)[j]? = some (w.layoutType, w.layoutSize caps) := by
      simp [Schema.layoutRegions, hw]
    exact (g1.apart (by omega) e1 e2).mono hb' hc'

end Vecmem
