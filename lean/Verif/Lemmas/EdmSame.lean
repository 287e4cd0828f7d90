import Verif.Lemmas.EdmPlaced

/-! # Two buffers with the same capacities -/

namespace Vecmem

open IntMath

variable {S : Schema} {caps : List Nat} {resizable hasHost : Bool} {m mh : Blk} {e : EdmView}

/-- Where the elements of a buffer start that was placed from address `p` on. -/
def Schema.payloadStart (S : Schema) (caps : List Nat) (resizable : Bool) (p : Nat) : Nat :=
  placeEnd (placeEnd p (S.sizeRegions caps resizable)) (S.layoutRegions caps)

/-- The view of a buffer that was placed from address `p` on. -/
structure BufferAt (S : Schema) (caps : List Nat) (resizable : Bool) (p : Nat) (e : EdmView) : Prop where
  start : p ≠ 0
  finish : placeEnd p (S.allRegions caps resizable) =
    placeEnd (S.payloadStart caps resizable p) (S.payloadRegions caps)
  ge : p ≤ S.payloadStart caps resizable p
  size : e.size = S.sizeView caps resizable (placeAt p (S.sizeRegions caps resizable))
  payload : e.payload = memoryView (S.payloadRegions caps) (placeAt (S.payloadStart caps resizable p) (S.payloadRegions caps))
  vars : ∀ (i : Nat) (v : Var) (x : VarView), S[i]? = some v → e.vars[i]? = some x → ∃ l h,
    x = v.makeView caps (S.sizePtr resizable (placeAt p (S.sizeRegions caps resizable)) i v) l h
      ((placeAt (S.payloadStart caps resizable p) (S.payloadRegions caps)).getD i 0)

theorem bufferView_at {ps : List Nat} {p : Nat} (hp : p ≠ 0) (hps : ps = placeAt p (S.allRegions caps resizable))
    (hls : Option (List Nat)) : BufferAt S caps resizable p (S.bufferView caps resizable ps hls) := by
  have hllen : (S.layoutRegions caps).length = S.length := by simp [Schema.layoutRegions]
  obtain ⟨s1, s2, s3⟩ := slices (A := S.sizeRegions caps resizable) (B := S.layoutRegions caps)
    (C := S.payloadRegions caps) p
  rw [hllen] at s2 s3
  refine ⟨hp, ?_, Nat.le_trans (placeEnd_ge _ _) (placeEnd_ge _ _), ?_, ?_, ?_⟩
  · unfold Schema.allRegions Schema.payloadStart
    rw [placeEnd_append, placeEnd_append]
  · show S.sizeView caps resizable (ps.take _) = _
    rw [hps]; unfold Schema.allRegions; rw [s1]
  · show memoryView _ ((ps.drop _).drop _) = _
    rw [hps]; unfold Schema.allRegions; rw [s3]; rfl
  · intro i v x hv hx
    have hi := (List.getElem?_eq_some_iff.1 hv).1
    rw [bufferView_var, hv, Option.map_some, Option.some.injEq] at hx
    have hpayAt : (placeAt (S.payloadStart caps resizable p) (S.payloadRegions caps)).getD i 0 =
        ps.getD (S.words caps resizable + S.length + i) 0 := by
      unfold Schema.payloadStart
      rw [← s3, hps]
      unfold Schema.allRegions Schema.words
      simp [List.getD_eq_getElem?_getD, Nat.add_assoc]
    have hsz : S.sizePtr resizable (placeAt p (S.sizeRegions caps resizable)) i v = S.sizePtr resizable ps i v := by
      have hsizeAt : ∀ k, k < (S.sizeRegions caps resizable).length →
          (placeAt p (S.sizeRegions caps resizable)).getD k 0 = ps.getD k 0 := by
        intro k hk
        rw [← s1, hps]
        unfold Schema.allRegions
        simp [List.getD_eq_getElem?_getD, hk]
      unfold Schema.sizePtr
      cases hr : resizable with
      | false => simp
      | true =>
        subst hr
        cases hj : S.hasJagged with
        | true =>
          have hl : (S.sizeRegions caps true).length = S.length := words_jagged rfl hj
          simp only [if_true]
          by_cases hk : v.kind = .jagged
          · rw [if_pos hk, if_pos hk, hsizeAt i (by omega)]
          · rw [if_neg hk, if_neg hk]
        | false =>
          have hl : (S.sizeRegions caps true).length = 1 := words_vector rfl hj
          simp only [if_true, Bool.false_eq_true, if_false]
          rw [hsizeAt 0 (by omega)]
    exact ⟨_, _, by rw [hsz, hpayAt]; exact hx.symm⟩

theorem jagViews_at {t : CType} {hdr data : Nat} (hc : ∀ c ∈ caps, c < 2 ^ 32) {k : Nat} {w : View}
    (hw : (jagViews t hdr data caps 0 0)[k]? = some w) : ∃ c, caps[k]? = some c ∧
      w = ⟨c, if hdr ≠ 0 then hdr + 4 * k else 0, data + t.size * (caps.take k).sum⟩ := by
  rw [jagViews_get] at hw
  cases hx : caps[k]? with
  | none => rw [hx] at hw; simp at hw
  | some c =>
    rw [hx] at hw
    simp only [Option.map_some, Option.some.injEq] at hw
    subst hw
    have := Nat.mod_eq_of_lt (hc c (List.mem_of_getElem? hx))
    exact ⟨c, rfl, by rw [this]; simp⟩

theorem kind_of_makeView (v : Var) (caps : List Nat) (s l h p : Nat) : (v.makeView caps s l h p).kind = v.kind := by
  unfold Var.makeView
  cases v.kind <;> rfl

theorem BufferAt.null (hb : BufferAt S caps resizable p e) (hr : resizable = false) : e.size.ptr = 0 := by
  rw [hb.size, hr]
  simp [Schema.sizeView]

theorem BufferAt.fixed (hb : BufferAt S caps resizable p e) (hl : EdmBlocks m S caps resizable e)
    (hp : EdmPlaced m mh S caps hasHost resizable e) (hm : m.addr ≠ 0) (h0 : e.size.ptr = 0) :
    ∀ x ∈ e.vars, ∀ a ∈ x.rows, a.sizePtr = 0 := by
  intro x hx a ha
  obtain ⟨i, hi⟩ := List.mem_iff_getElem?.1 hx
  have hiS : i < S.length := by rw [← hp.count]; exact (List.getElem?_eq_some_iff.1 hi).1
  have hv := List.getElem?_eq_getElem hiS
  have hf := hp.vars i _ x hv hi
  unfold VarView.Fits at hf
  cases x with
  | scalar q =>
    simp only [VarView.rows, List.mem_singleton] at ha
    rw [ha]
  | vector w =>
    simp only [VarView.rows, List.mem_singleton] at ha
    subst ha
    have hk : S[i].kind = .vector := by cases hk : S[i].kind <;> rw [hk] at hf <;> first | rfl | exact hf.elim
    rw [hk] at hf
    rw [hf.2.1, h0]
    simp
  | jagged j =>
    have hk : S[i].kind = .jagged := by cases hk : S[i].kind <;> rw [hk] at hf <;> first | rfl | exact hf.elim
    rw [hk] at hf
    have hw := hf.1.words a ha
    cases hr : resizable with
    | false => rw [hr] at hw; exact hw
    | true =>
      rw [hr] at hw
      have h1 := hl.words hr i j hi a ha
      have h2 := hl.inside e.size.bytes (by simp)
      simp only [View.sizeWord, CType.region, CType.uint, View.bytes, Blk.Inside] at h1 h2
      have := hw.1
      omega

theorem BufferAt.inside (hl : EdmBlocks m S caps resizable e)
    (hp : EdmPlaced m mh S caps hasHost resizable e) :
    ∀ x ∈ e.vars, ∀ a ∈ x.rows, a.sizePtr ≠ 0 → a.sizeWord.Inside e.size.bytes := by
  intro x hx a ha h0
  obtain ⟨i, hi⟩ := List.mem_iff_getElem?.1 hx
  have hiS : i < S.length := by rw [← hp.count]; exact (List.getElem?_eq_some_iff.1 hi).1
  have hv := List.getElem?_eq_getElem hiS
  have hf := hp.vars i _ x hv hi
  unfold VarView.Fits at hf
  cases x with
  | scalar q =>
    simp only [VarView.rows, List.mem_singleton] at ha
    rw [ha] at h0
    exact absurd rfl h0
  | vector w =>
    simp only [VarView.rows, List.mem_singleton] at ha
    subst ha
    have hk : S[i].kind = .vector := by cases hk : S[i].kind <;> rw [hk] at hf <;> first | rfl | exact hf.elim
    rw [hk] at hf
    have h1 := hf.2.1
    cases hr : resizable with
    | false => rw [hr] at h1; simp at h1; exact absurd h1 h0
    | true =>
      cases hj : S.hasJagged with
      | true => rw [hr, hj] at h1; simp at h1; exact absurd h1 h0
      | false =>
        rw [hr, hj] at h1
        simp only [Bool.not_false, Bool.and_self, if_true] at h1
        have := hl.word hr hj
        simp only [View.sizeWord, CType.region, CType.uint, View.bytes, Blk.Inside, h1, this]
        omega
  | jagged j =>
    have hk : S[i].kind = .jagged := by cases hk : S[i].kind <;> rw [hk] at hf <;> first | rfl | exact hf.elim
    rw [hk] at hf
    have hw := hf.1.words a ha
    cases hr : resizable with
    | false => rw [hr] at hw; exact absurd hw h0
    | true => exact hl.words hr i j hi a ha

variable {r' hasHost' : Bool} {m' mh' : Blk} {e' : EdmView} {p p' : Nat}

/-- The bytes of the elements, from where they start. -/
theorem BufferAt.capacity (hb : BufferAt S caps resizable p e)
    (hend : placeEnd p (S.allRegions caps resizable) ≤ p + m.size) (hlt : m.size < 2 ^ 32)
    (hex : ∃ x ∈ S.payloadRegions caps, x.2 ≠ 0) :
    e.payload.ptr = findFirst (placeAt (S.payloadStart caps resizable p) (S.payloadRegions caps)) ∧
    e.payload.capacity = placeEnd (S.payloadStart caps resizable p) (S.payloadRegions caps) -
      findFirst (placeAt (S.payloadStart caps resizable p) (S.payloadRegions caps)) := by
  have h0 := hb.start
  have h1 := hb.ge
  have h2 := hb.finish
  obtain ⟨_, f1⟩ := findLast_at (p := S.payloadStart caps resizable p) (by omega) hex
  obtain ⟨f2, f3, _⟩ := findFirst_at (p := S.payloadStart caps resizable p) (by omega) hex
  rw [hb.payload]
  refine ⟨rfl, ?_⟩
  unfold memoryView
  simp only [f1]
  exact Nat.mod_eq_of_lt (by omega)

/-- Buffers with the same capacities are laid out in the same way, if their elements take as many bytes. -/
theorem buffers_alike (ho : S.Ok caps) (hb : BufferAt S caps resizable p e) (hb' : BufferAt S caps r' p' e')
    (hp : EdmPlaced m mh S caps hasHost resizable e) (hp' : EdmPlaced m' mh' S caps hasHost' r' e')
    (hl : EdmBlocks m S caps resizable e) (hl' : EdmBlocks m' S caps r' e')
    (hm : m.addr ≠ 0) (hm' : m'.addr ≠ 0)
    (hend : placeEnd p (S.allRegions caps resizable) ≤ p + m.size) (hlt : m.size < 2 ^ 32)
    (hend' : placeEnd p' (S.allRegions caps r') ≤ p' + m'.size) (hlt' : m'.size < 2 ^ 32)
    (hsame : e.payload.capacity = e'.payload.capacity) : EdmAlike S e e' := by
  have hwf : ∀ x ∈ S.payloadRegions caps, x.1.Wf := by
    intro x hx
    obtain ⟨v, hv, rfl⟩ := List.mem_map.1 hx
    exact ho.types v hv
  -- elements of a variable
  have halike : ∀ (i : Nat) (v : Var), S[i]? = some v → v.payloadSize caps ≠ 0 → ∃ o,
      (placeAt (S.payloadStart caps resizable p) (S.payloadRegions caps)).getD i 0 = e.payload.ptr + o ∧
      (placeAt (S.payloadStart caps r' p') (S.payloadRegions caps)).getD i 0 = e'.payload.ptr + o := by
    intro i v hv h0
    have hpr : (S.payloadRegions caps)[i]? = some (v.type, v.payloadSize caps) := by simp [Schema.payloadRegions, hv]
    have hex : ∃ x ∈ S.payloadRegions caps, x.2 ≠ 0 := ⟨_, List.mem_of_getElem? hpr, h0⟩
    obtain ⟨c1, c2⟩ := hb.capacity hend hlt hex
    obtain ⟨d1, d2⟩ := hb'.capacity hend' hlt' hex
    have g1 := hb.start
    have g2 := hb.ge
    have g3 := hb'.start
    have g4 := hb'.ge
    rw [c1, d1]
    exact place_alike _ _ _ hwf (by omega) (by omega) (by rw [← c2, ← d2, hsame]) i _ hpr h0
  have hsz0 : e.size.ptr ≠ 0 → resizable = true := by
    intro h
    cases hr : resizable with
    | true => rfl
    | false => exact absurd (hb.null hr) h
  have hsz0' : e'.size.ptr ≠ 0 → r' = true := by
    intro h
    cases hr : r' with
    | true => rfl
    | false => exact absurd (hb'.null hr) h
  refine ⟨hsame, ?_, ?_, ?_, hb.fixed hl hp hm, hb'.fixed hl' hp' hm', BufferAt.inside hl' hp', ?_, ?_, ?_⟩
  · intro i v x y hv hx hy
    obtain ⟨l, h, ex⟩ := hb.vars i v x hv hx
    obtain ⟨l', h', ey⟩ := hb'.vars i v y hv hy
    have hpay := hl.payload i v x hv hx
    have hbound : ∀ (k : Nat) (a b : View), x.rows[k]? = some a → a.payload v.type ∈ x.payloads v.type →
        a.capacity ≠ 0 → (∃ o, a.ptr = e.payload.ptr + o ∧ b.ptr = e'.payload.ptr + o) →
        ∃ o, a.ptr = e.payload.ptr + o ∧ b.ptr = e'.payload.ptr + o ∧ o + a.capacity * v.type.size ≤ e.payload.capacity := by
      rintro k a b hka hmem h0 ⟨o, o1, o2⟩
      have hpos := (ho.types v (List.mem_of_getElem? hv)).1
      have := hpay _ hmem (by
        simp only [View.payload, CType.region]
        exact Nat.ne_of_gt (Nat.mul_pos (by omega) hpos))
      simp only [View.payload, CType.region, View.bytes, Blk.Inside] at this
      exact ⟨o, o1, o2, by omega⟩
    unfold Var.makeView at ex ey
    cases hk : v.kind with
    | scalar =>
      rw [hk] at ex ey
      simp only at ex ey
      subst ex ey
      refine ⟨rfl, ?_⟩
      intro k a b hka hkb
      obtain ⟨o, o1, o2⟩ := halike i v hv (by simp [Var.payloadSize, hk])
      cases k with
      | succ k => simp [VarView.rows] at hka
      | zero =>
        have hka0 := hka
        simp only [VarView.rows, List.getElem?_cons_zero, Option.some.injEq] at hka hkb
        subst hka hkb
        exact ⟨rfl, fun h0 => hbound 0 _ _ hka0 (List.mem_singleton.2 rfl) h0 ⟨o, o1, o2⟩⟩
    | vector =>
      rw [hk] at ex ey
      simp only at ex ey
      subst ex ey
      refine ⟨rfl, ?_⟩
      intro k a b hka hkb
      cases k with
      | succ k => simp [VarView.rows] at hka
      | zero =>
        have hka0 := hka
        simp only [VarView.rows, List.getElem?_cons_zero, Option.some.injEq] at hka hkb
        subst hka hkb
        refine ⟨rfl, fun h0 => hbound 0 _ _ hka0 (List.mem_singleton.2 rfl) h0 ?_⟩
        simp only [Nat.mod_eq_of_lt ho.count] at h0
        exact halike i v hv (by simpa [Var.payloadSize, hk] using h0)
    | jagged =>
      rw [hk] at ex ey
      simp only at ex ey
      subst ex ey
      refine ⟨by simp [VarView.rows, jagViews_length], ?_⟩
      intro k a b hka hkb
      have hka0 := hka
      simp only [VarView.rows] at hka hkb
      obtain ⟨c, hc, ea⟩ := jagViews_at ho.caps32 hka
      obtain ⟨c', hc', eb⟩ := jagViews_at ho.caps32 hkb
      have hcc : c = c' := by rw [hc] at hc'; simpa using hc'
      subst hcc
      refine ⟨by rw [ea, eb], fun h0 => hbound k _ _ hka0 (List.mem_map.2 ⟨a, List.mem_of_getElem? hka, rfl⟩) h0 ?_⟩
      have hsum := sum_take_add_le hc
      have hc0 : c ≠ 0 := by rw [ea] at h0; exact h0
      obtain ⟨o, o1, o2⟩ := halike i v hv (by rw [ho.jagged_size hk]; omega)
      refine ⟨o + v.type.size * (caps.take k).sum, ?_, ?_⟩
      · rw [ea, o1, Nat.add_assoc]
      · rw [eb, o2, Nat.add_assoc]
  · intro h1 h2
    rw [hb.size, hb'.size, hsz0 h1, hsz0' h2]
    unfold Schema.sizeView
    cases S.hasJagged <;> simp
  · intro h1 i x y hx hy k a b hka hkb h0
    have hr := hsz0 h1
    have hin := BufferAt.inside hl' hp' y (List.mem_of_getElem? hy) b (List.mem_of_getElem? hkb) h0
    have hiS : i < S.length := by rw [← hp.count]; exact (List.getElem?_eq_some_iff.1 hx).1
    have hv := List.getElem?_eq_getElem hiS
    obtain ⟨l, h, ex⟩ := hb.vars i _ x hv hx
    obtain ⟨l', h', ey⟩ := hb'.vars i _ y hv hy
    have hr' : r' = true := by
      apply hsz0'
      intro hc
      exact h0 (hb'.fixed hl' hp' hm' hc y (List.mem_of_getElem? hy) b (List.mem_of_getElem? hkb))
    have hin2 : ∀ o, b.sizePtr = e'.size.ptr + o → o + 4 ≤ e'.size.capacity := by
      intro o ho
      simp only [View.sizeWord, CType.region, CType.uint, View.bytes, Blk.Inside] at hin
      omega
    unfold Var.makeView at ex ey
    cases hk : S[i].kind with
    | scalar =>
      rw [hk] at ey
      simp only at ey
      subst ey
      have hbm := List.mem_of_getElem? hkb
      simp only [VarView.rows, List.mem_singleton] at hbm
      rw [hbm] at h0
      exact absurd rfl h0
    | vector =>
      rw [hk] at ex ey
      simp only at ex ey
      subst ex ey
      have ham := List.mem_of_getElem? hka
      have hbm := List.mem_of_getElem? hkb
      simp only [VarView.rows, List.mem_singleton] at ham hbm
      cases hj : S.hasJagged with
      | true =>
        rw [hbm] at h0
        simp [Schema.sizePtr, hj, hk] at h0
      | false =>
        have ea : a.sizePtr = e.size.ptr := by
          rw [ham, hb.size, hr]
          simp [Schema.sizePtr, Schema.sizeView, hj]
        have eb : b.sizePtr = e'.size.ptr := by
          rw [hbm, hb'.size, hr']
          simp [Schema.sizePtr, Schema.sizeView, hj]
        exact ⟨by rw [ea]; exact h1, 0, by rw [ea]; rfl, by rw [eb]; rfl, hin2 0 (by rw [eb]; rfl)⟩
    | jagged =>
      have hj := mem_jagged hv hk
      rw [hk] at ex ey
      simp only at ex ey
      subst ex ey
      simp only [VarView.rows] at hka hkb
      obtain ⟨c, hc, ea⟩ := jagViews_at ho.caps32 hka
      obtain ⟨c', hc', eb⟩ := jagViews_at ho.caps32 hkb
      have hlen : caps.length ≠ 0 := by
        have := (List.getElem?_eq_some_iff.1 hc).1
        omega
      have hsp : ∀ (q : Nat), S.sizePtr true (placeAt q (S.sizeRegions caps true)) i S[i] =
          (placeAt q (S.sizeRegions caps true)).getD i 0 := by
        intro q
        simp [Schema.sizePtr, hj, hk]
      subst hr hr'
      rw [hsp] at ea eb
      have hreg := sizeRegions_eq (S := S) (caps := caps) (resizable := true) rfl hj
      have hget : (S.sizeRegions caps true)[i]? = some (CType.uint, caps.length) := by
        rw [hreg, List.getElem?_map, List.getElem?_map, hv]
        simp [layoutSize_jagged hk]
      have hex : ∃ n ∈ S.map fun v => v.layoutSize caps, n ≠ 0 :=
        ⟨caps.length, List.mem_map.2 ⟨S[i], List.getElem_mem hiS, layoutSize_jagged hk⟩, hlen⟩
      have q1 := placeEnd_words _ p hb.start hex
      have q2 := placeEnd_words _ p' hb'.start hex
      rw [← hreg] at q1 q2
      obtain ⟨o, o1, o2⟩ := place_alike (S.sizeRegions caps true) p p' (by
        intro x hx
        rw [hreg] at hx
        obtain ⟨n, _, rfl⟩ := List.mem_map.1 hx
        exact uint_wf) hb.start hb'.start (by omega) i _ hget hlen
      have s1 : e.size.ptr = findFirst (placeAt p (S.sizeRegions caps true)) := by
        rw [hb.size]; simp [Schema.sizeView, hj]
      have s2 : e'.size.ptr = findFirst (placeAt p' (S.sizeRegions caps true)) := by
        rw [hb'.size]; simp [Schema.sizeView, hj]
      rw [o1, ← s1] at ea
      rw [o2, ← s2] at eb
      have n2 : e'.size.ptr + o ≠ 0 := by
        intro hc
        rw [eb, hc] at h0
        simp at h0
      rw [if_pos (by omega)] at ea
      rw [if_pos n2] at eb
      have ea' : a.sizePtr = e.size.ptr + (o + 4 * k) := by rw [ea, ← Nat.add_assoc]
      have eb' : b.sizePtr = e'.size.ptr + (o + 4 * k) := by rw [eb, ← Nat.add_assoc]
      exact ⟨by omega, _, ea', eb', hin2 _ eb'⟩
  · intro hj h0
    have hr' := hsz0' h0
    refine ⟨hl'.word hr' hj, ?_⟩
    intro b hbm
    obtain ⟨i, hi⟩ := List.mem_iff_getElem?.1 hbm
    have hiS : i < S.length := by rw [← hp'.count]; exact (List.getElem?_eq_some_iff.1 hi).1
    have hf := hp'.vars i _ _ (List.getElem?_eq_getElem hiS) hi
    unfold VarView.Fits at hf
    have hk : S[i].kind = .vector := by cases hk : S[i].kind <;> rw [hk] at hf <;> first | rfl | exact hf.elim
    rw [hk] at hf
    rw [hf.2.1, hr', hj]
    simp
  · intro hj b hbm
    obtain ⟨i, hi⟩ := List.mem_iff_getElem?.1 hbm
    have hiS : i < S.length := by rw [← hp'.count]; exact (List.getElem?_eq_some_iff.1 hi).1
    have hf := hp'.vars i _ _ (List.getElem?_eq_getElem hiS) hi
    unfold VarView.Fits at hf
    have hk : S[i].kind = .vector := by cases hk : S[i].kind <;> rw [hk] at hf <;> first | rfl | exact hf.elim
    rw [hk] at hf
    rw [hf.2.1, hj]
    simp
  · rw [hp.capacity]
    refine ⟨ho.count, ?_⟩
    intro b hbm
    obtain ⟨i, hi⟩ := List.mem_iff_getElem?.1 hbm
    have hiS : i < S.length := by rw [← hp.count]; exact (List.getElem?_eq_some_iff.1 hi).1
    have hf := hp.vars i _ _ (List.getElem?_eq_getElem hiS) hi
    unfold VarView.Fits at hf
    have hk : S[i].kind = .vector := by cases hk : S[i].kind <;> rw [hk] at hf <;> first | rfl | exact hf.elim
    rw [hk] at hf
    exact hf.1

/-- The blocks of two buffers share no memory. -/
theorem buffers_apart (hb : BufferAt S caps resizable p e) (hb' : BufferAt S caps r' p' e')
    (hl : EdmBlocks m S caps resizable e) (hl' : EdmBlocks m' S caps r' e')
    (hm : m.addr ≠ 0) (hm' : m'.addr ≠ 0) (hs : m.addr + m.size ≤ 2 ^ 64) (hs' : m'.addr + m'.size ≤ 2 ^ 64)
    (hlt : m.size < 2 ^ 32) (hlt' : m'.size < 2 ^ 32) (hd : m.Disjoint m') : EdmApart e e' := by
  have hin : ∀ v ∈ [e.payload, e.size], v.capacity ≠ 0 → v.bytes.Inside m := by
    intro v hv h0
    simp only [List.mem_cons, List.not_mem_nil, or_false] at hv
    rcases hv with rfl | rfl
    · exact hl.inside _ (by simp) h0
    · exact hl.inside _ (by simp) h0
  have hin' : ∀ v ∈ [e'.payload, e'.size], v.capacity ≠ 0 → v.bytes.Inside m' := by
    intro v hv h0
    simp only [List.mem_cons, List.not_mem_nil, or_false] at hv
    rcases hv with rfl | rfl
    · exact hl'.inside _ (by simp) h0
    · exact hl'.inside _ (by simp) h0
  have hz : ∀ {q r : _} {f : EdmView}, BufferAt S caps r q f → f.payload.sizePtr = 0 ∧ f.size.sizePtr = 0 := by
    intro q r f hf
    rw [hf.payload, hf.size]
    refine ⟨rfl, ?_⟩
    unfold Schema.sizeView
    cases r <;> cases S.hasJagged <;> simp
  have key : ∀ (v : View) (n : Blk), v.sizePtr = 0 → n.addr ≠ 0 → n.addr + n.size ≤ 2 ^ 64 → n.size < 2 ^ 32 →
      (v.capacity ≠ 0 → v.bytes.Inside n) → v.Placed 1 ∧ v.sizePtr = 0 := by
    intro v n h0 h1 h2 h3 h4
    refine ⟨⟨fun h => ?_, fun h => ?_, ?_, fun x hx => hx.2.1 h0⟩, h0⟩
    · have := h4 h
      simp only [View.bytes, Blk.Inside] at this
      omega
    · have := h4 h
      simp only [View.bytes, Blk.Inside] at this
      omega
    · by_cases h : v.capacity = 0
      · rw [h]; exact Nat.two_pow_pos _
      · have := h4 h
        simp only [View.bytes, Blk.Inside] at this
        omega
  refine ⟨?_, ?_, ?_⟩
  · intro v hv
    simp only [List.mem_cons, List.not_mem_nil, or_false] at hv
    rcases hv with rfl | rfl | rfl | rfl
    · exact key _ m (hz hb).1 hm hs hlt (hin _ (by simp))
    · exact key _ m' (hz hb').1 hm' hs' hlt' (hin' _ (by simp))
    · exact key _ m (hz hb).2 hm hs hlt (hin _ (by simp))
    · exact key _ m' (hz hb').2 hm' hs' hlt' (hin' _ (by simp))
  · rintro v hv w hw a ⟨h1, h2⟩
    simp only [View.bytes, Blk.At] at h1 h2
    have i1 := hin v hv (by omega)
    have i2 := hin' w hw (by omega)
    simp only [View.bytes, Blk.Inside] at i1 i2
    unfold Blk.Disjoint at hd
    omega
  · have := hl'.apart
    simp only [List.pairwise_cons, List.mem_cons, List.not_mem_nil, or_false] at this
    exact (this.1 _ (.inr rfl)).at

end Vecmem
