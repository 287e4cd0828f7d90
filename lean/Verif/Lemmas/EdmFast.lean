import Verif.Lemmas.EdmCopy
import Verif.Spec.EdmBuffer

/-! # Lemmas about copies of containers as one block -/

namespace Vecmem

open IntMath Prog

/-- The memory of two containers is laid out in the same way, in one block with the elements and one with the sizes. -/
structure EdmAlike (S : Schema) (src dst : EdmView) : Prop where
  same : src.payload.capacity = dst.payload.capacity
  rows : ∀ (i : Nat) (v : Var) (x y : VarView), S[i]? = some v → src.vars[i]? = some x → dst.vars[i]? = some y →
    x.rows.length = y.rows.length ∧ ∀ (k : Nat) (a b : View), x.rows[k]? = some a → y.rows[k]? = some b →
      a.capacity = b.capacity ∧ (a.capacity ≠ 0 → ∃ o, a.ptr = src.payload.ptr + o ∧ b.ptr = dst.payload.ptr + o ∧
        o + a.capacity * v.type.size ≤ src.payload.capacity)
  sizes : src.size.ptr ≠ 0 → dst.size.ptr ≠ 0 → src.size.capacity = dst.size.capacity
  words : src.size.ptr ≠ 0 → ∀ (i : Nat) (x y : VarView), src.vars[i]? = some x → dst.vars[i]? = some y →
    ∀ (k : Nat) (a b : View), x.rows[k]? = some a → y.rows[k]? = some b → b.sizePtr ≠ 0 →
      a.sizePtr ≠ 0 ∧ ∃ o, a.sizePtr = src.size.ptr + o ∧ b.sizePtr = dst.size.ptr + o ∧ o + 4 ≤ dst.size.capacity
  fixed : src.size.ptr = 0 → ∀ x ∈ src.vars, ∀ a ∈ x.rows, a.sizePtr = 0
  dstFixed : dst.size.ptr = 0 → ∀ y ∈ dst.vars, ∀ b ∈ y.rows, b.sizePtr = 0
  inside : ∀ y ∈ dst.vars, ∀ b ∈ y.rows, b.sizePtr ≠ 0 → b.sizeWord.Inside dst.size.bytes
  single : S.hasJagged = false → dst.size.ptr ≠ 0 → dst.size.capacity = 4 ∧ ∀ b, .vector b ∈ dst.vars → b.sizePtr = dst.size.ptr
  many : S.hasJagged = true → ∀ b, .vector b ∈ dst.vars → b.sizePtr = 0
  capacity : src.capacity < 2 ^ 32 ∧ ∀ a, .vector a ∈ src.vars → a.capacity = src.capacity

/-- The address `a` is in the block. -/
def Blk.At (b : Blk) (a : Nat) : Prop := b.addr ≤ a ∧ a < b.addr + b.size

/-- The blocks of two containers are in the address space and share no memory, and the ones of the target do not either. -/
structure EdmApart (src dst : EdmView) : Prop where
  views : ∀ v ∈ [src.payload, dst.payload, src.size, dst.size], v.Placed 1 ∧ v.sizePtr = 0
  apart : ∀ v ∈ [src.payload, src.size], ∀ w ∈ [dst.payload, dst.size], ∀ a, ¬ (v.bytes.At a ∧ w.bytes.At a)
  own : ∀ a, ¬ (dst.size.bytes.At a ∧ dst.payload.bytes.At a)

variable {S : Schema} {src dst : EdmView} {m : Mem}

theorem block_valid {v : View} (h : v.Placed 1 ∧ v.sizePtr = 0) (m : Mem) : v.Valid m 1 :=
  ⟨h.1, by simp [View.len, h.2]⟩

theorem block_len {v : View} (h : v.Placed 1 ∧ v.sizePtr = 0) (m : Mem) : v.len m = v.capacity := by simp [View.len, h.2]

theorem block_separate {v w : View} (hv : v.sizePtr = 0) (hw : w.sizePtr = 0) (h : ∀ a, ¬ (v.bytes.At a ∧ w.bytes.At a)) :
    v.Separate 1 w := by
  rintro x ⟨⟨a1, a2⟩ | ⟨a1, _⟩, ⟨b1, b2⟩ | ⟨b1, _⟩⟩
  · have := h x
    simp only [View.bytes, Blk.At] at this
    omega
  · exact b1 hw
  · exact a1 hv
  · exact b1 hw

/-- A copy of a block. -/
theorem copyBlock_does {v w : View} (hv : v.Placed 1 ∧ v.sizePtr = 0) (hw : w.Placed 1 ∧ w.sizePtr = 0)
    (hd : ∀ a, ¬ (v.bytes.At a ∧ w.bytes.At a)) (hc : v.capacity = w.capacity) (m : Mem) :
    ∃ b, (copyView 1 v w).Does m (.ok b) (memCopy m w.ptr v.ptr v.capacity) := by
  have h := copyView_does (block_valid hv m) (block_valid hw m) (block_separate hv.2 hw.2 hd)
  rw [block_len hv] at h
  by_cases h0 : v.capacity = 0
  · rw [if_pos h0, if_pos h0] at h
    refine ⟨false, ?_⟩
    have : memCopy m w.ptr v.ptr v.capacity = m := by
      funext x
      unfold memCopy
      rw [if_neg (by omega)]
    rw [this]
    exact h
  · rw [if_neg h0, if_neg h0, if_neg (by omega), if_neg (by omega), if_pos hw.2, Nat.mul_one] at h
    exact ⟨true, h⟩

/-- `set_sizes`, if the sizes fit. -/
theorem setSizesAndWait_does {m : Mem} {vs : List View} {ns : List Nat} (hl : vs.length = ns.length) (hw : WordsAdjacent vs)
    (hc : vs.length * 4 < 2 ^ 64) (ht : ¬ TooLarge vs ns) : (setSizesAndWait ns vs).Does m (.ok ()) (sizesSet m vs ns) := by
  intro L d
  obtain ⟨e, d', h⟩ := setSizes_ok (m := m) hl hw hc ht L d
  unfold setSizesAndWait
  refine ⟨d', run_scope (l' := Local.uints ns) ?_ (by simp)⟩
  rw [run_bind_ok h]
  rfl

theorem sizesSet_word {m : Mem} {vs : List View} {ns : List Nat} (hl : vs.length = ns.length) (hw : WordsAdjacent vs) {x : Nat}
    (hx : ∀ v ∈ vs, ¬ v.HasWord x) (h32 : ∀ n ∈ ns, n < 2 ^ 32) : sizesSet m vs ns x = m x :=
  (sizesSet_spec (m := m) hl hw h32).2 x hx

/-- The sizes of a container with jagged vectors, from a source of fixed size. -/
theorem copyJagSizes_does : ∀ (xs ys : List VarView) (m : Mem), xs.length = ys.length →
    (∀ (i : Nat) (x y : VarView), xs[i]? = some x → ys[i]? = some y → x.kind = y.kind ∧
      (x.kind = .jagged → ∃ t, JagPlaced t x.rows ∧ JagPlaced t y.rows ∧ (∀ a ∈ x.rows, a.sizePtr = 0) ∧
        x.rows.map (·.capacity) = y.rows.map (·.capacity))) →
    (∀ (i j : Nat) (x y : VarView), i ≠ j → ys[i]? = some x → ys[j]? = some y → x.kind = .jagged → ∀ a, ¬ (x.HasWord a ∧ y.HasWord a)) →
    ∃ m', (copyJagSizes xs ys).Does m (.ok ()) m' ∧ (∀ a, (∀ y ∈ ys, ¬ y.HasWord a) → m' a = m a) ∧
      ∀ (i : Nat) (y : VarView), ys[i]? = some y → y.kind = .jagged → ∀ b ∈ y.rows, b.len m' = b.capacity := by
  intro xs
  induction xs with
  | nil =>
    intro ys m hl _ _
    have : ys = [] := by
      apply List.length_eq_zero_iff.1
      rw [← hl]; rfl
    subst this
    exact ⟨m, by unfold copyJagSizes; exact does_ret _ _, fun _ _ => rfl, fun i y h => by simp at h⟩
  | cons x xs ih =>
    intro ys m hl hk hd
    obtain ⟨y, ys, rfl⟩ := List.exists_cons_of_length_eq_add_one (hl.symm.trans (List.length_cons ..))
    obtain ⟨k1, k2⟩ := hk 0 x y rfl rfl
    -- the first variable
    obtain ⟨m1, f1, f2, f3⟩ : ∃ m1, (match x, y with
        | .jagged j, .jagged k => (getSizes j.views).bind fun sizes => setSizesAndWait sizes k.views
        | _, _ => .ret (.ok ())).Does m (.ok ()) m1 ∧ (∀ a, ¬ y.HasWord a → m1 a = m a) ∧
        (y.kind = .jagged → ∀ b ∈ y.rows, b.len m1 = b.capacity) := by
      cases x with
      | scalar p =>
        cases y <;> simp [VarView.kind] at k1
        exact ⟨m, does_ret _ _, fun _ _ => rfl, fun h => by simp [VarView.kind] at h⟩
      | vector p =>
        cases y <;> simp [VarView.kind] at k1
        exact ⟨m, does_ret _ _, fun _ _ => rfl, fun h => by simp [VarView.kind] at h⟩
      | jagged j =>
        cases y with
        | scalar p => simp [VarView.kind] at k1
        | vector p => simp [VarView.kind] at k1
        | jagged k =>
          obtain ⟨t, h1, h2, h3, h4⟩ := k2 rfl
          simp only [VarView.rows] at h1 h2 h3 h4
          have hlen : ∀ a ∈ j.views, a.len m = a.capacity := fun a ha => by simp [View.len, h3 a ha]
          have hjv : JagValid m t j.views := ⟨h1, fun a ha => by rw [hlen a ha]⟩
          have hmap : j.views.map (·.len m) = k.views.map (·.capacity) := by
            rw [← h4]
            exact List.map_congr_left hlen
          have hget := getSizes_does hjv
          rw [hmap] at hget
          have hll : k.views.length = (k.views.map (·.capacity)).length := by simp
          have htl : ¬ TooLarge k.views (k.views.map (·.capacity)) := by
            rintro ⟨i, v, n, a1, a2, a3⟩
            rw [List.getElem?_map, a1] at a2
            simp only [Option.map_some, Option.some.injEq] at a2
            omega
          have h32 : ∀ n ∈ k.views.map (·.capacity), n < 2 ^ 32 := by
            intro n hn
            obtain ⟨v, hv, rfl⟩ := List.mem_map.1 hn
            exact (h2.placed v hv).word32
          obtain ⟨s1, s2⟩ := sizesSet_spec (m := m) hll h2.words h32
          refine ⟨_, hget.bind (setSizesAndWait_does hll h2.words h2.count htl), ?_, ?_⟩
          · intro a ha
            exact s2 a fun v hv h => ha ⟨v, hv, h⟩
          · intro _ b hb
            obtain ⟨i, hi⟩ := List.mem_iff_getElem?.1 hb
            by_cases h0 : b.sizePtr = 0
            · simp [View.len, h0]
            · exact s1 i b _ hi (by simp only [VarView.rows] at hi; rw [List.getElem?_map, hi]; rfl) h0
    obtain ⟨m', g1, g2, g3⟩ := ih ys m1 (by simpa using hl)
      (fun i a b ha hb => hk (i + 1) a b (by simpa using ha) (by simpa using hb))
      (fun i j a b hij ha hb => hd (i + 1) (j + 1) a b (by omega) (by simpa using ha) (by simpa using hb))
    refine ⟨m', ?_, ?_, ?_⟩
    · unfold copyJagSizes
      exact f1.bind g1
    · intro a ha
      rw [g2 a fun z hz => ha z (List.mem_cons_of_mem _ hz), f2 a (ha y List.mem_cons_self)]
    · intro i z hz hj b hb
      cases i with
      | succ i => exact g3 i z (by simpa using hz) hj b hb
      | zero =>
        simp only [List.getElem?_cons_zero, Option.some.injEq] at hz
        subst hz
        rw [← f3 hj b hb]
        refine len_of_word fun a ha => g2 a fun z hz h => ?_
        obtain ⟨j, hj'⟩ := List.mem_iff_getElem?.1 hz
        exact hd 0 (j + 1) y z (by omega) rfl (by simpa using hj') hj a ⟨⟨b, hb, ha⟩, h⟩

theorem hasJagged_iff {S : Schema} : S.hasJagged = true ↔ ∃ v ∈ S, v.kind = .jagged := by
  unfold Schema.hasJagged
  simp

/-- The sizes, after the elements were copied. -/
theorem copyEdmSizes_does (hs : VarsValid m S src.vars) (hd : VarsPlaced S dst.vars) (ha : EdmAlike S src dst)
    (hb : EdmApart src dst) {m1 : Mem} (hm1 : ∀ a, ¬ (dst.payload.ptr ≤ a ∧ a < dst.payload.ptr + dst.payload.capacity) → m1 a = m a) :
    ∃ m2, (copyEdmSizes S src dst).Does m1 (.ok ()) m2 ∧
      (∀ a, ¬ (dst.size.ptr ≤ a ∧ a < dst.size.ptr + dst.size.capacity) → m2 a = m1 a) ∧
      ∀ (i : Nat) (x y : VarView), src.vars[i]? = some x → dst.vars[i]? = some y → ∀ (k : Nat) (a b : View),
        x.rows[k]? = some a → y.rows[k]? = some b → b.sizePtr ≠ 0 → b.len m2 = a.len m := by
  unfold copyEdmSizes
  by_cases hd0 : dst.size.ptr = 0
  · rw [if_neg (by simp [hd0])]
    refine ⟨m1, does_ret _ _, fun _ _ => rfl, ?_⟩
    intro i x y _ hy k a b _ hb' h0
    exact absurd (ha.dstFixed hd0 y (List.mem_of_getElem? hy) b (List.mem_of_getElem? hb')) h0
  · rw [if_pos hd0]
    have hkinds : ∀ (i : Nat) (x y : VarView), src.vars[i]? = some x → dst.vars[i]? = some y → ∃ v, S[i]? = some v ∧
        x.kind = v.kind ∧ y.kind = v.kind := by
      intro i x y hx hy
      have hi : i < S.length := by rw [← hd.count]; exact (List.getElem?_eq_some_iff.1 hy).1
      exact ⟨S[i], List.getElem?_eq_getElem hi, (hs.each i _ x (List.getElem?_eq_getElem hi) hx).1,
        (hd.each i _ y (List.getElem?_eq_getElem hi) hy).1⟩
    by_cases hs0 : src.size.ptr = 0
    · rw [if_neg (by simp [hs0])]
      have hfix := ha.fixed hs0
      unfold copySizes
      cases hj : S.hasJagged with
      | true =>
        rw [if_pos rfl]
        obtain ⟨m2, h1, h2, h3⟩ := copyJagSizes_does src.vars dst.vars m1 (by rw [hs.count, hd.count]) (by
          intro i x y hx hy
          obtain ⟨v, hv, kx, ky⟩ := hkinds i x y hx hy
          refine ⟨kx.trans ky.symm, fun _ => ⟨v.type.size, (hs.each i v x hv hx).2.2, (hd.each i v y hv hy).2.2,
            hfix x (List.mem_of_getElem? hx), ?_⟩⟩
          obtain ⟨l1, l2⟩ := ha.rows i v x y hv hx hy
          apply List.ext_getElem?
          intro k
          rw [List.getElem?_map, List.getElem?_map]
          by_cases hk : k < x.rows.length
          · have hk' : k < y.rows.length := by omega
            have e1 := List.getElem?_eq_getElem hk
            have e2 := List.getElem?_eq_getElem hk'
            rw [e1, e2, Option.map_some, Option.map_some, (l2 k _ _ e1 e2).1]
          · rw [List.getElem?_eq_none (by omega), List.getElem?_eq_none (by omega)]
            ) hd.words
        refine ⟨m2, h1, ?_, ?_⟩
        · intro a hna
          refine h2 a fun y hy h => ?_
          obtain ⟨b, hbm, h0, q1, q2⟩ := h
          have := ha.inside y hy b hbm h0
          simp only [View.sizeWord, CType.region, CType.uint, View.bytes, Blk.Inside] at this
          exact hna ⟨by omega, by omega⟩
        · intro i x y hx hy k a b hka hkb h0
          obtain ⟨v, hv, kx, ky⟩ := hkinds i x y hx hy
          have hyj : y.kind = .jagged := by
            cases y with
            | jagged => rfl
            | scalar p =>
              have hbm := List.mem_of_getElem? hkb
              simp only [VarView.rows, List.mem_singleton] at hbm
              subst hbm
              exact absurd rfl h0
            | vector w =>
              have hbm := List.mem_of_getElem? hkb
              simp only [VarView.rows, List.mem_singleton] at hbm
              subst hbm
              exact absurd (ha.many hj b (List.mem_of_getElem? hy)) h0
          rw [h3 i y hy hyj b (List.mem_of_getElem? hkb), View.len,
            if_pos (hfix x (List.mem_of_getElem? hx) a (List.mem_of_getElem? hka))]
          exact (((ha.rows i v x y hv hx hy).2 k a b hka hkb).1).symm
      | false =>
        rw [if_neg (by simp)]
        obtain ⟨hc4, hsame⟩ := ha.single hj hd0
        refine ⟨writeLE m1 dst.size.ptr 4 src.capacity, ?_, ?_, ?_⟩
        · have := putSize_does src.capacity ⟨0, dst.size.ptr, 0⟩ m1
          unfold putSize at this
          simp only [if_neg hd0] at this
          exact this
        · intro a hna
          apply writeLE_other
          omega
        · intro i x y hx hy k a b hka hkb h0
          obtain ⟨v, hv, kx, ky⟩ := hkinds i x y hx hy
          have hbm := List.mem_of_getElem? hkb
          cases y with
          | scalar p =>
            simp only [VarView.rows, List.mem_singleton] at hbm
            subst hbm
            exact absurd rfl h0
          | jagged k =>
            have : S.hasJagged = true := hasJagged_iff.2 ⟨v, List.mem_of_getElem? hv, by rw [← ky]; rfl⟩
            rw [hj] at this
            simp at this
          | vector w =>
            simp only [VarView.rows, List.mem_singleton] at hbm
            subst hbm
            cases x with
            | scalar p => rw [← kx] at ky; simp [VarView.kind] at ky
            | jagged p => rw [← kx] at ky; simp [VarView.kind] at ky
            | vector u =>
              have ham := List.mem_of_getElem? hka
              simp only [VarView.rows, List.mem_singleton] at ham
              subst ham
              have e1 := hsame b (List.mem_of_getElem? hy)
              have e2 := ha.capacity.2 a (List.mem_of_getElem? hx)
              have e3 := hfix _ (List.mem_of_getElem? hx) a (by simp [VarView.rows])
              rw [View.len, if_neg h0, View.len, if_pos e3, e1, e2, readLE_writeLE]
              exact ha.capacity.1
    · rw [if_pos hs0, if_neg (by simp [ha.sizes hs0 hd0])]
      obtain ⟨b, hcopy⟩ := copyBlock_does (hb.views src.size (by simp)) (hb.views dst.size (by simp))
        (hb.apart src.size (by simp) dst.size (by simp)) (ha.sizes hs0 hd0) m1
      refine ⟨_, hcopy.bind (does_ret _ _), ?_, ?_⟩
      · intro a hna
        unfold memCopy
        rw [if_neg]
        rw [ha.sizes hs0 hd0]
        exact hna
      · intro i x y hx hy k a b hka hkb h0
        obtain ⟨a0, o, o1, o2, o3⟩ := ha.words hs0 i x y hx hy k a b hka hkb h0
        rw [View.len, if_neg h0, View.len, if_neg a0]
        apply readLE_shift
        intro q hq
        have e := ha.sizes hs0 hd0
        unfold memCopy
        rw [if_pos (by omega)]
        have : src.size.ptr + (b.sizePtr + q - dst.size.ptr) = a.sizePtr + q := by omega
        rw [this]
        apply hm1
        have := hb.apart src.size (by simp) dst.payload (by simp) (a.sizePtr + q)
        simp only [View.bytes, Blk.At] at this
        omega

/-- A copy as one block. -/
theorem copyEdm_fast (dbg : Bool) (hs : VarsValid m S src.vars) (hd : VarsPlaced S dst.vars) (ha : EdmAlike S src dst)
    (hb : EdmApart src dst) (h1 : oneBlock src dst = true) (hn : src.payload.capacity ≠ 0) :
    ∃ m', (copyEdm dbg S src dst).Acts m (.ok ()) m' ∧
      (∀ a, ¬ (dst.payload.ptr ≤ a ∧ a < dst.payload.ptr + dst.payload.capacity) →
        ¬ (dst.size.ptr ≤ a ∧ a < dst.size.ptr + dst.size.capacity) → m' a = m a) ∧
      ∀ (i : Nat) (v : Var) (x y : VarView), S[i]? = some v → src.vars[i]? = some x → dst.vars[i]? = some y →
        x.CanHold m y ∧ x.Holds m m' v.type.size y := by
  obtain ⟨b, hcopy⟩ := copyBlock_does (hb.views src.payload (by simp)) (hb.views dst.payload (by simp))
    (hb.apart src.payload (by simp) dst.payload (by simp)) ha.same m
  have hm1 : ∀ a, ¬ (dst.payload.ptr ≤ a ∧ a < dst.payload.ptr + dst.payload.capacity) →
      memCopy m dst.payload.ptr src.payload.ptr src.payload.capacity a = m a := by
    intro a hna
    unfold memCopy
    rw [if_neg]
    rw [ha.same]
    exact hna
  obtain ⟨m2, k1, k2, k3⟩ := copyEdmSizes_does hs hd ha hb hm1
  refine ⟨m2, ?_, ?_, ?_⟩
  · unfold copyEdm
    rw [if_pos h1, if_neg hn]
    exact hcopy.bindActs (k1.bindActs (acts_retEvent m2))
  · intro a n1 n2
    rw [k2 a n2, hm1 a n1]
  · intro i v x y hv hx hy
    obtain ⟨l1, l2⟩ := ha.rows i v x y hv hx hy
    have hle : ∀ (k : Nat) (a b : View), x.rows[k]? = some a → y.rows[k]? = some b → a.len m ≤ b.capacity := by
      intro k a b hka hkb
      rw [← (l2 k a b hka hkb).1]
      exact hs.sizes x (List.mem_of_getElem? hx) a (List.mem_of_getElem? hka)
    refine ⟨⟨.inr l1, hle⟩, ?_⟩
    intro k a b hka hkb
    have hle' := hle k a b hka hkb
    obtain ⟨e1, e2⟩ := l2 k a b hka hkb
    refine holdsRow_of hle' (fun h0 => k3 i x y hx hy k a b hka hkb h0) ?_
    intro q hq
    by_cases hc : a.capacity = 0
    · have : a.len m = 0 := by omega
      rw [this] at hq
      omega
    · obtain ⟨o, o1, o2, o3⟩ := e2 hc
      have := Nat.mul_le_mul_right v.type.size hle'
      rw [← e1] at this
      have hs' := ha.same
      have hown := hb.own (b.ptr + q)
      simp only [View.bytes, Blk.At] at hown
      rw [k2 _ (by omega)]
      unfold memCopy
      rw [if_pos (by omega)]
      congr 1
      omega

end Vecmem
