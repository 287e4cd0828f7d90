import Verif.Lemmas.EdmSame
import Verif.Lemmas.EdmCopyPrefix
import Verif.Props.C42_EdmBuffer
import Verif.Props.C37_Copy

/-!
# C44: copies of containers
-/

namespace Vecmem.Props

open Vecmem IntMath Prog

variable {σ : Type} {R : Limits} {G : Nat}

/-- The target has room for all variables of the source. -/
def EdmCanHold (m : Mem) (src dst : EdmView) : Prop :=
  ∀ (i : Nat) (x y : VarView), src.vars[i]? = some x → dst.vars[i]? = some y → x.CanHold m y

/-- After a copy (of memory `m` into `m'`) all variables of the target hold the contents of those of the source. -/
def EdmHolds (m m' : Mem) (S : Schema) (src dst : EdmView) : Prop :=
  ∀ (i : Nat) (v : Var) (x y : VarView), S[i]? = some v → src.vars[i]? = some x → dst.vars[i]? = some y →
    x.Holds m m' v.type.size y

/-- The byte at `a` belongs to the container. -/
def EdmHas (S : Schema) (e : EdmView) (a : Nat) : Prop :=
  VarsHave S e.vars a ∨ e.payload.bytes.At a ∨ e.size.bytes.At a

/-- **C44** in full, for source and target with the property `P`: a copy between containers of one schema that share no
memory makes every variable of the target equal to that of the source and changes nothing else, or throws `length_error` if
there is no room. -/
def C44Full (P : Mem → Schema → EdmView → EdmView → Prop) : Prop :=
  ∀ (dbg : Bool) (m : Mem) (S : Schema) (src dst : EdmView), VarsValid m S src.vars → VarsValid m S dst.vars →
    (∀ a, ¬ (EdmHas S src a ∧ EdmHas S dst a)) → P m S src dst →
    ∃ m', (∀ a, ¬ EdmHas S dst a → m' a = m a) ∧
      ((EdmCanHold m src dst ∧ (copyEdm dbg S src dst).result m = (.ok (), m') ∧ EdmHolds m m' S src dst) ∨
        (¬ EdmCanHold m src dst ∧ (copyEdm dbg S src dst).result m = (.lengthError, m')))

/-- No vector of the source is empty, unless the one of the target is empty too, or of fixed size. -/
def NoneEmptied (m : Mem) (src dst : EdmView) : Prop :=
  ∀ (i : Nat) (a b : View), src.vars[i]? = some (.vector a) → dst.vars[i]? = some (.vector b) → b.sizePtr ≠ 0 →
    a.len m = 0 → b.len m = 0

theorem copyEdm_variables {dbg : Bool} {m : Mem} {S : Schema} {src dst : EdmView} (hs : VarsValid m S src.vars)
    (hd : VarsValid m S dst.vars) (hsep : ∀ a, ¬ (VarsHave S src.vars a ∧ VarsHave S dst.vars a))
    (h1 : oneBlock src dst = false) (he : NoneEmptied m src dst) :
    ∃ m', (∀ a, ¬ VarsHave S dst.vars a → m' a = m a) ∧
      ((EdmCanHold m src dst ∧ (copyEdm dbg S src dst).result m = (.ok (), m') ∧ EdmHolds m m' S src dst) ∨
        (¬ EdmCanHold m src dst ∧ (copyEdm dbg S src dst).result m = (.lengthError, m'))) := by
  obtain ⟨m', f, h⟩ := copyVars_does dbg S src.vars dst.vars m hs hd hsep he
  refine ⟨m', f, ?_⟩
  have hdef : copyEdm dbg S src dst = (copyVars dbg S src.vars dst.vars).bind fun _ => retEvent := by
    unfold copyEdm
    rw [h1]
    rfl
  rw [hdef]
  rcases h with ⟨n, h⟩ | ⟨c, h, k⟩
  · exact .inr ⟨n, (h.bindErr (f := fun _ => retEvent) (by simp [Res.Exc]) fun _ => 0).acts.result⟩
  · exact .inl ⟨c, (h.bindActs (acts_retEvent m')).result, k⟩

/-- **C44, partial**: the copy of one variable after the other, which is how containers are copied that are not both in one
block of the same size.

Missing: an empty vector is not copied to a vector that is not (`c44_empty_not_copied`). -/
theorem c44_variables_partial : C44Full fun m _ src dst => oneBlock src dst = false ∧ NoneEmptied m src dst := by
  intro dbg m S src dst hs hd hsep ⟨h1, he⟩
  obtain ⟨m', f, h⟩ := copyEdm_variables (dbg := dbg) hs hd (fun a h => hsep a ⟨.inl h.1, .inl h.2⟩) h1 he
  exact ⟨m', fun a ha => f a fun h => ha (.inl h), h⟩

/-- **C44**: exactly what the copy of one variable after the other does, whatever is in the containers.  The variables before the variable
`n` are copied; of those with nothing to copy, and of all from `n` on, nothing changes.  Either `n` is the number of variables, or the
variable `n` does not fit and the copy fails with `length_error`.

The assumption on the sizes is met by all buffers: the size that the vectors of a resizable container share exists only if it has no jagged
vectors. -/
theorem c44_variables (dbg : Bool) (m : Mem) (S : Schema) (src dst : EdmView) (hs : VarsValid m S src.vars) (hd : VarsValid m S dst.vars)
    (hsep : ∀ a, ¬ (VarsHave S src.vars a ∧ VarsHave S dst.vars a)) (h1 : oneBlock src dst = false)
    (hsize : (∀ w, VarView.vector w ∈ dst.vars → w.sizePtr = 0) ∨ ∀ y ∈ dst.vars, y.kind ≠ .jagged) :
    ∃ n m', (∀ (i : Nat) (v : Var) (x y : VarView), S[i]? = some v → src.vars[i]? = some x → dst.vars[i]? = some y →
        (i < n ∧ ¬ x.Nothing m → x.CanHold m y ∧ x.Holds m m' v.type.size y) ∧
        (n ≤ i ∨ x.Nothing m → ∀ a, y.Has v.type.size a → m' a = m a)) ∧
      (∀ a, ¬ VarsHave S dst.vars a → m' a = m a) ∧
      ((n = S.length ∧ (copyEdm dbg S src dst).result m = (.ok (), m')) ∨
        ∃ x y, src.vars[n]? = some x ∧ dst.vars[n]? = some y ∧ ¬ x.Nothing m ∧ ¬ x.CanHold m y ∧
          (copyEdm dbg S src dst).result m = (.lengthError, m')) := by
  obtain ⟨n, m', h, hr⟩ := copyEdm_cases (dbg := dbg) hs hd hsep h1
  refine ⟨n, m', ?_, ?_, ?_⟩
  · intro i v x y hv hx hy
    exact ⟨fun ⟨hi, hn⟩ => h.holds i v x y hi hv hx hy hn, fun hi a ha => h.same hs hd hsize hv hx hy hi a ha⟩
  · intro a ha
    exact h.frame a fun i v x y _ hv _ hy _ hc => ha ⟨i, v, y, hv, hy, hc⟩
  · rcases hr with hr | ⟨h2, h3⟩
    · exact .inl hr
    · rcases h.ends with ⟨h4, _⟩ | ⟨x, y, _, hx, hy, hn, hc, _⟩
      · omega
      · exact .inr ⟨x, y, hx, hy, hn, hc, h3⟩

/-! ## buffers -/

/-- What is known about a buffer. -/
theorem create_at {ups : Bool → MR σ} {u0 u u' : σ} {T : List (Bool × Blk)} (h : FamLawful R G ups u0)
    (hu : FReach R ups u0 u T) {S : Schema} (hS : S ≠ []) {caps : List Nat} (ho : S.Ok caps) {hasHost resizable : Bool}
    {A : Nat} (hA : ∀ v ∈ S, v.type.align ≤ A) (hA8 : 8 ≤ A) (hq : IsReq R (S.room caps A) maxAlign) {b : EdmBuffer}
    (hb : EdmBuffer.create ups u S caps hasHost resizable = (.ok b, u')) :
    BufferAt S caps resizable b.mem.ptr b.view ∧
    placeEnd b.mem.ptr (S.allRegions caps resizable) ≤ b.mem.ptr + b.mem.size ∧
    b.mem.ptr + b.mem.size ≤ 2 ^ 64 ∧ b.mem.size ≤ S.room caps A ∧ (maxAlign ≤ G → maxAlign ∣ b.mem.ptr) ∧
    (false, ⟨b.mem.ptr, b.mem.size, maxAlign⟩) ∈ b.owned := by
  have hwf : ∀ e ∈ S.allRegions caps resizable, e.1.Wf ∧ e.1.align ≤ A := by
    intro e he
    rcases allRegions_mem he with h | ⟨v, hv, h⟩ | ⟨v, hv, h⟩
    · rw [h]; exact ⟨uint_wf, by have : CType.uint.align = 4 := rfl
                                 omega⟩
    · rw [h]; exact ⟨layoutType_wf v, by have := layoutType_align v; omega⟩
    · rw [h]; exact ⟨ho.types v hv, hA v hv⟩
  obtain ⟨r1, r2⟩ := neededBytes_room (S := S) (caps := caps) (resizable := resizable) A
  have hle := Nat.le_trans (neededBytes_mono (maxAlignOf_le fun e he => (hwf e he).2) _) r1
  have q1 := IsReq.le hq hle
  have hne1 : S.allRegions caps resizable ≠ [] := by
    unfold Schema.allRegions
    simp [Schema.layoutRegions, hS]
  unfold EdmBuffer.create at hb
  rw [show S.sizeRegions caps resizable ++ (S.layoutRegions caps ++ S.payloadRegions caps) = S.allRegions caps resizable
    from rfl] at hb
  rcases h.placement hu false hne1 (fun e he => (hwf e he).1) q1 with ⟨m, ps, u1, a1, a2, a3, a4, a5⟩ | ⟨u1, a1, a2⟩
  · have hps := placement_at (fun e he => (hwf e he).1) q1.1.2 a1
    have hend : placeEnd m.ptr (S.allRegions caps resizable) ≤ m.ptr + m.size := by
      rw [a2]
      apply placeEnd_le
      intro e he
      obtain ⟨_, ⟨k, hk⟩, _⟩ := (hwf e he).1
      exact ⟨by rw [hk]; exact Nat.two_pow_pos k, (foldl_max_ge _ 0).2 _ (List.mem_map.2 ⟨e, he, rfl⟩)⟩
    obtain ⟨g1, g2, g3, _⟩ := a5
    have hmem : ∀ c : EdmBuffer, c.mem = m → (false, (⟨c.mem.ptr, c.mem.size, maxAlign⟩ : Blk)) ∈ c.owned := by
      intro c hc
      unfold EdmBuffer.owned
      refine List.mem_map.2 ⟨(false, c.mem), List.mem_filter.2 ⟨by simp, ?_⟩, rfl⟩
      simp [hc, g1]
    simp only [a1] at hb
    cases hasHost with
    | false =>
      simp only [Bool.false_eq_true, if_false, Prod.mk.injEq, Res.ok.injEq] at hb
      obtain ⟨rfl, rfl⟩ := hb
      exact ⟨bufferView_at g1 hps _, hend, g2, by simp only; rw [a2]; exact hle, g3, hmem _ rfl⟩
    | true =>
      simp only [if_true] at hb
      cases hx : placement (ups true) u1 (S.layoutRegions caps) with
      | mk r u2 =>
        rw [hx] at hb
        cases r with
        | ok z =>
          simp only [Prod.mk.injEq, Res.ok.injEq] at hb
          obtain ⟨rfl, rfl⟩ := hb
          exact ⟨bufferView_at g1 hps _, hend, g2, by simp only; rw [a2]; exact hle, g3, hmem _ rfl⟩
        | _ =>
          simp only [Res.map, unwind] at hb
          split at hb <;> simp_all
  · simp only [a1, Res.map] at hb
    simp at hb

theorem placed_of_create {ups : Bool → MR σ} {u0 u u' : σ} {T : List (Bool × Blk)} (h : FamLawful R G ups u0)
    (hu : FReach R ups u0 u T) {S : Schema} (hS : S ≠ []) {caps : List Nat} (ho : S.Ok caps) {hasHost resizable : Bool}
    {A : Nat} (hA : ∀ v ∈ S, v.type.align ≤ A) (hA8 : 8 ≤ A) (hq : IsReq R (S.room caps A) maxAlign) {b : EdmBuffer}
    (hb : EdmBuffer.create ups u S caps hasHost resizable = (.ok b, u')) :
    b.mem.ptr ≠ 0 ∧
    EdmPlaced ⟨b.mem.ptr, b.mem.size, maxAlign⟩ ⟨b.hostMem.ptr, b.hostMem.size, maxAlign⟩ S caps hasHost resizable b.view ∧
    (b.mem.size < 2 ^ 32 → EdmBlocks ⟨b.mem.ptr, b.mem.size, maxAlign⟩ S caps resizable b.view) := by
  have := c42_edm_buffer_partial ups u0 u T h hu S hS caps ho hasHost resizable A hA hA8 hq
  rw [hb] at this
  exact ⟨this.2.2.1, this.2.2.2.2.1, this.2.2.2.2.2.1⟩

/-- Two container buffers with the same schema and the same capacities, from well-behaved resources, that are both alive, and
smaller than 4 GiB. -/
structure TwoBuffers (R : Limits) (G : Nat) (ups : Bool → MR σ) (u0 : σ) (S : Schema) (caps : List Nat) (A : Nat)
    (r r' : Bool) (b c : EdmBuffer) : Prop where
  lawful : FamLawful R G ups u0
  schema : S ≠ []
  ok : S.Ok caps
  aligns : ∀ v ∈ S, v.type.align ≤ A
  align : 8 ≤ A
  req : IsReq R (S.room caps A) maxAlign
  small : S.room caps A < 2 ^ 32
  first : ∃ u u' T hasHost, FReach R ups u0 u T ∧ EdmBuffer.create ups u S caps hasHost r = (.ok b, u')
  second : ∃ u u' T hasHost, FReach R ups u0 u T ∧ EdmBuffer.create ups u S caps hasHost r' = (.ok c, u')
  alive : ∃ u T, FReach R ups u0 u (b.owned ++ (c.owned ++ T))

/-- The sizes of a container are not above its capacities. -/
def EdmSizes (m : Mem) (e : EdmView) : Prop := ∀ x ∈ e.vars, ∀ v ∈ x.rows, v.len m ≤ v.capacity

theorem buffers_copy {S : Schema} {caps : List Nat} {r r' hh hh' : Bool} {b c : EdmBuffer} {mb mc : Blk} (ho : S.Ok caps)
    (b1 : BufferAt S caps r b.mem.ptr b.view) (c1 : BufferAt S caps r' c.mem.ptr c.view)
    (b2 : placeEnd b.mem.ptr (S.allRegions caps r) ≤ b.mem.ptr + b.mem.size)
    (c2 : placeEnd c.mem.ptr (S.allRegions caps r') ≤ c.mem.ptr + c.mem.size)
    (b3 : b.mem.ptr + b.mem.size ≤ 2 ^ 64) (c3 : c.mem.ptr + c.mem.size ≤ 2 ^ 64)
    (b4 : b.mem.size < 2 ^ 32) (c4 : c.mem.size < 2 ^ 32) (b7 : b.mem.ptr ≠ 0) (c7 : c.mem.ptr ≠ 0)
    (b8 : EdmPlaced ⟨b.mem.ptr, b.mem.size, maxAlign⟩ mb S caps hh r b.view)
    (c8 : EdmPlaced ⟨c.mem.ptr, c.mem.size, maxAlign⟩ mc S caps hh' r' c.view)
    (b9 : EdmBlocks ⟨b.mem.ptr, b.mem.size, maxAlign⟩ S caps r b.view)
    (c9 : EdmBlocks ⟨c.mem.ptr, c.mem.size, maxAlign⟩ S caps r' c.view)
    (hdis : Blk.Disjoint ⟨b.mem.ptr, b.mem.size, maxAlign⟩ ⟨c.mem.ptr, c.mem.size, maxAlign⟩)
    (dbg : Bool) (m : Mem) (hs : EdmSizes m b.view)
    (hd : oneBlock b.view c.view = false → EdmSizes m c.view ∧ NoneEmptied m b.view c.view) :
    ∃ m', (copyEdm dbg S b.view c.view).result m = (.ok (), m') ∧ EdmHolds m m' S b.view c.view ∧
      (∀ a, ¬ EdmHas S c.view a → m' a = m a) := by
  have vb : VarsValid m S b.view.vars := ⟨b8.varsPlaced ho b7 b3, hs⟩
  have pc := c8.varsPlaced ho c7 c3
  cases h1 : oneBlock b.view c.view with
  | true =>
    have h1' := h1
    simp only [oneBlock, Bool.and_eq_true, decide_eq_true_eq, beq_iff_eq, ne_eq] at h1'
    have halike := buffers_alike ho b1 c1 b8 c8 b9 c9 b7 c7 b2 (by simp only; omega) c2
      (by simp only; omega) h1'.2
    have hapart := buffers_apart b1 c1 b9 c9 b7 c7 b3 c3 (by simp only; omega) (by simp only; omega)
      hdis
    have hn : b.view.payload.capacity ≠ 0 := by
      -- otherwise there are no elements, and no payload pointer
      intro hn0
      by_cases hex : ∃ x ∈ S.payloadRegions caps, x.2 ≠ 0
      · obtain ⟨x, hx, hx0⟩ := hex
        obtain ⟨i, hi⟩ := List.mem_iff_getElem?.1 hx
        have hpos : 0 < x.1.size := by
          obtain ⟨v, hv, rfl⟩ := List.mem_map.1 hx
          exact (ho.types v hv).1
        have := (memoryView_at (ts := S.payloadRegions caps) (p := S.payloadStart caps r b.mem.ptr)
          (by have := b1.ge; omega) (by have := b1.ge; have := b1.finish; omega)).2 i x hi hx0
        rw [← b1.payload] at this
        simp only [CType.region, View.bytes, Blk.Inside, hn0] at this
        have := Nat.mul_pos (Nat.pos_of_ne_zero hx0) hpos
        omega
      · have hall : ∀ x ∈ S.payloadRegions caps, x.2 = 0 := fun x hx => by
          by_contra h0; exact hex ⟨x, hx, h0⟩
        have := b1.payload
        rw [memoryView_none (placeAt_none hall _).1] at this
        rw [this] at h1'
        exact h1'.1.1 rfl
    obtain ⟨m', k1, k2, k3⟩ := copyEdm_fast dbg vb pc halike hapart h1 hn
    refine ⟨m', k1.result, fun i v x y hv hx hy => (k3 i v x y hv hx hy).2, ?_⟩
    intro a ha
    exact k2 a (fun hc => ha (.inr (.inl hc))) (fun hc => ha (.inr (.inr hc)))
  | false =>
    obtain ⟨hd1, hd2⟩ := hd h1
    have vc : VarsValid m S c.view.vars := ⟨pc, hd1⟩
    have hsep : ∀ a, ¬ (VarsHave S b.view.vars a ∧ VarsHave S c.view.vars a) := fun a ⟨x, y⟩ =>
      hdis.at a ⟨b8.has_inside x, c8.has_inside y⟩
    obtain ⟨m', f, k⟩ := copyEdm_variables (dbg := dbg) vb vc hsep h1 hd2
    have hcan : EdmCanHold m b.view c.view := by
      intro i x y hx hy
      have hiS : i < S.length := by rw [← b8.count]; exact (List.getElem?_eq_some_iff.1 hx).1
      have hv := List.getElem?_eq_getElem hiS
      obtain ⟨l, p, ex⟩ := b1.vars i _ x hv hx
      obtain ⟨l', p', ey⟩ := c1.vars i _ y hv hy
      have hrow : ∀ a ∈ x.rows, a.len m ≤ a.capacity := hs x (List.mem_of_getElem? hx)
      unfold Var.makeView at ex ey
      cases hk : S[i].kind with
      | scalar =>
        rw [hk] at ex ey
        simp only at ex ey
        subst ex ey
        refine ⟨.inr rfl, ?_⟩
        intro k a d hka hkd
        have ha := List.mem_of_getElem? hka
        have hda := List.mem_of_getElem? hkd
        simp only [VarView.rows, List.mem_singleton] at ha hda
        subst ha hda
        exact Nat.le_refl _
      | vector =>
        rw [hk] at ex ey
        simp only at ex ey
        subst ex ey
        refine ⟨.inr rfl, ?_⟩
        intro k a d hka hkd
        have hla := hrow a (List.mem_of_getElem? hka)
        have ha := List.mem_of_getElem? hka
        have hda := List.mem_of_getElem? hkd
        simp only [VarView.rows, List.mem_singleton] at ha hda
        subst ha hda
        exact hla
      | jagged =>
        rw [hk] at ex ey
        simp only at ex ey
        subst ex ey
        refine ⟨.inr (by simp [VarView.rows, jagViews_length]), ?_⟩
        intro k a d hka hkd
        have hla := hrow a (List.mem_of_getElem? hka)
        simp only [VarView.rows] at hka hkd
        obtain ⟨q, hq, ea⟩ := jagViews_at ho.caps32 hka
        obtain ⟨q', hq', eb⟩ := jagViews_at ho.caps32 hkd
        have : q = q' := by rw [hq] at hq'; simpa using hq'
        subst this
        rw [ea] at hla
        rw [ea, eb]
        exact hla
    rcases k with ⟨_, k1, k2⟩ | ⟨n, _⟩
    · exact ⟨m', k1, k2, fun a ha => f a fun hv => ha (.inl hv)⟩
    · exact absurd hcan n

theorem twoBuffers_copy {ups : Bool → MR σ} {u0 : σ} {S : Schema} {caps : List Nat} {A : Nat} {r r' : Bool} {b c : EdmBuffer}
    (hbc : TwoBuffers R G ups u0 S caps A r r' b c) (dbg : Bool) (m : Mem) (hs : EdmSizes m b.view)
    (hd : oneBlock b.view c.view = false → EdmSizes m c.view ∧ NoneEmptied m b.view c.view) :
    ∃ m', (copyEdm dbg S b.view c.view).result m = (.ok (), m') ∧ EdmHolds m m' S b.view c.view ∧
      (∀ a, ¬ (c.mem.ptr ≤ a ∧ a < c.mem.ptr + c.mem.size) → m' a = m a) := by
  obtain ⟨h, hS, ho, hA, hA8, hq, hsmall, ⟨u, u', T, hh, hu, hb⟩, ⟨w, w', T', hh', hw, hc⟩, z, Z, hz⟩ := hbc
  obtain ⟨b1, b2, b3, b4, _, b6⟩ := create_at h hu hS ho hA hA8 hq hb
  obtain ⟨c1, c2, c3, c4, _, c6⟩ := create_at h hw hS ho hA hA8 hq hc
  obtain ⟨b7, b8, b9⟩ := placed_of_create h hu hS ho hA hA8 hq hb
  obtain ⟨c7, c8, c9⟩ := placed_of_create h hw hS ho hA hA8 hq hc
  have hdis : Blk.Disjoint ⟨b.mem.ptr, b.mem.size, maxAlign⟩ ⟨c.mem.ptr, c.mem.size, maxAlign⟩ :=
    (List.pairwise_append.1 (h.live hz).2).2.2 _ b6 _ (List.mem_append_left _ c6)
  obtain ⟨m', k1, k2, k3⟩ := buffers_copy ho b1 c1 b2 c2 b3 c3 (by omega) (by omega) b7 c7 b8 c8 (b9 (by omega)) (c9 (by omega)) hdis
    dbg m hs hd
  refine ⟨m', k1, k2, fun a ha => k3 a ?_⟩
  have hin := (c9 (by omega)).inside
  rintro (hc | ⟨hc1, hc2⟩ | ⟨hc1, hc2⟩)
  · exact ha (c8.has_inside hc)
  · have := hin c.view.payload.bytes (by simp) (by omega)
    simp only [Blk.Inside] at this
    omega
  · have := hin c.view.size.bytes (by simp) (by omega)
    simp only [Blk.Inside] at this
    omega

/-- **C44, partial**: a copy between two container buffers of the same schema and capacities, fixed or resizable, with or
without host layouts, makes every variable of the target equal to that of the source, and changes nothing outside the target's
memory.  This holds whether the memory is copied as one block or one variable after the other; in the latter case, the
target's sizes must be valid, and the hypothesis of `c44_variables_partial` is needed.

Missing: buffers of different capacities, for which the block copy is wrong (`c44_inner_capacities`, `c44_no_length_error`);
buffers of 4 GiB or more (`c44_large_block`). -/
theorem c44_buffers_partial (ups : Bool → MR σ) (u0 : σ) (S : Schema) (caps : List Nat) (A : Nat) (r r' : Bool) (b c : EdmBuffer)
    (hbc : TwoBuffers R G ups u0 S caps A r r' b c) (dbg : Bool) (m : Mem) (hs : EdmSizes m b.view)
    (hd : oneBlock b.view c.view = false → EdmSizes m c.view ∧ NoneEmptied m b.view c.view) :
    ∃ m', (copyEdm dbg S b.view c.view).result m = (.ok (), m') ∧ EdmHolds m m' S b.view c.view ∧
      (∀ a, ¬ (c.mem.ptr ≤ a ∧ a < c.mem.ptr + c.mem.size) → m' a = m a) := twoBuffers_copy hbc dbg m hs hd

/-- A container with these capacities has room for at least one element. -/
def HasRoom (S : Schema) (caps : List Nat) : Prop :=
  ∃ v ∈ S, v.kind = .scalar ∨ v.kind = .vector ∧ caps ≠ [] ∨ v.kind = .jagged ∧ caps.sum ≠ 0

theorem buffers_oneBlock {S : Schema} {caps : List Nat} {r : Bool} {b c : EdmBuffer} (ho : S.Ok caps) (hA : ∀ v ∈ S, v.type.align ≤ 16)
    (b1 : BufferAt S caps r b.mem.ptr b.view) (c1 : BufferAt S caps r c.mem.ptr c.view)
    (b2 : placeEnd b.mem.ptr (S.allRegions caps r) ≤ b.mem.ptr + b.mem.size)
    (c2 : placeEnd c.mem.ptr (S.allRegions caps r) ≤ c.mem.ptr + c.mem.size)
    (b4 : b.mem.size < 2 ^ 32) (c4 : c.mem.size < 2 ^ 32) (b7 : b.mem.ptr ≠ 0) (c7 : c.mem.ptr ≠ 0)
    (b5 : 16 ∣ b.mem.ptr) (c5 : 16 ∣ c.mem.ptr) (hcap : HasRoom S caps) : oneBlock b.view c.view = true := by
  have hpow : ∀ {t : CType}, t.Wf → t.align ≤ 16 → t.align ∣ 16 := by
    rintro t ⟨_, ⟨k, hk⟩, _⟩ hle
    rw [hk] at hle ⊢
    have : k ≤ 4 := by
      by_contra hc
      have := Nat.pow_le_pow_right (show 0 < 2 by decide) (show 5 ≤ k by omega)
      omega
    exact Nat.pow_dvd_pow 2 this
  have hD : (16 : Int) ∣ (b.mem.ptr : Int) - c.mem.ptr := by
    have x1 : (16 : Int) ∣ b.mem.ptr := by exact_mod_cast b5
    have x2 : (16 : Int) ∣ c.mem.ptr := by exact_mod_cast c5
    exact Int.dvd_sub x1 x2
  have hdvd : ∀ x ∈ S.allRegions caps r, 0 < x.1.align ∧ (x.1.align : Int) ∣ (b.mem.ptr : Int) - c.mem.ptr := by
    intro x hx
    have : x.1.Wf ∧ x.1.align ≤ 16 := by
      rcases allRegions_mem hx with h | ⟨v, hv, h⟩ | ⟨v, hv, h⟩
      · rw [h]; exact ⟨uint_wf, by decide⟩
      · rw [h]; exact ⟨layoutType_wf v, by have := layoutType_align v; omega⟩
      · rw [h]; exact ⟨ho.types v hv, hA v hv⟩
    refine ⟨?_, Int.dvd_trans (by exact_mod_cast hpow this.1 this.2) hD⟩
    obtain ⟨_, ⟨k, hk⟩, _⟩ := this.1
    rw [hk]
    exact Nat.two_pow_pos k
  have hstart : ((S.payloadStart caps r b.mem.ptr : Nat) : Int) - S.payloadStart caps r c.mem.ptr = (b.mem.ptr : Int) - c.mem.ptr := by
    unfold Schema.payloadStart
    refine (place_congr _ (S.layoutRegions caps) _ _ (fun x hx => hdvd x ?_)
      (place_congr _ (S.sizeRegions caps r) _ _ (fun x hx => hdvd x ?_) rfl).1).1
    · exact List.mem_append_right _ (List.mem_append_left _ hx)
    · exact List.mem_append_left _ hx
  have hex : ∃ x ∈ S.payloadRegions caps, x.2 ≠ 0 := by
    obtain ⟨v, hv, hk⟩ := hcap
    refine ⟨_, List.mem_map.2 ⟨v, hv, rfl⟩, ?_⟩
    rcases hk with hk | ⟨hk, h0⟩ | ⟨hk, h0⟩
    · simp [Var.payloadSize, hk]
    · simpa [Var.payloadSize, hk] using h0
    · simp only; rw [ho.jagged_size hk]; exact h0
  have pb0 : S.payloadStart caps r b.mem.ptr ≠ 0 := by
    have := b1.ge; have := b1.start; omega
  have pc0 : S.payloadStart caps r c.mem.ptr ≠ 0 := by
    have := c1.ge; have := c1.start; omega
  obtain ⟨e1, e2⟩ := place_congr _ (S.payloadRegions caps) _ _
    (fun x hx => hdvd x (List.mem_append_right _ (List.mem_append_right _ hx))) hstart
  have e2 := e2 hex pb0 pc0
  obtain ⟨k1, k2⟩ := b1.capacity (m := ⟨b.mem.ptr, b.mem.size, maxAlign⟩) b2 (by simp only; omega) hex
  obtain ⟨l1, l2⟩ := c1.capacity (m := ⟨c.mem.ptr, c.mem.size, maxAlign⟩) c2 (by simp only; omega) hex
  have g1 := (findFirst_at pb0 hex)
  have g2 := (findFirst_at pc0 hex)
  simp only [oneBlock, Bool.and_eq_true, decide_eq_true_eq, beq_iff_eq, ne_eq]
  refine ⟨⟨by omega, by omega⟩, by omega⟩

/-- If also no alignment is above 16, and both buffers are resizable or both are not, then nothing has to be known about the
previous contents of the target, in particular not that it was set up. -/
theorem c44_same_buffers_partial (ups : Bool → MR σ) (u0 : σ) (S : Schema) (caps : List Nat) (r : Bool) (b c : EdmBuffer)
    (hbc : TwoBuffers R G ups u0 S caps 16 r r b c) (hG : 16 ≤ G) (hcap : HasRoom S caps)
    (dbg : Bool) (m : Mem) (hs : EdmSizes m b.view) :
    ∃ m', (copyEdm dbg S b.view c.view).result m = (.ok (), m') ∧ EdmHolds m m' S b.view c.view ∧
      (∀ a, ¬ (c.mem.ptr ≤ a ∧ a < c.mem.ptr + c.mem.size) → m' a = m a) := by
  refine twoBuffers_copy hbc dbg m hs fun h1 => ?_
  exfalso
  obtain ⟨h, hS, ho, hA, hA8, hq, hsmall, ⟨u, u', T, hh, hu, hb⟩, ⟨w, w', T', hh', hw, hc⟩, _⟩ := hbc
  obtain ⟨b1, b2, b3, b4, b5, _⟩ := create_at h hu hS ho hA hA8 hq hb
  obtain ⟨c1, c2, c3, c4, c5, _⟩ := create_at h hw hS ho hA hA8 hq hc
  obtain ⟨b7, -, -⟩ := placed_of_create h hu hS ho hA hA8 hq hb
  obtain ⟨c7, -, -⟩ := placed_of_create h hw hS ho hA hA8 hq hc
  have := buffers_oneBlock ho hA b1 c1 b2 c2 (by omega) (by omega) b7 c7 (b5 hG) (c5 hG) hcap
  rw [h1] at this
  simp at this

/-! ## examples -/

/-- Two buffers of the schema `S`, created one after the other. -/
def demoPair (S : Schema) (caps caps' : List Nat) (r r' : Bool) : EdmBuffer × EdmBuffer :=
  match EdmBuffer.create demoFam demoFamInit S caps true r with
  | (.ok b, u) =>
    match EdmBuffer.create demoFam u S caps' true r' with
    | (.ok c, _) => (b, c)
    | _ => (b, b)
  | _ => (⟨⟨0, [], ⟨0, 0, 0⟩, ⟨0, 0, 0⟩, ⟨0, 0, 0⟩, ⟨0, 0, 0⟩⟩, {}, {}⟩, ⟨⟨0, [], ⟨0, 0, 0⟩, ⟨0, 0, 0⟩, ⟨0, 0, 0⟩, ⟨0, 0, 0⟩⟩, {}, {}⟩)

theorem demoSchema_ok : demoSchema.Ok [2, 0, 3] := by
  refine ⟨?_, by decide, by decide, by decide⟩
  intro v hv
  simp only [demoSchema, List.mem_cons, List.not_mem_nil, or_false] at hv
  rcases hv with rfl | rfl | rfl | rfl
  · exact ⟨by decide, ⟨3, rfl⟩, by decide⟩
  · exact ⟨by decide, ⟨2, rfl⟩, by decide⟩
  · exact ⟨by decide, ⟨0, rfl⟩, by decide⟩
  · exact ⟨by decide, ⟨4, rfl⟩, by decide⟩

/-- The hypotheses of `c44_buffers_partial` and `c44_same_buffers_partial` are met by two buffers, whatever is resizable. -/
theorem demoTwo (r r' : Bool) : TwoBuffers 64 64 demoFam demoFamInit demoSchema [2, 0, 3] 16 r r'
    (demoPair demoSchema [2, 0, 3] [2, 0, 3] r r').1 (demoPair demoSchema [2, 0, 3] [2, 0, 3] r r').2 := by
  have hq : IsReq 64 (demoSchema.room [2, 0, 3] 16) maxAlign := ⟨by decide, by decide, 4, rfl⟩
  have hA : ∀ v ∈ demoSchema, v.type.align ≤ 16 := by decide
  obtain ⟨b, u, hb⟩ : ∃ b u, EdmBuffer.create demoFam demoFamInit demoSchema [2, 0, 3] true r = (.ok b, u) := by
    cases r <;> exact ⟨_, _, rfl⟩
  obtain ⟨c, w, hc⟩ : ∃ c w, EdmBuffer.create demoFam u demoSchema [2, 0, 3] true r' = (.ok c, w) := by
    have hu : u = (EdmBuffer.create demoFam demoFamInit demoSchema [2, 0, 3] true r).2 := by rw [hb]
    rw [hu]
    cases r <;> cases r' <;> exact ⟨_, _, rfl⟩
  have hp : demoPair demoSchema [2, 0, 3] [2, 0, 3] r r' = (b, c) := by
    unfold demoPair
    rw [hb]
    simp only [hc]
  rw [hp]
  have h1 := c42_edm_buffer_partial demoFam demoFamInit demoFamInit [] (demoFam_lawful 64) .init demoSchema (by decide) [2, 0, 3]
    demoSchema_ok true r 16 hA (by decide) hq
  rw [hb] at h1
  have h2 := c42_edm_buffer_partial demoFam demoFamInit u _ (demoFam_lawful 64) h1.1 demoSchema (by decide) [2, 0, 3]
    demoSchema_ok true r' 16 hA (by decide) hq
  rw [hc] at h2
  refine ⟨demoFam_lawful 64, by decide, demoSchema_ok, hA, by decide, hq, by decide, ⟨_, _, _, _, .init, hb⟩,
    ⟨_, _, _, _, h1.1, hc⟩, w, [], .perm h2.1 ?_⟩
  simp only [List.append_nil]
  exact List.perm_append_comm

/-- The memory in which the byte at each address is the address (modulo 256), but all bytes below 4200 are 0; they are the
sizes. -/
def demoBytes : Mem := fun x => if x < 4200 then 0 else UInt8.ofNat x

/-- A memory with sizes in the source: 1, 0, 2 for the first jagged vector, 0, 0, 3 for the second one. -/
def demoEdmMem : Mem := fun x => if x = 4096 then 1 else if x = 4104 then 2 else if x = 4116 then 3 else demoBytes x

/-- The hypotheses of `c44_same_buffers_partial` and `c44_buffers_partial` on the sizes are met, and the copy is not trivial. -/
example : HasRoom demoSchema [2, 0, 3] ∧ EdmSizes demoEdmMem (demoPair demoSchema [2, 0, 3] [2, 0, 3] true true).1.view ∧
    (demoPair demoSchema [2, 0, 3] [2, 0, 3] true true).1.view.vars.map (fun x => x.rows.map (·.len demoEdmMem)) =
      [[1], [3], [1, 0, 2], [0, 0, 3]] ∧
    oneBlock (demoPair demoSchema [2, 0, 3] [2, 0, 3] true true).1.view (demoPair demoSchema [2, 0, 3] [2, 0, 3] true true).2.view =
      true :=
  ⟨⟨⟨.scalar, ⟨8, 8⟩⟩, by decide, .inl rfl⟩, by unfold EdmSizes; decide +kernel, by decide +kernel, by decide +kernel⟩

/-- Also the case that variables are copied one by one occurs for buffers, namely from fixed size to resizable. -/
example :
    let p := demoPair demoSchema [2, 0, 3] [2, 0, 3] false true
    oneBlock p.1.view p.2.view = false ∧ EdmSizes (fun _ => 0) p.1.view ∧ EdmSizes (fun _ => 0) p.2.view ∧
      NoneEmptied (fun _ => 0) p.1.view p.2.view := by
  refine ⟨by decide +kernel, by unfold EdmSizes; decide +kernel, by unfold EdmSizes; decide +kernel, ?_⟩
  intro i a b _ hb h0
  have : (demoPair demoSchema [2, 0, 3] [2, 0, 3] false true).2.view.vars.all
    (fun x => match x with | .vector b => b.sizePtr == 0 | _ => true) = true := by decide +kernel
  have := List.all_eq_true.1 this _ (List.mem_of_getElem? hb)
  simp only [beq_iff_eq] at this
  exact absurd this h0

/-- The hypothesis of `c44_variables` on the sizes. -/
example : ∀ w, VarView.vector w ∈ (demoPair demoSchema [2, 0, 3] [2, 0, 3] false true).2.view.vars → w.sizePtr = 0 := by
  intro w hw
  have : (demoPair demoSchema [2, 0, 3] [2, 0, 3] false true).2.view.vars.all
    (fun x => match x with | .vector b => b.sizePtr == 0 | _ => true) = true := by decide +kernel
  have := List.all_eq_true.1 this _ hw
  simpa using this

/-- A schema with padding between the variables. -/
def oddSchema : Schema := [⟨.vector, ⟨1, 1⟩⟩, ⟨.scalar, ⟨8, 8⟩⟩]

/-! ## what is not guaranteed -/

/-- Two views as the arguments of the witnesses. -/
def emptySrc : EdmView := ⟨0, [.vector demoEmpty], ⟨0, 0, 0⟩, ⟨0, 0, 0⟩, ⟨0, 0, 0⟩, ⟨0, 0, 0⟩⟩
def fullDst : EdmView := ⟨3, [.vector demoSrc], ⟨0, 0, 0⟩, ⟨0, 0, 0⟩, ⟨0, 0, 0⟩, ⟨0, 0, 0⟩⟩

/-- An empty vector is not copied to a vector with two elements. -/
theorem c44_empty_not_copied : (copyEdm true [⟨.vector, ⟨1, 1⟩⟩] emptySrc fullDst).result demoMem = (.ok (), demoMem) ∧
    demoEmpty.len demoMem = 0 ∧ demoSrc.len demoMem = 2 := ⟨rfl, by decide, by decide +kernel⟩

theorem one_placed {v : View} (h : v.Placed 1) : VarsPlaced [⟨.vector, ⟨1, 1⟩⟩] [.vector v] := by
  have h0 : ∀ {α : Type} {l : List α} {a : α} {i : Nat}, [a][i]? = some a → i = 0 := by
    intro α l a i hi
    cases i with
    | zero => rfl
    | succ i => simp at hi
  have hz : ∀ {α : Type} {a b : α} {i : Nat}, [a][i]? = some b → i = 0 ∧ b = a := by
    intro α a b i hi
    cases i with
    | zero => simp at hi; exact ⟨rfl, hi.symm⟩
    | succ i => simp at hi
  refine ⟨rfl, ?_, ?_, ?_, ?_⟩
  · intro i w x hw hx
    obtain ⟨_, rfl⟩ := hz hw
    obtain ⟨_, rfl⟩ := hz hx
    refine ⟨rfl, by decide, by simpa [VarView.rows] using h, by simp [VarView.rows], ?_, by simp [VarView.rows]⟩
    by_cases h0 : v.sizePtr = 0
    · exact .inl (by simpa [VarView.rows] using h0)
    · refine .inr ⟨v.sizePtr, h0, ?_⟩
      intro k z hk
      obtain ⟨rfl, rfl⟩ := hz hk
      rfl
  · intro i j _ _ x y hij hv hw
    exact absurd ((hz hv).1.trans (hz hw).1.symm) hij
  · intro i j x y hij hx hy
    exact absurd ((hz hx).1.trans (hz hy).1.symm) hij
  · intro i j x y hx hy
    have h1 := (hz hx).2
    have h2 := (hz hy).2
    simp only [VarView.vector.injEq] at h1 h2
    rw [h1, h2]
    exact ⟨rfl, rfl⟩

/-- **C44** is false. -/
theorem c44_false : ¬ C44Full fun _ _ _ _ => True := by
  intro h
  have he : demoEmpty.Placed 1 := ⟨by decide, by decide, by decide, fun x ⟨_, h, _⟩ => h rfl⟩
  have hsep : ∀ a, ¬ EdmHas [⟨.vector, ⟨1, 1⟩⟩] emptySrc a := by
    rintro a (⟨i, v, x, hv, hx, hp⟩ | hp | hp)
    · cases i with
      | succ i => simp at hv
      | zero =>
        simp only [emptySrc, List.getElem?_cons_zero, Option.some.injEq] at hv hx
        subst hv hx
        rcases hp with ⟨w, hw, h1, h2⟩ | ⟨w, hw, h1, _⟩
        · simp only [VarView.rows, List.mem_singleton] at hw
          subst hw
          simp only [demoEmpty] at h1 h2
          omega
        · simp only [VarView.rows, List.mem_singleton] at hw
          subst hw
          exact h1 rfl
    · simp only [emptySrc, View.bytes, Blk.At] at hp; omega
    · simp only [emptySrc, View.bytes, Blk.At] at hp; omega
  obtain ⟨m', -, h1 | h1⟩ := h true demoMem [⟨.vector, ⟨1, 1⟩⟩] emptySrc fullDst ⟨one_placed he, by decide⟩
    ⟨one_placed demoSrc_valid.toPlaced, by decide +kernel⟩ (fun a ha => hsep a ha.1) trivial
  · obtain ⟨_, h2, h3⟩ := h1
    rw [c44_empty_not_copied.1, Prod.mk.injEq] at h2
    have := h3 0 _ _ _ rfl rfl rfl 0 demoEmpty demoSrc rfl rfl
    rw [← h2.2] at this
    exact absurd this (by unfold View.HoldsRow; decide +kernel)
  · have := h1.2
    rw [c44_empty_not_copied.1] at this
    simp at this

/-- Buffers with the inner capacities 1, 3 and 3, 1 have as many bytes of elements, so they are copied as one block: there is
no exception, and the rows of the target are not those of the source. -/
theorem c44_inner_capacities :
    let p := demoPair [⟨.jagged, ⟨1, 1⟩⟩] [1, 3] [3, 1] false false
    let m := (copyEdm true [⟨.jagged, ⟨1, 1⟩⟩] p.1.view p.2.view).result UInt8.ofNat
    m.1 = .ok () ∧ p.1.view.vars.map (fun x => x.rows.map (·.elems UInt8.ofNat 1)) = [[[[48]], [[49], [50], [51]]]] ∧
      p.2.view.vars.map (fun x => x.rows.map (·.elems m.2 1)) = [[[[48], [49], [50]], [[51]]]] := by
  decide +kernel

/-- The same happens with the capacities 4 and 3, if the bytes up to the next variable are not used: there is no exception,
and the size of the target is above its capacity. -/
theorem c44_no_length_error :
    let p := demoPair oddSchema [0, 0, 0, 0] [0, 0, 0] true true
    let m := writeLE demoBytes p.1.view.size.ptr 4 4
    let r := (copyEdm true oddSchema p.1.view p.2.view).result m
    r.1 = .ok () ∧ p.1.view.vars.map (fun x => x.rows.map (·.len m)) = [[4], [1]] ∧
      p.2.view.vars.map (fun x => x.rows.map fun v => (v.len r.2, v.capacity)) = [[(4, 3)], [(1, 1)]] := by
  decide +kernel

/-- A buffer with 4 GiB of elements is not copied at all. -/
theorem c44_large_block (m : Mem) (dbg : Bool) (a : EdmView) :
    match EdmBuffer.create (fun _ => demoBase) demoInit [⟨.jagged, ⟨1, 1⟩⟩] [2 ^ 31, 2 ^ 31] false false with
    | (.ok b, _) => a.payload.ptr ≠ 0 ∧ a.payload.capacity = 0 →
        (copyEdm dbg [⟨.jagged, ⟨1, 1⟩⟩] b.view a).result m = (.ok (), m)
    | _ => False := by
  have : (EdmBuffer.create (fun _ => demoBase) demoInit [⟨.jagged, ⟨1, 1⟩⟩] [2 ^ 31, 2 ^ 31] false false) =
    (.ok ⟨⟨2, [.jagged ⟨[⟨2 ^ 31, 0, 4144⟩, ⟨2 ^ 31, 0, 4144 + 2 ^ 31⟩], 4096, 4096⟩], ⟨0, 0, 0⟩, ⟨0, 0, 4144⟩, ⟨48, 0, 4096⟩,
      ⟨48, 0, 4096⟩⟩, ⟨4096, 2 ^ 32 + 64⟩, {}⟩, (⟨2 ^ 62, 4096, 4160 + 2 ^ 32⟩, ())) := by decide +kernel
  rw [this]
  rintro ⟨h1, h2⟩
  unfold copyEdm oneBlock
  simp [h1, h2]
  rfl

/-- A block copy from one element to a target of fixed size overwrites the other elements of the target; a copy of one
variable after the other does not. -/
theorem c44_paths_differ :
    let S : Schema := [⟨.vector, ⟨1, 1⟩⟩]
    let p := demoPair S [0, 0] [0, 0] true false
    let m := writeLE (writeLE (writeLE demoBytes p.1.view.size.ptr 4 1) 4100 2 (256 * 8 + 7)) p.2.view.payload.ptr 2 (256 * 6 + 5)
    let r := (copyEdm true S p.1.view p.2.view).result m
    let q := (copyEdm true S p.1.view { p.2.view with payload := ⟨0, 0, 0⟩ }).result m
    p.1.view.vars.map (fun x => x.rows.map (·.elems m 1)) = [[[[7]]]] ∧
      p.2.view.vars.map (fun x => x.rows.map (·.elems m 1)) = [[[[5], [6]]]] ∧
      (r.1, p.2.view.vars.map fun x => x.rows.map (·.elems r.2 1)) = (.ok (), [[[[7], [8]]]]) ∧
      (q.1, p.2.view.vars.map fun x => x.rows.map (·.elems q.2 1)) = (.ok (), [[[[7], [6]]]]) := by
  decide +kernel

end Vecmem.Props
