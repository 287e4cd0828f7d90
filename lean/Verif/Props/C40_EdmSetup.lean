import Verif.Props.C44_EdmCopy
import Verif.Lemmas.EdmSetup

/-!
# C40 for containers: `setup` and `memset`

`EdmView`, `setupEdm` and `memsetEdm` are the model (`Model/EdmCopy`), the rows of a variable are defined in `Spec/EdmCopy`.
-/

namespace Vecmem.Props

open Vecmem IntMath Prog

variable {R : Limits} {G : Nat} {σ : Type}

/-- Where the arrays of descriptors of a buffer are. -/
theorem create_layouts {ups : Bool → MR σ} {u0 u u' : σ} {T : List (Bool × Blk)} (h : FamLawful R G ups u0)
    (hu : FReach R ups u0 u T) {S : Schema} (hS : S ≠ []) {caps : List Nat} (ho : S.Ok caps) {hasHost resizable : Bool}
    {A : Nat} (hA : ∀ v ∈ S, v.type.align ≤ A) (hA8 : 8 ≤ A) (hq : IsReq R (S.room caps A) maxAlign) {b : EdmBuffer}
    (hb : EdmBuffer.create ups u S caps hasHost resizable = (.ok b, u')) :
    ∃ p q, p ≠ 0 ∧ q ≠ 0 ∧ b.mem.ptr ≤ p ∧ placeEnd p (S.layoutRegions caps) ≤ b.mem.ptr + b.mem.size ∧
      b.view.layout = memoryView (S.layoutRegions caps) (placeAt p (S.layoutRegions caps)) ∧
      b.view.hostLayout = memoryView (S.layoutRegions caps) (placeAt q (S.layoutRegions caps)) ∧
      (∀ (i : Nat) (j : JagView), b.view.vars[i]? = some (.jagged j) → caps ≠ [] →
        (S.layoutRegions caps)[i]? = some (CType.view, caps.length) ∧ j.views.length = caps.length ∧
        j.ptr = (placeAt p (S.layoutRegions caps)).getD i 0 ∧ j.hostPtr = (placeAt q (S.layoutRegions caps)).getD i 0) ∧
      (p = q ∨ q = b.hostMem.ptr ∧ placeEnd q (S.layoutRegions caps) ≤ b.hostMem.ptr + b.hostMem.size ∧
        b.hostMem.ptr + b.hostMem.size ≤ 2 ^ 64 ∧ b.hostMem.size ≤ S.room caps A ∧
        Blk.Disjoint ⟨b.hostMem.ptr, b.hostMem.size, maxAlign⟩ ⟨b.mem.ptr, b.mem.size, maxAlign⟩) := by
  have hpl := c42_edm_buffer_partial ups u0 u T h hu S hS caps ho hasHost resizable A hA hA8 hq
  rw [hb] at hpl
  obtain ⟨_, hown, hm0, hh0, _⟩ := hpl
  have hwf : ∀ e ∈ S.allRegions caps resizable, e.1.Wf ∧ e.1.align ≤ A := by
    intro e he
    rcases allRegions_mem he with h | ⟨v, hv, h⟩ | ⟨v, hv, h⟩
    · rw [h]; exact ⟨uint_wf, by have : CType.uint.align = 4 := rfl
                                 omega⟩
    · rw [h]; exact ⟨layoutType_wf v, by have := layoutType_align v; omega⟩
    · rw [h]; exact ⟨ho.types v hv, hA v hv⟩
  have hwfl : ∀ e ∈ S.layoutRegions caps, e.1.Wf ∧ e.1.align ≤ A := fun e he =>
    hwf e (List.mem_append_right _ (List.mem_append_left _ he))
  obtain ⟨r1, r2⟩ := neededBytes_room (S := S) (caps := caps) (resizable := resizable) A
  have q1 := IsReq.le hq (Nat.le_trans (neededBytes_mono (maxAlignOf_le fun e he => (hwf e he).2) _) r1)
  have hle2 := Nat.le_trans (neededBytes_mono (maxAlignOf_le fun e he => (hwfl e he).2) _) r2
  have q2 := IsReq.le hq hle2
  have hne2 : S.layoutRegions caps ≠ [] := by simpa [Schema.layoutRegions] using hS
  have hne1 : S.allRegions caps resizable ≠ [] := by unfold Schema.allRegions; simp [hne2]
  have hend : ∀ {ts : List (CType × Nat)} {p : Nat}, (∀ e ∈ ts, e.1.Wf) → placeEnd p ts ≤ p + neededBytes (maxAlignOf ts) ts := by
    intro ts p hw
    apply placeEnd_le
    intro e he
    obtain ⟨_, ⟨k, hk⟩, _⟩ := hw e he
    exact ⟨by rw [hk]; exact Nat.two_pow_pos k, (foldl_max_ge _ 0).2 _ (List.mem_map.2 ⟨e, he, rfl⟩)⟩
  have hllen : (S.layoutRegions caps).length = S.length := by simp [Schema.layoutRegions]
  -- the facts about the view, for any pointers to host layouts
  have key : ∀ (mp : Nat) (hls : Option (List Nat)) (q : Nat), mp ≠ 0 →
      (hls = none ∧ q = placeEnd mp (S.sizeRegions caps resizable) ∨ hls = some (placeAt q (S.layoutRegions caps)) ∧ q ≠ 0) →
      (S.bufferView caps resizable (placeAt mp (S.allRegions caps resizable)) hls).layout =
        memoryView (S.layoutRegions caps) (placeAt (placeEnd mp (S.sizeRegions caps resizable)) (S.layoutRegions caps)) ∧
      (S.bufferView caps resizable (placeAt mp (S.allRegions caps resizable)) hls).hostLayout =
        memoryView (S.layoutRegions caps) (placeAt q (S.layoutRegions caps)) ∧
      ∀ (i : Nat) (j : JagView),
        (S.bufferView caps resizable (placeAt mp (S.allRegions caps resizable)) hls).vars[i]? = some (.jagged j) → caps ≠ [] →
        (S.layoutRegions caps)[i]? = some (CType.view, caps.length) ∧ j.views.length = caps.length ∧
        j.ptr = (placeAt (placeEnd mp (S.sizeRegions caps resizable)) (S.layoutRegions caps)).getD i 0 ∧
        j.hostPtr = (placeAt q (S.layoutRegions caps)).getD i 0 := by
    intro mp hls q hmp hq
    obtain ⟨s1, s2, s3⟩ := slices (A := S.sizeRegions caps resizable) (B := S.layoutRegions caps)
      (C := S.payloadRegions caps) mp
    rw [hllen] at s2
    refine ⟨?_, ?_, ?_⟩
    · show memoryView _ (((placeAt mp (S.allRegions caps resizable)).drop _).take _) = _
      unfold Schema.allRegions
      rw [s2]
    · show memoryView _ (hls.getD (((placeAt mp (S.allRegions caps resizable)).drop _).take _)) = _
      rcases hq with ⟨rfl, rfl⟩ | ⟨rfl, _⟩
      · unfold Schema.allRegions
        rw [Option.getD_none, s2]
      · rw [Option.getD_some]
    · intro i j hj hc
      rw [bufferView_var] at hj
      cases hv : S[i]? with
      | none => rw [hv] at hj; simp at hj
      | some v =>
        rw [hv, Option.map_some, Option.some.injEq] at hj
        have hiS := (List.getElem?_eq_some_iff.1 hv).1
        have hl : (placeAt mp (S.allRegions caps resizable)).getD (S.words caps resizable + i) 0 =
            (placeAt (placeEnd mp (S.sizeRegions caps resizable)) (S.layoutRegions caps)).getD i 0 := by
          rw [← s2]
          unfold Schema.allRegions Schema.words
          simp [List.getD_eq_getElem?_getD, hiS]
        have hk : v.kind = .jagged := by
          have := congrArg VarView.kind hj
          rw [kind_of_makeView] at this
          exact this
        have hreg : (S.layoutRegions caps)[i]? = some (CType.view, caps.length) := by
          simp [Schema.layoutRegions, hv, Var.layoutType, Var.layoutSize, hk]
        unfold Var.makeView at hj
        rw [hk] at hj
        simp only [VarView.jagged.injEq] at hj
        subst hj
        refine ⟨hreg, by simp [jagViews_length], hl, ?_⟩
        show (if (hls.getD []).getD i 0 ≠ 0 then (hls.getD []).getD i 0 else _) = _
        rcases hq with ⟨rfl, rfl⟩ | ⟨rfl, hq0⟩
        · rw [if_neg (by simp), hl]
        · have hc0 : (CType.view, caps.length).2 ≠ 0 := by
            simpa using hc
          have := (placeAt_bounds (S.layoutRegions caps) q i _ hreg hc0).1
          rw [Option.getD_some, if_pos (by omega)]
  unfold EdmBuffer.create at hb
  rw [show S.sizeRegions caps resizable ++ (S.layoutRegions caps ++ S.payloadRegions caps) = S.allRegions caps resizable
    from rfl] at hb
  have hall : ∀ mp, placeEnd (placeEnd mp (S.sizeRegions caps resizable)) (S.layoutRegions caps) ≤
      placeEnd mp (S.allRegions caps resizable) := by
    intro mp
    unfold Schema.allRegions
    rw [placeEnd_append, placeEnd_append]
    exact placeEnd_ge _ _
  rcases h.placement hu false hne1 (fun e he => (hwf e he).1) q1 with ⟨m, ps, u1, a1, a2, a3, a4, a5⟩ | ⟨u1, a1, a2⟩
  · have hps := placement_at (fun e he => (hwf e he).1) q1.1.2 a1
    have hend1 := hend (p := m.ptr) fun e he => (hwf e he).1
    rw [← a2] at hend1
    have g1 := a5.1
    have hge : m.ptr ≤ placeEnd m.ptr (S.sizeRegions caps resizable) := placeEnd_ge _ _
    simp only [a1] at hb
    cases hasHost with
    | false =>
      simp only [Bool.false_eq_true, if_false, Prod.mk.injEq, Res.ok.injEq] at hb
      obtain ⟨rfl, rfl⟩ := hb
      obtain ⟨k1, k2, k3⟩ := key m.ptr none _ g1 (.inl ⟨rfl, rfl⟩)
      rw [hps]
      exact ⟨_, _, by omega, by omega, hge, Nat.le_trans (hall _) hend1, k1, k2, k3, .inl rfl⟩
    | true =>
      simp only [if_true] at hb
      rcases h.placement a4 true hne2 (fun e he => (hwfl e he).1) q2 with ⟨mh, psh, u2, c1, c2, c3, c4, c5⟩ | ⟨u2, c1, c2⟩
      · have hpsh := placement_at (fun e he => (hwfl e he).1) q2.1.2 c1
        have hend2 := hend (p := mh.ptr) fun e he => (hwfl e he).1
        rw [← c2] at hend2
        simp only [c1, Prod.mk.injEq, Res.ok.injEq] at hb
        obtain ⟨rfl, rfl⟩ := hb
        obtain ⟨k1, k2, k3⟩ := key m.ptr (some psh) mh.ptr g1 (.inr ⟨by rw [hpsh], c5.1⟩)
        rw [hps]
        refine ⟨_, _, by omega, c5.1, hge, Nat.le_trans (hall _) hend1, k1, k2, k3, .inr ⟨rfl, hend2, c5.2.1, ?_, ?_⟩⟩
        · show mh.size ≤ _
          rw [c2]; exact hle2
        · have hd := h.live c4
          have := (List.pairwise_cons.1 hd.2).1 (false, m.blk) (by simp)
          exact this
      · simp only [c1, Res.map, unwind] at hb
        split at hb <;> simp_all
  · simp only [a1, Res.map] at hb
    simp at hb

theorem payload_in_block {m : Blk} {S : Schema} {caps : List Nat} {r : Bool} {e : EdmView} (hl : EdmBlocks m S caps r e)
    {i : Nat} {v : Var} {x : VarView} (hv : S[i]? = some v) (hx : e.vars[i]? = some x) {a : Nat}
    (hp : x.HasPayload v.type.size a) : e.payload.bytes.At a := by
  obtain ⟨w, hw, hpa⟩ := hp
  have : ∃ c ∈ x.payloads v.type, c.At a := by
    cases x with
    | scalar q =>
      simp only [VarView.rows, List.mem_singleton] at hw
      subst hw
      exact ⟨v.type.region q 1, by simp [VarView.payloads], hpa⟩
    | vector z =>
      simp only [VarView.rows, List.mem_singleton] at hw
      subst hw
      exact ⟨_, by simp [VarView.payloads], payload_at_iff.2 hpa⟩
    | jagged j => exact ⟨_, List.mem_map.2 ⟨w, hw, rfl⟩, payload_at_iff.2 hpa⟩
  obtain ⟨c, hc, hca⟩ := this
  have := hl.payload i v x hv hx c hc (by have := hca.1; have := hca.2; omega)
  unfold Blk.Inside at this
  have := hca.1
  have := hca.2
  constructor <;> omega

/-- A container buffer below 4 GiB, from well-behaved resources. -/
structure OneBuffer (R : Limits) (G : Nat) (ups : Bool → MR σ) (u0 : σ) (S : Schema) (caps : List Nat) (A : Nat)
    (r : Bool) (b : EdmBuffer) : Prop where
  lawful : FamLawful R G ups u0
  schema : S ≠ []
  ok : S.Ok caps
  aligns : ∀ v ∈ S, v.type.align ≤ A
  align : 8 ≤ A
  req : IsReq R (S.room caps A) maxAlign
  small : S.room caps A < 2 ^ 32
  created : ∃ u u' T hasHost, FReach R ups u0 u T ∧ EdmBuffer.create ups u S caps hasHost r = (.ok b, u')

/-- **C40, partial**, containers: whatever is in memory, after `setup` of a container buffer with capacity, all of its sizes
are zero; the device's arrays of descriptors are copies of the host's; nothing but the size words and the device's arrays of
descriptors has changed, in particular no element.

Missing: buffers without capacity (`c40_no_capacity`), and buffers of 4 GiB or more. -/
theorem c40_setup_container_partial (ups : Bool → MR σ) (u0 : σ) (S : Schema) (caps : List Nat) (A : Nat) (r : Bool)
    (b : EdmBuffer) (hb : OneBuffer R G ups u0 S caps A r b) (hc : caps ≠ []) (dbg : Bool) (m : Mem) :
    ∃ m', (setupEdm dbg b.view).result m = (.ok (), m') ∧
      (∀ x ∈ b.view.vars, ∀ v ∈ x.rows, v.sizePtr ≠ 0 → v.len m' = 0) ∧
      (∀ j, .jagged j ∈ b.view.vars → bytesAt m' j.ptr (j.views.length * 24) = bytesAt m j.hostPtr (j.views.length * 24) ∧
        bytesAt m' j.hostPtr (j.views.length * 24) = bytesAt m j.hostPtr (j.views.length * 24)) ∧
      (∀ a, ¬ b.view.size.bytes.At a → ¬ b.view.layout.bytes.At a → m' a = m a) ∧
      (∀ (i : Nat) (v : Var) (x : VarView), S[i]? = some v → b.view.vars[i]? = some x →
        ∀ a, x.HasPayload v.type.size a → m' a = m a) := by
  obtain ⟨h, hS, ho, hA, hA8, hq, hsmall, u, u', T, hh, hu, hb⟩ := hb
  obtain ⟨b1, b2, b3, b4, _, b6⟩ := create_at h hu hS ho hA hA8 hq hb
  obtain ⟨b7, b8, b9⟩ := placed_of_create h hu hS ho hA hA8 hq hb
  obtain ⟨p, q, hp0, hq0, hpm, hpe, hlay, hhost, hjag, hpq⟩ := create_layouts h hu hS ho hA hA8 hq hb
  have b9 := b9 (by omega)
  have hp32 : placeEnd p (S.layoutRegions caps) - p < 2 ^ 32 := by omega
  have hq32 : placeEnd q (S.layoutRegions caps) - q < 2 ^ 32 := by
    rcases hpq with rfl | ⟨h1, h2, h3, h4, h5⟩
    · exact hp32
    · omega
  obtain ⟨l1, l2⟩ := memoryView_at (ts := S.layoutRegions caps) hp0 hp32
  obtain ⟨k1, k2⟩ := memoryView_at (ts := S.layoutRegions caps) hq0 hq32
  have lz : b.view.layout.sizePtr = 0 := by rw [hlay]; rfl
  have kz : b.view.hostLayout.sizePtr = 0 := by rw [hhost]; rfl
  rw [← hlay] at l1 l2
  rw [← hhost] at k1 k2
  have hsv := sizeView_at (S := S) (caps := caps) (resizable := r) b7
    (by have := b1.finish; have := b1.ge; unfold Schema.payloadStart at *
        have := placeEnd_ge (S.layoutRegions caps) (placeEnd b.mem.ptr (S.sizeRegions caps r))
        have := placeEnd_ge (S.payloadRegions caps) (placeEnd (placeEnd b.mem.ptr (S.sizeRegions caps r)) (S.layoutRegions caps))
        omega)
  simp only at hsv
  rw [← b1.size] at hsv
  have hwords := BufferAt.inside b9 b8
  -- no jagged vectors: no layouts
  have hcases : (∃ x ∈ S.layoutRegions caps, x.2 ≠ 0) ∨
      (b.view.layout = ⟨0, 0, 0⟩ ∧ b.view.hostLayout = ⟨0, 0, 0⟩) := by
    by_cases hx : ∃ x ∈ S.layoutRegions caps, x.2 ≠ 0
    · exact .inl hx
    · have hall : ∀ x ∈ S.layoutRegions caps, x.2 = 0 := fun x hx' => by
        by_contra h0; exact hx ⟨x, hx', h0⟩
      right
      rw [hlay, hhost, memoryView_none (placeAt_none hall _).1, memoryView_none (placeAt_none hall _).1]
      exact ⟨rfl, rfl⟩
  have huni : (∃ x ∈ S.layoutRegions caps, x.2 ≠ 0) →
      b.view.layout.ptr ≠ 0 ∧ b.view.hostLayout.ptr ≠ 0 ∧ b.view.layout.capacity = b.view.hostLayout.capacity ∧
      b.view.layout.capacity ≠ 0 ∧ b.view.layout.ptr = findFirst (placeAt p (S.layoutRegions caps)) ∧
      b.view.hostLayout.ptr = findFirst (placeAt q (S.layoutRegions caps)) := by
    intro hex
    have e1 := placeEnd_uniform (t := CType.view) (by decide) (by decide) _ p layout_uniform hp0 hex
    have e2 := placeEnd_uniform (t := CType.view) (by decide) (by decide) _ q layout_uniform hq0 hex
    have f1 : b.view.layout.ptr = findFirst (placeAt p (S.layoutRegions caps)) := by rw [hlay]; rfl
    have f2 : b.view.hostLayout.ptr = findFirst (placeAt q (S.layoutRegions caps)) := by rw [hhost]; rfl
    have g1 := findFirst_at hp0 hex
    have g2 := findFirst_at hq0 hex
    have i1 := l1 (.inr (by omega))
    have i2 := k1 (.inr (by omega))
    obtain ⟨x, hx, hx0⟩ := hex
    obtain ⟨i, hi⟩ := List.mem_iff_getElem?.1 hx
    have hin := l2 i x hi hx0
    have hty := layout_uniform x hx hx0
    simp only [CType.region, View.bytes, Blk.Inside, hty, CType.view, viewSize] at hin
    refine ⟨by omega, by omega, by omega, by omega, f1, f2⟩
  have hdisj : b.view.layout.ptr ≠ b.view.hostLayout.ptr → (∃ x ∈ S.layoutRegions caps, x.2 ≠ 0) ∧
      q = b.hostMem.ptr ∧ placeEnd q (S.layoutRegions caps) ≤ b.hostMem.ptr + b.hostMem.size ∧
        b.hostMem.ptr + b.hostMem.size ≤ 2 ^ 64 ∧ b.hostMem.size ≤ S.room caps A ∧
        Blk.Disjoint ⟨b.hostMem.ptr, b.hostMem.size, maxAlign⟩ ⟨b.mem.ptr, b.mem.size, maxAlign⟩ := by
    intro hne
    rcases hcases with hex | ⟨h1, h2⟩
    · rcases hpq with rfl | h'
      · rw [hlay, hhost] at hne; exact absurd rfl hne
      · exact ⟨hex, h'⟩
    · rw [h1, h2] at hne; exact absurd rfl hne
  obtain ⟨m1, m2, acts, e1, e2⟩ := setupEdm_acts (e := b.view) (m := m) dbg
    (by rw [b8.capacity]; simpa using hc)
    (by
      intro h0 hc0
      have hi := hsv.1 (.inr h0)
      cases hr : r with
      | false =>
        subst hr
        exact h0 (b1.null rfl)
      | true =>
        cases hj : S.hasJagged with
        | false => have := b9.word hr hj; omega
        | true =>
          obtain ⟨v, hv, hk⟩ := hasJagged_iff.1 hj
          obtain ⟨i, hi⟩ := List.mem_iff_getElem?.1 hv
          have hlt : i < b.view.vars.length := by rw [b8.count]; exact (List.getElem?_eq_some_iff.1 hi).1
          have hx := List.getElem?_eq_getElem hlt
          have hf := b8.vars i v _ hi hx
          obtain ⟨j, hj'⟩ : ∃ j, b.view.vars[i] = .jagged j := by
            unfold VarView.Fits at hf
            rw [hk] at hf
            cases hz : b.view.vars[i] with
            | jagged j => exact ⟨j, rfl⟩
            | scalar _ => rw [hz] at hf; exact hf.elim
            | vector _ => rw [hz] at hf; exact hf.elim
          have hjv := (hjag i j (by rw [hx, hj']) hc).2.1
          have hlen : 0 < caps.length := by
            cases caps with
            | nil => exact absurd rfl hc
            | cons _ _ => simp
          have hw := b9.words hr i j (by rw [hx, hj']) (j.views[0]'(by omega)) (List.getElem_mem _)
          simp only [View.sizeWord, CType.region, CType.uint, View.bytes, Blk.Inside] at hw
          omega)
    (by
      intro hne
      obtain ⟨hex, d1, d2, d3, d4, d5⟩ := hdisj hne
      obtain ⟨n1, n2, n3, n4, n5, n6⟩ := huni hex
      have i1 := l1 (.inr n1)
      have i2 := k1 (.inr n2)
      refine ⟨n4, n3, ⟨⟨fun _ => n1, fun _ => by omega, by omega, fun x hx => hx.2.1 lz⟩, lz⟩,
        ⟨⟨fun _ => n2, fun _ => by omega, by omega, fun x hx => hx.2.1 kz⟩, kz⟩, ?_⟩
      rintro a ⟨⟨x1, x2⟩, y1, y2⟩
      simp only [View.bytes] at x1 x2 y1 y2
      unfold Blk.Disjoint at d5
      simp only at d5
      omega)
  have happ := b9.apart
  simp only [List.pairwise_cons, List.mem_cons, List.not_mem_nil, or_false, forall_eq_or_imp, forall_eq] at happ
  obtain ⟨⟨hsl, hsp⟩, hlp, _⟩ := happ
  have hm1 : ∀ a, ¬ b.view.layout.bytes.At a → m1 a = m a := by
    intro a ha
    rw [e1]
    split
    · unfold memCopy
      exact if_neg ha
    · rfl
  have hm2 : ∀ a, ¬ b.view.size.bytes.At a → m2 a = m1 a := by
    intro a ha
    rw [e2]
    split
    · unfold memFill
      exact if_neg ha
    · rfl
  refine ⟨m2, acts.result, ?_, ?_, fun a h1 h2 => by rw [hm2 a h1, hm1 a h2], ?_⟩
  · intro x hx v hv h0
    have hin := hwords x hx v hv h0
    have hs0 : b.view.size.ptr ≠ 0 := fun hs0 => h0 (b1.fixed b9 b8 b7 hs0 x hx v hv)
    rw [e2, if_pos hs0]
    simp only [View.sizeWord, CType.region, CType.uint, View.bytes, Blk.Inside] at hin
    exact memFill_word (by omega) (by omega) h0
  · intro j hj
    obtain ⟨i, hi⟩ := List.mem_iff_getElem?.1 hj
    obtain ⟨hreg, hlen, hjp, hjh⟩ := hjag i j hi hc
    have hn0 : (CType.view, caps.length).2 ≠ 0 := by simpa using hc
    have hex : ∃ x ∈ S.layoutRegions caps, x.2 ≠ 0 := ⟨_, List.mem_of_getElem? hreg, hn0⟩
    obtain ⟨n1, n2, n3, n4, n5, n6⟩ := huni hex
    have i1 := l1 (.inr n1)
    have i2 := k1 (.inr n2)
    have c1 := l2 i _ hreg hn0
    have c2 := k2 i _ hreg hn0
    rw [← hjp] at c1
    rw [← hjh] at c2
    simp only [CType.region, View.bytes, Blk.Inside, CType.view, viewSize] at c1 c2
    have hins : ∀ a, b.view.size.bytes.At a → b.mem.ptr ≤ a ∧ a < b.mem.ptr + b.mem.size := by
      intro a ha
      have hz : b.view.size.bytes.size ≠ 0 := by
        have := ha.1
        have := ha.2
        omega
      have := b9.inside b.view.size.bytes (by simp) hz
      unfold Blk.Inside at this
      have := ha.1
      have := ha.2
      simp only at *
      omega
    have hinl : ∀ a, b.view.layout.bytes.At a → b.mem.ptr ≤ a ∧ a < b.mem.ptr + b.mem.size := by
      intro a ⟨h1, h2⟩
      simp only [View.bytes] at h1 h2
      omega
    rw [hlen]
    constructor
    · apply bytesAt_congr
      intro k hk
      have hk1 : b.view.layout.bytes.At (j.ptr + k) := by
        constructor <;> simp only [View.bytes] <;> omega
      rw [hm2 _ fun hs => hsl.at _ ⟨hs, hk1⟩]
      by_cases hne : b.view.layout.ptr ≠ b.view.hostLayout.ptr
      · rw [e1, if_pos hne]
        unfold memCopy
        rw [if_pos ⟨hk1.1, hk1.2⟩]
        obtain ⟨o, o1, o2⟩ := place_alike (S.layoutRegions caps) p q (fun e he => by
          obtain ⟨v, _, rfl⟩ := List.mem_map.1 he; exact layoutType_wf v) hp0 hq0
          (by rw [← n5, ← n6]; omega) i _ hreg hn0
        rw [← hjp, ← n5] at o1
        rw [← hjh, ← n6] at o2
        congr 1
        omega
      · have hpq' : p = q := by
          rcases hpq with h' | ⟨d1, d2, d3, d4, d5⟩
          · exact h'
          · exfalso
            unfold Blk.Disjoint at d5
            simp only at d5
            simp only [ne_eq, Classical.not_not] at hne
            omega
        rw [e1, if_neg hne, hjp, hjh, hpq']
    · apply bytesAt_congr
      intro k hk
      rcases hpq with hpq' | ⟨d1, d2, d3, d4, d5⟩
      · have : j.hostPtr = j.ptr := by rw [hjp, hjh, hpq']
        have hk1 : b.view.layout.bytes.At (j.hostPtr + k) := by
          constructor <;> simp only [View.bytes] <;> omega
        rw [hm2 _ fun hs => hsl.at _ ⟨hs, hk1⟩]
        rw [e1, if_neg]
        rw [hlay, hhost, hpq']
        simp
      · unfold Blk.Disjoint at d5
        simp only at d5
        rw [hm2 _ fun hs => by have := hins _ hs; omega, hm1 _ fun hs => by have := hinl _ hs; omega]
  · intro i v x hv hx a hpay
    have hin := payload_in_block b9 hv hx hpay
    rw [hm2 a fun hs => hsp.at a ⟨hs, hin⟩, hm1 a fun hs => hlp.at a ⟨hs, hin⟩]

/-- **C40, partial**, `memset` of any container whose elements are not in one block (as those of a host container): every byte
of the elements of every variable is set, and nothing else.

Missing: a container with a jagged vector without rows, for which this is undefined (`c40_memset_container_empty`). -/
theorem c40_memset_variables_partial (m : Mem) (S : Schema) (e : EdmView) (hp : VarsPlaced S e.vars) (h0 : e.payload.ptr = 0)
    (hr : ∀ x ∈ e.vars, x.rows ≠ []) (value : UInt8) :
    ∃ m', (memsetEdm S e value).result m = (.ok (), m') ∧ ∀ a,
      ((∃ (i : Nat) (v : Var) (x : VarView), S[i]? = some v ∧ e.vars[i]? = some x ∧ x.HasPayload v.type.size a) → m' a = value) ∧
      ((¬ ∃ (i : Nat) (v : Var) (x : VarView), S[i]? = some v ∧ e.vars[i]? = some x ∧ x.HasPayload v.type.size a) → m' a = m a) := by
  obtain ⟨m', e1, e2⟩ := memsetVars_does value S e.vars m hp.count fun i v x hv hx =>
    ⟨(hp.each i v x hv hx).2.1, (hp.each i v x hv hx).2.2.placed, hr x (List.mem_of_getElem? hx)⟩
  refine ⟨m', ?_, e2⟩
  unfold memsetEdm
  rw [if_neg (by simpa using h0)]
  exact (e1.bindActs (acts_retEvent _)).result

/-- **C40, partial**, `memset` of a container buffer: every byte of the elements of every variable is set, and nothing
outside the block of the elements, in particular no size and no descriptor.

Missing: as for `c40_memset_variables_partial`; also, the bytes between the variables are set. -/
theorem c40_memset_container_partial (ups : Bool → MR σ) (u0 : σ) (S : Schema) (caps : List Nat) (A : Nat) (r : Bool)
    (b : EdmBuffer) (hb : OneBuffer R G ups u0 S caps A r b) (hc : caps ≠ []) (value : UInt8) (m : Mem) :
    ∃ m', (memsetEdm S b.view value).result m = (.ok (), m') ∧
      (∀ (i : Nat) (v : Var) (x : VarView), S[i]? = some v → b.view.vars[i]? = some x →
        ∀ a, x.HasPayload v.type.size a → m' a = value) ∧
      (∀ a, ¬ b.view.payload.bytes.At a → m' a = m a) ∧
      (∀ x ∈ b.view.vars, ∀ v ∈ x.rows, v.len m' = v.len m) := by
  obtain ⟨h, hS, ho, hA, hA8, hq, hsmall, u, u', T, hh, hu, hb⟩ := hb
  obtain ⟨b1, b2, b3, b4, _, b6⟩ := create_at h hu hS ho hA hA8 hq hb
  obtain ⟨b7, b8, b9⟩ := placed_of_create h hu hS ho hA hA8 hq hb
  have b9 := b9 (by omega)
  have hwords := BufferAt.inside b9 b8
  have happ := b9.apart
  simp only [List.pairwise_cons, List.mem_cons, List.not_mem_nil, or_false, forall_eq_or_imp, forall_eq] at happ
  obtain ⟨⟨hsl, hsp⟩, hlp, _⟩ := happ
  have hlen : ∀ m' : Mem, (∀ a, ¬ b.view.payload.bytes.At a → m' a = m a) →
      ∀ x ∈ b.view.vars, ∀ v ∈ x.rows, v.len m' = v.len m := by
    intro m' hm' x hx v hv
    unfold View.len
    split
    · rfl
    · rename_i h0
      have hin := hwords x hx v hv h0
      apply readLE_congr
      intro k hk hk2
      apply hm'
      intro hc
      refine hsp.at _ ⟨?_, hc⟩
      simp only [View.sizeWord, CType.region, CType.uint, Blk.Inside] at hin
      constructor <;> omega
  by_cases h0 : b.view.payload.ptr = 0
  · obtain ⟨m', e1, e2⟩ := c40_memset_variables_partial m S b.view (b8.varsPlaced ho b7 b3) h0 (by
      intro x hx hr
      obtain ⟨i, hi⟩ := List.mem_iff_getElem?.1 hx
      have hiS : i < S.length := by rw [← b8.count]; exact (List.getElem?_eq_some_iff.1 hi).1
      obtain ⟨l, p, ex⟩ := b1.vars i _ x (List.getElem?_eq_getElem hiS) hi
      unfold Var.makeView at ex
      cases hk : S[i].kind <;> rw [hk] at ex <;> simp only at ex <;> subst ex <;> simp only [VarView.rows] at hr
      · simp at hr
      · simp at hr
      · have := congrArg List.length hr
        rw [jagViews_length] at this
        exact hc (List.length_eq_zero_iff.1 this)) value
    have hf : ∀ a, ¬ b.view.payload.bytes.At a → m' a = m a := by
      intro a ha
      apply (e2 a).2
      rintro ⟨i, v, x, hv, hx, hp⟩
      exact ha (payload_in_block b9 hv hx hp)
    exact ⟨m', e1, fun i v x hv hx a hp => (e2 a).1 ⟨i, v, x, hv, hx, hp⟩, hf, hlen m' hf⟩
  · have hz : b.view.payload.sizePtr = 0 := by rw [b1.payload]; rfl
    have hlt : b.view.payload.capacity < 2 ^ 32 := by
      rw [b1.payload]
      exact Nat.mod_lt _ (by decide)
    have hpl : b.view.payload.Placed 1 := by
      refine ⟨fun _ => h0, fun hc0 => ?_, hlt, fun x hx => hx.2.1 hz⟩
      have := b9.inside b.view.payload.bytes (by simp) hc0
      simp only [View.bytes, Blk.Inside] at this
      omega
    obtain ⟨m', e1, e2⟩ := memsetVec_acts (m := m) hpl value
    have hat : ∀ a, b.view.payload.HasPayload 1 a ↔ b.view.payload.bytes.At a := by
      intro a
      unfold View.HasPayload View.bytes Blk.At
      rw [Nat.mul_one]
    have hf : ∀ a, ¬ b.view.payload.bytes.At a → m' a = m a := fun a ha => (e2 a).2 fun h => ha ((hat a).1 h)
    refine ⟨m', ?_, fun i v x hv hx a hp => (e2 a).1 ((hat a).2 (payload_in_block b9 hv hx hp)), hf, hlen m' hf⟩
    unfold memsetEdm
    rw [if_pos h0]
    exact ((acts_discard e1).bindActs (acts_retEvent _)).result

/-- `get_size` of a container returns the size of its vectors, if it has one: the contents of the size word they share, or the
capacity.  For a container with jagged vectors it returns their number of rows. -/
theorem c40_get_size (ups : Bool → MR σ) (u0 : σ) (S : Schema) (caps : List Nat) (A : Nat) (r : Bool) (b : EdmBuffer)
    (hb : OneBuffer R G ups u0 S caps A r b) (dbg : Bool) (m : Mem) :
    ∃ n, (getSizeEdm dbg S b.view).value m = .ok n ∧ ((getSizeEdm dbg S b.view).result m).2 = m ∧
      (S.hasJagged = false → ∀ v, .vector v ∈ b.view.vars → v.len m = n) ∧ (S.hasJagged = true → n = caps.length) := by
  obtain ⟨h, hS, ho, hA, hA8, hq, hsmall, u, u', T, hh, hu, hb⟩ := hb
  obtain ⟨b1, b2, b3, b4, _, b6⟩ := create_at h hu hS ho hA hA8 hq hb
  obtain ⟨b7, b8, b9⟩ := placed_of_create h hu hS ho hA hA8 hq hb
  have b9 := b9 (by omega)
  have hvec : ∀ v, .vector v ∈ b.view.vars → v.capacity = caps.length ∧
      v.sizePtr = if r && !S.hasJagged then b.view.size.ptr else 0 := by
    intro v hv
    obtain ⟨i, hi⟩ := List.mem_iff_getElem?.1 hv
    have hiS : i < S.length := by rw [← b8.count]; exact (List.getElem?_eq_some_iff.1 hi).1
    have hf := b8.vars i _ _ (List.getElem?_eq_getElem hiS) hi
    unfold VarView.Fits at hf
    cases hk : S[i].kind <;> rw [hk] at hf <;> simp only at hf
    exact ⟨hf.1, hf.2.1⟩
  unfold getSizeEdm
  cases hj : S.hasJagged with
  | true =>
    rw [if_pos rfl]
    exact ⟨b.view.capacity, rfl, rfl, fun h => by simp at h, fun _ => b8.capacity⟩
  | false =>
    rw [if_neg (by simp)]
    by_cases h0 : b.view.size.ptr = 0
    · rw [if_pos h0]
      refine ⟨b.view.capacity, rfl, rfl, fun _ v hv => ?_, fun h => by simp at h⟩
      obtain ⟨h1, h2⟩ := hvec v hv
      rw [View.len, if_pos (by rw [h2]; split <;> first | exact h0 | rfl), h1, b8.capacity]
    · rw [if_neg h0]
      have hr : r = true := by
        cases hr : r with
        | true => rfl
        | false => exact absurd (b8.fixed hr) h0
      have h4 := b9.word hr hj
      unfold assertion
      rw [if_neg (by simp [h4])]
      have hd := fetch_does b.view.capacity b.view.size.ptr m
      obtain ⟨d', e⟩ := hd [] 0
      refine ⟨readLE m b.view.size.ptr 4, by unfold value; rw [e], by unfold result; rw [e], fun _ v hv => ?_, fun h => by simp at h⟩
      obtain ⟨h1, h2⟩ := hvec v hv
      rw [hr, hj] at h2
      simp only [Bool.not_false, Bool.and_self, if_true] at h2
      rw [View.len, if_neg (by rw [h2]; exact h0), h2]

theorem demoOne (r : Bool) : OneBuffer 64 64 demoFam demoFamInit demoSchema [2, 0, 3] 16 r
    (demoPair demoSchema [2, 0, 3] [2, 0, 3] r r).1 := by
  obtain ⟨h1, h2, h3, h4, h5, h6, h7, ⟨u, u', T, hh, h8, h9⟩, _⟩ := demoTwo r r
  exact ⟨h1, h2, h3, h4, h5, h6, h7, u, u', T, hh, h8, h9⟩

/-- The hypotheses are met by a buffer with jagged vectors and separate host memory, whose sizes are not zero before
`setup`. -/
example : let e := (demoPair demoSchema [2, 0, 3] [2, 0, 3] true true).1.view
    e.layout.ptr ≠ e.hostLayout.ptr ∧ e.layout.capacity = 144 ∧
      e.vars.map (fun x => x.rows.map (·.len demoEdmMem)) = [[1], [3], [1, 0, 2], [0, 0, 3]] ∧
      e.vars.map (fun x => x.rows.map (·.len ((setupEdm true e).result demoEdmMem).2)) = [[1], [3], [0, 0, 0], [0, 0, 0]] := by
  decide +kernel

/-- The hypotheses of `c40_memset_variables_partial` are met. -/
example : VarsPlaced [⟨.vector, ⟨1, 1⟩⟩] fullDst.vars ∧ fullDst.payload.ptr = 0 ∧ (∀ x ∈ fullDst.vars, x.rows ≠ []) ∧
    demoSrc.elems ((memsetEdm [⟨.vector, ⟨1, 1⟩⟩] fullDst 7).result demoMem).2 1 = [[7], [7]] := by
  refine ⟨one_placed ⟨by decide, by decide, by decide, ?_⟩, rfl, by decide, by decide +kernel⟩
  rintro x ⟨⟨h1, h2⟩, _, h3, h4⟩
  simp only [demoSrc] at h1 h2 h3 h4
  omega

/-! ## what is not guaranteed -/

/-- `setup` does nothing for a resizable buffer without capacity, although it has a size word: `get_size` then returns
whatever is there. -/
theorem c40_no_capacity (m : Mem) (dbg : Bool) :
    let b := (demoPair [⟨.vector, ⟨4, 4⟩⟩] [] [] true true).1
    b.view.size.ptr ≠ 0 ∧ (setupEdm dbg b.view).result m = (.ok (), m) ∧
      (getSizeEdm dbg [⟨.vector, ⟨4, 4⟩⟩] b.view).value m = .ok (readLE m b.view.size.ptr 4) := by
  refine ⟨by decide +kernel, ?_, ?_⟩
  · unfold setupEdm
    rw [if_pos (by decide +kernel)]
    rfl
  · have e1 : (demoPair [⟨.vector, ⟨4, 4⟩⟩] [] [] true true).1.view =
        ⟨0, [.vector ⟨0, 4096, 0⟩], ⟨4, 0, 4096⟩, ⟨0, 0, 0⟩, ⟨0, 0, 0⟩, ⟨0, 0, 0⟩⟩ := by decide +kernel
    simp only [e1]
    obtain ⟨d', e⟩ := fetch_does 0 4096 m [] 0
    unfold getSizeEdm assertion
    cases dbg <;> (unfold value; simp only [Schema.hasJagged] at *; exact congrArg Prod.fst e)

/-- `memset` of a container buffer without rows, and with a jagged vector, reads a descriptor that does not exist. -/
theorem c40_memset_container_empty (m : Mem) (value : UInt8) (r : Bool) :
    ((memsetEdm [⟨.jagged, ⟨4, 4⟩⟩] (demoPair [⟨.jagged, ⟨4, 4⟩⟩] [] [] r r).1.view value).result m).1 = .ub := by
  cases r <;> rfl

/-- If the library is built with `VECMEM_FAIL_ON_ASYNC_ERRORS`, then `memset` of any container with a block of elements ends the
program: the event of the `memset` of this block is a temporary object, which nobody waits for. -/
theorem c40_memset_strict (m : Mem) (S : Schema) (e : EdmView) (value : UInt8) (h0 : e.payload.ptr ≠ 0) (h1 : e.payload.capacity ≠ 0) :
    (memsetEdm S e value true).value m = .ub ∧ ∃ x, (memsetEdm S e value false).value m = .ok x := by
  unfold memsetEdm memsetVec
  rw [if_pos h0, if_neg h1, if_pos h0]
  exact ⟨rfl, _, rfl⟩

/-- For a container whose variables are scalars and vectors without capacity, and not in one block, `memset` does not make events that
nobody waits for, and so it works with that option, too. -/
theorem c40_memset_strict_empty (m : Mem) (S : Schema) (e : EdmView) (value : UInt8) (h0 : e.payload.ptr = 0)
    (h1 : ∀ x ∈ e.vars, (∃ p, x = .scalar p) ∨ ∃ v, x = .vector v ∧ v.capacity = 0) :
    (memsetEdm S e value true).result m = (memsetEdm S e value false).result m ∧
      ∃ x, (memsetEdm S e value true).value m = .ok x := by
  have key : ∀ (S : Schema) (xs : List VarView), (∀ x ∈ xs, (∃ p, x = .scalar p) ∨ ∃ v, x = .vector v ∧ v.capacity = 0) →
      memsetVars value S xs true = memsetVars value S xs false ∧
      ∀ s, ∃ t, (memsetVars value S xs false).run s = (.ok (), t) := by
    intro S xs
    induction xs generalizing S with
    | nil => cases S <;> exact fun _ => ⟨rfl, fun s => ⟨s, rfl⟩⟩
    | cons x xs ih =>
      cases S with
      | nil => exact fun _ => ⟨rfl, fun s => ⟨s, rfl⟩⟩
      | cons v S =>
        intro h
        obtain ⟨i1, i2⟩ := ih S fun y hy => h y (List.mem_cons_of_mem _ hy)
        rcases h x List.mem_cons_self with ⟨p, rfl⟩ | ⟨w, rfl, hw⟩
        · simp only [memsetVars, memsetVar, i1]
          refine ⟨trivial, fun s => ?_⟩
          obtain ⟨t, ht⟩ := i2 { s with mem := memFill s.mem p value v.type.size, done := s.done + 1 }
          exact ⟨t, ht⟩
        · simp only [memsetVars, memsetVar, memsetVec, if_pos hw, i1]
          exact ⟨rfl, fun s => i2 s⟩
  obtain ⟨k1, k2⟩ := key S e.vars h1
  unfold memsetEdm
  rw [if_neg (by simp [h0]), if_neg (by simp [h0]), k1]
  refine ⟨rfl, ?_⟩
  obtain ⟨t, ht⟩ := k2 ⟨m, [], 0⟩
  exact ⟨_, congrArg Prod.fst (run_bind_ok (f := fun _ => retEvent) ht)⟩

/-- The hypotheses of `c40_memset_strict_empty` are met, and the scalar is set. -/
example : (memsetEdm [⟨.scalar, ⟨1, 1⟩⟩, ⟨.vector, ⟨4, 4⟩⟩]
    ⟨0, [.scalar 100, .vector ⟨0, 0, 200⟩], ⟨0, 0, 0⟩, ⟨0, 0, 0⟩, ⟨0, 0, 0⟩, ⟨0, 0, 0⟩⟩ 7 true).result demoMem =
    (.ok (), ((memsetEdm [⟨.scalar, ⟨1, 1⟩⟩, ⟨.vector, ⟨4, 4⟩⟩]
    ⟨0, [.scalar 100, .vector ⟨0, 0, 200⟩], ⟨0, 0, 0⟩, ⟨0, 0, 0⟩, ⟨0, 0, 0⟩, ⟨0, 0, 0⟩⟩ 7).result demoMem).2) := by
  obtain ⟨h, x, hx⟩ := c40_memset_strict_empty demoMem [⟨.scalar, ⟨1, 1⟩⟩, ⟨.vector, ⟨4, 4⟩⟩]
    ⟨0, [.scalar 100, .vector ⟨0, 0, 200⟩], ⟨0, 0, 0⟩, ⟨0, 0, 0⟩, ⟨0, 0, 0⟩, ⟨0, 0, 0⟩⟩ 7 rfl (by simp)
  rw [h]
  rfl

end Vecmem.Props
