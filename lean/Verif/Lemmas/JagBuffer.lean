import Verif.Lemmas.RowConc
import Verif.Props.C59_Pipelines

/-! # Lemmas for C62: jagged buffers -/

namespace Vecmem

open IntMath

variable {σ : Type} {R : Limits} {G : Nat} {ups : Nat → MR σ} {u0 u : σ} {T : List (Nat × Blk)}

/-- The memory of a jagged buffer, with the resources it is from. -/
def JagBuffer.blocks (src : Bool → Nat) (hasHost : Bool) (b : JagBuffer) : List (Nat × Blk) :=
  (b.owned hasHost).map fun x => (src x.1, x.2)

theorem JagBuffer.blocks_eq (src : Bool → Nat) (hasHost : Bool) (b : JagBuffer) :
    b.blocks src hasHost = heldBy [(src false, b.inner), (src hasHost, b.outerHost), (src false, b.outer)] := by
  simp only [JagBuffer.blocks, JagBuffer.owned, heldBy, List.filter_cons, List.filter_nil]
  by_cases z3 : b.inner.ptr = 0 <;> by_cases z2 : b.outerHost.ptr = 0 <;> by_cases z1 : b.outer.ptr = 0 <;>
    simp [z1, z2, z3, UniqueAlloc.blk]

/-- A jagged buffer as its constructor leaves it. -/
structure JagOk (t : CType) (hasHost : Bool) (b : JagBuffer) : Prop where
  placed : JagPlaced t.size b.views
  rows : ∀ x, JagHas t.size b.views x → b.inner.ptr ≠ 0 ∧ b.inner.ptr ≤ x ∧ x < b.inner.ptr + b.inner.size
  uniform : (∀ v ∈ b.views, v.sizePtr = 0) ∨ ∀ v ∈ b.views, v.sizePtr ≠ 0
  host : b.views ≠ [] → b.hostPtr = b.outerHost.ptr ∧ b.outerHost.ptr ≠ 0 ∧ b.outerHost.size = b.views.length * viewSize
  dev : b.views ≠ [] → hasHost = true → b.ptr = b.outer.ptr ∧ b.outer.ptr ≠ 0 ∧ b.outer.size = b.views.length * viewSize
  same : hasHost = false → b.ptr = b.hostPtr
  space : b.views.length * viewSize < 2 ^ 64
  small : ∀ v ∈ b.views, v.capacity < 2 ^ 32 ∧ v.sizePtr < 2 ^ 64 ∧ (v.capacity ≠ 0 → v.ptr < 2 ^ 64)

/-- The byte at `x` is in the host's array of views, or in that of the device. -/
def JagBuffer.InHost (b : JagBuffer) (x : Nat) : Prop := b.hostPtr ≤ x ∧ x < b.hostPtr + b.views.length * viewSize
def JagBuffer.InDev (b : JagBuffer) (x : Nat) : Prop := b.ptr ≤ x ∧ x < b.ptr + b.views.length * viewSize

section
variable {t : CType} {hasHost : Bool} {b : JagBuffer}

theorem JagOk.of_created (hl : FamLawful R G ups u0) (src : Bool → Nat) (ht : t.Wf) {caps : List Nat} {r : Bool}
    (hc : ∀ c ∈ caps, c < 2 ^ 32) (hqo : IsReq R (caps.length * viewSize) maxAlign)
    (h1 : FReach R ups u0 u (b.blocks src hasHost ++ T)) (h2 : InnerVectors b.inner.blk t caps r b.views)
    (h3 : b.views.length = caps.length) (h4 : b.hostPtr = b.outerHost.ptr)
    (h5 : b.ptr = if hasHost then b.outer.ptr else b.hostPtr)
    (h6 : caps ≠ [] → b.outerHost.ptr ≠ 0 ∧ b.outerHost.size = caps.length * viewSize ∧
          (hasHost = true → b.outer.ptr ≠ 0 ∧ b.outer.size = caps.length * viewSize))
    (h7 : b.inner.ptr = 0 → b.inner = {}) : JagOk t hasHost b := by
  have hn : caps.length * viewSize < 2 ^ 64 := hqo.1.2
  have hcv : b.views ≠ [] → caps ≠ [] := by
    intro h hc
    subst hc
    exact h (List.length_eq_zero_iff.1 h3)
  have hblk : b.inner.ptr ≠ 0 → b.inner.ptr + b.inner.size ≤ 2 ^ 64 := by
    intro h0
    have := (hl.live h1).1 (src false, b.inner.blk) (List.mem_append_left _ (by
      rw [JagBuffer.blocks_eq, heldBy_cons, if_neg h0]
      exact List.mem_cons_self))
    exact this.2.1
  have hin : ∀ x, JagHas t.size b.views x → b.inner.ptr ≠ 0 ∧ b.inner.ptr ≤ x ∧ x < b.inner.ptr + b.inner.size := by
    rintro x ⟨v, hv, ⟨x1, x2⟩ | ⟨w0, w1, w2⟩⟩
    · have h0 : v.capacity ≠ 0 := fun h => by rw [h] at x2; omega
      obtain ⟨p0, p1, p2⟩ := h2.payload v hv h0
      simp only [View.payload, CType.region, UniqueAlloc.blk] at p0 p1 p2
      exact ⟨p0, by omega, by omega⟩
    · have := h2.words v hv
      cases r with
      | false => exact absurd (by simpa using this) w0
      | true =>
        rw [if_pos rfl] at this
        obtain ⟨-, -, p1, p2⟩ := this
        simp only [View.sizeWord, CType.region, CType.uint, UniqueAlloc.blk] at p1 p2
        refine ⟨fun h0 => ?_, by omega, by omega⟩
        have h8 := h7 h0
        rw [h8] at p1 p2
        simp only at p1 p2
        omega
  have hplaced : JagPlaced t.size b.views := by
    refine h2.placed (fun hs => ?_) hc (by unfold viewSize at hn; omega)
    obtain ⟨c, hc', hc0⟩ : ∃ c ∈ caps, c ≠ 0 := by
      by_contra hno
      apply hs
      rw [List.sum_eq_zero_iff_forall_eq_nat]
      intro c hc'
      by_contra h0
      exact hno ⟨c, hc', h0⟩
    rw [← h2.capacities] at hc'
    obtain ⟨v, hv, rfl⟩ := List.mem_map.1 hc'
    exact hblk (h2.payload v hv hc0).1
  refine ⟨hplaced, hin, ?_, ?_, ?_, ?_, by rw [h3]; exact hn, ?_⟩
  · cases r with
    | false => exact .inl fun v hv => by simpa using h2.words v hv
    | true =>
      refine .inr fun v hv => ?_
      have := h2.words v hv
      rw [if_pos rfl] at this
      exact this.1
  · intro hne
    obtain ⟨k1, k2, -⟩ := h6 (hcv hne)
    exact ⟨h4, k1, by rw [k2, h3]⟩
  · intro hne hh
    obtain ⟨-, -, k3⟩ := h6 (hcv hne)
    obtain ⟨k1, k2⟩ := k3 hh
    exact ⟨by rw [h5, if_pos hh], k1, by rw [k2, h3]⟩
  · intro hh
    rw [h5, if_neg (by simp [hh])]
  · intro v hv
    refine ⟨(hplaced.placed v hv).word32, ?_, fun h0 => ?_⟩
    · by_cases hz : v.sizePtr = 0
      · rw [hz]; decide
      · obtain ⟨k1, k2, k3⟩ := hin v.sizePtr ⟨v, hv, .inr ⟨hz, by omega, by omega⟩⟩
        have := hblk k1
        omega
    · have := (hplaced.placed v hv).space h0
      have := Nat.mul_pos (Nat.pos_of_ne_zero h0) ht.1
      omega

/-- Construction. -/
theorem FamLawful.jagCreate (hl : FamLawful R G ups u0) (hu : FReach R ups u0 u T) (src : Bool → Nat) (ht : t.Wf) {caps : List Nat}
    {resizable : Bool} (hc : ∀ c ∈ caps, c < 2 ^ 32) (hqo : IsReq R (caps.length * viewSize) maxAlign)
    (hq : IsReq R (neededBytes (max 4 t.align) [(.uint, caps.length), (t, caps.sum)]) maxAlign) :
    (∃ b u', JagBuffer.create (fun h => ups (src h)) u t caps hasHost resizable = (.ok b, u') ∧
      b.views.map (·.capacity) = caps ∧ JagOk t hasHost b ∧
      (∀ v ∈ b.views, (v.sizePtr = 0 ↔ resizable = false)) ∧ FReach R ups u0 u' (b.blocks src hasHost ++ T)) ∨
    ∃ u', JagBuffer.create (fun h => ups (src h)) u t caps hasHost resizable = (.badAlloc, u') ∧ caps ≠ [] ∧
      FReach R ups u0 u' T := by
  have hq1 : IsReq R ((if hasHost then caps.length else 0) * viewSize) maxAlign := by
    cases hasHost
    · exact ⟨⟨by simp, by simp⟩, hqo.2⟩
    · exact hqo
  by_cases hnil : caps = []
  · subst hnil
    have e : JagBuffer.create (fun h => ups (src h)) u t [] hasHost resizable = (.ok ⟨0, 0, [], {}, {}, {}⟩, u) := by
      unfold JagBuffer.create allocOuter jagInner
      cases hasHost <;> cases resizable <;> simp [wrap64, jagViews]
    refine .inl ⟨_, _, e, rfl, ?_, by simp, hu⟩
    refine ⟨⟨by simp, by simp, .inl (by simp), by simp⟩, ?_, .inl (by simp), by simp, by simp, fun _ => rfl, by simp, by simp⟩
    rintro x ⟨v, hv, -⟩
    cases hv
  unfold JagBuffer.create
  rcases allocOuter_ok hl hu (src false) hq1 with ⟨m1, u1, a1, a2, a3, a4⟩ | ⟨u1, a1, a2⟩
  · simp only [a1]
    rcases allocOuter_ok hl a2 (src hasHost) hqo with ⟨m2, u2, b1, b2, b3, b4⟩ | ⟨u2, b1, b2⟩
    · simp only [b1]
      rcases jagInner_ok hl b2 (src false) ht hc hq (resizable := resizable) with
        ⟨m3, hdr, data, u3, c1, c2, c3, c4, c5⟩ | ⟨u3, c1, c2⟩
      · simp only [c1]
        have hlen : caps.length ≠ 0 := fun h => hnil (List.length_eq_zero_iff.1 h)
        have hreach : FReach R ups u0 u3 (JagBuffer.blocks src hasHost
            ⟨if hasHost then m1.ptr else m2.ptr, m2.ptr, jagViews t hdr data caps 0 0, m1, m2, m3⟩ ++ T) := by
          have : heldBy [(src false, m3), (src hasHost, m2), (src false, m1)] ++ T
              = heldBy [(src false, m3)] ++ (heldBy [(src hasHost, m2)] ++ (heldBy [(src false, m1)] ++ T)) := by
            simp only [heldBy_cons]
            by_cases z3 : m3.ptr = 0 <;> by_cases z2 : m2.ptr = 0 <;> by_cases z1 : m1.ptr = 0 <;>
              simp [z1, z2, z3, heldBy]
          rw [JagBuffer.blocks_eq, this]
          exact c2
        refine .inl ⟨_, _, rfl, c3.capacities, ?_, ?_, hreach⟩
        · refine JagOk.of_created hl src ht hc hqo hreach c3 (jagViews_length _ _ _ _ _ _) rfl rfl ?_ c5
          intro _
          refine ⟨(b4 hlen).1, (b4 hlen).2.1, ?_⟩
          intro hh
          subst hh
          exact ⟨(a4 hlen).1, (a4 hlen).2.1⟩
        · intro v hv
          have := c3.words v hv
          cases resizable with
          | false => exact ⟨fun _ => rfl, fun _ => by simpa using this⟩
          | true =>
            rw [if_pos rfl] at this
            exact ⟨fun h => absurd h this.1, fun h => by cases h⟩
      · simp only [c1, Res.map]
        have c2' : FReach R ups u0 u3 (heldBy [(src hasHost, m2), (src false, m1)] ++ T) := by
          have : heldBy [(src hasHost, m2), (src false, m1)] ++ T
              = heldBy [(src hasHost, m2)] ++ (heldBy [(src false, m1)] ++ T) := by
            simp only [heldBy_cons]
            by_cases z2 : m2.ptr = 0 <;> by_cases z1 : m1.ptr = 0 <;> simp [z1, z2, heldBy]
          rw [this]; exact c2
        obtain ⟨u4, d1, d2⟩ := unwind_ok hl (.badAlloc : Res JagBuffer) _ u3 c2'
        simp only [List.map_cons, List.map_nil] at d1
        exact .inr ⟨u4, d1, hnil, d2⟩
    · simp only [b1, Res.map]
      obtain ⟨u4, d1, d2⟩ := unwind_ok hl (.badAlloc : Res JagBuffer) [(src false, m1)] u2 b2
      simp only [List.map_cons, List.map_nil] at d1
      exact .inr ⟨u4, d1, hnil, d2⟩
  · simp only [a1, Res.map]
    exact .inr ⟨u1, rfl, hnil, a2⟩

/-- Destruction. -/
theorem FamLawful.jagDestroy (hl : FamLawful R G ups u0) (src : Bool → Nat) (h1 : FReach R ups u0 u (b.blocks src hasHost ++ T)) :
    ∃ u', b.destroy (fun h => ups (src h)) hasHost u = (.ok (), u') ∧ FReach R ups u0 u' T := by
  rw [JagBuffer.blocks_eq] at h1
  exact unwind_ok hl (.ok ()) _ u h1

/-! ## Where things are -/

theorem JagOk.rows_in (h : JagOk t hasHost b) (src : Bool → Nat) {x : Nat} (hx : JagHas t.size b.views x) :
    InBlocks (b.blocks src hasHost) x := by
  obtain ⟨h0, h1, h2⟩ := h.rows x hx
  refine ⟨(src false, b.inner.blk), ?_, h1, h2⟩
  rw [JagBuffer.blocks_eq, heldBy_cons, if_neg h0]
  exact List.mem_cons_self

theorem JagBuffer.InHost.ne {x : Nat} (h : b.InHost x) : b.views ≠ [] := by
  intro hc
  obtain ⟨h1, h2⟩ := h
  rw [hc] at h2
  simp at h2
  omega

theorem JagBuffer.InDev.ne {x : Nat} (h : b.InDev x) : b.views ≠ [] := by
  intro hc
  obtain ⟨h1, h2⟩ := h
  rw [hc] at h2
  simp at h2
  omega

theorem JagOk.host_in (h : JagOk t hasHost b) (src : Bool → Nat) {x : Nat} (hx : b.InHost x) :
    InBlocks (b.blocks src hasHost) x := by
  obtain ⟨h1, h2, h3⟩ := h.host hx.ne
  obtain ⟨x1, x2⟩ := hx
  refine ⟨(src hasHost, b.outerHost.blk), ?_, by simp only [UniqueAlloc.blk]; omega, by simp only [UniqueAlloc.blk]; omega⟩
  rw [JagBuffer.blocks_eq]
  unfold heldBy
  exact List.mem_map.2 ⟨(src hasHost, b.outerHost), List.mem_filter.2 ⟨by simp, by simpa using h2⟩, rfl⟩

theorem JagOk.dev_in (h : JagOk t hasHost b) (src : Bool → Nat) {x : Nat} (hx : b.InDev x) :
    InBlocks (b.blocks src hasHost) x := by
  by_cases hh : hasHost = true
  · obtain ⟨h1, h2, h3⟩ := h.dev hx.ne hh
    obtain ⟨x1, x2⟩ := hx
    refine ⟨(src false, b.outer.blk), ?_, by simp only [UniqueAlloc.blk]; omega, by simp only [UniqueAlloc.blk]; omega⟩
    rw [JagBuffer.blocks_eq]
    unfold heldBy
    exact List.mem_map.2 ⟨(src false, b.outer), List.mem_filter.2 ⟨by simp, by simpa using h2⟩, rfl⟩
  · refine h.host_in src ?_
    unfold JagBuffer.InHost
    rw [← h.same (by simpa using hh)]
    exact hx

theorem JagOk.rows_host (h : JagOk t hasHost b) {src : Bool → Nat}
    (hd : (b.blocks src hasHost).Pairwise (fun e f => e.2.Disjoint f.2)) {x : Nat} (hx : JagHas t.size b.views x) :
    ¬ b.InHost x := by
  intro hy
  obtain ⟨a0, a1, a2⟩ := h.rows x hx
  obtain ⟨b0, b1, b2⟩ := h.host hy.ne
  obtain ⟨y1, y2⟩ := hy
  rw [JagBuffer.blocks_eq, heldBy_cons, if_neg a0, heldBy_cons, if_neg b1] at hd
  have := (List.pairwise_cons.1 hd).1 (src hasHost, b.outerHost.blk) (by simp)
  simp only [UniqueAlloc.blk, Blk.Disjoint] at this
  omega

theorem JagOk.rows_dev (h : JagOk t hasHost b) {src : Bool → Nat}
    (hd : (b.blocks src hasHost).Pairwise (fun e f => e.2.Disjoint f.2)) {x : Nat} (hx : JagHas t.size b.views x) :
    ¬ b.InDev x := by
  by_cases hh : hasHost = true
  · intro hy
    obtain ⟨a0, a1, a2⟩ := h.rows x hx
    obtain ⟨b0, b1, b2⟩ := h.dev hy.ne hh
    obtain ⟨y1, y2⟩ := hy
    rw [JagBuffer.blocks_eq, heldBy_cons, if_neg a0] at hd
    have := (List.pairwise_cons.1 hd).1 (src false, b.outer.blk)
      (List.mem_map.2 ⟨(src false, b.outer), List.mem_filter.2 ⟨by simp, by simpa using b1⟩, rfl⟩)
    simp only [UniqueAlloc.blk, Blk.Disjoint] at this
    omega
  · intro hy
    refine h.rows_host hd hx ?_
    unfold JagBuffer.InHost
    rw [← h.same (by simpa using hh)]
    exact hy

theorem JagOk.host_dev (h : JagOk t hasHost b) {src : Bool → Nat}
    (hd : (b.blocks src hasHost).Pairwise (fun e f => e.2.Disjoint f.2)) :
    b.ptr = b.hostPtr ∨ b.ptr + b.views.length * viewSize ≤ b.hostPtr ∨ b.hostPtr + b.views.length * viewSize ≤ b.ptr := by
  by_cases hh : hasHost = true
  · by_cases hne : b.views = []
    · right
      rw [hne]
      simp only [List.length_nil, Nat.zero_mul]
      omega
    · right
      obtain ⟨a0, a1, a2⟩ := h.host hne
      obtain ⟨b0, b1, b2⟩ := h.dev hne hh
      rw [JagBuffer.blocks_eq, heldBy_cons] at hd
      have hd' : (heldBy [(src hasHost, b.outerHost), (src false, b.outer)]).Pairwise (fun e f => e.2.Disjoint f.2) := by
        split at hd
        · exact hd
        · exact (List.pairwise_cons.1 hd).2
      rw [heldBy_cons, if_neg a1, heldBy_cons, if_neg b1] at hd'
      have := (List.pairwise_cons.1 hd').1 (src false, b.outer.blk) (by simp)
      simp only [UniqueAlloc.blk, Blk.Disjoint] at this
      omega
  · exact .inl (h.same (by simpa using hh))

/-! ## The views that a kernel finds -/

/-- The same view, as far as it matters: the pointer of a vector without capacity does not. -/
def View.Alike (v w : View) : Prop := v.capacity = w.capacity ∧ v.sizePtr = w.sizePtr ∧ (w.capacity ≠ 0 → v.ptr = w.ptr)

theorem View.Alike.device {v w : View} (h : v.Alike w) (dbg : Bool) (dflt : Elem) (t : Nat) (m : Mem) :
    v.device dbg dflt t m = w.device dbg dflt t m := by
  obtain ⟨h1, h2, h3⟩ := h
  unfold View.device
  rw [h1, h2]
  congr 1
  funext i
  split
  · rename_i hi
    rw [h3 (by omega)]
  · rfl

theorem View.Alike.storeDevice {v w : View} (h : v.Alike w) (t : Nat) (m : Mem) (s : DV Elem) :
    v.storeDevice t m s = w.storeDevice t m s := by
  obtain ⟨h1, h2, h3⟩ := h
  funext x
  unfold View.storeDevice
  rw [h1, h2]
  by_cases h0 : w.capacity = 0
  · rw [h0, if_neg (c := v.ptr ≤ x ∧ _) (by omega), if_neg (c := w.ptr ≤ x ∧ _) (by omega)]
  · rw [h3 h0]

theorem deviceRows_alike {m : Mem} (h : DescribedAt m b.ptr b.views) :
    (b.deviceRows m).length = b.views.length ∧
    ∀ (i : Nat) (v w : View), (b.deviceRows m)[i]? = some v → b.views[i]? = some w → v.Alike w := by
  refine ⟨by simp [JagBuffer.deviceRows], ?_⟩
  intro i v w hv hw
  obtain ⟨h1, h2, h3⟩ := h i w hw
  have hlt := (List.getElem?_eq_some_iff.1 hw).1
  unfold JagBuffer.deviceRows at hv
  simp only [List.getElem?_map, List.getElem?_range hlt, Option.map_some, Option.some.injEq] at hv
  subst hv
  exact ⟨h1, h2, h3⟩

theorem map_alike {β : Type} (f : View → β) : ∀ {vs ws : List View}, vs.length = ws.length →
    (∀ (i : Nat) (v w : View), vs[i]? = some v → ws[i]? = some w → f v = f w) → vs.map f = ws.map f := by
  intro vs ws hl h
  apply List.ext_getElem?
  intro i
  rw [List.getElem?_map, List.getElem?_map]
  by_cases hi : i < vs.length
  · rw [List.getElem?_eq_getElem hi, List.getElem?_eq_getElem (hl ▸ hi)]
    exact congrArg some (h i _ _ (List.getElem?_eq_getElem hi) (List.getElem?_eq_getElem (hl ▸ hi)))
  · rw [List.getElem?_eq_none (by omega), List.getElem?_eq_none (by omega)]

theorem devices_eq {m : Mem} (h : DescribedAt m b.ptr b.views) (dbg : Bool) (dflt : Elem) (t : Nat) :
    (b.deviceRows m).map (fun v => v.device dbg dflt t m) = b.views.map fun v => v.device dbg dflt t m :=
  map_alike _ (deviceRows_alike h).1 fun i v w hv hw => ((deviceRows_alike h).2 i v w hv hw).device _ _ _ _

theorem storeRows_alike (t : Nat) : ∀ {vs ws : List View} {m : Mem} {ss : List (DV Elem)}, vs.length = ws.length →
    (∀ (i : Nat) (v w : View), vs[i]? = some v → ws[i]? = some w → v.Alike w) → storeRows t m vs ss = storeRows t m ws ss := by
  intro vs
  induction vs with
  | nil =>
    intro ws m ss hl _
    cases ws with
    | nil => rfl
    | cons w ws => simp at hl
  | cons v vs ih =>
    intro ws m ss hl h
    cases ws with
    | nil => simp at hl
    | cons w ws =>
      cases ss with
      | nil => rfl
      | cons s ss =>
        simp only [storeRows]
        rw [(h 0 v w rfl rfl).storeDevice]
        exact ih (by simpa using hl) fun i v w hv hw => h (i + 1) v w (by simpa using hv) (by simpa using hw)

/-! ## What a kernel leaves behind -/

theorem storeRows_other {t : Nat} : ∀ {vs : List View} {m : Mem} {ss : List (DV Elem)} {x : Nat}, ¬ JagHas t vs x →
    storeRows t m vs ss x = m x := by
  intro vs
  induction vs with
  | nil => intros; rfl
  | cons v vs ih =>
    intro m ss x hx
    cases ss with
    | nil => rfl
    | cons s ss =>
      simp only [storeRows]
      rw [ih fun ⟨w, hw, h⟩ => hx ⟨w, List.mem_cons_of_mem _ hw, h⟩, storeDevice_other fun h => hx ⟨v, List.mem_cons_self, h⟩]

theorem storeRows_elems {t : Nat} : ∀ {vs : List View} {m : Mem} {ss : List (DV Elem)} {ls : List (List Elem)},
    (∀ v ∈ vs, v.Placed t) → vs.Pairwise (View.Separate t) → ss.length = vs.length → ls.length = vs.length →
    (∀ (i : Nat) (v : View) (s : DV Elem) (l : List Elem), vs[i]? = some v → ss[i]? = some s → ls[i]? = some l →
      l.length = (if v.sizePtr = 0 then v.capacity else s.sizeWord) ∧ l.length ≤ v.capacity ∧
      (∀ i, i < l.length → s.mem i = l[i]?) ∧ ∀ i e, s.mem i = some e → e.length = t) →
    (vs.map fun v => v.elems (storeRows t m vs ss) t) = ls ∧ ∀ v ∈ vs, v.len (storeRows t m vs ss) ≤ v.capacity := by
  intro vs
  induction vs with
  | nil =>
    intro m ss ls _ _ _ h3 _
    exact ⟨(List.length_eq_zero_iff.1 h3).symm, by simp⟩
  | cons v vs ih =>
    intro m ss ls hp hs h1 h2 h
    cases ss with
    | nil => simp at h1
    | cons s ss =>
      cases ls with
      | nil => simp at h2
      | cons l ls =>
        obtain ⟨hs1, hs2⟩ := List.pairwise_cons.1 hs
        obtain ⟨k1, k2, k3, k4⟩ := h 0 v s l rfl rfl rfl
        obtain ⟨g1, g2⟩ := ih (m := v.storeDevice t m s) (ss := ss) (ls := ls) (fun w hw => hp w (List.mem_cons_of_mem _ hw)) hs2
          (by simpa using h1) (by simpa using h2)
          (fun i w s l hw hs hl => h (i + 1) w s l (by simpa using hw) (by simpa using hs) (by simpa using hl))
        have hne := storeDevice_elems (m := m) (hp v List.mem_cons_self) k1 k2 k3 k4
        have hlen1 : v.len (v.storeDevice t m s) = l.length := by rw [← elems_length _ t, hne]
        have hsame : ∀ x, v.Has t x → storeRows t (v.storeDevice t m s) vs ss x = v.storeDevice t m s x := by
          intro x hx
          refine storeRows_other ?_
          rintro ⟨w, hw, hx'⟩
          exact hs1 w hw x ⟨hx, hx'⟩
        have hlen : v.len (storeRows t (v.storeDevice t m s) vs ss) = l.length := by
          rw [len_of_word fun x hx => hsame x (.inr hx), hlen1]
        simp only [storeRows, List.map_cons]
        refine ⟨?_, ?_⟩
        · rw [g1, elems_congr (by rw [hlen1]; exact k2) hsame, hne]
        · intro w hw
          rcases List.mem_cons.1 hw with rfl | hw
          · rw [hlen]; exact k2
          · exact g2 w hw

end
end Vecmem
