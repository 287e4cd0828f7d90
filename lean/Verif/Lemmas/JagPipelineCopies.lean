import Verif.Lemmas.JagPipelineSteps

/-! # Lemmas for C62: copies -/

namespace Vecmem

open IntMath Prog

variable {σ : Type} {R : Limits} {G : Nat} {ups : Nat → MR σ} {u0 : σ} {c : JagCfg} {p : JPipe σ} {q : JReady}

theorem list_eq {β : Type} {l l' : List β} (hl : l.length = l'.length)
    (h : ∀ (i : Nat) (a b : β), l[i]? = some a → l'[i]? = some b → a = b) : l = l' := by
  apply List.ext_getElem?
  intro i
  by_cases hi : i < l.length
  · rw [List.getElem?_eq_getElem hi, List.getElem?_eq_getElem (hl ▸ hi)]
    congr 1
    exact h i _ _ (List.getElem?_eq_getElem hi) (List.getElem?_eq_getElem (hl ▸ hi))
  · rw [List.getElem?_eq_none (by omega), List.getElem?_eq_none (by omega)]

theorem get_same {β γ : Type} {l : List β} {l' : List γ} (hl : l.length = l'.length) {i : Nat} {a : β} (h : l[i]? = some a) :
    ∃ b, l'[i]? = some b :=
  ⟨l'[i]'(hl ▸ (List.getElem?_eq_some_iff.1 h).1), List.getElem?_eq_getElem _⟩

theorem jcopy_into (hl : FamLawful R G ups u0) (hc : c.Wf) (h : JInv c R ups u0 p q) {k : Nat} {caps : List Nat} {r d : Bool}
    {old : List (List Elem)} {b : JagBuffer} (hb : p.jags.lookup k = some b) (hk : (p.store c q).Has k caps r d old) {src : JagView}
    (hs : JagValid p.vec.mem (c.ty k).size src.views)
    (hsep : ∀ x, ¬ (JagHas (c.ty k).size src.views x ∧ JagHas (c.ty k).size b.views x)) :
    JInv c R ups u0 (p.lift (p.vec.onMem (copyJag c.vec.dbg (c.ty k).size src b.view))).2 q ∧
      JagCopyStep c (p.store c q) k (src.views.map fun v => v.elems p.vec.mem (c.ty k).size)
        (p.lift (p.vec.onMem (copyJag c.vec.dbg (c.ty k).size src b.view))).1
        ((p.lift (p.vec.onMem (copyJag c.vec.dbg (c.ty k).size src b.view))).2.store c q) := by
  obtain ⟨b', b1, b2, b3, b4, b5, b6, b7, b8⟩ := h.has hk
  cases hb.symm.trans b1
  have hok : JagOk (c.ty k) (c.hasHost k) b := h.bufs _ b2
  have hlc : b.views.length = caps.length := by rw [← b4, List.length_map]
  unfold JPipe.lift Pipe.onMem
  by_cases hlen : src.views.length = b.views.length
  · rcases Props.c38_copy c.vec.dbg p.vec.mem (c.ty k).size (hc.2 k).1.1 src b.view hs b8 hsep hlen with
      ⟨⟨i, v, w, h1, h2, h3⟩, e⟩ | ⟨m', e1, e2, e3⟩
    · rw [e]
      refine ⟨h, .refused hk (fun hc => ?_) ?_⟩
      · rw [List.map_eq_nil_iff.1 hc] at h1
        simp at h1
      rintro ⟨-, hr⟩
      have := hr i (v.elems p.vec.mem (c.ty k).size) w.capacity (by rw [List.getElem?_map, h1]; rfl)
        (by rw [← b4, List.getElem?_map]; exact congrArg (Option.map _) h2)
      rw [elems_length] at this
      omega
    · rw [e1]
      have hle : ∀ w ∈ b.views, w.len m' ≤ w.capacity := by
        intro w hw
        obtain ⟨i, hi⟩ := List.mem_iff_getElem?.1 hw
        obtain ⟨v, hv⟩ := get_same hlen.symm hi
        obtain ⟨h1, h2⟩ := e2 i v w hv hi
        unfold View.HoldsRow at h2
        split at h2
        · rename_i hz
          simp [View.len, hz]
        · rw [← elems_length m' (c.ty k).size, h2, elems_length]
          exact h1
      obtain ⟨i1, i2⟩ := h.rowsChange hl hb (m' := m') e3 (fun _ => hle)
      refine ⟨i1, ?_⟩
      show JagCopyStep c _ _ _ _ (JPipe.store c { p with vec := { p.vec with mem := m' } } q)
      rw [i2, if_pos (known_iff.2 b3), b4, b5, b6]
      refine .fits hk ⟨by rw [List.length_map]; omega, ?_⟩ ?_
      · intro i l cap h1 h2
        rw [List.getElem?_map] at h1
        obtain ⟨v, hv, rfl⟩ := Option.map_eq_some_iff.1 h1
        rw [← b4, List.getElem?_map] at h2
        obtain ⟨w, hw, rfl⟩ := Option.map_eq_some_iff.1 h2
        rw [elems_length]
        exact (e2 i v w hv hw).1
      · unfold RowsCopied
        rw [← b5]
        rcases jag_any hok with ⟨ha, hall⟩ | ⟨ha, hall⟩
        · rw [ha, if_neg (by simp)]
          refine ⟨?_, ?_, ?_⟩
          · rw [← b4, List.map_map]
            apply List.map_congr_left
            intro v hv
            simp [elems_length, View.len, hall v hv]
          · intro l hl e he
            obtain ⟨v, -, rfl⟩ := List.mem_map.1 hl
            exact elems_sized _ _ _ e he
          · intro i l l' h1 h2
            rw [List.getElem?_map] at h1 h2
            obtain ⟨v, hv, rfl⟩ := Option.map_eq_some_iff.1 h1
            obtain ⟨w, hw, rfl⟩ := Option.map_eq_some_iff.1 h2
            have := (e2 i v w hv hw).2
            unfold View.HoldsRow at this
            rwa [if_pos (hall w (List.mem_iff_getElem?.2 ⟨i, hw⟩))] at this
        · rw [ha, if_pos rfl]
          refine list_eq (by simp only [List.length_map]; exact hlen.symm) ?_
          intro i l l' h1 h2
          rw [List.getElem?_map] at h1 h2
          obtain ⟨w, hw, rfl⟩ := Option.map_eq_some_iff.1 h1
          obtain ⟨v, hv, rfl⟩ := Option.map_eq_some_iff.1 h2
          have := (e2 i v w hv hw).2
          unfold View.HoldsRow at this
          rwa [if_neg (hall w (List.mem_iff_getElem?.2 ⟨i, hw⟩))] at this
  · have e := Props.c38_copy_unequal c.vec.dbg p.vec.mem (c.ty k).size src b.view hs hlen
    by_cases hne : src.views = []
    · rw [if_pos hne] at e
      rw [e]
      exact ⟨h, .nothing hk (by rw [hne]; rfl)⟩
    rw [if_neg hne] at e
    rw [e]
    refine ⟨h, .refused hk (fun hc => hne (List.map_eq_nil_iff.1 hc)) ?_⟩
    rintro ⟨hr, -⟩
    rw [List.length_map] at hr
    omega

theorem JagStep.copy_empty {S V : JStore} {i j : Nat} {caps caps' : List Nat} {r d r' d' : Bool} {rows : List (List Elem)}
    {res : Res JagOut} (hs : JagStep c S (.copy i j) res V) (hi : S.Has i caps r d []) (hj : S.Has j caps' r' d' rows)
    (hne : caps' ≠ []) : res = .ok (.vec .unit) ∧ V = S := by
  unfold JStore.Has at hi hj
  cases hs with
  | copy _ _ h hc =>
    unfold JStore.Has at h
    rw [hi] at h
    cases h
    cases hc with
    | nothing => exact ⟨rfl, rfl⟩
    | refused _ h0 _ => exact absurd rfl h0
    | fits h hn _ =>
      unfold JStore.Has at h
      rw [hj] at h
      cases h
      exact absurd (List.length_eq_zero_iff.1 hn.1.symm) hne

theorem jstep_copy (hl : FamLawful R G ups u0) (hc : c.Wf) (h : JInv c R ups u0 p q) {i j : Nat}
    (hf : (JagOp.copy i j).Fits c R (p.Outside c) (p.store c q)) : JStepOk c R ups u0 p q (.copy i j) := by
  obtain ⟨hij, hty, caps, r, d, rows, caps', r', d', rows', h1, h2⟩ := hf
  obtain ⟨a, a1, a2, a3, a4, a5, a6, a7, a8⟩ := h.has h1
  obtain ⟨b, b1, b2, b3, b4, b5, b6, b7, b8⟩ := h.has h2
  unfold JStepOk
  simp only [JPipe.exec, a1, b1]
  rw [show (JagOp.copy i j).ready q = q from rfl]
  have hoa : JagOk (c.ty i) (c.hasHost i) a := h.bufs _ a2
  have hob : JagOk (c.ty j) (c.hasHost j) b := h.bufs _ b2
  have hsep : ∀ x, ¬ (JagHas (c.ty j).size a.views x ∧ JagHas (c.ty j).size b.views x) := by
    rintro x ⟨x1, x2⟩
    rw [← hty] at x1
    exact h.cross hl a2 b2 hij (hoa.rows_in _ x1) (hob.rows_in _ x2)
  rw [hty] at a7 a8 ⊢
  obtain ⟨k1, k2⟩ := jcopy_into hl hc h b1 h2 (src := a.view) a8 hsep
  refine ⟨k1, .copy i j h1 ?_⟩
  rw [← a7]
  exact k2

/-! ## Host vectors -/

theorem putElems_other {t : Nat} {m : Mem} {a : Nat} {l : List Elem} {x : Nat} (h : ¬ (a ≤ x ∧ x < a + l.length * t)) :
    Pipe.putElems t m a l x = m x := by
  unfold Pipe.putElems
  rw [if_neg h]

theorem putRows_other {t : Nat} : ∀ {ats : List Nat} {rows : List (List Elem)} {m : Mem} {x : Nat},
    (∀ (i a : Nat) (l : List Elem), ats[i]? = some a → rows[i]? = some l → ¬ (a ≤ x ∧ x < a + l.length * t)) →
    JPipe.putRows t m ats rows x = m x := by
  intro ats
  induction ats with
  | nil => intros; rfl
  | cons a ats ih =>
    intro rows m x h
    cases rows with
    | nil => rfl
    | cons l rows =>
      unfold JPipe.putRows
      rw [ih fun i a l h1 h2 => h (i + 1) a l (by simpa using h1) (by simpa using h2)]
      exact putElems_other (h 0 a l rfl rfl)

theorem hostRows_get {rows : List (List Elem)} {ats : List Nat} {i : Nat} {v : View} (h : (JPipe.hostRows rows ats)[i]? = some v) :
    ∃ l a, rows[i]? = some l ∧ ats[i]? = some a ∧ v = ⟨l.length, 0, a⟩ := by
  unfold JPipe.hostRows at h
  rw [List.getElem?_zipWith] at h
  cases hr : rows[i]? with
  | none => rw [hr] at h; simp at h
  | some l =>
    cases ha : ats[i]? with
    | none => rw [hr, ha] at h; simp at h
    | some a =>
      rw [hr, ha] at h
      simp only [Option.some.injEq] at h
      exact ⟨l, a, rfl, rfl, h.symm⟩

theorem hostRows_length {rows : List (List Elem)} {ats : List Nat} (h : ats.length = rows.length) :
    (JPipe.hostRows rows ats).length = rows.length := by
  simp [JPipe.hostRows, h]

theorem putRows_elems {t : Nat} : ∀ {ats : List Nat} {rows : List (List Elem)} {m : Mem}, (∀ l ∈ rows, ∀ e ∈ l, e.length = t) →
    (∀ (i j a b : Nat) (l l' : List Elem), i < j → ats[i]? = some a → ats[j]? = some b → rows[i]? = some l →
      rows[j]? = some l' → a + l.length * t ≤ b ∨ b + l'.length * t ≤ a) →
    ∀ (i a : Nat) (l : List Elem), ats[i]? = some a → rows[i]? = some l →
      (View.mk l.length 0 a).elems (JPipe.putRows t m ats rows) t = l := by
  intro ats
  induction ats with
  | nil => intro rows m _ _ i a l h; simp at h
  | cons a ats ih =>
    intro rows m hs hd i a' l' h1 h2
    cases rows with
    | nil => simp at h2
    | cons l rows =>
      unfold JPipe.putRows
      cases i with
      | succ i =>
        exact ih (fun l hl => hs l (List.mem_cons_of_mem _ hl)) (fun i j a b l l' hij x1 x2 x3 x4 =>
          hd (i + 1) (j + 1) a b l l' (by omega) (by simpa using x1) (by simpa using x2) (by simpa using x3) (by simpa using x4))
          i a' l' (by simpa using h1) (by simpa using h2)
      | zero =>
        simp only [List.getElem?_cons_zero, Option.some.injEq] at h1 h2
        subst h1
        subst h2
        rw [elems_congr (m := Pipe.putElems t m a l)]
        · exact putElems_elems (hs l List.mem_cons_self)
        · simp [View.len]
        · intro x hx
          rcases hx with ⟨x1, x2⟩ | hx
          · refine putRows_other fun j b l' y1 y2 hc => ?_
            have := hd 0 (j + 1) a b l l' (by omega) rfl (by simpa using y1) rfl (by simpa using y2)
            simp only at x1 x2
            omega
          · exact absurd rfl hx.1

theorem hostRows_valid {outside : Nat → Nat → Prop} {t : Nat} {ats : List Nat} {rows : List (List Elem)} (m : Mem)
    (h : HostArrays outside t ats rows) (hc : rows.length * 4 < 2 ^ 64) (hw : ∀ l ∈ rows, l.length < 2 ^ 32) :
    JagValid m t (JPipe.hostRows rows ats) := by
  obtain ⟨h1, h2, h3⟩ := h
  have hz : ∀ v ∈ JPipe.hostRows rows ats, v.sizePtr = 0 := by
    intro v hv
    obtain ⟨i, hi⟩ := List.mem_iff_getElem?.1 hv
    obtain ⟨l, a, -, -, rfl⟩ := hostRows_get hi
    rfl
  refine ⟨⟨?_, ?_, .inl hz, by rw [hostRows_length h1]; exact hc⟩, fun v hv => by simp [View.len, hz v hv]⟩
  · intro v hv
    obtain ⟨i, hi⟩ := List.mem_iff_getElem?.1 hv
    obtain ⟨l, a, hl, ha, rfl⟩ := hostRows_get hi
    have hne : l.length ≠ 0 → l ≠ [] := fun h hc => h (by rw [hc]; rfl)
    exact ⟨fun h0 => ((h2 i a l ha hl).2 (hne h0)).1, fun h0 => ((h2 i a l ha hl).2 (hne h0)).2,
      hw l (List.mem_iff_getElem?.2 ⟨i, hl⟩), fun x hx => hx.2.1 rfl⟩
  · rw [List.pairwise_iff_getElem]
    intro i j hi hj hij
    obtain ⟨l, a, hl, ha, e⟩ := hostRows_get (List.getElem?_eq_getElem hi)
    obtain ⟨l', a', hl', ha', e'⟩ := hostRows_get (List.getElem?_eq_getElem hj)
    rw [e, e']
    have := h3 i j a a' l l' hij ha ha' hl hl'
    rintro x ⟨x1 | x1, x2 | x2⟩
    · obtain ⟨x1, x3⟩ := x1
      obtain ⟨x2, x4⟩ := x2
      simp only at x1 x2 x3 x4
      omega
    · exact x2.1 rfl
    · exact x1.1 rfl
    · exact x2.1 rfl

theorem hostRows_has {t : Nat} {ats : List Nat} {rows : List (List Elem)} {x : Nat} (h : JagHas t (JPipe.hostRows rows ats) x) :
    ∃ (i a : Nat) (l : List Elem), ats[i]? = some a ∧ rows[i]? = some l ∧ a ≤ x ∧ x < a + l.length * t := by
  obtain ⟨v, hv, hx⟩ := h
  obtain ⟨i, hi⟩ := List.mem_iff_getElem?.1 hv
  obtain ⟨l, a, hl, ha, rfl⟩ := hostRows_get hi
  rcases hx with ⟨x1, x2⟩ | hx
  · exact ⟨i, a, l, ha, hl, x1, x2⟩
  · exact absurd rfl hx.1

/-- Nothing in an array outside of all buffers is in one of these. -/
theorem JInv.away (h : JInv c R ups u0 p q) {t : Nat} {ats : List Nat} {rows : List (List Elem)}
    (ha : HostArrays (p.Outside c) t ats rows) {i a : Nat} {l : List Elem} (h1 : ats[i]? = some a) (h2 : rows[i]? = some l) {x : Nat}
    (hx : a ≤ x ∧ x < a + l.length * t) :
    (∀ e ∈ p.vec.bufs, ¬ e.2.view.Has (c.vec.ty e.1).size x) ∧ ¬ InBlocks (p.owned c) x := by
  have ho := (ha.2.1 i a l h1 h2).1
  refine ⟨fun e he hx' => h.vec.outside ho.1 he hx' hx, fun hb => ?_⟩
  have hf : p.vec.Free (p.owned c) a (l.length * t) := ho
  exact hf.not hb hx

theorem jstep_upload (hl : FamLawful R G ups u0) (hc : c.Wf) (h : JInv c R ups u0 p q) {ats : List Nat} {rows : List (List Elem)}
    {k : Nat} (hf : (JagOp.upload ats rows k).Fits c R (p.Outside c) (p.store c q)) :
    JStepOk c R ups u0 p q (.upload ats rows k) := by
  obtain ⟨f1, f2, f3, caps, r, d, old, f4⟩ := hf
  obtain ⟨h', hst⟩ := h.same (m' := JPipe.putRows (c.ty k).size p.vec.mem ats rows)
    (fun e he x hx => putRows_other fun i a l h1 h2 hc => (h.away f1 h1 h2 hc).1 e he hx)
    (fun x hx => putRows_other fun i a l h1 h2 hc => (h.away f1 h1 h2 hc).2 hx)
  rw [← hst] at f4
  obtain ⟨b, b1, b2, b3, b4, b5, b6, b7, b8⟩ := h'.has f4
  have b1' : p.jags.lookup k = some b := b1
  have hob : JagOk (c.ty k) (c.hasHost k) b := h.bufs _ (mem_of_lookup b1')
  unfold JStepOk
  simp only [JPipe.exec, b1']
  rw [show (JagOp.upload ats rows k).ready q = q from rfl]
  have hel : ((JPipe.hostRows rows ats).map fun v => v.elems (JPipe.putRows (c.ty k).size p.vec.mem ats rows) (c.ty k).size) = rows := by
    refine list_eq (by rw [List.length_map, hostRows_length f1.1]) ?_
    intro i l l' h1 h2
    rw [List.getElem?_map] at h1
    obtain ⟨v, hv, rfl⟩ := Option.map_eq_some_iff.1 h1
    obtain ⟨l, a, hl, ha, rfl⟩ := hostRows_get hv
    have := hl.symm.trans h2
    simp only [Option.some.injEq] at this
    subst this
    exact putRows_elems (fun l hl => (f3 l hl).2) f1.2.2 i a _ ha h2
  obtain ⟨k1, k2⟩ := jcopy_into hl hc h' b1 f4 (src := ⟨JPipe.hostRows rows ats, 0, 0⟩)
    (hostRows_valid _ f1 f2 fun l hl => (f3 l hl).1)
    (by
      rintro x ⟨x1, x2⟩
      obtain ⟨i, a, l, h1, h2, h3⟩ := hostRows_has x1
      exact (h.away f1 h1 h2 h3).2 (blocks_sub (mem_of_lookup b1') (hob.rows_in _ x2)))
  refine ⟨k1, .upload ats rows k ?_⟩
  simp only at k2
  rw [hel, hst] at k2
  exact k2

theorem jstep_download (h : JInv c R ups u0 p q) (hc : c.Wf) {k : Nat} {ats : List Nat}
    (hf : (JagOp.download k ats).Fits c R (p.Outside c) (p.store c q)) : JStepOk c R ups u0 p q (.download k ats) := by
  obtain ⟨caps, r, d, rows, h1, ho⟩ := hf
  obtain ⟨b, b1, b2, b3, b4, b5, b6, b7, b8⟩ := h.has h1
  have hob : JagOk (c.ty k) (c.hasHost k) b := h.bufs _ b2
  have hlr : rows.length = b.views.length := by rw [← b7, List.length_map]
  have hrow : ∀ (i : Nat) (v : View), b.views[i]? = some v → rows[i]? = some (v.elems p.vec.mem (c.ty k).size) := by
    intro i v hv
    rw [← b7, List.getElem?_map, hv]
    rfl
  have hz : List.zipWith (fun (v : View) p_1 => (⟨v.len p.vec.mem, 0, p_1⟩ : View)) b.views ats = JPipe.hostRows rows ats := by
    unfold JPipe.hostRows
    rw [← b7, List.zipWith_map_left]
    congr 1
    funext v a
    rw [elems_length]
  have hval : JagValid p.vec.mem (c.ty k).size (JPipe.hostRows rows ats) := by
    refine hostRows_valid _ ho (by rw [hlr]; exact hob.placed.count) ?_
    intro l hl
    rw [← b7] at hl
    obtain ⟨v, hv, rfl⟩ := List.mem_map.1 hl
    rw [elems_length]
    exact Nat.lt_of_le_of_lt (b8.sizes v hv) (b8.placed v hv).word32
  obtain ⟨m', e1, e2, e3⟩ := Props.c38_to_std c.vec.dbg p.vec.mem (c.ty k).size (hc.2 k).1.1 b.view b8 (fun _ => ats) ats rfl
    (ho.1.trans hlr) (JPipe.hostRows rows ats) hz.symm
    (fun v hv h0 => ⟨(hval.placed v hv).ptr h0, (hval.placed v hv).space h0⟩) hval.separate
    (by
      rintro x ⟨x1, x2⟩
      obtain ⟨i, a, l, y1, y2, y3⟩ := hostRows_has x2
      exact (h.away ho y1 y2 y3).2 (blocks_sub b2 (hob.rows_in _ x1)))
  obtain ⟨i1, i2⟩ := h.same (m' := m')
    (fun e he x hx => e3 x fun hc => by
      obtain ⟨i, a, l, y1, y2, y3⟩ := hostRows_has hc
      exact (h.away ho y1 y2 y3).1 e he hx)
    (fun x hx => e3 x fun hc => by
      obtain ⟨i, a, l, y1, y2, y3⟩ := hostRows_has hc
      exact (h.away ho y1 y2 y3).2 hx)
  unfold JStepOk
  rw [show (JagOp.download k ats).ready q = q from rfl]
  simp only [JPipe.exec, b1, (Props.c39_get_sizes p.vec.mem _ b.views b8).1, e1, Res.map]
  refine ⟨i1, ?_⟩
  rw [i2]
  have : List.zipWith (fun n a => (View.mk n 0 a).elems m' (c.ty k).size) (b.views.map (·.len p.vec.mem)) ats = rows := by
    refine list_eq (by rw [List.length_zipWith, List.length_map, ho.1, hlr, Nat.min_self]) ?_
    intro i l l' x1 x2
    rw [List.getElem?_zipWith, List.getElem?_map] at x1
    cases hv : b.views[i]? with
    | none => rw [hv] at x1; simp at x1
    | some v =>
      cases ha : ats[i]? with
      | none => rw [hv, ha] at x1; simp at x1
      | some a =>
        rw [hv, ha] at x1
        simp only [Option.map_some, Option.some.injEq] at x1
        rw [← x1]
        have hr : (JPipe.hostRows rows ats)[i]? = some ⟨v.len p.vec.mem, 0, a⟩ := by
          rw [← hz, List.getElem?_zipWith, hv, ha]
        rw [e2 i v _ hv hr]
        exact Option.some.inj ((hrow i v hv).symm.trans x2)
  rw [this]
  exact .download k ats h1

end Vecmem
