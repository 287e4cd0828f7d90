import Verif.Lemmas.EdmPipelineCopies
import Verif.Lemmas.EdmAppend

/-! # Lemmas for C65: what kernels read, and kernels on rows -/

namespace Vecmem

open IntMath Props

variable {σ : Type} {R : Limits} {G : Nat} {ups : Nat → MR σ} {u0 : σ} {c : EdmCfg} {p : EPipe σ} {q : EReady}

/-! ## What kernels find -/

/-- A variable's rows, as kernels find them. -/
theorem VarView.deviceRows_alike {m : Mem} {x : VarView} (h : ∀ j, x = .jagged j → DescribedAt m j.ptr j.views) :
    (x.deviceRows m).length = x.rows.length ∧
    ∀ (i : Nat) (v w : View), (x.deviceRows m)[i]? = some v → x.rows[i]? = some w → v.Alike w := by
  cases x with
  | scalar a =>
    refine ⟨rfl, ?_⟩
    intro i v w hv hw
    cases hv.symm.trans hw
    exact ⟨rfl, rfl, fun _ => rfl⟩
  | vector a =>
    refine ⟨rfl, ?_⟩
    intro i v w hv hw
    cases hv.symm.trans hw
    exact ⟨rfl, rfl, fun _ => rfl⟩
  | jagged j =>
    refine ⟨by simp [VarView.deviceRows, VarView.rows], ?_⟩
    intro i v w hv hw
    obtain ⟨h1, h2, h3⟩ := h j rfl i w hw
    have hlt : i < j.views.length := (List.getElem?_eq_some_iff.1 hw).1
    unfold VarView.deviceRows at hv
    simp only [List.getElem?_map, List.getElem?_range hlt, Option.map_some, Option.some.injEq] at hv
    subst hv
    exact ⟨h1, h2, h3⟩

theorem readVar_ok (dbg : Bool) (dflt : Elem) (t : Nat) (m : Mem) : ∀ {vs ws : List View}, vs.length = ws.length →
    (∀ (i : Nat) (v w : View), vs[i]? = some v → ws[i]? = some w → v.Alike w) → (∀ w ∈ ws, w.Valid m t) →
    readVar dbg dflt t m vs = .ok (ws.map fun w => w.elems m t) := by
  intro vs
  induction vs with
  | nil =>
    intro ws hl _ _
    cases ws with
    | nil => rfl
    | cons => cases hl
  | cons v vs ih =>
    intro ws hl ha hv
    cases ws with
    | nil => cases hl
    | cons w ws =>
      unfold readVar
      rw [(ha 0 v w rfl rfl).device, device_iterate (hv w List.mem_cons_self)]
      simp only
      rw [ih (ws := ws) (by simpa using hl) (fun i v w h1 h2 => ha (i + 1) v w (by simpa using h1) (by simpa using h2))
        (fun w hw => hv w (List.mem_cons_of_mem _ hw))]
      rfl

theorem readVars_ok (k : Nat) (m : Mem) : ∀ {S : Schema} {xs : List VarView} (n : Nat),
    (∀ (i : Nat) (v : Var) (x : VarView), S[i]? = some v → xs[i]? = some x →
      (∀ j, x = .jagged j → DescribedAt m j.ptr j.views) ∧ ∀ w ∈ x.rows, w.Valid m v.type.size) →
    readVars c k m n S xs = .ok (tableOf m S xs) := by
  intro S
  induction S with
  | nil => intro xs n _; rfl
  | cons v S ih =>
    intro xs n h
    cases xs with
    | nil => rfl
    | cons x xs =>
      obtain ⟨h1, h2⟩ := h 0 v x rfl rfl
      obtain ⟨a1, a2⟩ := VarView.deviceRows_alike h1
      unfold readVars
      rw [readVar_ok _ _ _ m a1 a2 h2]
      simp only
      rw [ih (n + 1) fun i v x hv hx => h (i + 1) v x (by simpa using hv) (by simpa using hx)]
      rfl

theorem EdmOk.valid {S : Schema} {A : Nat} {hasHost : Bool} {b : EBuffer} (ho : EdmOk σ R G S A hasHost b) {m : Mem} (hs : EdmSizes m b.buf.view)
    {i : Nat} {v : Var} {x : VarView} (hv : S[i]? = some v) (hx : b.buf.view.vars[i]? = some x) : ∀ w ∈ x.rows, w.Valid m v.type.size :=
  fun w hw => ⟨(ho.varsPlaced.each i v x hv hx).2.2.placed w hw, hs x (List.mem_of_getElem? hx) w hw⟩

theorem EInv.reads (h : EInv c R G ups u0 p q) : ∀ {ins : List Nat} {ts : List Table}, (p.store c q).HasAll ins ts → p.reads c ins = .ok ts := by
  intro ins
  induction ins with
  | nil =>
    intro ls hh
    cases ls with
    | nil => rfl
    | cons l ls => exact hh.elim
  | cons i is ih =>
    intro ls hh
    cases ls with
    | nil => exact hh.elim
    | cons l ls =>
      obtain ⟨⟨caps, r, h1⟩, h2⟩ := hh
      obtain ⟨b, b1, b2, b3, b4, b5, b6, b7, b8, b9⟩ := h.has h1
      unfold EPipe.reads
      rw [b1]
      simp only
      rw [readVars_ok i p.mem 0 fun n v x hv hx =>
        ⟨fun j hj => b6.described b5 b9.symm j (by rw [← hj]; exact List.mem_of_getElem? hx), b5.valid (b6.sizes b7) hv hx⟩, ih h2, b8]
      rfl

/-! ## Rows of a variable -/

/-- The memory of the elements and the size decides about the elements. -/
theorem elems_of_len {m m' : Mem} {t : Nat} {v : View} (hv : v.len m ≤ v.capacity) (hl : v.len m' = v.len m)
    (h : ∀ x, v.HasPayload t x → m' x = m x) : v.elems m' t = v.elems m t := by
  unfold View.elems
  rw [hl]
  apply List.map_congr_left
  intro i hi
  have hi := List.mem_range.1 hi
  unfold bytesAt
  apply List.map_congr_left
  intro j hj
  have hj := List.mem_range.1 hj
  refine h _ ⟨by omega, ?_⟩
  have : (i + 1) * t ≤ v.capacity * t := Nat.mul_le_mul_right t (by omega)
  rw [Nat.succ_mul] at this
  omega

/-- What a kernel leaves behind in the rows of a variable. -/
theorem EInv.leave (hl : FamLawful R G ups u0) (h : EInv c R G ups u0 p q) {k : Nat} {b : EBuffer} (hb : p.bufs.lookup k = some b)
    (hd : (!((c.schema k).hasJagged && c.hasHost k) || q.dev k) = true) (hkn : (!b.resizable || q.known k) = true) {v : Nat} {ty : Var} {x : VarView}
    (hv : (c.schema k)[v]? = some ty) (hx : b.buf.view.vars[v]? = some x) {ss : List (DV Elem)} {ls : List (List Elem)}
    (h1 : ss.length = x.rows.length) (h2 : ls.length = x.rows.length)
    (hr : ∀ (i : Nat) (w : View) (s : DV Elem) (l : List Elem), x.rows[i]? = some w → ss[i]? = some s → ls[i]? = some l →
      l.length = (if w.sizePtr = 0 then w.capacity else s.sizeWord) ∧ l.length ≤ w.capacity ∧
      (∀ i, i < l.length → s.mem i = l[i]?) ∧ ∀ i e, s.mem i = some e → e.length = ty.type.size)
    (hw : ty.kind = .jagged ∨ ∀ (i : Nat) (w : View) (l : List Elem), x.rows[i]? = some w → ls[i]? = some l → l.length = w.len p.mem) :
    EInv c R G ups u0 (p.leave ty x ss) q ∧
    (p.leave ty x ss).store c q = (p.store c q).put k (some ⟨b.caps, b.resizable,
      some ((tableOf p.mem (c.schema k) b.buf.view.vars).set v ls), true⟩) := by
  have hbm := mem_of_lookup hb
  have ho := h.bufs _ hbm
  have hg := h.good _ hbm
  simp only at ho hg
  obtain ⟨a1, a2⟩ := VarView.deviceRows_alike (m := p.mem) (x := x)
    fun j hj => hg.described ho hd j (by rw [← hj]; exact List.mem_of_getElem? hx)
  have hvp := ho.varsPlaced
  obtain ⟨p1, p2, p3⟩ := hvp.each v ty x hv hx
  obtain ⟨e1, e2⟩ := storeRows_elems (t := ty.type.size) (m := p.mem) p3.placed p3.separate h1 h2 hr
  unfold EPipe.leave
  rw [storeRows_alike ty.type.size a1 a2]
  generalize hm' : storeRows ty.type.size p.mem x.rows ss = m' at e1 e2
  have hother : ∀ a, ¬ JagHas ty.type.size x.rows a → m' a = p.mem a := by
    intro a ha
    rw [← hm']
    exact storeRows_other ha
  -- the rows of the other variables
  have hpay : ∀ (i : Nat) (v' : Var) (y : VarView), i ≠ v → (c.schema k)[i]? = some v' → b.buf.view.vars[i]? = some y →
      ∀ z ∈ y.rows, ∀ a, z.HasPayload v'.type.size a → m' a = p.mem a := by
    intro i v' y hiv hv' hy z hz a ha
    refine hother a ?_
    rintro ⟨w, hw, hw'⟩
    refine hvp.apart i v v' ty y x hiv hv' hv hy hx a ⟨⟨z, hz, ha⟩, ?_⟩
    rcases hw' with hw' | hw'
    · exact .inl ⟨w, hw, hw'⟩
    · exact .inr ⟨w, hw, hw'⟩
  have hlen : ∀ (i : Nat) (v' : Var) (y : VarView), i ≠ v → (c.schema k)[i]? = some v' → b.buf.view.vars[i]? = some y →
      ∀ z ∈ y.rows, z.len m' = z.len p.mem := by
    intro i v' y hiv hv' hy z hz
    have hnw : (x.kind = .jagged ∨ y.kind = .jagged) → z.len m' = z.len p.mem := by
      intro hk
      refine len_of_word fun a ha => hother a ?_
      rintro ⟨w, hw, hw' | hw'⟩
      · exact hvp.apart v i ty v' x y (Ne.symm hiv) hv hv' hx hy a ⟨⟨w, hw, hw'⟩, .inr ⟨z, hz, ha⟩⟩
      · rcases hk with hk | hk
        · exact hvp.words v i x y (Ne.symm hiv) hx hy hk a ⟨⟨w, hw, hw'⟩, ⟨z, hz, ha⟩⟩
        · exact hvp.words i v y x hiv hy hx hk a ⟨⟨z, hz, ha⟩, ⟨w, hw, hw'⟩⟩
    rcases hw with hw | hw
    · exact hnw (.inl (p1.trans hw))
    · cases hyk : y with
      | scalar s =>
        rw [hyk] at hz
        simp only [VarView.rows, List.mem_singleton] at hz
        subst hz
        simp [View.len]
      | jagged j => exact hnw (.inr (by rw [hyk]; rfl))
      | vector z' =>
        rw [hyk] at hz
        simp only [VarView.rows, List.mem_singleton] at hz
        subst hz
        cases hxk : x with
        | scalar s =>
          refine len_of_word fun a ha => hother a ?_
          rintro ⟨w, hw1, hw' | hw'⟩
          · exact hvp.apart v i ty v' x y (Ne.symm hiv) hv hv' hx hy a
              ⟨⟨w, hw1, hw'⟩, .inr ⟨z, by rw [hyk]; simp [VarView.rows], ha⟩⟩
          · rw [hxk] at hw1
            simp only [VarView.rows, List.mem_singleton] at hw1
            subst hw1
            exact hw'.1 rfl
        | jagged j => exact hnw (.inl (by rw [hxk]; rfl))
        | vector w =>
          obtain ⟨q1, q2⟩ := hvp.vectors i v z w (by rw [hy, hyk]) (by rw [hx, hxk])
          have hw0 : x.rows[0]? = some w := by rw [hxk]; rfl
          obtain ⟨l, hl0⟩ := get_same h2.symm hw0
          have hlw := hw 0 w l hw0 hl0
          have : w.len m' = w.len p.mem := by
            rw [← hlw, ← elems_length m' ty.type.size]
            have := congrArg (fun L => L[0]?) e1
            simp only [List.getElem?_map, hw0, hl0, Option.map_some, Option.some.injEq] at this
            rw [this]
          unfold View.len at this ⊢
          rw [q1, q2]
          exact this
  have hsz : EdmSizes m' b.buf.view := by
    intro y hy z hz
    obtain ⟨i, v', hv', hi, -⟩ := ho.var_at hy
    by_cases hiv : i = v
    · subst hiv
      cases hx.symm.trans hi
      exact e2 z hz
    · rw [hlen i v' y hiv hv' hi z hz]
      exact hg.sizes hkn y hy z hz
  obtain ⟨i1, i2⟩ := h.changeData hl hb (m' := m') (fun a ha => hother a fun hc => ha (by
      obtain ⟨w, hw, hw'⟩ := hc
      refine .inl ⟨v, ty, x, hv, hx, ?_⟩
      rcases hw' with hw' | hw'
      · exact .inl ⟨w, hw, hw'⟩
      · exact .inr ⟨w, hw, hw'⟩)) (q' := q) (fun _ _ => rfl) rfl (fun _ => hsz)
  refine ⟨i1, i2.trans ?_⟩
  have htab : tableOf m' (c.schema k) b.buf.view.vars = (tableOf p.mem (c.schema k) b.buf.view.vars).set v ls := by
    apply List.ext_getElem?
    intro i
    rw [List.getElem?_set]
    by_cases hiv : v = i
    · subst hiv
      rw [if_pos rfl, if_pos (by rw [tableOf_length ho]; exact (List.getElem?_eq_some_iff.1 hv).1), tableOf_get hv hx, e1]
    · rw [if_neg hiv]
      cases hv' : (c.schema k)[i]? with
      | none =>
        have h3 := List.getElem?_eq_none_iff.1 hv'
        rw [List.getElem?_eq_none (by rw [tableOf_length ho]; exact h3), List.getElem?_eq_none (by rw [tableOf_length ho]; exact h3)]
      | some v' =>
        obtain ⟨y, hy, hy'⟩ := tableOf_at ho (m := m') hv'
        rw [hy', tableOf_get hv' hy]
        simp only [Option.some.injEq]
        apply List.map_congr_left
        intro z hz
        exact elems_of_len (hg.sizes hkn y (List.mem_of_getElem? hy) z hz) (hlen i v' y (Ne.symm hiv) hv' hy z hz)
          (hpay i v' y (Ne.symm hiv) hv' hy z hz)
  rw [if_pos hkn, htab, hd]

theorem edevices_eq {m : Mem} {x : VarView} (h : ∀ j, x = .jagged j → DescribedAt m j.ptr j.views) (dbg : Bool) (dflt : Elem) (t : Nat) :
    ((x.deviceRows m).map fun r => r.device dbg dflt t m) = x.rows.map fun r => r.device dbg dflt t m :=
  map_alike _ (VarView.deviceRows_alike h).1 fun i v w hv hw => ((VarView.deviceRows_alike h).2 i v w hv hw).device _ _ _ _

theorem estep_rows (hl : FamLawful R G ups u0) (hc : c.Wf) (h : EInv c R G ups u0 p q) {ins : List Nat} {k v : Nat}
    {f : List Table → List (List (Nat × ACall Elem))} {sched : List Nat} {out : Nat → Nat → Prop}
    (hf : (EdmOp.rows ins k v f sched).Fits c R G out (p.store c q)) : EStepOk c R G ups u0 p q (.rows ins k v f sched) := by
  obtain ⟨-, ts, caps, t, ty, rows, f1, f2, hv, hk, hr, f4, f5⟩ := hf
  obtain ⟨b, b1, b2, b3, b4, b5, b6, b7, b8, b9⟩ := h.has f2
  obtain ⟨x, hx, hx'⟩ := tableOf_at b5 (m := p.mem) hv
  rw [← b8, hr] at hx'
  have hrows : rows = x.rows.map fun r => r.elems p.mem ty.type.size := Option.some.inj hx'
  obtain ⟨k1, k2, k3⟩ := b5.row_facts hv hx
  have hrc : ty.rowCaps b.caps = caps := by unfold Var.rowCaps; rw [hk]; exact b3
  rw [hrc] at k2
  have hz : ∀ w ∈ x.rows, w.sizePtr ≠ 0 := fun w hw => (k3 w hw).2 (by unfold Schema.grows; rw [b4, hk]; rfl)
  have hval := b5.valid (b6.sizes b7) hv hx
  have hlr : rows.length = x.rows.length := by rw [hrows, List.length_map]
  have hdesc : ∀ j, x = .jagged j → DescribedAt p.mem j.ptr j.views :=
    fun j hj => b6.described b5 b9.symm j (by rw [← hj]; exact List.mem_of_getElem? hx)
  obtain ⟨-, -, hdf⟩ := (hc.2 k).2 v ty hv
  unfold EStepOk
  rw [show (EdmOp.rows ins k v f sched).ready q = q from rfl]
  simp only [EPipe.exec, b1, h.reads f1, hv, hx, EPipe.devices, edevices_eq hdesc]
  have hget : ∀ (i : Nat) (s : DV Elem), (x.rows.map fun w => w.device c.dbg (c.dflt k v) ty.type.size p.mem)[i]? = some s →
      ∃ w, x.rows[i]? = some w ∧ w ∈ x.rows ∧ s = w.device c.dbg (c.dflt k v) ty.type.size p.mem ∧
        rows[i]? = some (w.elems p.mem ty.type.size) ∧ caps[i]? = some w.capacity := by
    intro i s hs
    rw [List.getElem?_map] at hs
    obtain ⟨w, hw, rfl⟩ := Option.map_eq_some_iff.1 hs
    refine ⟨w, hw, List.mem_iff_getElem?.2 ⟨i, hw⟩, rfl, ?_, ?_⟩
    · rw [hrows, List.getElem?_map, hw]; rfl
    · rw [← k2, List.getElem?_map, hw]; rfl
  have h0 : RowsFor (x.rows.map fun w => w.device c.dbg (c.dflt k v) ty.type.size p.mem) rows (f ts) := by
    refine ⟨by rw [List.length_map, hlr], ?_, ?_⟩
    · intro r s l hs hlr
      obtain ⟨w, hw, hwm, rfl, g1, g2⟩ := hget r s hs
      cases g1.symm.trans hlr
      refine ⟨device_holds (hval w hwm) (hz w hwm) _ _, f5 r _ _ g1 g2, ?_⟩
      intro pr hpr cl hcl
      obtain ⟨p', hp', rfl⟩ := List.mem_map.1 hpr
      obtain ⟨y, hy, rfl⟩ := List.mem_map.1 hcl
      obtain ⟨hy, hyr⟩ := List.mem_filter.1 hy
      obtain ⟨l, y1, y2, -⟩ := f4 p' hp' y hy
      rw [of_decide_eq_true hyr] at y1
      cases g1.symm.trans y1
      exact y2
    · intro pr hpr y hy
      obtain ⟨l, y1, -⟩ := f4 pr hpr y hy
      exact (List.getElem?_eq_some_iff.1 y1).1
  obtain ⟨O, fin, o1, o2, o3, o4, o5, o6, o7⟩ := RowConc.kernel_ok h0 sched (dflt := c.dflt k v) (caps := caps)
    (by intro s hs; obtain ⟨v, -, rfl⟩ := List.mem_map.1 hs; rfl)
    (by rw [List.map_map, ← k2]; rfl) (P := fun e => e.length = ty.type.size)
    (by intro s hs; obtain ⟨v, -, rfl⟩ := List.mem_map.1 hs; exact device_all _ hdf _ _)
    (by
      intro pr hpr y hy
      obtain ⟨l, -, -, y3⟩ := f4 pr hpr y hy
      obtain ⟨r, cl⟩ := y
      cases cl <;> first | trivial | (rename_i a; cases a <;> exact y3))
  generalize RowConc.kernel (x.rows.map fun w => w.device c.dbg (c.dflt k v) ty.type.size p.mem) (f ts) sched = g at o1 o2 o3 o5 o7 ⊢
  rw [List.length_map] at o5 o6
  obtain ⟨i1, i2⟩ := h.leave hl b1 b9.symm b7 hv hx o5 o6 (fun i w s l hw hs hl => by
    obtain ⟨h1, h2, h3⟩ := o7 i _ s l (by rw [List.getElem?_map, hw]; rfl) hs hl
    rw [if_neg (hz w (List.mem_iff_getElem?.2 ⟨i, hw⟩))]
    have hcap : s.cap = w.capacity := h2.2.2.2.2.1
    exact ⟨h1.size.symm, hcap ▸ h1.fits, h1.elems, h3.mem⟩) (.inl hk)
  refine ⟨i1, ?_⟩
  rw [i2, b3, b4, if_neg (by simp [o1]), ← b8]
  refine .rows ins k v f sched f1 f2 hv hr O _ fin o2 o3 ?_
  rw [← b3, hrc]
  exact o4

/-! ## One thread -/

/-- Operations for vectors of fixed size change no size. -/
theorem VecStep.length_fixed {dflt : Elem} {cap : Nat} {l l' : List Elem} {op : DVOp Elem} {r : Ret Elem} (h : VecStep dflt cap l op r l')
    (hf : op.ForFixed) : l'.length = l.length := by
  cases h <;> first | exact hf.elim | rfl | simp

theorem JagRun.length_fixed {dflt : Elem} {caps : List Nat} {rows rows' : List (List Elem)} {ops : List (Nat × DVOp Elem)}
    {rs : List (Res (Ret Elem))} (h : JagRun dflt caps rows ops rs rows') (hf : ∀ x ∈ ops, x.2.ForFixed) :
    rows'.map List.length = rows.map List.length := by
  induction h with
  | nil => rfl
  | cons hi _ hs _ ih =>
    rw [ih fun x hx => hf x (List.mem_cons_of_mem _ hx), List.map_set, hs.length_fixed (hf _ List.mem_cons_self)]
    apply List.ext_getElem?
    intro j
    rw [List.getElem?_set]
    split
    · rename_i hij
      subst hij
      rw [List.getElem?_map, hi]
      simp [(List.getElem?_eq_some_iff.1 hi).1]
    · rfl

theorem estep_single (hl : FamLawful R G ups u0) (hc : c.Wf) (h : EInv c R G ups u0 p q) {ins : List Nat} {k v : Nat}
    {f : List Table → List (Nat × DVOp Elem)} {out : Nat → Nat → Prop}
    (hf : (EdmOp.single ins k v f).Fits c R G out (p.store c q)) : EStepOk c R G ups u0 p q (.single ins k v f) := by
  obtain ⟨-, ts, caps, r, t, ty, rows, f1, f2, hv, hr, f4, f5, f6⟩ := hf
  obtain ⟨b, b1, b2, b3, b4, b5, b6, b7, b8, b9⟩ := h.has f2
  obtain ⟨x, hx, hx'⟩ := tableOf_at b5 (m := p.mem) hv
  rw [← b8, hr] at hx'
  have hrows : rows = x.rows.map fun r => r.elems p.mem ty.type.size := Option.some.inj hx'
  obtain ⟨k1, k2, k3⟩ := b5.row_facts hv hx
  rw [b3] at k2
  have hval := b5.valid (b6.sizes b7) hv hx
  have hlv : x.rows.length = (ty.rowCaps caps).length := by rw [← k2, List.length_map]
  have hlr : rows.length = (ty.rowCaps caps).length := by rw [hrows, List.length_map, hlv]
  have hdesc : ∀ j, x = .jagged j → DescribedAt p.mem j.ptr j.views :=
    fun j hj => b6.described b5 b9.symm j (by rw [← hj]; exact List.mem_of_getElem? hx)
  obtain ⟨-, -, hdf⟩ := (hc.2 k).2 v ty hv
  have hfix : ¬ ty.kind = .jagged ∨ r = false → ∀ y ∈ f ts, y.2.ForFixed := by
    intro hn
    refine f6 ?_
    rintro ⟨c1, c2⟩
    rcases hn with hn | hn
    · exact hn c2
    · rw [hn] at c1; cases c1
  unfold EStepOk
  rw [show (EdmOp.single ins k v f).ready q = q from rfl]
  simp only [EPipe.exec, b1, h.reads f1, hv, hx, EPipe.devices, edevices_eq hdesc]
  obtain ⟨ls', j1, j2, j3, j4⟩ := runRows_ok (dflt := c.dflt k v) (t := ty.type.size) (r := (c.schema k).grows b.resizable ty)
    (caps := ty.rowCaps caps) (ops := f ts)
    (ss := x.rows.map fun w => w.device c.dbg (c.dflt k v) ty.type.size p.mem) (ls := rows)
    (by rw [List.length_map, hlv]) hlr
    (by
      intro i cap s l x1 x2 x3
      rw [List.getElem?_map] at x2
      obtain ⟨w, hw, rfl⟩ := Option.map_eq_some_iff.1 x2
      rw [hrows, List.getElem?_map, hw] at x3
      cases x3
      rw [← k2, List.getElem?_map, hw] at x1
      cases x1
      have hwm := List.mem_iff_getElem?.2 ⟨i, hw⟩
      refine ⟨rfl, device_all _ hdf _ _, fun hg => ⟨device_holds (hval w hwm) ((k3 w hwm).2 hg) _ _, rfl, rfl⟩,
        fun hg => device_fixed (hval w hwm) ?_ _ _⟩
      by_cases h0 : w.sizePtr = 0
      · exact h0
      · rw [(k3 w hwm).1 h0] at hg
        cases hg)
    f4 f5 (fun hg => hfix (by
      by_cases hj : ty.kind = .jagged
      · right
        rw [← b4]
        unfold Schema.grows at hg
        rw [hj] at hg
        cases hr : b.resizable with
        | false => rfl
        | true => rw [hr] at hg; simp at hg
      · exact .inl hj))
  obtain ⟨i1, i2⟩ := h.leave hl b1 b9.symm b7 hv hx (j2.trans hlv.symm) (j3.trans hlv.symm) (fun i w s l hw hs hl => by
    have ho := j4 i w.capacity s l (by rw [← k2, List.getElem?_map, hw]; rfl) hs hl
    have hwm := List.mem_iff_getElem?.2 ⟨i, hw⟩
    cases hg : (c.schema k).grows b.resizable ty with
    | true =>
      obtain ⟨g1, -, -⟩ := ho.grows hg
      rw [if_neg ((k3 w hwm).2 hg)]
      exact ⟨g1.size.symm, ho.cap ▸ g1.fits, g1.elems, ho.all.mem⟩
    | false =>
      have g1 := ho.fixed hg
      rw [if_pos (by
        by_cases h0 : w.sizePtr = 0
        · exact h0
        · rw [(k3 w hwm).1 h0] at hg
          cases hg)]
      have hsz := g1.size.trans ho.cap
      exact ⟨hsz, Nat.le_of_eq hsz, fun i hi => g1.elems i (g1.size ▸ hi), ho.all.mem⟩)
    (by
      by_cases hj : ty.kind = .jagged
      · exact .inl hj
      · right
        intro i w l hw hl
        have := congrArg (fun L => L[i]?) (j1.length_fixed (hfix (.inl hj)))
        simp only [List.getElem?_map, hl, hrows, hw, Option.map_some, Option.some.injEq] at this
        rw [this, elems_length])
  refine ⟨i1, ?_⟩
  rw [i2, b3, b4, ← b8]
  exact .single ins k v f f1 f2 hv hr j1

end Vecmem
