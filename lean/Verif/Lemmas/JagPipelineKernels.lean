import Verif.Lemmas.JagPipelineCopies
import Verif.Lemmas.RowConc

/-! # Lemmas for C62: kernels -/

namespace Vecmem

open IntMath Prog

variable {σ : Type} {R : Limits} {G : Nat} {ups : Nat → MR σ} {u0 : σ} {c : JagCfg} {p : JPipe σ} {q : JReady}

theorem devices_views (h : JInv c R ups u0 p q) {k : Nat} {b : JagBuffer} (hb : (k, b) ∈ p.jags)
    (hd : (b.views.isEmpty || !c.hasHost k || q.jag k) = true) :
    p.devices c k b = b.views.map fun v => v.device c.vec.dbg (c.dflt k) (c.ty k).size p.vec.mem :=
  devices_eq (h.described hb hd) _ _ _

/-- What a kernel leaves behind. -/
theorem JInv.leave (hl : FamLawful R G ups u0) (h : JInv c R ups u0 p q) {k : Nat} {b : JagBuffer}
    (hb : p.jags.lookup k = some b) (hd : (b.views.isEmpty || !c.hasHost k || q.jag k) = true) (hkn : b.Known (q.jag k))
    {ss : List (DV Elem)} {ls : List (List Elem)} (h1 : ss.length = b.views.length) (h2 : ls.length = b.views.length)
    (hr : ∀ (i : Nat) (v : View) (s : DV Elem) (l : List Elem), b.views[i]? = some v → ss[i]? = some s → ls[i]? = some l →
      l.length = (if v.sizePtr = 0 then v.capacity else s.sizeWord) ∧ l.length ≤ v.capacity ∧
      (∀ i, i < l.length → s.mem i = l[i]?) ∧ ∀ i e, s.mem i = some e → e.length = (c.ty k).size) :
    JInv c R ups u0 (p.leave c k b ss) q ∧
    (p.leave c k b ss).store c q = (p.store c q).put k (some ⟨b.views.map (·.capacity), b.views.any fun v => v.sizePtr != 0,
      some ls, true⟩) := by
  have hbm := mem_of_lookup hb
  have hok : JagOk (c.ty k) (c.hasHost k) b := h.bufs _ hbm
  have ha := deviceRows_alike (h.described hbm hd)
  obtain ⟨e1, e2⟩ := storeRows_elems (t := (c.ty k).size) (m := p.vec.mem) hok.placed.placed hok.placed.separate h1 h2 hr
  unfold JPipe.leave
  rw [storeRows_alike (c.ty k).size ha.1 ha.2]
  obtain ⟨i1, i2⟩ := h.rowsChange hl hb (m' := storeRows (c.ty k).size p.vec.mem b.views ss) (fun x hx => storeRows_other hx)
    (fun _ => e2)
  refine ⟨i1, i2.trans ?_⟩
  rw [if_pos (known_iff.2 hkn), e1, hd]

theorem jstep_kernel (hl : FamLawful R G ups u0) (hc : c.Wf) (h : JInv c R ups u0 p q) {ins jins : List Nat} {k : Nat}
    {f : List (List Elem) → List (List (List Elem)) → List (List (Nat × ACall Elem))} {sched : List Nat}
    (hf : (JagOp.kernel ins jins k f sched).Fits c R (p.Outside c) (p.store c q)) :
    JStepOk c R ups u0 p q (.kernel ins jins k f sched) := by
  obtain ⟨-, ls, js, caps, rows, f1, f2, f3, f4, f5⟩ := hf
  obtain ⟨b, b1, b2, b3, b4, b5, b6, b7, b8⟩ := h.has f3
  have hok : JagOk (c.ty k) (c.hasHost k) b := h.bufs _ b2
  have hz : ∀ v ∈ b.views, v.sizePtr ≠ 0 := by
    rcases jag_any hok with ⟨ha, -⟩ | ⟨-, hall⟩
    · rw [ha] at b5; cases b5
    · exact hall
  have hlr : rows.length = b.views.length := by rw [← b7, List.length_map]
  unfold JStepOk
  rw [show (JagOp.kernel ins jins k f sched).ready q = q from rfl]
  simp only [JPipe.exec, b1, h.vec.reads f1, h.reads f2, devices_views h b2 b6]
  have hget : ∀ (i : Nat) (s : DV Elem), (b.views.map fun v => v.device c.vec.dbg (c.dflt k) (c.ty k).size p.vec.mem)[i]? = some s →
      ∃ v, b.views[i]? = some v ∧ v ∈ b.views ∧ s = v.device c.vec.dbg (c.dflt k) (c.ty k).size p.vec.mem ∧ rows[i]? = some (v.elems p.vec.mem (c.ty k).size) ∧ caps[i]? = some v.capacity := by
    intro i s hs
    rw [List.getElem?_map] at hs
    obtain ⟨v, hv, rfl⟩ := Option.map_eq_some_iff.1 hs
    refine ⟨v, hv, List.mem_iff_getElem?.2 ⟨i, hv⟩, rfl, ?_, ?_⟩
    · rw [← b7, List.getElem?_map, hv]; rfl
    · rw [← b4, List.getElem?_map, hv]; rfl
  have h0 : RowsFor (b.views.map fun v => v.device c.vec.dbg (c.dflt k) (c.ty k).size p.vec.mem) rows (f ls js) := by
    refine ⟨by rw [List.length_map, hlr], ?_, ?_⟩
    · intro r s l hs hlr
      obtain ⟨v, hv, hvm, rfl, g1, g2⟩ := hget r s hs
      cases g1.symm.trans hlr
      refine ⟨device_holds (b8.inner v hvm) (hz v hvm) _ _, f5 r _ _ g1 g2, ?_⟩
      intro pr hpr cl hcl
      obtain ⟨p', hp', rfl⟩ := List.mem_map.1 hpr
      obtain ⟨x, hx, rfl⟩ := List.mem_map.1 hcl
      obtain ⟨hx, hxr⟩ := List.mem_filter.1 hx
      obtain ⟨l, y1, y2, -⟩ := f4 p' hp' x hx
      rw [of_decide_eq_true hxr] at y1
      cases g1.symm.trans y1
      exact y2
    · intro pr hpr x hx
      obtain ⟨l, y1, -⟩ := f4 pr hpr x hx
      exact (List.getElem?_eq_some_iff.1 y1).1
  obtain ⟨O, fin, o1, o2, o3, o4, o5, o6, o7⟩ := RowConc.kernel_ok h0 sched (dflt := c.dflt k) (caps := caps)
    (by intro s hs; obtain ⟨v, -, rfl⟩ := List.mem_map.1 hs; rfl)
    (by rw [List.map_map, ← b4]; rfl) (P := fun e => e.length = (c.ty k).size)
    (by intro s hs; obtain ⟨v, -, rfl⟩ := List.mem_map.1 hs; exact device_all _ (hc.2 k).2 _ _)
    (by
      intro pr hpr x hx
      obtain ⟨l, -, -, y3⟩ := f4 pr hpr x hx
      obtain ⟨r, cl⟩ := x
      cases cl <;> first | trivial | (rename_i a; cases a <;> exact y3))
  generalize RowConc.kernel (b.views.map fun v => v.device c.vec.dbg (c.dflt k) (c.ty k).size p.vec.mem) (f ls js) sched = g at o1 o2 o3 o5 o7 ⊢
  rw [List.length_map] at o5 o6
  obtain ⟨i1, i2⟩ := h.leave hl b1 b6 b3 o5 o6 (fun i v s l hv hs hl => by
    obtain ⟨h1, h2, h3⟩ := o7 i _ s l (by rw [List.getElem?_map, hv]; rfl) hs hl
    rw [if_neg (hz v (List.mem_iff_getElem?.2 ⟨i, hv⟩))]
    have hcap : s.cap = v.capacity := h2.2.2.2.2.1
    exact ⟨h1.size.symm, hcap ▸ h1.fits, h1.elems, h3.mem⟩)
  refine ⟨i1, ?_⟩
  rw [i2, b4, b5, if_neg (by simp [o1])]
  exact .kernel ins jins k f sched f1 f2 f3 O _ fin o2 o3 o4

/-! ## One thread -/

/-- A row of a resizable (or not resizable) jagged buffer. -/
structure RowOk (dflt : Elem) (t : Nat) (r : Bool) (cap : Nat) (s : DV Elem) (l : List Elem) : Prop where
  cap : s.cap = cap
  all : s.All (fun e => e.length = t)
  grows : r = true → s.Holds l (fun _ => none) ∧ s.trivialDtor = true ∧ s.dflt = dflt
  fixed : r = false → s.FixedList l

theorem RowOk.step {dflt : Elem} {t : Nat} {r : Bool} {cap : Nat} {s : DV Elem} {l : List Elem} (h : RowOk dflt t r cap s l)
    {op : DVOp Elem} (hf : op.Fits true cap l) (ho : op.Sized t) (hr : r = false → op.ForFixed) :
    ∃ x l', (s.step op).1 = .ok x ∧ VecStep dflt cap l op x l' ∧ RowOk dflt t r cap (s.step op).2 l' := by
  have hall : (s.step op).2.All (fun e => e.length = t) := by
    refine h.all.step ?_
    cases op <;> first | trivial | exact ho | (rename_i a; cases a <;> exact ho)
  have hcap := h.cap
  cases r with
  | true =>
    obtain ⟨h1, h2, h3⟩ := h.grows rfl
    obtain ⟨x, s', l', e, hstep, hh, k1, k2, k3, k4, k5, k6⟩ := DV.step_ok h1 (op := op) (by rw [h2, hcap]; exact hf)
    rw [e] at hall ⊢
    rw [h3, hcap] at hstep
    exact ⟨x, l', rfl, hstep, k5.trans hcap, hall, fun _ => ⟨hh, k2.trans h2, k3.trans h3⟩, fun hc => by cases hc⟩
  | false =>
    obtain ⟨x, l', e, hstep, hh, k⟩ := (h.fixed rfl).step (dflt := dflt) (triv := true) (hr rfl) (by rw [hcap]; exact hf)
    rw [hcap] at hstep
    exact ⟨x, l', by rw [e], hstep, k.trans hcap, hall, (fun hc => by cases hc), fun _ => hh⟩

theorem runRows_ok {dflt : Elem} {t : Nat} {r : Bool} {caps : List Nat} : ∀ {ops : List (Nat × DVOp Elem)} {ss : List (DV Elem)}
    {ls : List (List Elem)}, ss.length = caps.length → ls.length = caps.length →
    (∀ (i cap : Nat) (s : DV Elem) (l : List Elem), caps[i]? = some cap → ss[i]? = some s → ls[i]? = some l → RowOk dflt t r cap s l) →
    JagFitsAll dflt caps ls ops → (∀ x ∈ ops, x.2.Sized t) → (r = false → ∀ x ∈ ops, x.2.ForFixed) →
    ∃ ls', JagRun dflt caps ls ops (runRows ss ops).1 ls' ∧ (runRows ss ops).2.length = caps.length ∧ ls'.length = caps.length ∧
      ∀ (i cap : Nat) (s : DV Elem) (l : List Elem), caps[i]? = some cap → (runRows ss ops).2[i]? = some s → ls'[i]? = some l →
        RowOk dflt t r cap s l := by
  intro ops
  induction ops with
  | nil => exact fun h1 h2 h3 _ _ _ => ⟨_, .nil _, h1, h2, h3⟩
  | cons e ops ih =>
    intro ss ls h1 h2 h3 hf ho hr
    obtain ⟨i, op⟩ := e
    obtain ⟨l, cap, g1, g2, g3, g4⟩ := hf
    obtain ⟨s, hs⟩ := get_same h1.symm g2
    obtain ⟨x, l', e1, e2, e3⟩ := (h3 i cap s l g2 hs g1).step g3 (ho _ List.mem_cons_self) (fun hc => hr hc _ List.mem_cons_self)
    obtain ⟨ls', k1, k2, k3, k4⟩ := ih (ss := ss.set i (s.step op).2) (ls := ls.set i l') (by rw [List.length_set, h1])
      (by rw [List.length_set, h2])
      (by
        intro j cap' s' m x1 x2 x3
        by_cases hij : i = j
        · subst hij
          have hi1 : i < ss.length := (List.getElem?_eq_some_iff.1 hs).1
          have hi2 : i < ls.length := (List.getElem?_eq_some_iff.1 g1).1
          rw [List.getElem?_set_self hi1] at x2
          rw [List.getElem?_set_self hi2] at x3
          cases x2
          cases x3
          cases g2.symm.trans x1
          exact e3
        · rw [List.getElem?_set_ne hij] at x2 x3
          exact h3 j cap' s' m x1 x2 x3)
      (g4 x l' e2) (fun y hy => ho y (List.mem_cons_of_mem _ hy)) (fun hc y hy => hr hc y (List.mem_cons_of_mem _ hy))
    refine ⟨ls', ?_, ?_, k3, ?_⟩
    · simp only [runRows, hs, e1]
      exact .cons g1 g2 e2 k1
    · simp only [runRows, hs]
      exact k2
    · simp only [runRows, hs]
      exact k4

theorem jstep_single (hl : FamLawful R G ups u0) (hc : c.Wf) (h : JInv c R ups u0 p q) {ins jins : List Nat} {k : Nat}
    {f : List (List Elem) → List (List (List Elem)) → List (Nat × DVOp Elem)}
    (hf : (JagOp.single ins jins k f).Fits c R (p.Outside c) (p.store c q)) : JStepOk c R ups u0 p q (.single ins jins k f) := by
  obtain ⟨-, ls, js, caps, r, rows, f1, f2, f3, f4, f5, f6⟩ := hf
  obtain ⟨b, b1, b2, b3, b4, b5, b6, b7, b8⟩ := h.has f3
  have hok : JagOk (c.ty k) (c.hasHost k) b := h.bufs _ b2
  have hlr : rows.length = caps.length := by rw [← b7, ← b4, List.length_map, List.length_map]
  have hlv : b.views.length = caps.length := by rw [← b4, List.length_map]
  have hz : (r = true → ∀ v ∈ b.views, v.sizePtr ≠ 0) ∧ (r = false → ∀ v ∈ b.views, v.sizePtr = 0) := by
    rw [← b5]
    rcases jag_any hok with ⟨ha, hall⟩ | ⟨ha, hall⟩
    · exact ⟨(fun hc => by rw [ha] at hc; cases hc), fun _ => hall⟩
    · exact ⟨fun _ => hall, fun hc => by rw [ha] at hc; cases hc⟩
  unfold JStepOk
  rw [show (JagOp.single ins jins k f).ready q = q from rfl]
  simp only [JPipe.exec, b1, h.vec.reads f1, h.reads f2, devices_views h b2 b6]
  obtain ⟨ls', k1, k2, k3, k4⟩ := runRows_ok (dflt := c.dflt k) (t := (c.ty k).size) (r := r) (caps := caps) (ops := f ls js)
    (ss := b.views.map fun v => v.device c.vec.dbg (c.dflt k) (c.ty k).size p.vec.mem) (ls := rows)
    (by rw [List.length_map, hlv]) hlr
    (by
      intro i cap s l x1 x2 x3
      rw [List.getElem?_map] at x2
      obtain ⟨v, hv, rfl⟩ := Option.map_eq_some_iff.1 x2
      rw [← b7, List.getElem?_map, hv] at x3
      cases x3
      rw [← b4, List.getElem?_map, hv] at x1
      cases x1
      have hvm := List.mem_iff_getElem?.2 ⟨i, hv⟩
      exact ⟨rfl, device_all _ (hc.2 k).2 _ _, fun hr => ⟨device_holds (b8.inner v hvm) (hz.1 hr v hvm) _ _, rfl, rfl⟩,
        fun hr => device_fixed (b8.inner v hvm) (hz.2 hr v hvm) _ _⟩)
    f4 f5 f6
  obtain ⟨i1, i2⟩ := h.leave hl b1 b6 b3 (k2.trans hlv.symm) (k3.trans hlv.symm) (fun i v s l hv hs hl => by
    have ho := k4 i v.capacity s l (by rw [← b4, List.getElem?_map, hv]; rfl) hs hl
    have hvm := List.mem_iff_getElem?.2 ⟨i, hv⟩
    cases hr : r with
    | true =>
      obtain ⟨g1, -, -⟩ := ho.grows hr
      rw [if_neg (hz.1 hr v hvm)]
      exact ⟨g1.size.symm, ho.cap ▸ g1.fits, g1.elems, ho.all.mem⟩
    | false =>
      have g1 := ho.fixed hr
      rw [if_pos (hz.2 hr v hvm)]
      have hsz := g1.size.trans ho.cap
      exact ⟨hsz, Nat.le_of_eq hsz, fun i hi => g1.elems i (g1.size ▸ hi), ho.all.mem⟩)
  refine ⟨i1, ?_⟩
  rw [i2, b4, b5]
  exact .single ins jins k f f1 f2 f3 k1

end Vecmem
