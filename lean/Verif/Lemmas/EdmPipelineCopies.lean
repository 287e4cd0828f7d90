import Verif.Lemmas.EdmPipelineSteps
import Verif.Lemmas.EdmSizes

/-! # Lemmas for C65: copies -/

namespace Vecmem

open IntMath Props

variable {σ : Type} {R : Limits} {G : Nat} {ups : Nat → MR σ} {u0 : σ} {c : EdmCfg} {p : EPipe σ} {q : EReady}

/-- What the rows of a variable hold after a copy. -/
theorem rows_copied {S : Schema} {A : Nat} {hasHost : Bool} {b : EBuffer} (ho : EdmOk σ R G S A hasHost b) {m' : Mem} {i : Nat} {v : Var}
    {y : VarView} {rows : List (List Elem)} (hv : S[i]? = some v) (hy : b.buf.view.vars[i]? = some y) (h1 : rows.length = y.rows.length)
    (h2 : ∀ (k : Nat) (l : List Elem) (r : View), rows[k]? = some l → y.rows[k]? = some r →
      if r.sizePtr = 0 then l <+: r.elems m' v.type.size else r.elems m' v.type.size = l) :
    RowsCopied v.type.size (v.rowCaps b.caps) (S.grows b.resizable v) rows (y.rows.map fun r => r.elems m' v.type.size) := by
  obtain ⟨-, -, h3⟩ := ho.row_facts hv hy
  unfold RowsCopied
  cases hgr : S.grows b.resizable v with
  | true =>
    rw [if_pos rfl]
    refine list_eq (by rw [List.length_map, h1]) ?_
    intro k l l' x1 x2
    rw [List.getElem?_map] at x1
    obtain ⟨w, hw, rfl⟩ := Option.map_eq_some_iff.1 x1
    have := h2 k l' w x2 hw
    rw [if_neg ((h3 w (List.mem_of_getElem? hw)).2 hgr)] at this
    exact this
  | false =>
    rw [if_neg (by simp)]
    obtain ⟨f1, f2⟩ := rowsFull ho m' hv hy hgr
    refine ⟨f1, f2, ?_⟩
    intro k l l' x1 x2
    rw [List.getElem?_map] at x2
    obtain ⟨w, hw, rfl⟩ := Option.map_eq_some_iff.1 x2
    have := h2 k l w x1 hw
    rw [if_pos] at this
    · exact this
    · by_cases h0 : w.sizePtr = 0
      · exact h0
      · rw [(h3 w (List.mem_of_getElem? hw)).1 h0] at hgr
        cases hgr

/-- What the rows of a target hold after a copy, as a table. -/
theorem copied_table {S : Schema} {A : Nat} {hasHost : Bool} {b : EBuffer} (ho : EdmOk σ R G S A hasHost b) {m' : Mem} {new : Table}
    (hlen : new.length = S.length)
    (hrow : ∀ (i : Nat) (v : Var) (y : VarView) (rows : List (List Elem)), S[i]? = some v → b.buf.view.vars[i]? = some y → new[i]? = some rows →
      rows.length = y.rows.length ∧ ∀ (k : Nat) (l : List Elem) (r : View), rows[k]? = some l → y.rows[k]? = some r →
        l.length ≤ r.capacity ∧ if r.sizePtr = 0 then l <+: r.elems m' v.type.size else r.elems m' v.type.size = l) :
    EdmSizes m' b.buf.view ∧ TableReplaced S b.caps b.resizable new (tableOf m' S b.buf.view.vars) := by
  refine ⟨?_, hlen, tableOf_length ho _, ?_⟩
  · intro y hy w hw
    obtain ⟨i, v, hv, hi, -⟩ := ho.var_at hy
    have hlt : i < new.length := by rw [hlen]; exact (List.getElem?_eq_some_iff.1 hv).1
    obtain ⟨h1, h2⟩ := hrow i v y _ hv hi (List.getElem?_eq_getElem hlt)
    obtain ⟨k, hk⟩ := List.mem_iff_getElem?.1 hw
    obtain ⟨l, hl⟩ := get_same h1.symm hk
    obtain ⟨h3, h4⟩ := h2 k l w hl hk
    split at h4
    · rename_i hz
      simp [View.len, hz]
    · rw [← elems_length m' v.type.size, h4]
      exact h3
  · intro i v rows rows' hv hr hr'
    obtain ⟨y, hy, hy'⟩ := tableOf_at ho (m := m') hv
    rw [hy'] at hr'
    cases hr'
    obtain ⟨h1, h2⟩ := hrow i v y rows hv hy hr
    exact rows_copied ho hv hy h1 fun k l r hl hr => (h2 k l r hl hr).2

theorem nothing_iff {m : Mem} {v : Var} {x : VarView} (hk : x.kind = v.kind) :
    x.Nothing m ↔ NothingIn v (x.rows.map fun r => r.elems m v.type.size) := by
  unfold NothingIn
  rw [← hk]
  cases x with
  | scalar => simp [VarView.Nothing, VarView.kind]
  | vector w =>
    simp only [VarView.Nothing, VarView.kind, VarView.rows, List.map_cons, List.map_nil, List.cons.injEq, and_true, true_and]
    rw [← List.length_eq_zero_iff, elems_length]
    simp
  | jagged j => simp [VarView.Nothing, VarView.kind, VarView.rows]

theorem rows_ne_nil {m : Mem} {x : VarView} (h : ¬ x.Nothing m) : x.rows ≠ [] := by
  cases x with
  | scalar => simp [VarView.rows]
  | vector w => simp [VarView.rows]
  | jagged j => exact h

theorem fits_iff {m : Mem} {t : Nat} {x y : VarView} {caps : List Nat} (hn : ¬ x.Nothing m) (hc : y.rows.map (·.capacity) = caps) :
    x.CanHold m y ↔ RowsFitIn caps (x.rows.map fun r => r.elems m t) := by
  subst hc
  unfold VarView.CanHold RowsFitIn
  simp only [List.length_map]
  constructor
  · rintro ⟨h1, h2⟩
    refine ⟨h1.resolve_left (rows_ne_nil hn), ?_⟩
    intro i l cap hl hcap
    rw [List.getElem?_map] at hl hcap
    obtain ⟨a, ha, rfl⟩ := Option.map_eq_some_iff.1 hl
    obtain ⟨b, hb, rfl⟩ := Option.map_eq_some_iff.1 hcap
    rw [elems_length]
    exact h2 i a b ha hb
  · rintro ⟨h1, h2⟩
    refine ⟨.inr h1, ?_⟩
    intro i a b ha hb
    have := h2 i (a.elems m t) b.capacity (by rw [List.getElem?_map, ha]; rfl) (by rw [List.getElem?_map, hb]; rfl)
    rwa [elems_length] at this

/-- The size that vectors share is not the size of anything else. -/
theorem EdmOk.shared {S : Schema} {A : Nat} {hasHost : Bool} {b : EBuffer} (ho : EdmOk σ R G S A hasHost b) :
    (∀ w, VarView.vector w ∈ b.buf.view.vars → w.sizePtr = 0) ∨ ∀ y ∈ b.buf.view.vars, y.kind ≠ .jagged := by
  cases hj : S.hasJagged with
  | true =>
    left
    intro w hw
    obtain ⟨i, v, hv, hi, -⟩ := ho.var_at hw
    obtain ⟨k1, -, k2⟩ := ho.row_facts hv hi
    by_cases h0 : w.sizePtr = 0
    · exact h0
    · have := (k2 w (by simp [VarView.rows])).1 h0
      have hk : v.kind = .vector := k1.symm
      simp [Schema.grows, hk, hj] at this
  | false =>
    right
    intro y hy hk
    obtain ⟨i, v, hv, hi, -⟩ := ho.var_at hy
    obtain ⟨k1, -, -⟩ := ho.row_facts hv hi
    have : S.hasJagged = true := List.any_eq_true.2 ⟨v, List.mem_of_getElem? hv, by rw [← k1, hk]; rfl⟩
    rw [hj] at this
    cases this

/-- The table of a target after a copy of one variable after the other. -/
theorem copied_tables {S : Schema} {A : Nat} {hasHost : Bool} {b : EBuffer} (ho : EdmOk σ R G S A hasHost b) {dbg : Bool} {xs : List VarView}
    {m m' : Mem} {n : Nat} (h : Copied dbg S xs b.buf.view.vars m n m') (hx : VarsValid m S xs) (hy : VarsValid m S b.buf.view.vars) :
    EdmSizes m' b.buf.view ∧ FirstFit S b.caps n (tableOf m S xs) ∧ (n < S.length → Misfit S b.caps n (tableOf m S xs)) ∧
    TableCopied S b.caps b.resizable n (tableOf m S xs) (tableOf m S b.buf.view.vars) (tableOf m' S b.buf.view.vars) := by
  have hlen : (tableOf m S xs).length = S.length := by simp [tableOf, hx.count]
  have hget : ∀ {i : Nat} {v : Var}, S[i]? = some v → ∃ x, xs[i]? = some x ∧
      (tableOf m S xs)[i]? = some (x.rows.map fun r => r.elems m v.type.size) := by
    intro i v hv
    have hlt : i < xs.length := by rw [hx.count]; exact (List.getElem?_eq_some_iff.1 hv).1
    exact ⟨_, List.getElem?_eq_getElem hlt, tableOf_get hv (List.getElem?_eq_getElem hlt)⟩
  refine ⟨?_, ?_, ?_, hlen, tableOf_length ho _, ?_⟩
  · intro y hym w hw
    obtain ⟨i, v, hv, hi, -⟩ := ho.var_at hym
    obtain ⟨x, hxi, -⟩ := hget hv
    by_cases hn : i < n ∧ ¬ x.Nothing m
    · obtain ⟨h1, h2⟩ := h.holds i v x y hn.1 hv hxi hi hn.2
      obtain ⟨k, hk⟩ := List.mem_iff_getElem?.1 hw
      obtain ⟨z, hz⟩ := get_same (h1.1.resolve_left (rows_ne_nil hn.2)).symm hk
      by_cases h0 : w.sizePtr = 0
      · simp [View.len, h0]
      · rw [HoldsRow.len (h2 k z w hz hk) h0]
        exact h1.2 k z w hz hk
    · have hsame := h.same hx hy ho.shared hv hxi hi (by by_cases h1 : i < n <;> [exact .inr (by by_contra h2; exact hn ⟨h1, h2⟩); exact .inl (by omega)])
      rw [(elems_of_has (hy.sizes y hym w hw) hw hsame).2]
      exact hy.sizes y hym w hw
  · intro i v rows hin hv hr
    obtain ⟨x, hxi, hxt⟩ := hget hv
    obtain ⟨y, hyi, -⟩ := tableOf_at ho (m := m) hv
    rw [hxt] at hr
    cases hr
    have hk := (hx.each i v x hv hxi).1
    by_cases hn : x.Nothing m
    · exact .inl ((nothing_iff hk).1 hn)
    · exact .inr ((fits_iff hn (ho.row_facts hv hyi).2.1).1 (h.holds i v x y hin hv hxi hyi hn).1)
  · intro hlt
    rcases h.ends with ⟨e, _⟩ | ⟨x, y, -, hxi, hyi, hn, hc, -⟩
    · omega
    · have hv := List.getElem?_eq_getElem hlt
      have hk := (hx.each n _ x hv hxi).1
      exact ⟨_, _, hv, tableOf_get hv hxi, fun hN => hn ((nothing_iff hk).2 hN),
        fun hF => hc ((fits_iff hn (ho.row_facts hv hyi).2.1).2 hF)⟩
  · intro i v rows rows' hv hr hr'
    obtain ⟨x, hxi, hxt⟩ := hget hv
    obtain ⟨y, hyi, hyt⟩ := tableOf_at ho (m := m') hv
    rw [hxt] at hr
    cases hr
    rw [hyt] at hr'
    cases hr'
    have hk := (hx.each i v x hv hxi).1
    rw [← nothing_iff hk]
    constructor
    · intro hin hn
      obtain ⟨h1, h2⟩ := h.holds i v x y hin hv hxi hyi hn
      refine rows_copied ho hv hyi (by rw [List.length_map]; exact h1.1.resolve_left (rows_ne_nil hn)) ?_
      intro k l w hl hw
      rw [List.getElem?_map] at hl
      obtain ⟨z, hz, rfl⟩ := Option.map_eq_some_iff.1 hl
      exact h2 k z w hz hw
    · intro hi
      rw [tableOf_get hv hyi]
      simp only [Option.some.injEq]
      apply List.map_congr_left
      intro w hw
      exact (elems_of_has (hy.sizes y (List.mem_of_getElem? hyi) w hw) hw (h.same hx hy ho.shared hv hxi hyi hi)).1.symm

/-- The rows of buffers of the same capacities correspond. -/
theorem rows_alike {S : Schema} {A : Nat} {hasHost hasHost' : Bool} {a b : EBuffer} (ha : EdmOk σ R G S A hasHost a)
    (hb : EdmOk σ R G S A hasHost' b) (hc : a.caps = b.caps) {i : Nat} {v : Var} {x y : VarView} (hv : S[i]? = some v)
    (hx : a.buf.view.vars[i]? = some x) (hy : b.buf.view.vars[i]? = some y) :
    x.rows.length = y.rows.length ∧ ∀ (k : Nat) (w z : View), x.rows[k]? = some w → y.rows[k]? = some z → w.capacity = z.capacity := by
  obtain ⟨-, h1, -⟩ := ha.row_facts hv hx
  obtain ⟨-, h2, -⟩ := hb.row_facts hv hy
  rw [hc, ← h2] at h1
  refine ⟨by simpa using congrArg List.length h1, ?_⟩
  intro k w z hw hz
  have := congrArg (fun l => l[k]?) h1
  simpa [hw, hz] using this

theorem estep_copy (hl : FamLawful R G ups u0) (h : EInv c R G ups u0 p q) {i j : Nat} {out : Nat → Nat → Prop}
    (hf : (EdmOp.copy i j).Fits c R G out (p.store c q)) : EStepOk c R G ups u0 p q (.copy i j) := by
  obtain ⟨hij, hS, caps, caps', r, r', d, d', t, old, hi, hj, halt⟩ := hf
  obtain ⟨a, a1, a2, a3, a4, a5, a6, a7, a8, a9⟩ := h.has hi
  obtain ⟨b, b1, b2, b3, b4, b5, b6, b7, b8⟩ := h.get hj
  rw [hS] at a5
  obtain ⟨f1, f2, f3, f4, f5, f6, f7, f8⟩ := a5.facts
  obtain ⟨g1, g2, g3, g4, g5, g6, g7, g8⟩ := b5.facts
  have hdis : Blk.Disjoint ⟨a.buf.mem.ptr, a.buf.mem.size, maxAlign⟩ ⟨b.buf.mem.ptr, b.buf.mem.size, maxAlign⟩ := by
    have := h.pairwise hl
    rw [EPipe.owned_eq, List.pairwise_flatMap] at this
    exact pairwise_mem (r := fun e f : Nat × EBuffer => ∀ x ∈ e.2.blocks (c.source e.1),
      ∀ y ∈ f.2.blocks (c.source f.1), x.2.Disjoint y.2)
      (fun e f h x hx y hy => (h y hy x hx).symm) this.2 a2 b2 (fun hc => hij (congrArg Prod.fst hc))
      (c.source i false, a.blk) (by simp [EBuffer.blocks, EdmBuffer.owned, f6, EBuffer.blk])
      (c.source j false, b.blk) (by simp [EBuffer.blocks, EdmBuffer.owned, g6, EBuffer.blk])
  have hq : (!b.resizable || ((EdmOp.copy i j).ready q).known j) = true := by simp [EdmOp.ready]
  have hqn : ∀ n, n ≠ j → ((EdmOp.copy i j).ready q).known n = q.known n := fun n hn => by simp [EdmOp.ready, hn]
  unfold EStepOk
  cases hob : oneBlock a.buf.view b.buf.view with
  | true =>
    -- the capacities are the same
    have hcaps : caps = caps' := by
      rcases halt with ⟨-, hc | hd⟩ | ⟨hc, -⟩
      · exact hc
      · have := differ_oneBlock (n := a.buf.mem.size) (n' := b.buf.mem.size) a5.ok b5.ok f1 g1 f2 g2 f4 g4 (by rw [a3, b3]; exact hd)
        rw [hob] at this
        cases this
      · exact hc
    subst hcaps
    have hcc : a.caps = b.caps := a3.trans b3.symm
    rw [hcc] at f1 f2 f7 f8
    obtain ⟨m', e1, e2, e3⟩ := buffers_copy b5.ok f1 g1 f2 g2 f3 g3 f4 g4 f6 g6 f7 g7 f8 g8 hdis c.dbg p.mem (a6.sizes a7)
      (fun hb => by rw [hob] at hb; cases hb)
    obtain ⟨s1, s2⟩ := copied_table b5 (m' := m') (new := tableOf p.mem (c.schema j) a.buf.view.vars) (tableOf_length a5 _) (by
      intro n v y rows hv hy hr
      obtain ⟨x, hx, hx'⟩ := tableOf_at a5 (m := p.mem) hv
      rw [hx'] at hr
      cases hr
      obtain ⟨k1, k2⟩ := rows_alike a5 b5 hcc hv hx hy
      refine ⟨by rw [List.length_map]; exact k1, ?_⟩
      intro k l w hl hw
      rw [List.getElem?_map] at hl
      obtain ⟨z, hz, rfl⟩ := Option.map_eq_some_iff.1 hl
      refine ⟨?_, e2 n v x y hv hx hy k z w hz hw⟩
      rw [elems_length, ← k2 k z w hz hw]
      exact a6.sizes a7 x (List.mem_of_getElem? hx) z (List.mem_of_getElem? hz))
    have hex : p.exec c ups (.copy i j) = (.ok .unit, { p with mem := m' }) := by
      rw [← hS] at e1
      simp only [EPipe.exec, a1, b1, EPipe.onMem, e1, Res.map]
    obtain ⟨i1, i2⟩ := h.changeData hl b1 (m' := m') e3 (q' := (EdmOp.copy i j).ready q) hqn rfl (fun _ => s1)
    rw [hex]
    refine ⟨i1, ?_⟩
    show EdmStep c (p.store c q) (.copy i j) (.ok .unit) (EPipe.store c { p with mem := m' } ((EdmOp.copy i j).ready q))
    rw [i2, if_pos hq, ← b8, b3, b4]
    refine .copyBlock i j hi hj ?_
    rw [a8, hS, ← b3, ← b4]
    exact s2
  | false =>
    -- the elements of the target are known
    have hold : old = some (tableOf p.mem (c.schema j) b.buf.view.vars) ∧ (!b.resizable || q.known j) = true := by
      rcases halt with ⟨hsome, -⟩ | ⟨hcaps, hr, hroom, hG, hal⟩
      · rw [b7] at hsome ⊢
        split at hsome
        · rename_i hkn
          exact ⟨if_pos hkn, hkn⟩
        · cases hsome
      · exfalso
        subst hcaps
        have hcc : a.caps = b.caps := a3.trans b3.symm
        have hr' : a.resizable = b.resizable := by rw [a4, b4]; exact hr
        rw [hcc, hr'] at f1 f2
        have := buffers_oneBlock b5.ok hal f1 g1 f2 g2 f4 g4 f6 g6 (f5 hG) (g5 hG) (by
          obtain ⟨v, hv, hv'⟩ := hroom
          refine ⟨v, hv, ?_⟩
          unfold Var.rowCaps at hv'
          cases hk : v.kind with
          | scalar => exact .inl rfl
          | vector =>
            rw [hk] at hv'
            refine .inr (.inl ⟨rfl, fun hc => hv' ?_⟩)
            rw [← b3, hc]
            rfl
          | jagged =>
            rw [hk] at hv'
            exact .inr (.inr ⟨rfl, by rw [b3]; exact hv'⟩))
        rw [hob] at this
        cases this
    obtain ⟨hold, hkn⟩ := hold
    have va : VarsValid p.mem (c.schema j) a.buf.view.vars := ⟨a5.varsPlaced, a6.sizes a7⟩
    have vb : VarsValid p.mem (c.schema j) b.buf.view.vars := ⟨b5.varsPlaced, b6.sizes hkn⟩
    have hsep : ∀ x, ¬ (VarsHave (c.schema j) a.buf.view.vars x ∧ VarsHave (c.schema j) b.buf.view.vars x) := fun x ⟨x1, x2⟩ =>
      hdis.at x ⟨a5.placed.has_inside x1, b5.placed.has_inside x2⟩
    obtain ⟨n, m', hcop, hres⟩ := copyEdm_cases (dbg := c.dbg) va vb hsep hob
    obtain ⟨s1, s2, s3, s4⟩ := copied_tables b5 hcop va vb
    have e3 : ∀ x, ¬ EdmHas (c.schema j) b.buf.view x → m' x = p.mem x := fun x hx =>
      hcop.frame x fun k v z y _ hv _ hy _ hc => hx (.inl ⟨k, v, y, hv, hy, hc⟩)
    obtain ⟨i1, i2⟩ := h.changeData hl b1 (m' := m') e3 (q' := (EdmOp.copy i j).ready q) hqn rfl (fun _ => s1)
    have hjh : (p.store c q).Has j caps' r' d' (tableOf p.mem (c.schema j) b.buf.view.vars) := by
      unfold EStore.Has
      rw [hj, hold]
    rw [if_pos hq, ← b8, b3, b4] at i2
    rw [b3] at s2 s3 s4
    rw [b4] at s4
    have hta : t = tableOf p.mem (c.schema j) a.buf.view.vars := by rw [a8, hS]
    rw [← hta] at s2 s3 s4
    rcases hres with ⟨hn, hres⟩ | ⟨hn, hres⟩
    · have hex : p.exec c ups (.copy i j) = (.ok .unit, { p with mem := m' }) := by
        rw [← hS] at hres
        simp only [EPipe.exec, a1, b1, EPipe.onMem, hres, Res.map]
      rw [hex]
      refine ⟨i1, ?_⟩
      show EdmStep c (p.store c q) (.copy i j) (.ok .unit) (EPipe.store c { p with mem := m' } ((EdmOp.copy i j).ready q))
      rw [i2]
      rw [hn] at s2 s4
      exact .copy i j hi hjh s2 s4
    · have hex : p.exec c ups (.copy i j) = (.lengthError, { p with mem := m' }) := by
        rw [← hS] at hres
        simp only [EPipe.exec, a1, b1, EPipe.onMem, hres, Res.map]
      rw [hex]
      refine ⟨i1, ?_⟩
      show EdmStep c (p.store c q) (.copy i j) .lengthError (EPipe.store c { p with mem := m' } ((EdmOp.copy i j).ready q))
      rw [i2]
      exact .copyRefused i j n hi hjh s2 (s3 hn) s4

/-! ## Host containers -/

theorem putRows_elems' {t : Nat} : ∀ {ats : List Nat} {rows : List (List Elem)} {m : Mem}, (∀ l ∈ rows, ∀ e ∈ l, e.length = t) →
    (∀ (i j a b : Nat) (l l' : List Elem), i < j → ats[i]? = some a → ats[j]? = some b → rows[i]? = some l →
      rows[j]? = some l' → ∀ x, ¬ ((a ≤ x ∧ x < a + l.length * t) ∧ b ≤ x ∧ x < b + l'.length * t)) →
    ∀ (i a : Nat) (l : List Elem), ats[i]? = some a → rows[i]? = some l →
      (View.mk l.length 0 a).elems (JPipe.putRows t m ats rows) t = l := by
  intro ats
  induction ats with
  | nil => intro rows m _ _ i a l h; simp at h
  | cons a ats ih =>
    intro rows m hs hd i a' l' h1 h2
    cases rows with
    | nil => simp at h2
    | cons l rows =>
      unfold JPipe.putRows
      cases i with
      | succ i =>
        exact ih (fun l hl => hs l (List.mem_cons_of_mem _ hl)) (fun i j a b l l' hij x1 x2 x3 x4 =>
          hd (i + 1) (j + 1) a b l l' (by omega) (by simpa using x1) (by simpa using x2) (by simpa using x3) (by simpa using x4))
          i a' l' (by simpa using h1) (by simpa using h2)
      | zero =>
        simp only [List.getElem?_cons_zero, Option.some.injEq] at h1 h2
        subst h1
        subst h2
        rw [elems_congr (m := Pipe.putElems t m a l)]
        · exact putElems_elems (hs l List.mem_cons_self)
        · simp [View.len]
        · intro x hx
          rcases hx with ⟨x1, x2⟩ | hx
          · refine putRows_other fun j b l' y1 y2 hc => ?_
            exact hd 0 (j + 1) a b l l' (by omega) rfl (by simpa using y1) rfl (by simpa using y2) x ⟨⟨x1, x2⟩, hc⟩
          · exact absurd rfl hx.1

theorem putTable_other : ∀ {S : Schema} {ats : List (List Nat)} {tbl : Table} {m : Mem} {x : Nat},
    (∀ (i : Nat) (v : Var) (as : List Nat) (ls : List (List Elem)), S[i]? = some v → ats[i]? = some as → tbl[i]? = some ls →
      ∀ (k a : Nat) (l : List Elem), as[k]? = some a → ls[k]? = some l → ¬ (a ≤ x ∧ x < a + l.length * v.type.size)) →
    putTable m S ats tbl x = m x := by
  intro S
  induction S with
  | nil => intros; rfl
  | cons v S ih =>
    intro ats tbl m x h
    cases ats with
    | nil => rfl
    | cons as ats =>
      cases tbl with
      | nil => rfl
      | cons ls tbl =>
        unfold putTable
        rw [ih fun i v as ls h1 h2 h3 => h (i + 1) v as ls (by simpa using h1) (by simpa using h2) (by simpa using h3)]
        exact putRows_other fun k a l h1 h2 => h 0 v as ls rfl rfl rfl k a l h1 h2

theorem putTable_elems : ∀ {S : Schema} {ats : List (List Nat)} {tbl : Table} {m : Mem},
    (∀ (i : Nat) (v : Var) (as : List Nat) (ls : List (List Elem)), S[i]? = some v → ats[i]? = some as → tbl[i]? = some ls →
      (∀ l ∈ ls, ∀ e ∈ l, e.length = v.type.size) ∧
      ∀ (k k' a b : Nat) (l l' : List Elem), k < k' → as[k]? = some a → as[k']? = some b → ls[k]? = some l → ls[k']? = some l' →
        ∀ x, ¬ ((a ≤ x ∧ x < a + l.length * v.type.size) ∧ b ≤ x ∧ x < b + l'.length * v.type.size)) →
    (∀ (i j : Nat) (v w : Var) (as bs : List Nat) (ls ls' : List (List Elem)), i < j → S[i]? = some v → S[j]? = some w → ats[i]? = some as →
      ats[j]? = some bs → tbl[i]? = some ls → tbl[j]? = some ls' → ∀ (k k' a b : Nat) (l l' : List Elem), as[k]? = some a →
      bs[k']? = some b → ls[k]? = some l → ls'[k']? = some l' →
        ∀ x, ¬ ((a ≤ x ∧ x < a + l.length * v.type.size) ∧ b ≤ x ∧ x < b + l'.length * w.type.size)) →
    ∀ (i : Nat) (v : Var) (as : List Nat) (ls : List (List Elem)), S[i]? = some v → ats[i]? = some as → tbl[i]? = some ls →
      ∀ (k a : Nat) (l : List Elem), as[k]? = some a → ls[k]? = some l →
      (View.mk l.length 0 a).elems (putTable m S ats tbl) v.type.size = l := by
  intro S
  induction S with
  | nil => intro ats tbl m _ _ i v as ls h; simp at h
  | cons v S ih =>
    intro ats tbl m h1 h2 i v' as' ls' hv ha ht k a l hk hl
    cases ats with
    | nil => simp at ha
    | cons as ats =>
      cases tbl with
      | nil => simp at ht
      | cons ls tbl =>
        unfold putTable
        cases i with
        | succ i =>
          exact ih (fun i v as ls x1 x2 x3 => h1 (i + 1) v as ls (by simpa using x1) (by simpa using x2) (by simpa using x3))
            (fun i j v w as bs ls ls' hij x1 x2 x3 x4 x5 x6 => h2 (i + 1) (j + 1) v w as bs ls ls' (by omega) (by simpa using x1)
              (by simpa using x2) (by simpa using x3) (by simpa using x4) (by simpa using x5) (by simpa using x6))
            i v' as' ls' (by simpa using hv) (by simpa using ha) (by simpa using ht) k a l hk hl
        | zero =>
          simp only [List.getElem?_cons_zero, Option.some.injEq] at hv ha ht
          subst hv
          subst ha
          subst ht
          obtain ⟨s1, s2⟩ := h1 0 v as ls rfl rfl rfl
          rw [elems_congr (m := JPipe.putRows v.type.size m as ls)]
          · exact putRows_elems' s1 s2 k a l hk hl
          · simp [View.len]
          · intro x hx
            rcases hx with ⟨x1, x2⟩ | hx
            · refine putTable_other fun j w bs ls' y1 y2 y3 k' b l' z1 z2 hc => ?_
              exact h2 0 (j + 1) v w as bs ls ls' (by omega) rfl (by simpa using y1) rfl (by simpa using y2) rfl (by simpa using y3)
                k k' a b l l' hk z1 hl z2 x ⟨⟨x1, x2⟩, hc⟩
            · exact absurd rfl hx.1

/-- The arrays of a host container. -/
theorem hostArrays_tbl {tbl : Table} {ats : List (List Nat)} {i : Nat} {ls : List (List Elem)} {as : List Nat} (h1 : tbl[i]? = some ls)
    (h2 : ats[i]? = some as) :
    (hostArrays (tbl.map fun (ls : List (List Elem)) => ls.map List.length) ats)[i]? = some (JPipe.hostRows ls as) := by
  unfold hostArrays JPipe.hostRows
  rw [List.getElem?_zipWith, List.getElem?_map, h1, h2]
  simp only [Option.map_some, List.zipWith_map_left]

theorem hostArrays_get' {tbl : Table} {ats : List (List Nat)} {i : Nat} {rs : List View}
    (h : (hostArrays (tbl.map fun (ls : List (List Elem)) => ls.map List.length) ats)[i]? = some rs) :
    ∃ ls as, tbl[i]? = some ls ∧ ats[i]? = some as ∧ rs = JPipe.hostRows ls as := by
  have h' := h
  unfold hostArrays at h
  rw [List.getElem?_zipWith, List.getElem?_map] at h
  cases h1 : tbl[i]? with
  | none => rw [h1] at h; simp at h
  | some ls =>
    cases h2 : ats[i]? with
    | none => rw [h1, h2] at h; simp at h
    | some as =>
      rw [hostArrays_tbl h1 h2] at h'
      exact ⟨ls, as, rfl, rfl, (Option.some.inj h').symm⟩

theorem hostRows_at {ls : List (List Elem)} {as : List Nat} {k a : Nat} {l : List Elem} (h1 : ls[k]? = some l) (h2 : as[k]? = some a) :
    (JPipe.hostRows ls as)[k]? = some ⟨l.length, 0, a⟩ := by
  unfold JPipe.hostRows
  rw [List.getElem?_zipWith, h1, h2]

theorem HostTable.away {S : Schema} {ats : List (List Nat)} {tbl : Table} (h : HostTable (p.Outside c) S ats tbl) {x : Nat}
    (hx : ArraysHave S (hostArrays (tbl.map fun (ls : List (List Elem)) => ls.map List.length) ats) x) : ¬ InBlocks (p.owned c) x := by
  obtain ⟨i, v, rs, hv, hr, w, hw, hx⟩ := hx
  have := h.outside i v rs hv hr w hw
  rintro ⟨e, he, e1, e2⟩
  have := this e he
  rcases hx with ⟨x1, x2⟩ | hx
  · omega
  · obtain ⟨ls, as, -, -, rfl⟩ := hostArrays_get' hr
    obtain ⟨k, hk⟩ := List.mem_iff_getElem?.1 hw
    obtain ⟨l, a, -, -, rfl⟩ := hostRows_get hk
    exact hx.1 rfl

theorem HostTable.has {S : Schema} {ats : List (List Nat)} {tbl : Table} {i : Nat} {v : Var} {as : List Nat} {ls : List (List Elem)}
    (hv : S[i]? = some v) (ha : ats[i]? = some as) (ht : tbl[i]? = some ls) {k a : Nat} {l : List Elem} (hk : as[k]? = some a)
    (hl : ls[k]? = some l) {x : Nat} (hx : a ≤ x ∧ x < a + l.length * v.type.size) :
    ArraysHave S (hostArrays (tbl.map fun (ls : List (List Elem)) => ls.map List.length) ats) x :=
  ⟨i, v, _, hv, hostArrays_tbl ht ha, _, List.mem_of_getElem? (hostRows_at hl hk), .inl hx⟩

theorem HostTable.elems {out : Nat → Nat → Prop} {S : Schema} {ats : List (List Nat)} {tbl : Table} (h : HostTable out S ats tbl)
    (hs : TableHas S (fun v rows => ∀ l ∈ rows, ∀ e ∈ l, e.length = v.type.size) tbl) (m : Mem) {i : Nat} {v : Var} {as : List Nat}
    {ls : List (List Elem)} (hv : S[i]? = some v) (ha : ats[i]? = some as) (ht : tbl[i]? = some ls) {k a : Nat} {l : List Elem}
    (hk : as[k]? = some a) (hl : ls[k]? = some l) : (View.mk l.length 0 a).elems (putTable m S ats tbl) v.type.size = l := by
  refine putTable_elems ?_ ?_ i v as ls hv ha ht k a l hk hl
  · intro i v as ls hv ha ht
    refine ⟨hs.2 i v ls hv ht, ?_⟩
    intro k k' a b l l' hkk h1 h2 h3 h4 x ⟨x1, x2⟩
    have := (h.placed.each i v _ hv (hostArrays_tbl ht ha)).1
    rw [List.pairwise_iff_getElem] at this
    obtain ⟨g1, e1⟩ := List.getElem?_eq_some_iff.1 (hostRows_at h3 h1)
    obtain ⟨g2, e2⟩ := List.getElem?_eq_some_iff.1 (hostRows_at h4 h2)
    have := this k k' g1 g2 hkk
    rw [e1, e2] at this
    exact this x ⟨.inl x1, .inl x2⟩
  · intro i j v w as bs ls ls' hij hv hw ha hb ht ht' k k' a b l l' h1 h2 h3 h4 x ⟨x1, x2⟩
    exact h.placed.apart i j v w _ _ (by omega) hv hw (hostArrays_tbl ht ha) (hostArrays_tbl ht' hb) x
      ⟨⟨_, List.mem_of_getElem? (hostRows_at h3 h1), .inl x1⟩, ⟨_, List.mem_of_getElem? (hostRows_at h4 h2), .inl x2⟩⟩

theorem shape_get {ats : List (List Nat)} {tbl : Table} (h : ats.map List.length = tbl.map List.length) {i : Nat} {ls : List (List Elem)}
    (hi : tbl[i]? = some ls) : ∃ as, ats[i]? = some as ∧ as.length = ls.length := by
  have := congrArg (fun l => l[i]?) h
  simp only [List.getElem?_map, hi, Option.map_some] at this
  obtain ⟨as, h1, h2⟩ := Option.map_eq_some_iff.1 this
  exact ⟨as, h1, h2⟩

theorem data_inBlocks (h : EInv c R G ups u0 p q) {k : Nat} {b : EBuffer} (hb : (k, b) ∈ p.bufs) {x : Nat}
    (hx : VarsHave (c.schema k) b.buf.view.vars x) : InBlocks (p.owned c) x := by
  have := (h.bufs _ hb).data_in (.inl hx)
  rw [EBuffer.owns_iff (src := c.source k)] at this
  obtain ⟨e, he, h1⟩ := this
  exact ⟨e, by rw [EPipe.owned_eq]; exact List.mem_flatMap.2 ⟨_, hb, he⟩, h1⟩

/-- The table in the arrays of a host container. -/
theorem HostTable.tableOf {S : Schema} {ats : List (List Nat)} {tbl : Table} {out : Nat → Nat → Prop} (h : HostTable out S ats tbl)
    (hs : TableHas S (fun v rows => ∀ l ∈ rows, ∀ e ∈ l, e.length = v.type.size) tbl) {n : Nat}
    (hn : HostSizes S n (tbl.map fun (ls : List (List Elem)) => ls.map List.length)) (m : Mem) :
    tableOf (putTable m S ats tbl) S (hostVars S (tbl.map fun (ls : List (List Elem)) => ls.map List.length) ats) = tbl := by
  have hf : ats.map (·.length) = (tbl.map fun (ls : List (List Elem)) => ls.map List.length).map (·.length) := by
    rw [h.shape, List.map_map]; apply List.map_congr_left; intro ls _; simp
  refine list_eq (by simp [Vecmem.tableOf, hostVars_length hn hf, hs.1]) ?_
  intro i rows rows' h1 h2
  have hlt : i < S.length := by rw [← hs.1]; exact (List.getElem?_eq_some_iff.1 h2).1
  have hv := List.getElem?_eq_getElem hlt
  obtain ⟨ns, as, g1, g2, g3, g4, g5, g6, g7⟩ := hostVars_at hn hf hv
  rw [tableOf_get hv g4] at h1
  cases h1
  rw [g6]
  rw [List.getElem?_map, h2] at g1
  cases g1
  refine list_eq (by simp at g3 ⊢; omega) ?_
  intro k l l' k1 k2
  rw [List.getElem?_map] at k1
  obtain ⟨w, hw, rfl⟩ := Option.map_eq_some_iff.1 k1
  obtain ⟨a, ha⟩ := get_same (show rows'.length = as.length by simp at g3; omega) k2
  rw [List.getElem?_zipWith, List.getElem?_map, k2, ha] at hw
  cases hw
  exact h.elems hs m hv g2 h2 ha k2

theorem estep_upload (hl : FamLawful R G ups u0) (hc : c.Wf) (h : EInv c R G ups u0 p q) {ats : List (List Nat)} {tbl : Table} {k : Nat}
    (hf : (EdmOp.upload ats tbl k).Fits c R G (p.Outside c) (p.store c q)) : EStepOk c R G ups u0 p q (.upload ats tbl k) := by
  obtain ⟨ht, ⟨n, hn⟩, hsz, caps, r, d, old, hk⟩ := hf
  obtain ⟨h', hst⟩ := h.same (m' := putTable p.mem (c.schema k) ats tbl) (fun x hx => putTable_other
    fun i v as ls hv ha hls k a l h1 h2 hcx => ht.away (HostTable.has hv ha hls h1 h2 hcx) hx)
  rw [← hst] at hk
  obtain ⟨b, b1, b2, b3, b4, b5, b6, b7, b8, b9⟩ := h'.has hk
  simp only at b1 b2 b6 b8
  have htab := ht.tableOf hsz hn p.mem
  generalize hm1 : putTable p.mem (c.schema k) ats tbl = m1 at *
  have hS : c.schema k ≠ [] := b5.schema
  have hsize : ∀ v ∈ c.schema k, 0 < v.type.size := fun v hv => by
    obtain ⟨i, hi⟩ := List.mem_iff_getElem?.1 hv
    exact ((hc.2 k).2 i v hi).1.1
  have hfl : ats.map (·.length) = (tbl.map fun (ls : List (List Elem)) => ls.map List.length).map (·.length) := by
    rw [ht.shape, List.map_map]; apply List.map_congr_left; intro ls _; simp
  have vb : VarsValid m1 (c.schema k) b.buf.view.vars := ⟨b5.varsPlaced, b6.sizes b7⟩
  obtain ⟨z, m', hcop, hres⟩ := copyEdmFromHost_cases (dbg := c.dbg) (m := m1) hsize (hc.2 k).1 hn hfl ht.placed vb
    (fun x ⟨x1, x2⟩ => ht.away x1 (data_inBlocks h b2 x2))
  obtain ⟨s1, s2, s3, s4⟩ := copied_tables b5 hcop (hostVars_placed (m := m1) hsize hn hfl ht.placed) vb
  rw [htab] at s2 s3 s4
  rw [← b8] at s4
  have e3 : ∀ x, ¬ EdmHas (c.schema k) b.buf.view x → m' x = m1 x := fun x hx =>
    hcop.frame x fun k v z y _ hv _ hy _ hc => hx (.inl ⟨k, v, y, hv, hy, hc⟩)
  obtain ⟨i1, i2⟩ := h'.changeData hl b1 (m' := m') e3 (q' := q) (fun _ _ => rfl) rfl (fun _ => s1)
  have i2' : EPipe.store c { p with mem := m' } q = _ := i2
  rw [hst, if_pos b7, ← b9, b3, b4] at i2'
  rw [b3] at s2 s3 s4
  rw [b4] at s4
  rw [hst] at hk
  unfold EStepOk
  rcases hres with ⟨hz, hres⟩ | ⟨hz, hres⟩
  · have hex : p.exec c ups (.upload ats tbl k) = (.ok .unit, { p with mem := m' }) := by
      simp only [EPipe.exec, b1, EPipe.onMem, hm1, hres, Res.map]
    rw [hex]
    refine ⟨i1, ?_⟩
    show EdmStep c (p.store c q) (.upload ats tbl k) (.ok .unit) (EPipe.store c { p with mem := m' } q)
    rw [i2']
    rw [hz] at s2 s4
    exact .upload ats tbl k hk s2 s4
  · have hex : p.exec c ups (.upload ats tbl k) = (.lengthError, { p with mem := m' }) := by
      simp only [EPipe.exec, b1, EPipe.onMem, hm1, hres, Res.map]
    rw [hex]
    refine ⟨i1, ?_⟩
    show EdmStep c (p.store c q) (.upload ats tbl k) .lengthError (EPipe.store c { p with mem := m' } q)
    rw [i2']
    exact .uploadRefused ats tbl k z hk s2 (s3 hz) s4

theorem estep_download (h : EInv c R G ups u0 p q) (hc : c.Wf) {k : Nat} {ats : List (List Nat)}
    (hf : (EdmOp.download k ats).Fits c R G (p.Outside c) (p.store c q)) : EStepOk c R G ups u0 p q (.download k ats) := by
  obtain ⟨caps, r, d, t, hk, ht⟩ := hf
  obtain ⟨b, b1, b2, b3, b4, b5, b6, b7, b8, b9⟩ := h.has hk
  have hval : VarsValid p.mem (c.schema k) b.buf.view.vars := ⟨b5.varsPlaced, b6.sizes b7⟩
  obtain ⟨o1, o2⟩ := buffer_oneSize p.mem b5.facts.1 b5.placed
  have hrs : rowSizes p.mem b.buf.view.vars = t.map fun (ls : List (List Elem)) => ls.map List.length := by
    apply List.ext_getElem?
    intro i
    rw [b8]
    unfold rowSizes
    cases hv : (c.schema k)[i]? with
    | none =>
      have h1 : b.buf.view.vars[i]? = none := by
        rw [List.getElem?_eq_none_iff] at hv ⊢
        rw [b5.placed.count]
        exact hv
      have h2 : (tableOf p.mem (c.schema k) b.buf.view.vars)[i]? = none := by
        rw [List.getElem?_eq_none_iff] at hv ⊢
        rw [tableOf_length b5]
        exact hv
      rw [List.getElem?_map, List.getElem?_map, h1, h2]
      rfl
    | some v =>
      obtain ⟨x, hx, hx'⟩ := tableOf_at b5 (m := p.mem) hv
      rw [List.getElem?_map, List.getElem?_map, hx, hx']
      simp only [Option.map_some, List.map_map, Option.some.injEq]
      apply List.map_congr_left
      intro w _
      simp only [Function.comp, elems_length]
  rcases c44_to_host c.dbg p.mem (c.schema k) b.buf.view (fun _ => ats) hval o1 (hc.2 k).1 ats rfl
    (by rw [hrs, ht.shape, List.map_map]; apply List.map_congr_left; intro ls _; simp) _ (by rw [hrs]) ht.placed
    (fun x ⟨x1, x2⟩ => ht.away x2 (data_inBlocks h b2 x1)) with ⟨-, m', e1, e2, e3⟩ | ⟨e, -⟩
  · obtain ⟨i1, i2⟩ := h.same (m' := m') (fun x hx => e3 x fun hcx => ht.away hcx hx)
    have hvalue : (hostSizes c.dbg (c.schema k) b.buf.view).value p.mem = .ok (rowSizes p.mem b.buf.view.vars) :=
      (Prog.Does.value (hostSizes_does hval o1)).1
    have htab : hostTable m' (c.schema k) (rowSizes p.mem b.buf.view.vars) ats = t := by
      rw [hrs]
      apply List.ext_getElem?
      intro i
      unfold hostTable
      cases hv : (c.schema k)[i]? with
      | none =>
        have h2 : t[i]? = none := by
          rw [List.getElem?_eq_none_iff] at hv ⊢
          rw [b8, tableOf_length b5]
          exact hv
        rw [List.getElem?_zipWith, hv, h2]
      | some v =>
        obtain ⟨x, hx, hx'⟩ := tableOf_at b5 (m := p.mem) hv
        rw [← b8] at hx'
        obtain ⟨as, ha, hal⟩ := shape_get ht.shape hx'
        obtain ⟨rs, hrs, hre⟩ := e2 i v x hv hx
        rw [hostArrays_tbl hx' ha] at hrs
        cases hrs
        have hz : (List.zip (t.map fun (ls : List (List Elem)) => ls.map List.length) ats)[i]? =
            some ((x.rows.map fun r => r.elems p.mem v.type.size).map List.length, as) :=
          List.getElem?_zip_eq_some.2 ⟨by rw [List.getElem?_map, hx']; rfl, ha⟩
        rw [List.getElem?_zipWith, hv, hz, hx']
        simp only [Option.some.injEq]
        refine Eq.trans ?_ hre
        unfold JPipe.hostRows
        rw [List.map_zipWith, List.zipWith_map_left]
    unfold EStepOk
    rw [show (EdmOp.download k ats).ready q = q from rfl]
    simp only [EPipe.exec, b1, hvalue, e1, Res.map]
    rw [htab]
    refine ⟨i1, ?_⟩
    rw [i2]
    exact .download k ats hk
  · exact absurd o2 e

end Vecmem
