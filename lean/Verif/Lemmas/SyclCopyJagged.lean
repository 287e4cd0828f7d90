import Verif.Lemmas.SyclCopySafe

/-! # Copies of jagged vectors on a queue that is not in order -/

namespace Vecmem

open IntMath Prog

variable {β γ : Type}

/-! ## setting sizes -/

theorem ssafe_setSizes {slot : Nat} {sizes : List Nat} {vs : List View} {s : DState} {B : SBook} (hB : B.pend = [])
    (hr : ((setSizes slot sizes vs).run s).1 ≠ .ub) :
    SSafe (setSizes slot sizes vs) (fun r s' B' => ∃ r0, (setSizes slot sizes vs).run s = (r0, s') ∧
      SameOutcome AnyEvent r r0 ∧ s'.locals.length = s.locals.length ∧
      (∀ e, r = .ok e → SWaits e B' ∧ sizes.length = vs.length ∧ (∃ b, checkSizes true vs sizes = .ok b) ∧
        (B'.pend = [] ∨ ∃ i, B'.pend = [(i, .store slot 0 (wrap64 (4 * sizes.length)) (vs.getD 0 ⟨0, 0, 0⟩).sizePtr)] ∧
          checkSizes true vs sizes = .ok true ∧ vs ≠ [])) ∧
      ((∀ e, r ≠ .ok e) → B'.pend = [])) s B := by
  have hnil : ∀ e, SWaits e B := fun e x hx => by rw [hB] at hx; cases hx
  unfold setSizes at hr ⊢
  split at hr
  · rename_i h
    rw [if_pos h]
    refine ⟨by simp, .ok 0, rfl, .inl ⟨_, _, rfl, rfl, trivial⟩, rfl, fun e _ => ⟨hnil e, by omega, ?_, .inl hB⟩, fun _ => hB⟩
    rw [List.length_eq_zero_iff.1 h.1, List.length_eq_zero_iff.1 h.2]
    exact ⟨true, rfl⟩
  · rename_i h
    rw [if_neg h]
    split at hr
    · rename_i h2
      rw [if_pos h2]
      exact ⟨by simp, .lengthError, rfl, .inr ⟨by simp, rfl⟩, rfl, by simp, fun _ => hB⟩
    · rename_i h2
      rw [if_neg h2]
      have hlen : sizes.length = vs.length := by omega
      cases hc : checkSizes true vs sizes with
      | ok b =>
        rw [hc] at hr
        simp only [Prog.bind] at hr ⊢
        cases b with
        | true =>
          simp only [if_true] at hr ⊢
          obtain ⟨t, h3, h4⟩ := exec_of_run hr
          refine ⟨t, h3, by simp [hB], by simp, .ok t.done, by simp only [run, h3]; rfl, .inl ⟨_, _, rfl, rfl, trivial⟩,
            (exec_done h3).2, fun e he => ?_, by simp⟩
          simp only [Res.ok.injEq] at he
          subst he
          refine ⟨fun x hx => ⟨by simp, ?_⟩, hlen, ⟨true, rfl⟩, .inr ⟨B.issued, by simp [hB], by trivial, ?_⟩⟩
          · simp only [hB, List.nil_append, List.mem_singleton] at hx
            subst hx
            simp
          · rintro rfl
            simp only [List.length_nil] at hlen
            exact h ⟨hlen, rfl⟩
        | false =>
          exact ⟨by simp, .ok 0, rfl, .inl ⟨_, _, rfl, rfl, trivial⟩, rfl, fun e _ => ⟨hnil e, hlen, ⟨false, rfl⟩, .inl hB⟩,
            fun _ => hB⟩
      | ub => rw [hc] at hr; exact absurd rfl hr
      | badAlloc => exact ⟨by simp, .badAlloc, rfl, .inr ⟨by simp, rfl⟩, rfl, by simp, fun _ => hB⟩
      | logicError => exact ⟨by simp, .logicError, rfl, .inr ⟨by simp, rfl⟩, rfl, by simp, fun _ => hB⟩
      | lengthError => exact ⟨by simp, .lengthError, rfl, .inr ⟨by simp, rfl⟩, rfl, by simp, fun _ => hB⟩
      | invalidArgument =>
        exact ⟨by simp, .invalidArgument, rfl, .inr ⟨by simp, rfl⟩, rfl, by simp, fun _ => hB⟩
      | outOfRange => exact ⟨by simp, .outOfRange, rfl, .inr ⟨by simp, rfl⟩, rfl, by simp, fun _ => hB⟩
      | runtimeError => exact ⟨by simp, .runtimeError, rfl, .inr ⟨by simp, rfl⟩, rfl, by simp, fun _ => hB⟩

theorem slib_setSizesAndWait {sizes : List Nat} {vs : List View} {s : DState}
    (hr : ((setSizesAndWait sizes vs).run s).1 ≠ .ub) : SLib (setSizesAndWait sizes vs) Eq Idle s := by
  unfold setSizesAndWait at hr ⊢
  refine slib_scope hr fun B hB => ?_
  rw [Prog.scope] at hr
  simp only [run] at hr
  rw [run_thenDrop_fst] at hr
  apply SSafe.bind
  refine (ssafe_setSizes hB (run_bind_ub hr)).mono ?_
  rintro r s' B' ⟨r0, h1, h2, h3, h4, h5⟩
  rcases h2 with ⟨e, e0, rfl, rfl, -⟩ | ⟨hne, rfl⟩
  · have haft := (h4 e rfl).1.after
    refine ⟨by simp, ⟨.ok (), by rw [run_bind_ok h1]; rfl, .inl ⟨_, _, rfl, rfl, rfl⟩, fun _ _ => haft, by simp⟩, ?_⟩
    rw [haft]
    exact Slotted.nil
  · have herr := run_bind_err (f := fun e => Prog.wait e (.ret (.ok ()))) h1 (fun b => hne b) (fun _ => ())
    have h6 := h5 hne
    have h7 : Slotted (B'.pend.map (·.2)) (s'.locals.length - 1) := by rw [h6]; exact Slotted.nil
    cases r0 with
    | ok b => exact absurd rfl (hne b)
    | ub => trivial
    | _ => exact ⟨⟨_, herr, .inr ⟨by simp, rfl⟩, by simp, fun _ => h6⟩, h7⟩

/-! ## copying rows -/

/-- An operation that reads from rows of `vs` and writes to rows of `ws`. -/
structure RowOp (t : Nat) (vs ws : List View) (op : COp) : Prop where
  reads : ∀ x, op.Reads x → ∃ v ∈ vs, v.HasPayload t x
  writes : ∀ x, op.Writes x → ∃ w ∈ ws, w.HasPayload t x
  vars : ∀ i, ¬ op.Uses i

theorem copyViews_seq (dbg : Bool) (t : Nat) : ∀ (ns : List Nat) (vs ws : List View) (s : DState),
    (∀ (i n : Nat) (v w : View), ns[i]? = some n → vs[i]? = some v → ws[i]? = some w → n ≤ v.capacity ∧ n ≤ w.capacity) →
    ws.Pairwise (fun v w => ∀ x, ¬ (v.HasPayload t x ∧ w.HasPayload t x)) →
    (∀ v ∈ vs, ∀ w ∈ ws, ∀ x, ¬ (v.HasPayload t x ∧ w.HasPayload t x)) →
    ((copyViews dbg t ns vs ws).run s).1 ≠ .ub →
    ∃ ops, copyViews dbg t ns vs ws = seqOps ops (.ret (.ok ())) ∧ ops.Pairwise COp.Independent ∧
      ∀ op ∈ ops, RowOp t vs ws op := by
  intro ns
  induction ns with
  | nil => intro vs ws s _ _ _ _; exact ⟨[], by cases vs <;> cases ws <;> rfl, .nil, by simp⟩
  | cons n ns ih =>
    intro vs ws s hn hp hd hr
    cases vs with
    | nil => exact ⟨[], rfl, .nil, by simp⟩
    | cons v vs =>
      cases ws with
      | nil => exact ⟨[], rfl, .nil, by simp⟩
      | cons w ws =>
        obtain ⟨hp1, hp2⟩ := List.pairwise_cons.1 hp
        have hn' : ∀ (i n : Nat) (v w : View), ns[i]? = some n → vs[i]? = some v → ws[i]? = some w →
            n ≤ v.capacity ∧ n ≤ w.capacity := fun i n v w a b c => hn (i + 1) n v w (by simpa using a) (by simpa using b)
              (by simpa using c)
        have hd' : ∀ v ∈ vs, ∀ w ∈ ws, ∀ x, ¬ (v.HasPayload t x ∧ w.HasPayload t x) := fun v hv w hw =>
          hd v (List.mem_cons_of_mem _ hv) w (List.mem_cons_of_mem _ hw)
        have hup : ∀ op, RowOp t vs ws op → RowOp t (v :: vs) (w :: ws) op := fun op ho =>
          ⟨fun x hx => (ho.reads x hx).imp fun u hu => ⟨List.mem_cons_of_mem _ hu.1, hu.2⟩,
            fun x hx => (ho.writes x hx).imp fun u hu => ⟨List.mem_cons_of_mem _ hu.1, hu.2⟩, ho.vars⟩
        unfold copyViews at hr ⊢
        split at hr
        · rename_i h0
          rw [if_pos h0]
          obtain ⟨ops, e1, e2, e3⟩ := ih vs ws s hn' hp2 hd' hr
          exact ⟨ops, e1, e2, fun op ho => hup op (e3 op ho)⟩
        · rename_i h0
          rw [if_neg h0]
          split at hr
          · exact absurd rfl hr
          · rename_i h1
            rw [if_neg h1]
            obtain ⟨s1, h2, h3⟩ := exec_of_run hr
            obtain ⟨ops, e1, e2, e3⟩ := ih vs ws s1 hn' hp2 hd' h3
            obtain ⟨c1, c2⟩ := hn 0 n v w rfl rfl rfl
            have m1 := Nat.mul_le_mul_right t c1
            have m2 := Nat.mul_le_mul_right t c2
            have m3 := wrap_le (n * t)
            have hread : ∀ x, (COp.copy (wrap64 (n * t)) v.ptr w.ptr).Reads x → v.HasPayload t x := by
              rintro x ⟨x1, x2⟩
              exact ⟨x1, by omega⟩
            have hwrite : ∀ x, (COp.copy (wrap64 (n * t)) v.ptr w.ptr).Writes x → w.HasPayload t x := by
              rintro x ⟨x1, x2⟩
              exact ⟨x1, by omega⟩
            refine ⟨.copy (wrap64 (n * t)) v.ptr w.ptr :: ops, by rw [e1]; rfl, ?_, ?_⟩
            · rw [List.pairwise_cons]
              refine ⟨fun op ho => ?_, e2⟩
              have hop := e3 op ho
              refine ⟨fun x hx => ?_, fun x hx => ?_, fun _ h => h.elim, fun i hi => absurd (sets_uses hi) (hop.vars i)⟩
              · have hwx := hwrite x hx
                rintro (hy | hy)
                · obtain ⟨u, hu, hux⟩ := hop.reads x hy
                  exact hd u (List.mem_cons_of_mem _ hu) w (List.mem_cons_self ..) x ⟨hux, hwx⟩
                · obtain ⟨u, hu, hux⟩ := hop.writes x hy
                  exact hp1 u hu x ⟨hwx, hux⟩
              · obtain ⟨u, hu, hux⟩ := hop.writes x hx
                rintro (hy | hy)
                · exact hd v (List.mem_cons_self ..) u (List.mem_cons_of_mem _ hu) x ⟨hread x hy, hux⟩
                · exact hp1 u hu x ⟨hwrite x hy, hux⟩
            · intro op ho
              rcases List.mem_cons.1 ho with rfl | ho
              · exact ⟨fun x hx => ⟨v, List.mem_cons_self .., hread x hx⟩, fun x hx => ⟨w, List.mem_cons_self .., hwrite x hx⟩,
                  fun _ h => h⟩
              · exact hup op (e3 op ho)

theorem copyFirst_seq (dbg : Bool) {t total : Nat} : ∀ (vs ws : List View) (p p' : Nat) (s : DState),
    RowChain t p vs → RowChain t p' ws → vs.map (·.capacity) = ws.map (·.capacity) →
    total ≤ (vs.map (·.capacity)).sum * t →
    ((copyFirst dbg total (vs.map (·.capacity)) vs ws).run s).1 ≠ .ub →
    ∃ ops, copyFirst dbg total (vs.map (·.capacity)) vs ws = seqOps ops (.ret (.ok ())) ∧ ops.Pairwise COp.Independent ∧
      ∀ op ∈ ops, RowOp t vs ws op := by
  intro vs
  induction vs with
  | nil => intro ws p p' s _ _ _ _ _; exact ⟨[], rfl, .nil, by simp⟩
  | cons v vs ih =>
    intro ws p p' s h1 h2 h3 h4 hr
    cases ws with
    | nil => exact ⟨[], rfl, .nil, by simp⟩
    | cons w ws =>
      have c1 := h1
      have c2 := h2
      obtain ⟨hv, h1⟩ := h1
      obtain ⟨hw, h2⟩ := h2
      simp only [List.map_cons, List.cons.injEq] at h3
      simp only [List.map_cons] at hr ⊢
      unfold copyFirst at hr ⊢
      split at hr
      · rename_i h0
        rw [if_pos h0]
        simp only [List.map_cons, List.sum_cons, h0, Nat.zero_add] at h4
        obtain ⟨ops, e1, e2, e3⟩ := ih ws _ _ s h1 h2 h3.2 h4 hr
        exact ⟨ops, e1, e2, fun op ho =>
          ⟨fun x hx => ((e3 op ho).reads x hx).imp fun u hu => ⟨List.mem_cons_of_mem _ hu.1, hu.2⟩,
            fun x hx => ((e3 op ho).writes x hx).imp fun u hu => ⟨List.mem_cons_of_mem _ hu.1, hu.2⟩, (e3 op ho).vars⟩⟩
      · rename_i h0
        rw [if_neg h0]
        split at hr
        · exact absurd rfl hr
        · rename_i h5
          rw [if_neg h5]
          refine ⟨[_], rfl, by simp, ?_⟩
          intro op ho
          rw [List.mem_singleton.1 ho]
          refine ⟨fun x hx => ?_, fun x hx => ?_, fun _ h => h⟩
          · obtain ⟨x1, x2⟩ := hx
            exact chain_covers c1 (by omega) (by omega)
          · obtain ⟨x1, x2⟩ := hx
            have h6 : ((v :: vs).map (·.capacity)).sum = ((w :: ws).map (·.capacity)).sum := by
              simp only [List.map_cons, h3.1, h3.2]
            rw [h6] at h4
            exact chain_covers c2 (by omega) (by omega)

/-- The copy of the payload. -/
theorem copyPayload_seq (dbg : Bool) (t : Nat) (sizes : List Nat) (vs ws : List View) (s : DState)
    (hl : vs.length = ws.length) (hne : vs ≠ [])
    (hn : ∀ (i n : Nat) (v w : View), sizes[i]? = some n → vs[i]? = some v → ws[i]? = some w → n ≤ v.capacity ∧ n ≤ w.capacity)
    (hp : ws.Pairwise (fun v w => ∀ x, ¬ (v.HasPayload t x ∧ w.HasPayload t x)))
    (hd : ∀ v ∈ vs, ∀ w ∈ ws, ∀ x, ¬ (v.HasPayload t x ∧ w.HasPayload t x))
    (hr : ((if isContiguous t vs && isContiguous t ws && (vs.map (·.capacity) == ws.map (·.capacity)) then
        copyContiguous dbg t (vs.map (·.capacity)) vs ws else copyViews dbg t sizes vs ws).run s).1 ≠ .ub) :
    ∃ ops, (if isContiguous t vs && isContiguous t ws && (vs.map (·.capacity) == ws.map (·.capacity)) then
        copyContiguous dbg t (vs.map (·.capacity)) vs ws else copyViews dbg t sizes vs ws) = seqOps ops (.ret (.ok ())) ∧
      ops.Pairwise COp.Independent ∧ ∀ op ∈ ops, RowOp t vs ws op := by
  split at hr
  · rename_i hcc
    rw [if_pos hcc]
    simp only [Bool.and_eq_true, beq_iff_eq] at hcc
    obtain ⟨⟨c1, c2⟩, c3⟩ := hcc
    cases vs with
    | nil => exact absurd rfl hne
    | cons v vs =>
      cases ws with
      | nil => simp at hl
      | cons w ws =>
        refine copyFirst_seq dbg _ _ v.ptr w.ptr s (chain_of_contiguous c1) (chain_of_contiguous c2) c3 ?_ hr
        exact Nat.le_trans (wrap_le _) (Nat.mul_le_mul_right t (wrap_le _))
  · rename_i hcc
    rw [if_neg hcc]
    exact copyViews_seq dbg t sizes vs ws s hn hp hd hr

theorem seq_bind (ops : List COp) (k : Prog β) (f : β → Prog γ) : (seqOps ops k).bind f = seqOps ops (k.bind f) := by
  induction ops with
  | nil => rfl
  | cons op ops ih => exact congrArg (Prog.issue op) ih

/-- Which event is waited for does not matter for the synchronous run. -/
theorem seq_wait (ops : List COp) (s : DState) (a b : Nat) :
    (seqOps ops ((Prog.ret (.ok ())).bind fun _ => Prog.wait a (Prog.ret (.ok true)))).run s =
      (seqOps ops ((Prog.ret (.ok ())).bind fun _ => Prog.wait b (Prog.ret (.ok true)))).run s := by
  induction ops generalizing s with
  | nil => rfl
  | cons op ops ih =>
    show (Prog.issue op _).run s = (Prog.issue op _).run s
    simp only [run]
    cases op.exec s with
    | none => rfl
    | some t => exact ih t

/-- Where the sizes are stored. -/
theorem store_word {vs : List View} {sizes : List Nat} (hw : WordsAdjacent vs) (hl : sizes.length = vs.length)
    (hc : checkSizes true vs sizes = .ok true) (hne : vs ≠ []) {x : Nat} (h1 : (vs.getD 0 ⟨0, 0, 0⟩).sizePtr ≤ x)
    (h2 : x < (vs.getD 0 ⟨0, 0, 0⟩).sizePtr + wrap64 (4 * sizes.length)) : ∃ v ∈ vs, v.HasWord x := by
  cases vs with
  | nil => exact absurd rfl hne
  | cons v vs =>
    simp only [List.getD_cons_zero] at h1 h2
    have hcl := checkSizes_large (v :: vs) sizes true hl.symm ((words_cases hw).imp id fun h => ⟨rfl, h⟩)
    have hnt : ¬ TooLarge (v :: vs) sizes := fun h => by rw [hcl.1 h] at hc; cases hc
    rw [hcl.2 hnt] at hc
    simp only [Bool.true_and, Res.ok.injEq, List.all_eq_true, decide_eq_true_eq] at hc
    have h0 := hc v (List.mem_cons_self ..)
    rcases hw with hz | ⟨h, hh0, hh⟩
    · exact absurd (hz v (List.mem_cons_self ..)) h0
    · have hv := hh 0 v rfl
      have hlt : (x - h) / 4 < (v :: vs).length := by
        have := wrap_le (4 * sizes.length)
        omega
      have hw := hh _ _ (List.getElem?_eq_getElem hlt)
      exact ⟨_, List.getElem_mem hlt, by omega, by omega, by omega⟩

theorem slib_copyViewJag {dbg : Bool} {t : Nat} {v w : JagView} {s : DState} (hv : JagValid s.mem t v.views)
    (hw : JagPlaced t w.views) (hsep : ∀ x, ¬ (JagHas t v.views x ∧ JagHas t w.views x))
    (hr : ((copyViewJag dbg t v w).run s).1 ≠ .ub) : SLib (copyViewJag dbg t v w) Eq Collected s := by
  obtain ⟨vs, vp, vhp⟩ := v
  obtain ⟨ws, wp, whp⟩ := w
  simp only at hv hw hsep
  unfold copyViewJag at hr ⊢
  simp only at hr ⊢
  split at hr
  · rename_i h1
    rw [if_pos h1]
    exact slib_ret (by simp) (fun _ h => nomatch h) fun _ h => nomatch h
  rename_i h1
  rw [if_neg h1]
  split at hr
  · rename_i h2
    rw [if_pos h2]
    refine slib_ret (by simp) (fun _ _ => rfl) fun b hb B hB => ⟨fun h => ?_, fun _ => hB⟩
    cases hb
    cases h
  rename_i h2
  rw [if_neg h2]
  refine slib_bind (slib_getSizes (run_bind_ub hr)) fun sizes s1 hrun1 => ?_
  rw [run_bind_ok hrun1] at hr
  -- the sizes are those of the source
  obtain ⟨d', hgs⟩ := getSizes_does hv s.locals s.done
  have hs1 : sizes = vs.map (·.len s.mem) := by
    have : (getSizes vs).run s = (.ok (vs.map (·.len s.mem)), ⟨s.mem, s.locals, d'⟩) := hgs
    rw [hrun1] at this
    simp only [Prod.mk.injEq, Res.ok.injEq] at this
    exact this.1
  refine slib_scope hr fun B hB => ?_
  rw [Prog.scope] at hr
  simp only [run] at hr
  rw [run_thenDrop_fst] at hr
  apply SSafe.bind
  refine (ssafe_setSizes hB (run_bind_ub hr)).mono ?_
  rintro r s2 B2 ⟨r0, g1, g2, g3, g4, g5⟩
  rcases g2 with ⟨e, e0, rfl, rfl, -⟩ | ⟨hne, rfl⟩
  · obtain ⟨k1, k2, ⟨b, k3⟩, k4⟩ := g4 e rfl
    rw [run_bind_ok g1] at hr
    have hlen : vs.length = ws.length := by rw [← k2, hs1, List.length_map]
    have htake : ws.take vs.length = ws := List.take_of_length_le (by omega)
    have hnt : ¬ TooLarge ws sizes := by
      intro h
      rw [(checkSizes_large ws sizes true k2.symm ((words_cases hw.words).imp id fun h => ⟨rfl, h⟩)).1 h] at k3
      cases k3
    rw [htake] at hr ⊢
    have hrows := copyPayload_seq dbg t sizes vs ws s2 hlen (fun h => h2 (by rw [h]; rfl)) (by
        intro i n v w hn hv' hw'
        rw [hs1, List.getElem?_map, hv'] at hn
        simp only [Option.map_some, Option.some.injEq] at hn
        subst hn
        refine ⟨hv.sizes v (List.mem_iff_getElem?.2 ⟨i, hv'⟩), ?_⟩
        by_contra hc
        exact hnt ⟨i, w, v.len s.mem, hw', by rw [hs1, List.getElem?_map, hv']; rfl, by omega⟩)
      (hw.separate.imp fun h x hx => h x ⟨.inl hx.1, .inl hx.2⟩)
      (fun v hv w hw x hx => hsep x ⟨⟨v, hv, .inl hx.1⟩, ⟨w, hw, .inl hx.2⟩⟩) (run_bind_ub hr)
    obtain ⟨ops, o1, o2, o3⟩ := hrows
    show SSafe (Prog.bind _ _) _ s2 B2
    rw [o1, seq_bind] at hr ⊢
    rw [seq_wait ops s2 e0 e] at hr
    refine ssafe_seq hr o2 ?_ ?_
    · -- the sizes are not where the rows are
      intro x hx op ho
      have hop := o3 op ho
      rcases k4 with k4 | ⟨i, k4, k5, k6⟩
      · rw [k4] at hx; cases hx
      · rw [k4, List.mem_singleton] at hx
        subst hx
        have hword : ∀ y, (COp.store s1.locals.length 0 (wrap64 (4 * sizes.length)) (ws.getD 0 ⟨0, 0, 0⟩).sizePtr).Writes y →
            ∃ w ∈ ws, w.HasWord y := fun y hy => store_word hw.words k2 k5 k6 hy.1 hy.2
        have hapart : ∀ y, (∃ w ∈ ws, w.HasWord y) → ¬ ∃ w ∈ ws, w.HasPayload t y := by
          rintro y ⟨u, hu, huy⟩ ⟨u', hu', huy'⟩
          by_cases heq : u = u'
          · subst heq
            exact (hw.placed u hu).apart y ⟨huy', huy⟩
          · obtain ⟨i, hi, rfl⟩ := List.mem_iff_getElem.1 hu
            obtain ⟨j, hj, rfl⟩ := List.mem_iff_getElem.1 hu'
            have hij : i ≠ j := fun h => heq (by subst h; rfl)
            rcases Nat.lt_or_gt_of_ne hij with hlt | hlt
            · exact List.pairwise_iff_getElem.1 hw.separate i j hi hj hlt y ⟨.inr huy, .inl huy'⟩
            · exact List.pairwise_iff_getElem.1 hw.separate j i hj hi hlt y ⟨.inl huy', .inr huy⟩
        refine ⟨fun y hy => ?_, fun y hy => ?_, fun _ h => h.elim, fun i hi => absurd (sets_uses hi) (hop.vars i)⟩
        · have hwy := hword y hy
          rintro (hz | hz)
          · obtain ⟨u, hu, huy⟩ := hop.reads y hz
            obtain ⟨u', hu', huy'⟩ := hwy
            exact hsep y ⟨⟨u, hu, .inl huy⟩, ⟨u', hu', .inr huy'⟩⟩
          · exact hapart y hwy (hop.writes y hz)
        · rintro (hz | hz)
          · exact hz.elim
          · exact hapart y (hword y hz) (hop.writes y hy)
    · intro s3 C n l e1 e2 e3 e4
      have hsub : ∀ x ∈ ((⟨B2.pend ++ C, n, l, B2.events⟩ : SBook).after e).pend, x ∈ C := by
        intro x hx
        simp only [SBook.after] at hx
        obtain ⟨hx1, hx2⟩ := List.mem_filter.1 hx
        rcases List.mem_append.1 hx1 with hx3 | hx3
        · obtain ⟨y1, y2⟩ := k1 x hx3
          simp only [decide_eq_true_eq] at hx2
          rcases hx2 with hx2 | hx2
          · exact absurd hx2 y1
          · exact absurd y2 hx2
        · exact hx3
      refine ⟨by simp, ⟨.ok true, ?_, .inl ⟨_, _, rfl, rfl, rfl⟩, ?_, by simp⟩, ?_⟩
      · rw [run_bind_ok g1]
        rw [seq_bind, seq_wait ops s2 e0 e, e1]
        rfl
      · intro b hb
        cases hb
        refine ⟨fun _ x hx => ?_, fun h => nomatch h⟩
        simp only [SBook.after]
        exact e3 x (hsub x hx)
      · intro op ho i hi
        obtain ⟨x, hx, rfl⟩ := List.mem_map.1 ho
        have : x.2 ∈ ops := by
          rw [← e2]
          exact List.mem_map.2 ⟨x, hsub x hx, rfl⟩
        exact absurd hi ((o3 _ this).vars i)
  · have herr := run_bind_err (f := fun e =>
        (if isContiguous t vs && isContiguous t (ws.take vs.length) &&
            (vs.map (·.capacity) == (ws.take vs.length).map (·.capacity)) then
          copyContiguous dbg t (vs.map (·.capacity)) vs ws
        else copyViews dbg t sizes vs ws).bind fun _ => Prog.wait e (.ret (.ok true))) g1 (fun b => hne b) (fun _ => true)
    have h6 := g5 hne
    have h7 : Slotted (B2.pend.map (·.2)) (s2.locals.length - 1) := by rw [h6]; exact Slotted.nil
    cases r0 with
    | ok b => exact absurd rfl (hne b)
    | ub => trivial
    | _ => exact ⟨⟨_, herr, .inr ⟨by simp, rfl⟩, by simp, fun _ => h6⟩, h7⟩

theorem slib_copyJag {dbg : Bool} {t : Nat} {v w : JagView} {s : DState} (hv : JagValid s.mem t v.views)
    (hw : JagPlaced t w.views) (hsep : ∀ x, ¬ (JagHas t v.views x ∧ JagHas t w.views x))
    (hr : ((copyJag dbg t v w).run s).1 ≠ .ub) : SLib (copyJag dbg t v w) AnyEvent SWaits s :=
  slib_afterCopy (slib_copyViewJag hv hw hsep (run_bind_ub hr))

theorem slib_copyJagToStd {dbg : Bool} {t : Nat} {v : JagView} {resize : List Nat → List Nat} {s : DState}
    (ha : CopyCall.Apart s.mem (.toStdJag dbg t v resize)) (hr : ((copyJagToStd dbg t v resize).run s).1 ≠ .ub) :
    SLib (copyJagToStd dbg t v resize) AnyEvent SWaits s := by
  obtain ⟨-, hv, rows, hrows, hw, hsep⟩ := ha
  unfold copyJagToStd at hr ⊢
  refine slib_bind (slib_getSizes (run_bind_ub hr)) fun sizes s1 hrun1 => ?_
  rw [run_bind_ok hrun1] at hr
  obtain ⟨d', hgs⟩ := getSizes_does hv s.locals s.done
  have heq : (getSizes v.views).run s = (.ok (v.views.map (·.len s.mem)), ⟨s.mem, s.locals, d'⟩) := hgs
  rw [hrun1] at heq
  simp only [Prod.mk.injEq, Res.ok.injEq] at heq
  obtain ⟨rfl, rfl⟩ := heq
  have hz : List.zipWith (fun n p => (⟨n % 2 ^ 32, 0, p⟩ : View)) (v.views.map (·.len s.mem))
      (resize (v.views.map (·.len s.mem))) = rows := by
    rw [hrows, List.zipWith_map_left]
    apply List.ext_getElem?
    intro i
    rw [List.getElem?_zipWith, List.getElem?_zipWith]
    cases hi : v.views[i]? with
    | none => rfl
    | some u =>
      cases (resize (v.views.map (·.len s.mem)))[i]? with
      | none => rfl
      | some p =>
        simp only [Option.some.injEq, View.mk.injEq, and_true]
        exact Nat.mod_eq_of_lt (View.len_lt (hv.inner u (List.mem_iff_getElem?.2 ⟨i, hi⟩)))
  rw [hz] at hr ⊢
  exact slib_copyJag (s := ⟨s.mem, s.locals, d'⟩) hv hw hsep hr

/-! ## users -/

theorem slib_call {c : CopyCall} {s : DState} (ha : c.Apart s.mem) (hr : (c.prog.run s).1 ≠ .ub) :
    SLib c.prog AnyEvent SWaits s := by
  have hno : ∀ {β : Type} {f : Prog β}, SLib f Eq Idle s → SLib (f.bind fun _ => .ret (.ok 0)) AnyEvent SWaits s :=
    fun h => slib_bind h fun _ _ _ => slib_noEvent
  cases c with
  | setup v => exact slib_setupVec hr
  | memset t v x => exact slib_memsetVec hr
  | copy t v w => exact slib_copyVec hr
  | toStd t v r => exact slib_copyToStd hr
  | setupJag j => exact slib_setupJag ha hr
  | memsetJag t j x => exact slib_memsetJag ha hr
  | copyJag dbg t v w => exact slib_copyJag ha.2.1 ha.2.2.1.toJagPlaced ha.2.2.2 hr
  | toStdJag dbg t v r => exact slib_copyJagToStd ha hr
  | setSizes n v => exact hno (slib_setSizesAndWait (run_bind_ub hr))
  | getSize v => exact hno (slib_getSize (run_bind_ub hr))
  | getSizes v => exact hno (slib_getSizes (run_bind_ub hr))

end Vecmem
