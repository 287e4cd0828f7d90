import Verif.Lemmas.AsyncEdmKernels
import Verif.Props.C65_EdmPipelines

/-! # Lemmas for C66: the steps of a program with container buffers on a stream -/

namespace Vecmem

open IntMath Props Prog

variable {σ : Type} {R : Limits} {G : Nat} {ups : Nat → MR σ} {u0 : σ} {c : EdmCfg} {p : EPipe σ} {q : EReady}

/-- What is to be shown of a step. -/
def EPlanOk (c : EdmCfg) (R : Limits) (G : Nat) (ups : Nat → MR σ) (u0 : σ) (p : EPipe σ) (q : EReady) (op : EdmOp) : Prop :=
  PlanLeaves (edmSys c R G ups) (edmPlan c ups) (fun s => (s.1.res, s.1.bufs)) (fun s => EInv c R G ups u0 s.1 s.2) (p, q) op

/-- A step that gives operations to the stream. -/
theorem plan_of {op : EdmOp} {f : Prog Nat} {o : EdmOut} {m' : Mem} (hs : EStepOk c R G ups u0 p q op)
    (he : p.exec c ups op = (.ok o, { p with mem := m' })) (hp : edmPlan c ups (p.res, p.bufs) op = ((p.res, p.bufs), f))
    (hsafe : ∀ (d : Nat) (P : List COp), Slotted P 0 → (∀ o ∈ P, ∀ x, op.Pokes c ups p x → ¬ (o.Reads x ∨ o.Writes x)) →
      Safe f (CallPost (fun x => op.Uses c p q x) (.ok ()) m' P) ⟨p.mem, [], d⟩ P)
    (hw : op.Works c (p.store c q) → ∀ (d : Nat) x s', f.run ⟨p.mem, [], d⟩ = (x, s') → x = .ub ∨ x = .ok s'.done) :
    EPlanOk c R G ups u0 p q op where
  inv := hs.1
  defined := by simp [edmSys, he]
  next := by simp [edmSys, he, hp]
  safe := fun d P hP hb => by
    simp only [edmSys, he, hp]
    exact (hsafe d P hP hb).mono fun _ _ _ hq => hq.leaves (by simp)
  works := fun hwk d x s' hr => by
    simp only [edmSys, hp] at hr
    exact hw hwk.1 d x s' hr

/-- What a call that throws does when it is not the first. -/
theorem run_of_throw {f : Prog Nat} {m m' : Mem} (hs : Same AnyNumber f f) (hl : Lib f EventOk) (hr : f.result m = (.lengthError, m'))
    (d : Nat) : ∃ d', f.run ⟨m, [], d⟩ = (.lengthError, ⟨m', [], d'⟩) := by
  obtain ⟨h1, h2, -⟩ := hs.run m [] 0 d
  simp only [Prog.result, Prod.mk.injEq] at hr
  obtain ⟨r1, r2⟩ := hr
  rw [r2] at h2
  have hx : (f.run ⟨m, [], d⟩).1 = .lengthError := by
    rcases h1 with ⟨b, b', e1, -, -⟩ | ⟨e1, e2⟩
    · rw [e1] at r1
      cases r1
    · rw [e1] at r1
      cases hr : (f.run ⟨m, [], d⟩).1 with
      | lengthError => rfl
      | _ => rw [hr] at r1; cases r1
  obtain ⟨P', -, h3, -⟩ := (hl ⟨m, [], d⟩ [] .nil (by rw [hx]; simp)).post
  rcases hrun : f.run ⟨m, [], d⟩ with ⟨r, mt, Lt, dt⟩
  rw [hrun] at h2 hx h3
  have hL : Lt = [] := List.length_eq_zero_iff.1 h3
  simp only at h2 hx
  subst h2 hL hx
  exact ⟨dt, rfl⟩

/-- A call that throws, in a stream: what it has given to the stream is still pending. -/
theorem call_throws {f : Prog Nat} {m m' : Mem} {F Rd Wr : Nat → Prop} (hs : Same AnyNumber f f) (hl : Lib f EventOk)
    (hr : f.result m = (.lengthError, m')) (hf : ∀ d, Foot Rd Wr f ⟨m, [], d⟩)
    (hF : ∀ x, Rd x ∨ Wr x → F x) (d : Nat) (P : List COp) (hP : Slotted P 0) :
    Safe f (LeavePost True F .lengthError m' P) ⟨m, [], d⟩ P := by
  obtain ⟨d', hrun⟩ := run_of_throw hs hl hr d
  refine (hl ⟨m, [], d⟩ P hP (by rw [hrun]; simp)).withRun.withPend.mono ?_
  rintro x' s' P' ⟨⟨⟨g1, g2, g3⟩, g4⟩, g5⟩
  rw [hrun] at g4
  simp only [Prod.mk.injEq] at g4
  obtain ⟨rfl, rfl⟩ := g4
  subst g5
  refine ⟨rfl, rfl, rfl, g1, fun op ho => ?_, fun _ h => absurd trivial h, fun e he => by cases he⟩
  rcases pend_new f _ P ho with h | h
  · exact .inl h
  · exact .inr fun x hx => hF x ((hf d).pend (P := []) (by simp) op h x hx)

/-- A step that throws. -/
theorem plan_throws {op : EdmOp} {f : Prog Nat} {m' : Mem} (hs : EStepOk c R G ups u0 p q op)
    (he : p.exec c ups op = (.lengthError, { p with mem := m' })) (hp : edmPlan c ups (p.res, p.bufs) op = ((p.res, p.bufs), f))
    (hsafe : ∀ (d : Nat) (P : List COp), Slotted P 0 → (∀ o ∈ P, ∀ x, op.Pokes c ups p x → ¬ (o.Reads x ∨ o.Writes x)) →
      Safe f (LeavePost True (fun x => op.Uses c p q x) .lengthError m' P) ⟨p.mem, [], d⟩ P) : EPlanOk c R G ups u0 p q op where
  inv := hs.1
  defined := by simp [edmSys, he]
  next := by simp [edmSys, he, hp]
  safe := fun d P hP hb => by
    simp only [edmSys, he, hp]
    exact hsafe d P hP hb
  works := fun hwk => absurd (by simp [he]) hwk.2

theorem EdmStep.isOk {S S' : EStore} {op : EdmOp} {r : Res EdmOut} (h : EdmStep c S op r S') (hne : ∀ k caps r, op ≠ .create k caps r) :
    (∃ o, r = .ok o) ∨ r = .lengthError := by
  cases h <;> first | exact .inl ⟨_, rfl⟩ | exact .inr rfl | exact absurd rfl (hne _ _ _)

theorem EdmStep.noThrow {S S' : EStore} {op : EdmOp} {r : Res EdmOut} (h : EdmStep c S op r S') (h1 : ∀ i j, op ≠ .copy i j)
    (h2 : ∀ ats t k, op ≠ .upload ats t k) : r ≠ .lengthError := by
  cases h <;> first | exact absurd rfl (h1 _ _) | exact absurd rfl (h2 _ _ _) | simp

theorem throw_of_map {f : Prog Nat} {m : Mem} {o : EdmOut} (h : ((f.result m).1.map fun _ => o) = .lengthError) :
    f.result m = (.lengthError, (f.result m).2) := by
  rcases hr : f.result m with ⟨r, m'⟩
  rw [hr] at h
  cases r with
  | lengthError => rfl
  | _ => cases h

theorem ok_of_map {f : Prog Nat} {m : Mem} {o : EdmOut} (h : ((f.result m).1.map fun _ => EdmOut.unit) = .ok o) : o = .unit ∧
    f.result m = (.ok (), (f.result m).2) := by
  rcases hr : f.result m with ⟨r, m'⟩
  rw [hr] at h
  simp only at h ⊢
  cases r with
  | ok u => cases h; exact ⟨rfl, rfl⟩
  | _ => cases h

/-- A call of a function of `vecmem::copy`. -/
theorem plan_call {op : EdmOp} {f : Prog Nat} {Rd Wr : Nat → Prop} (hs : EStepOk c R G ups u0 p q op)
    (hne : ∀ k caps r, op ≠ .create k caps r) (he : p.exec c ups op = p.onMem f)
    (hp : edmPlan c ups (p.res, p.bufs) op = ((p.res, p.bufs), f)) (h1 : Same AnyNumber f f) (h2 : Lib f EventOk)
    (h3 : EndsEvent f ∨ f = retNoEvent) (h4 : op.Works c (p.store c q) → EndsEvent f) (h5 : ∀ d, Foot Rd Wr f ⟨p.mem, [], d⟩)
    (h6 : ∀ x, Rd x ∨ Wr x → op.Uses c p q x) : EPlanOk c R G ups u0 p q op := by
  have hs2 := hs.2
  rw [he] at hs2
  rcases hs2.isOk hne with ⟨o, ho⟩ | ho
  rotate_left
  · have hr := throw_of_map (f := f) (m := p.mem) ho
    refine plan_throws (f := f) (m' := (f.result p.mem).2) hs ?_ hp fun d P hP _ => call_throws h1 h2 hr h5 h6 d P hP
    rw [he]
    unfold EPipe.onMem
    rw [hr]
    rfl
  obtain ⟨rfl, hr⟩ := ok_of_map (f := f) (m := p.mem) ho
  refine plan_of (f := f) (o := .unit) (m' := (f.result p.mem).2) hs ?_ hp ?_ ?_
  · rw [he]
    unfold EPipe.onMem
    rw [hr]
    rfl
  · intro d P hP _
    exact call_plan h1 h2 hr h3 h5 h6 d P hP
  · intro hw d x s' hx
    exact call_works h1 h2 hr (h4 hw) d x s' hx

/-! ## The views of buffers -/

theorem EdmOk.plain {S : Schema} {A : Nat} {hasHost : Bool} {b : EBuffer} (ho : EdmOk σ R G S A hasHost b) : Plain S b.buf.view where
  size := by
    rw [ho.facts.1.size]
    unfold Schema.sizeView
    split
    · rfl
    · split <;> rfl
  payload := by rw [ho.facts.1.payload]; rfl
  word := fun h0 hj => by
    cases hr : b.resizable with
    | true => exact ho.blocks.word hr hj
    | false => exact absurd (ho.placed.fixed hr) h0

theorem EdmOk.bytes_blk {S : Schema} {A : Nat} {hasHost : Bool} {b : EBuffer} (ho : EdmOk σ R G S A hasHost b) {a : Blk}
    (ha : a ∈ [b.buf.view.size.bytes, b.buf.view.layout.bytes, b.buf.view.payload.bytes]) {x : Nat} (hx : a.At x) : b.blk.At x := by
  refine EdmOk.at_inside (ho.blocks.inside a ha ?_) hx
  have := hx.1
  have := hx.2
  omega

/-- Where `setup` finds the views. -/
theorem EdmOk.layouts {S : Schema} {A : Nat} {hasHost : Bool} {b : EBuffer} (ho : EdmOk σ R G S A hasHost b)
    (hne : b.buf.view.layout.ptr ≠ b.buf.view.hostLayout.ptr) :
    b.buf.view.hostLayout.sizePtr = 0 ∧ b.buf.view.layout.sizePtr = 0 ∧ ∀ x, b.buf.view.hostLayout.bytes.At x → b.hostBlk.At x := by
  obtain ⟨ups, u0, u, u', h1, h2, h3⟩ := ho.made
  obtain ⟨l, k, l1, l2, l3, l4, l5, l6, -, l8⟩ := create_layouts h1 h2 ho.schema ho.ok ho.aligns ho.align ho.req h3
  refine ⟨by rw [l6]; rfl, by rw [l5]; rfl, ?_⟩
  rcases l8 with rfl | ⟨hk, g1, g2, g3, -⟩
  · exact absurd (by rw [l5, l6]) hne
  · intro x hx
    have hsm := ho.small
    obtain ⟨m1, -⟩ := memoryView_at (ts := S.layoutRegions b.caps) l2 (by rw [hk] at g1 ⊢; omega)
    rw [← l6] at m1
    have hx1 := hx.1
    have hx2 := hx.2
    simp only [View.bytes] at hx1 hx2
    obtain ⟨m2, m3⟩ := m1 (.inl (by omega))
    rw [hk] at m2 m3 g1
    unfold Blk.At EBuffer.hostBlk
    simp only
    omega

theorem sum_zero : ∀ {l : List Nat}, (∀ n ∈ l, n = 0) → l.sum = 0 := by
  intro l
  induction l with
  | nil => intro _; rfl
  | cons n l ih =>
    intro h
    rw [List.sum_cons, h n List.mem_cons_self, ih fun k hk => h k (List.mem_cons_of_mem _ hk)]

theorem EdmOk.payload_ne {S : Schema} {A : Nat} {hasHost : Bool} {b : EBuffer} (ho : EdmOk σ R G S A hasHost b) (h : RoomForOne S b.caps) :
    b.buf.view.payload.capacity ≠ 0 := by
  obtain ⟨v, hv, hsum⟩ := h
  obtain ⟨i, hi⟩ := List.mem_iff_getElem?.1 hv
  have hlt : i < b.buf.view.vars.length := by rw [ho.placed.count]; exact (List.getElem?_eq_some_iff.1 hi).1
  have hx := List.getElem?_eq_getElem hlt
  obtain ⟨-, k2, -⟩ := ho.row_facts hi hx
  rw [← k2] at hsum
  have hts := (ho.varsPlaced.each i v _ hi hx).2.1
  obtain ⟨w, hw, hw0⟩ : ∃ w ∈ (b.buf.view.vars[i]).rows, w.capacity ≠ 0 := by
    by_contra hc
    apply hsum
    refine sum_zero fun n hn => ?_
    obtain ⟨w, hw, rfl⟩ := List.mem_map.1 hn
    by_contra h0
    exact hc ⟨w, hw, h0⟩
  have hpos : 0 < w.capacity * v.type.size := Nat.mul_pos (by omega) hts
  have := payload_in_block ho.blocks hi hx (a := w.ptr) ⟨w, hw, Nat.le_refl _, by omega⟩
  have h1 := this.1
  have h2 := this.2
  simp only [View.bytes] at h1 h2
  omega

/-! ## Calls -/

theorem Bytes.of {k : Nat} {b : EBuffer} (h : p.bufs.lookup k = some b) {x : Nat} (hx : b.blk.At x) : p.Bytes k x := ⟨b, h, hx.1, hx.2⟩

theorem eplan_setup (h : EInv c R G ups u0 p q) {k : Nat} (hs : EStepOk c R G ups u0 p q (.setup k)) {out : Nat → Nat → Prop}
    (hf : (EdmOp.setup k).Fits c R G out (p.store c q)) : EPlanOk c R G ups u0 p q (.setup k) := by
  obtain ⟨v, hv, -⟩ := hf
  obtain ⟨b, hb⟩ := EPipe.store_exists hv
  have ho := h.bufs _ (mem_of_lookup hb)
  simp only at ho
  have hcap := ho.placed.capacity
  refine plan_call (f := setupEdm c.dbg b.buf.view) (Rd := fun x => b.hostBlk.At x) (Wr := fun x => b.blk.At x) hs (by simp)
    (by simp only [EPipe.exec, hb]) (by simp only [edmPlan, hb]) (same_setupEdm _ _) (lib_setupEdm _ _) ?_ ?_ ?_ ?_
  · by_cases h0 : b.buf.view.capacity = 0
    · exact .inr (by simp [setupEdm, h0])
    · exact .inl (endsEvent_setupEdm h0)
  · rintro ⟨b', hb', hne⟩
    rw [EPipe.store_some hb] at hb'
    cases hb'
    refine endsEvent_setupEdm ?_
    rw [hcap]
    simpa using hne
  · intro d
    refine foot_setupEdm (fun hne => ?_) fun x hx => ho.bytes_blk (by simp) hx
    obtain ⟨l1, l2, l3⟩ := ho.layouts hne
    exact ⟨l1, l2, l3, fun x hx => ho.bytes_blk (by simp) hx⟩
  · rintro x (hx | hx)
    · exact .inr ⟨b, hb, hx.1, hx.2⟩
    · exact .inl (Bytes.of hb hx)

theorem eplan_memset (h : EInv c R G ups u0 p q) {k : Nat} {value : UInt8} (hs : EStepOk c R G ups u0 p q (.memset k value))
    {out : Nat → Nat → Prop} (hf : (EdmOp.memset k value).Fits c R G out (p.store c q)) : EPlanOk c R G ups u0 p q (.memset k value) := by
  obtain ⟨v, hv, -⟩ := hf
  obtain ⟨b, hb⟩ := EPipe.store_exists hv
  have ho := h.bufs _ (mem_of_lookup hb)
  simp only at ho
  exact plan_call (f := memsetEdm (c.schema k) b.buf.view value) (Rd := fun _ => False) (Wr := fun x => b.blk.At x) hs (by simp)
    (by simp only [EPipe.exec, hb]) (by simp only [edmPlan, hb]) (same_memsetEdm _ _ _) (lib_memsetEdm _ _ _) (.inl endsEvent_memsetEdm)
    (fun _ => endsEvent_memsetEdm) (fun d => foot_memsetEdm ho.varsPlaced fun x hx => ho.data_blk hx)
    (by rintro x (hx | hx); · exact hx.elim
        exact Bytes.of hb hx)

theorem eplan_copy (hl : FamLawful R G ups u0) (h : EInv c R G ups u0 p q) {i j : Nat} (hs : EStepOk c R G ups u0 p q (.copy i j))
    {out : Nat → Nat → Prop} (hf : (EdmOp.copy i j).Fits c R G out (p.store c q)) : EPlanOk c R G ups u0 p q (.copy i j) := by
  obtain ⟨hij, hS, caps, caps', r, r', d, d', t, old, hi, hj, -⟩ := hf
  obtain ⟨a, a1, a2, a3, a4, a5, a6, a7, a8, a9⟩ := h.has hi
  obtain ⟨b, b1, b2, b3, b4, b5, b6, b7, b8⟩ := h.get hj
  rw [← hS] at b5
  refine plan_call (f := copyEdm c.dbg (c.schema i) a.buf.view b.buf.view) (Rd := EdmHas (c.schema i) a.buf.view)
    (Wr := EdmHas (c.schema i) b.buf.view) hs (by simp) (by simp only [EPipe.exec, a1, b1]) (by simp only [edmPlan, a1, b1])
    (same_copyEdm _ _ _ _) (lib_copyEdm _ _ _ _) ?_ ?_ ?_ ?_
  · by_cases h0 : oneBlock a.buf.view b.buf.view = false ∨ a.buf.view.payload.capacity ≠ 0
    · exact .inl (endsEvent_copyEdm h0)
    · refine .inr ?_
      simp only [not_or, Bool.not_eq_false, not_not] at h0
      simp [copyEdm, h0.1, h0.2]
  · rintro ⟨v, hv, hroom⟩
    rw [EPipe.store_some a1] at hv
    cases hv
    exact endsEvent_copyEdm (.inr (a5.payload_ne hroom))
  · intro d
    refine foot_copyEdm (fun x h1 h2 => ?_) a5.plain b5.plain ⟨a5.varsPlaced, a6.sizes a7⟩ b5.varsPlaced (fun _ h => h) fun _ h => h
    exact h.cross hl a2 b2 hij (a5.data_in h1) (b5.data_in h2)
  · rintro x (hx | hx)
    · exact .inl (Bytes.of a1 (a5.data_blk hx))
    · exact .inr (Bytes.of b1 (b5.data_blk hx))

/-! ## Host containers -/

theorem pokeMem_table (m : Mem) : ∀ (S : Schema) (ats : List (List Nat)) (tbl : Table), pokeMem m (tablePokes S ats tbl) = putTable m S ats tbl := by
  intro S
  induction S generalizing m with
  | nil => intros; rfl
  | cons v S ih =>
    intro ats tbl
    cases ats with
    | nil => rfl
    | cons as ats =>
      cases tbl with
      | nil => rfl
      | cons ls tbl =>
        unfold tablePokes putTable
        rw [pokeMem_append, pokeMem_rows, ih]

theorem tablePokes_has : ∀ {S : Schema} {ats : List (List Nat)} {tbl : Table} {x : Nat}, PokeHas (tablePokes S ats tbl) x → InArrays S ats tbl x := by
  intro S
  induction S with
  | nil => rintro ats tbl x ⟨w, hw, -⟩; cases hw
  | cons v S ih =>
    intro ats tbl x h
    cases ats with
    | nil => obtain ⟨w, hw, -⟩ := h; cases hw
    | cons as ats =>
      cases tbl with
      | nil => obtain ⟨w, hw, -⟩ := h; cases hw
      | cons ls tbl =>
        rcases pokeHas_append h with h | h
        · obtain ⟨r, a, l, h1, h2, h3⟩ := rowPokes_has h
          exact ⟨0, v, as, ls, r, a, l, rfl, rfl, rfl, h1, h2, h3⟩
        · obtain ⟨i, w, as', ls', r, a, l, h1, h2, h3, h4⟩ := ih h
          exact ⟨i + 1, w, as', ls', r, a, l, by simpa using h1, by simpa using h2, by simpa using h3, h4⟩

theorem inArrays_have {S : Schema} {ats : List (List Nat)} {tbl : Table} {x : Nat} (h : InArrays S ats tbl x) :
    ArraysHave S (hostArrays (tbl.map fun (ls : List (List Elem)) => ls.map List.length) ats) x := by
  obtain ⟨i, v, as, ls, r, a, l, h1, h2, h3, h4, h5, h6⟩ := h
  exact HostTable.has h1 h2 h3 h4 h5 h6

/-- The views of a host container are those of its arrays. -/
theorem hostVars_in {S : Schema} {ats : List (List Nat)} {tbl : Table}
    (hk : ∀ (i : Nat) (v : Var) (y : VarView), S[i]? = some v →
      (hostVars S (tbl.map fun (ls : List (List Elem)) => ls.map List.length) ats)[i]? = some y →
      ∃ rs, (hostArrays (tbl.map fun (ls : List (List Elem)) => ls.map List.length) ats)[i]? = some rs ∧ y.rows = rs) {x : Nat}
    (h : VarsHave S (hostVars S (tbl.map fun (ls : List (List Elem)) => ls.map List.length) ats) x) : InArrays S ats tbl x := by
  obtain ⟨i, v, y, hv, hy, hx⟩ := h
  obtain ⟨rs, hr, hyr⟩ := hk i v y hv hy
  obtain ⟨ls, as, h1, h2, rfl⟩ := hostArrays_get' hr
  rcases hx with ⟨w, hw, hx⟩ | ⟨w, hw, hx⟩
  · rw [hyr] at hw
    obtain ⟨k, hk⟩ := List.mem_iff_getElem?.1 hw
    obtain ⟨l, a, k1, k2, rfl⟩ := hostRows_get hk
    exact ⟨i, v, as, ls, k, a, l, hv, h2, h1, k2, k1, hx⟩
  · rw [hyr] at hw
    obtain ⟨k, hk⟩ := List.mem_iff_getElem?.1 hw
    obtain ⟨l, a, k1, k2, rfl⟩ := hostRows_get hk
    exact absurd rfl hx.1

theorem eplan_upload (hc : c.Wf) (h : EInv c R G ups u0 p q) {ats : List (List Nat)} {tbl : Table} {k : Nat}
    (hs : EStepOk c R G ups u0 p q (.upload ats tbl k)) (hf : (EdmOp.upload ats tbl k).Fits c R G (p.Outside c) (p.store c q)) :
    EPlanOk c R G ups u0 p q (.upload ats tbl k) := by
  obtain ⟨ht, ⟨n, hn⟩, hsz, caps, r, d, old, hk⟩ := hf
  obtain ⟨b, b1, b2, b3, b4, b5, b6, b7, b8, b9⟩ := h.has hk
  have hshape : Fits (tbl.map fun (ls : List (List Elem)) => ls.map List.length) ats := by
    unfold Fits
    rw [ht.shape, List.map_map]
    apply List.map_congr_left
    intro ls _
    simp
  generalize hm1 : putTable p.mem (c.schema k) ats tbl = m1
  have hval : VarsValid m1 (c.schema k) (hostVars (c.schema k) (tbl.map fun (ls : List (List Elem)) => ls.map List.length) ats) :=
    hostVars_placed (fun v hv => by
      obtain ⟨i, hi⟩ := List.mem_iff_getElem?.1 hv
      exact ((hc.2 k).2 i v hi).1.1) hn hshape ht.placed
  have hin : ∀ {x}, VarsHave (c.schema k) (hostVars (c.schema k) (tbl.map fun (ls : List (List Elem)) => ls.map List.length) ats) x →
      InArrays (c.schema k) ats tbl x := by
    intro x hx
    refine hostVars_in (fun i v y hv hy => ?_) hx
    obtain ⟨ns, as, h1, h2, h3, h4, h5, h6, h7⟩ := hostVars_at hn hshape hv
    rw [hy] at h4
    cases h4
    exact ⟨_, h7, h6⟩
  have hs2 := hs.2
  have hex : p.exec c ups (.upload ats tbl k) = ({ p with mem := m1 } : EPipe σ).onMem
      (copyEdmFromHost c.dbg (c.schema k) (tbl.map fun (ls : List (List Elem)) => ls.map List.length) ats b.buf.view) := by
    simp only [EPipe.exec, b1, hm1]
  rw [hex] at hs2
  have ho := hs2.isOk (by simp)
  generalize hf : copyEdmFromHost c.dbg (c.schema k) (tbl.map fun (ls : List (List Elem)) => ls.map List.length) ats b.buf.view = f at *
  have h1 : Same AnyNumber f f := by rw [← hf]; exact same_copyEdmFromHost _ _ _ _ _
  have h2 : Lib f EventOk := by rw [← hf]; exact lib_copyEdmFromHost _ _ _ _ _
  have h3 : EndsEvent f := by rw [← hf]; exact endsEvent_copyEdmFromHost
  have hfoot : ∀ d, Foot (InArrays (c.schema k) ats tbl) (EdmHas (c.schema k) b.buf.view) f ⟨m1, [], d⟩ := by
    intro d
    rw [← hf]
    refine foot_copyEdmFromHost (fun x hx1 hx2 => ?_) b5.plain hval b5.varsPlaced (fun x hx => hin hx) fun _ h => h
    refine ht.away (inArrays_have hx1) ?_
    have := b5.data_in hx2
    rw [EBuffer.owns_iff (src := c.source k)] at this
    obtain ⟨e, he, h1⟩ := this
    exact ⟨e, by rw [EPipe.owned_eq]; exact List.mem_flatMap.2 ⟨_, b2, he⟩, h1⟩
  have huse : ∀ x, InArrays (c.schema k) ats tbl x ∨ EdmHas (c.schema k) b.buf.view x → (EdmOp.upload ats tbl k).Uses c p q x := by
    rintro x (hx | hx)
    · exact .inl hx
    · exact .inr (Bytes.of b1 (b5.data_blk hx))
  rcases ho with ⟨o, ho⟩ | ho
  rotate_left
  · have hr := throw_of_map (f := f) (m := m1) ho
    refine plan_throws (f := pokes (tablePokes (c.schema k) ats tbl) f) (m' := (f.result m1).2) hs ?_ ?_ fun d P hP hb => ?_
    · rw [hex]
      unfold EPipe.onMem
      simp only
      rw [hr]
      rfl
    · simp only [edmPlan, b1, hf]
    · refine safe_pokes (fun o ho x hx => hb o ho x (tablePokes_has hx)) ?_
      rw [pokeMem_table, hm1]
      exact call_throws h1 h2 hr hfoot huse d P hP
  obtain ⟨rfl, hr⟩ := ok_of_map (m := m1) ho
  refine plan_of (f := pokes (tablePokes (c.schema k) ats tbl) f) (o := .unit) (m' := (f.result m1).2) hs ?_ ?_ ?_ ?_
  · rw [hex]
    unfold EPipe.onMem
    simp only
    rw [hr]
    rfl
  · simp only [edmPlan, b1, hf]
  · intro d P hP hb
    refine safe_pokes (fun o ho x hx => hb o ho x (tablePokes_has hx)) ?_
    rw [pokeMem_table, hm1]
    exact call_plan h1 h2 hr (.inl h3) hfoot huse d P hP
  · intro _ d x s' hx
    rw [run_pokes, pokeMem_table, hm1] at hx
    exact call_works h1 h2 hr h3 d x s' hx

/-- The sizes of the rows of a buffer. -/
theorem EdmOk.rowSizes {S : Schema} {A : Nat} {hasHost : Bool} {b : EBuffer} (ho : EdmOk σ R G S A hasHost b) (m : Mem) :
    Vecmem.rowSizes m b.buf.view.vars = (tableOf m S b.buf.view.vars).map fun (ls : List (List Elem)) => ls.map List.length := by
  apply List.ext_getElem?
  intro i
  unfold Vecmem.rowSizes
  cases hv : S[i]? with
  | none =>
    have h1 : b.buf.view.vars[i]? = none := by
      rw [List.getElem?_eq_none_iff] at hv ⊢
      rw [ho.placed.count]
      exact hv
    have h2 : (tableOf m S b.buf.view.vars)[i]? = none := by
      rw [List.getElem?_eq_none_iff] at hv ⊢
      rw [tableOf_length ho]
      exact hv
    rw [List.getElem?_map, List.getElem?_map, h1, h2]
    rfl
  | some v =>
    obtain ⟨x, hx, hx'⟩ := tableOf_at ho (m := m) hv
    rw [List.getElem?_map, List.getElem?_map, hx, hx']
    simp only [Option.map_some, List.map_map, Option.some.injEq]
    apply List.map_congr_left
    intro w _
    simp only [Function.comp, elems_length]

theorem eplan_download (h : EInv c R G ups u0 p q) {k : Nat} {ats : List (List Nat)} (hs : EStepOk c R G ups u0 p q (.download k ats))
    (hf : (EdmOp.download k ats).Fits c R G (p.Outside c) (p.store c q)) : EPlanOk c R G ups u0 p q (.download k ats) := by
  obtain ⟨caps, r, d, t, hk, ht⟩ := hf
  obtain ⟨b, b1, b2, b3, b4, b5, b6, b7, b8, b9⟩ := h.has hk
  have hval : VarsValid p.mem (c.schema k) b.buf.view.vars := ⟨b5.varsPlaced, b6.sizes b7⟩
  obtain ⟨o1, -⟩ := buffer_oneSize p.mem b5.facts.1 b5.placed
  have hrs := b5.rowSizes p.mem
  rw [← b8] at hrs
  have hshape : Fits (rowSizes p.mem b.buf.view.vars) ats := by
    unfold Fits
    rw [hrs, ht.shape, List.map_map]
    apply List.map_congr_left
    intro ls _
    simp
  have hhost : VarsValid p.mem (c.schema k) (hostVars (c.schema k) (rowSizes p.mem b.buf.view.vars) ats) :=
    hostVars_valid hval hshape (by rw [hrs]; exact ht.placed)
  have hin : ∀ {x}, VarsHave (c.schema k) (hostVars (c.schema k) (rowSizes p.mem b.buf.view.vars) ats) x → InArrays (c.schema k) ats t x := by
    intro x hx
    rw [hrs] at hx
    refine hostVars_in (fun i v y hv hy => ?_) hx
    rw [← hrs] at hy ⊢
    obtain ⟨v', z, as, hv', hz, ha, rfl⟩ := hostVars_get hy
    cases hv.symm.trans hv'
    obtain ⟨as', ha', hl⟩ := hshape.get hz
    rw [ha] at ha'
    cases ha'
    obtain ⟨hk, -, hj⟩ := hval.each i v z hv hz
    exact ⟨_, hostArrays_get hz ha, (hostView_rows hk ⟨hj, hval.sizes z (List.mem_of_getElem? hz)⟩ hl).2⟩
  have hs2 := hs.2
  have hvalue : (hostSizes c.dbg (c.schema k) b.buf.view).value p.mem = .ok (rowSizes p.mem b.buf.view.vars) :=
    (Prog.Does.value (hostSizes_does hval o1)).1
  generalize hf : (copyEdmToHost c.dbg (c.schema k) b.buf.view fun _ => ats) = f at *
  have hex : p.exec c ups (.download k ats) = ((f.result p.mem).1.map fun _ =>
      .table (hostTable (f.result p.mem).2 (c.schema k) (rowSizes p.mem b.buf.view.vars) ats), { p with mem := (f.result p.mem).2 }) := by
    simp only [EPipe.exec, b1, hvalue, hf]
  rw [hex] at hs2
  obtain ⟨o, ho⟩ := (hs2.isOk (by simp)).resolve_right (hs2.noThrow (by simp) (by simp))
  have hr : f.result p.mem = (.ok (), (f.result p.mem).2) := by
    rcases hr : f.result p.mem with ⟨r, m'⟩
    rw [hr] at ho
    cases r with
    | ok u => rfl
    | _ => cases ho
  have h1 : Same AnyNumber f f := by rw [← hf]; exact same_copyEdmToHost _ _ _ _
  have h2 : Lib f EventOk := by rw [← hf]; exact lib_copyEdmToHost _ _ _ _
  have h3 : EndsEvent f := by rw [← hf]; exact endsEvent_copyEdmToHost
  refine plan_of (f := f) (o := .table (hostTable (f.result p.mem).2 (c.schema k) (rowSizes p.mem b.buf.view.vars) ats))
    (m' := (f.result p.mem).2) hs ?_ ?_ ?_ ?_
  · rw [hex, hr]
    rfl
  · simp only [edmPlan, b1, hf]
  · intro d' P hP _
    refine call_plan (R := EdmHas (c.schema k) b.buf.view) (W := InArrays (c.schema k) ats t) h1 h2 hr (.inl h3) (fun d => ?_) ?_ d' P hP
    · rw [← hf]
      refine foot_copyEdmToHost (fun x hx1 hx2 => ?_) b5.plain hval o1 hhost.toVarsPlaced (fun _ h => h) fun x hx => hin hx
      refine ht.away (inArrays_have hx2) ?_
      have := b5.data_in hx1
      rw [EBuffer.owns_iff (src := c.source k)] at this
      obtain ⟨e, he, h1⟩ := this
      exact ⟨e, by rw [EPipe.owned_eq]; exact List.mem_flatMap.2 ⟨_, b2, he⟩, h1⟩
    · rintro x (hx | hx)
      · exact .inl (Bytes.of b1 (b5.data_blk hx))
      · exact .inr ⟨caps, r, d, t, hk, hx⟩
  · intro _ d x s' hx
    exact call_works h1 h2 hr h3 d x s' hx

/-! ## Constructors and destructors -/

theorem pokeMem_layouts (m : Mem) : ∀ (xs : List VarView), pokeMem m (layoutPokes xs) = writeLayouts m xs := by
  intro xs
  induction xs generalizing m with
  | nil => rfl
  | cons x xs ih =>
    cases x with
    | jagged j =>
      unfold layoutPokes writeLayouts
      rw [pokeMem_append, pokeMem_views, ih]
    | _ => exact ih m

theorem layoutPokes_has : ∀ {xs : List VarView} {x : Nat}, PokeHas (layoutPokes xs) x → ∃ j, .jagged j ∈ xs ∧ j.hostPtr ≤ x ∧
    x < j.hostPtr + j.views.length * viewSize := by
  intro xs
  induction xs with
  | nil => rintro x ⟨w, hw, -⟩; cases hw
  | cons y xs ih =>
    intro x h
    cases y with
    | jagged j =>
      rcases pokeHas_append h with h | h
      · exact ⟨j, List.mem_cons_self, viewPokes_has h⟩
      · obtain ⟨j', h1, h2⟩ := ih h
        exact ⟨j', List.mem_cons_of_mem _ h1, h2⟩
    | _ =>
      obtain ⟨j', h1, h2⟩ := ih h
      exact ⟨j', List.mem_cons_of_mem _ h1, h2⟩

theorem EdmStep.defined {S S' : EStore} {op : EdmOp} {r : Res EdmOut} (h : EdmStep c S op r S') : r ≠ .ub := by
  cases h <;> simp

theorem eplan_create {k : Nat} {caps : List Nat} {r : Bool} (hs : EStepOk c R G ups u0 p q (.create k caps r)) :
    EPlanOk c R G ups u0 p q (.create k caps r) := by
  rcases hcr : EdmBuffer.create (fun h => ups (c.source k h)) p.res (c.schema k) caps (c.hasHost k) r with ⟨e, u⟩
  have hdef := hs.2.defined
  cases e with
  | ok b =>
    refine PlanOk.leaves ⟨hs.1, hdef, ?_, ?_, fun hw => hw.1.elim⟩ (hs.2.noThrow (by simp) (by simp))
    · simp only [edmSys, edmPlan, EPipe.exec, hcr]
    · intro d P hP hb
      simp only [edmSys, edmPlan, EPipe.exec, hcr]
      refine safe_pokes (fun o ho x hx => hb o ho x ?_) ?_
      · obtain ⟨j, h1, h2⟩ := layoutPokes_has hx
        refine ⟨⟨b, caps, r⟩, j, ?_, h1, h2⟩
        simp [EPipe.exec, hcr]
      · rw [pokeMem_layouts]
        exact ret_safe (r := .ok 0) (by simp) (fun e he => by cases he; rfl) hP
  | ub =>
    simp only [EPipe.exec, hcr] at hdef
    exact absurd rfl hdef
  | _ =>
    refine PlanOk.leaves ⟨hs.1, hdef, ?_, ?_, fun hw => hw.1.elim⟩ (hs.2.noThrow (by simp) (by simp))
    · simp only [edmSys, edmPlan, EPipe.exec, hcr]
    · intro d P hP hb
      simp only [edmSys, edmPlan, EPipe.exec, hcr]
      exact ret_safe (by simp [Res.map]) (fun e he => by cases he) hP

theorem eplan_destroy {k : Nat} (hs : EStepOk c R G ups u0 p q (.destroy k)) {out : Nat → Nat → Prop}
    (hf : (EdmOp.destroy k).Fits c R G out (p.store c q)) : EPlanOk c R G ups u0 p q (.destroy k) := by
  obtain ⟨v, hv⟩ := hf
  obtain ⟨b, hb⟩ := EPipe.store_exists hv
  have hdef := hs.2.defined
  refine PlanOk.leaves ⟨hs.1, hdef, ?_, ?_, fun hw => hw.1.elim⟩ (hs.2.noThrow (by simp) (by simp))
  · simp only [edmSys, edmPlan, EPipe.exec, hb]
  · intro d P hP _
    simp only [edmSys, edmPlan, EPipe.exec, hb] at hdef ⊢
    generalize b.buf.destroy (fun h => ups (c.source k h)) p.res = x at *
    have := ret_safe (F := fun x => (EdmOp.destroy k).Uses c p q x) (r := x.1.map fun _ => 0) (m := p.mem) (d := d) (P := P)
      (by intro hc; apply hdef; cases hx : x.1 <;> rw [hx] at hc <;> first | rfl | cases hc)
      (by intro e he; cases hx : x.1 <;> rw [hx] at he <;> cases he <;> rfl) hP
    simp only [Res.map_map] at this ⊢
    exact this

/-! ## Kernels -/

theorem edmBytes_iff {bufs : List (Nat × EBuffer)} {k x : Nat} : edmBytes bufs k x = true ↔ ∃ b, bufs.lookup k = some b ∧ b.blk.At x := by
  unfold edmBytes
  cases h : bufs.lookup k with
  | none => simp
  | some b => simp [Blk.At, EBuffer.blk]

theorem eplan_kernel {ins : List Nat} {k : Nat} {op : EdmOp} (hs : EStepOk c R G ups u0 p q op) (hl : LocalStep c ups p ins k op)
    (hp : edmPlan c ups (p.res, p.bufs) op = ((p.res, p.bufs), edmKernel c ups p.res p.bufs ins k op))
    (hu : ∀ x, (∃ i ∈ ins, p.Bytes i x) ∨ p.Bytes k x → op.Uses c p q x) : EPlanOk c R G ups u0 p q op := by
  obtain ⟨b, o, m1, hb, he, hout, hloc⟩ := hl
  refine plan_of hs he hp ?_ ?_
  · intro d P hP _
    have hnear : NearAll p (kernelMem p.mem (fun x => ins.any (edmBytes p.bufs · x)) (edmBytes p.bufs k)) (k :: ins) := by
      intro i hi b' hb' x hx
      have hbit : edmBytes p.bufs i x = true := edmBytes_iff.2 ⟨b', hb', hx⟩
      unfold kernelMem
      rw [if_pos]
      rcases List.mem_cons.1 hi with rfl | hi
      · simp [hbit]
      · simp only [Bool.or_eq_true, List.any_eq_true]
        exact .inl ⟨i, hi, hbit⟩
    obtain ⟨o', m1', e1, e2⟩ := hloc _ hnear
    refine kernel_safe (mk := m1') ?_ (fun x hx => ?_) (fun x hx => ?_) (fun x hx => hu x ?_) hP
    · unfold edmMem
      rw [show (EPipe.mk p.res (kernelMem p.mem (fun x => ins.any (edmBytes p.bufs · x)) (edmBytes p.bufs k)) p.bufs) =
        { p with mem := kernelMem p.mem (fun x => ins.any (edmBytes p.bufs · x)) (edmBytes p.bufs k) } from rfl, e1]
    · obtain ⟨b', hb', hx⟩ := edmBytes_iff.1 hx
      cases hb.symm.trans hb'
      exact e2 x hx
    · refine hout x fun hc => ?_
      rw [edmBytes_iff.2 ⟨b, hb, hc⟩] at hx
      cases hx
    · rcases hx with hx | hx
      · simp only [List.any_eq_true] at hx
        obtain ⟨i, hi, hx⟩ := hx
        obtain ⟨b', hb', hx⟩ := edmBytes_iff.1 hx
        exact .inl ⟨i, hi, Bytes.of hb' hx⟩
      · obtain ⟨b', hb', hx⟩ := edmBytes_iff.1 hx
        exact .inr (Bytes.of hb' hx)
  · intro _ d x s' hx
    unfold edmKernel at hx
    simp only [run] at hx
    split at hx
    · cases hx
      exact .inr rfl
    · cases hx
      exact .inl rfl

/-- Every step. -/
theorem eplan (hl : FamLawful R G ups u0) (hc : c.Wf) (h : EInv c R G ups u0 p q) {op : EdmOp}
    (hf : op.Fits c R G (p.Outside c) (p.store c q)) : EPlanOk c R G ups u0 p q op := by
  have hs := edm_step hl hc h hf
  cases op with
  | create => exact eplan_create hs
  | destroy => exact eplan_destroy hs hf
  | setup => exact eplan_setup h hs hf
  | memset => exact eplan_memset h hs hf
  | copy => exact eplan_copy hl h hs hf
  | upload => exact eplan_upload hc h hs hf
  | download => exact eplan_download h hs hf
  | append => exact eplan_kernel hs (local_append hl hc h hf) rfl fun _ hx => hx
  | rows => exact eplan_kernel hs (local_rows hl hc h hf) rfl fun _ hx => hx
  | kernel => exact eplan_kernel hs (local_kernel h hf) rfl fun _ hx => hx
  | single => exact eplan_kernel hs (local_single h hf) rfl fun _ hx => hx

end Vecmem
