import Verif.Lemmas.EdmPipelineKernels

/-! # Lemmas for C65: kernels that append elements -/

namespace Vecmem

open IntMath Props

variable {σ : Type} {R : Limits} {G : Nat} {ups : Nat → MR σ} {u0 : σ} {c : EdmCfg} {p : EPipe σ} {q : EReady}

theorem deviceVars_get {dflt : Nat → Elem} {m : Mem} : ∀ {S : Schema} {xs : List VarView} {n i : Nat} {v : Var} {x : VarView},
    S[i]? = some v → xs[i]? = some x → (deviceVars dflt m n S xs)[i]? = some (x.device (dflt (n + i)) v.type.size m) := by
  intro S
  induction S with
  | nil => intro xs n i v x h; simp at h
  | cons w S ih =>
    intro xs n i v x hv hx
    cases xs with
    | nil => simp at hx
    | cons y xs =>
      unfold deviceVars
      cases i with
      | zero =>
        simp only [List.getElem?_cons_zero, Option.some.injEq] at hv hx ⊢
        rw [hv, hx, Nat.add_zero]
      | succ i =>
        simp only [List.getElem?_cons_succ] at hv hx ⊢
        rw [ih hv hx, show n + 1 + i = n + (i + 1) by omega]

theorem deviceVars_length {dflt : Nat → Elem} {m : Mem} : ∀ {S : Schema} {xs : List VarView} {n : Nat}, xs.length = S.length →
    (deviceVars dflt m n S xs).length = S.length := by
  intro S
  induction S with
  | nil => intro xs n _; cases xs <;> rfl
  | cons w S ih =>
    intro xs n h
    cases xs with
    | nil => simp at h
    | cons y xs =>
      unfold deviceVars
      rw [List.length_cons, List.length_cons, ih (by simpa using h)]

/-- The elements that a kernel leaves behind in a variable. -/
def leftCells : VarView → DevVar Elem → List (List Elem)
  | .vector v, .vector _ _ f => [(List.range v.capacity).map fun i => (f i).getD []]
  | .scalar _, .scalar e => [[e]]
  | _, _ => []

theorem putRows_nil (t : Nat) (m : Mem) (as : List Nat) : JPipe.putRows t m as [] = m := by cases as <;> rfl

theorem store_putRows (t : Nat) (m : Mem) (x : VarView) (d : DevVar Elem) :
    x.store t m d = JPipe.putRows t m (x.rows.map (·.ptr)) (leftCells x d) := by
  cases x with
  | scalar a => cases d <;> first | rfl | (unfold leftCells; rw [putRows_nil]; rfl)
  | vector v => cases d <;> first | rfl | (unfold leftCells; rw [putRows_nil]; rfl)
  | jagged j => cases d <;> (unfold leftCells; rw [putRows_nil]; rfl)

theorem storeVars_putTable : ∀ {S : Schema} {xs : List VarView} {ds : List (DevVar Elem)} {m : Mem},
    storeVars m S xs ds = putTable m S (xs.map fun x => x.rows.map (·.ptr)) (List.zipWith leftCells xs ds) := by
  intro S
  induction S with
  | nil => intros; rfl
  | cons v S ih =>
    intro xs ds m
    cases xs with
    | nil => rfl
    | cons x xs =>
      cases ds with
      | nil => rfl
      | cons d ds =>
        simp only [storeVars, putTable, List.map_cons, List.zipWith_cons_cons, ih, store_putRows]

/-- A variable and what a kernel leaves behind in it. -/
def LeftOk (t : Nat) : VarView → DevVar Elem → Prop
  | .vector v, .vector _ _ f => ∀ j, j < v.capacity → ((f j).getD []).length = t
  | .scalar _, .scalar e => e.length = t
  | _, _ => False

theorem bytesAt_of_elems {t : Nat} {m : Mem} {a : Nat} {l : List Elem} (h : (View.mk l.length 0 a).elems m t = l) {j : Nat} {e : Elem}
    (hj : l[j]? = some e) : bytesAt m (a + j * t) t = e := by
  have hlt := (List.getElem?_eq_some_iff.1 hj).1
  have := elems_get (m := m) (t := t) (v := View.mk l.length 0 a) (i := j) (by simpa [View.len] using hlt)
  rw [h, hj] at this
  exact (Option.some.inj this).symm

theorem bytesAt_same {m m' : Mem} {a n : Nat} (h : ∀ x, a ≤ x → x < a + n → m' x = m x) : bytesAt m' a n = bytesAt m a n := by
  unfold bytesAt
  apply List.map_congr_left
  intro i hi
  have := List.mem_range.1 hi
  exact h _ (by omega) (by omega)

/-- The memory after a kernel has left the container behind. -/
theorem store_spec {S : Schema} {A : Nat} {hasHost : Bool} {b : EBuffer} (ho : EdmOk σ R G S A hasHost b) (hj : S.hasJagged = false)
    {i0 : Nat} {w0 : View} (hi0 : b.buf.view.vars[i0]? = some (.vector w0)) (h0 : b.buf.view.size.ptr ≠ 0) (m : Mem) (s : DevCont Elem)
    (hs : s.sizeWord < 2 ^ 32) (hlen : s.vars.length = S.length)
    (hleft : ∀ (i : Nat) (v : Var) (x : VarView) (d : DevVar Elem), S[i]? = some v → b.buf.view.vars[i]? = some x → s.vars[i]? = some d →
      LeftOk v.type.size x d) :
    (∀ a, ¬ (b.buf.view.size.ptr ≤ a ∧ a < b.buf.view.size.ptr + 4) → (∀ (i : Nat) (v : Var) (x : VarView), S[i]? = some v → b.buf.view.vars[i]? = some x →
      ∀ w ∈ x.rows, ¬ w.HasPayload v.type.size a) → b.buf.view.store S m s a = m a) ∧
    (∀ (i : Nat) (v : Var) (w : View) (d : Elem) (cp : Nat) (f : Nat → Option Elem), S[i]? = some v → b.buf.view.vars[i]? = some (.vector w) →
      s.vars[i]? = some (.vector d cp f) → w.len (b.buf.view.store S m s) = s.sizeWord ∧
      ∀ j, j < w.capacity → bytesAt (b.buf.view.store S m s) (w.ptr + j * v.type.size) v.type.size = (f j).getD []) ∧
    (∀ (i : Nat) (v : Var) (a : Nat) (e : Elem), S[i]? = some v → b.buf.view.vars[i]? = some (.scalar a) → s.vars[i]? = some (.scalar e) →
      bytesAt (b.buf.view.store S m s) a v.type.size = e) := by
  have hvp := ho.varsPlaced
  obtain ⟨o1, -⟩ := buffer_oneSize m ho.facts.1 ho.placed
  obtain ⟨-, o2⟩ := o1 hj
  obtain ⟨v0, hv0⟩ := get_same hvp.count hi0
  obtain ⟨s1, s2⟩ := o2 w0 (List.mem_of_getElem? hi0)
  have hst : b.buf.view.store S m s = writeLE (storeVars m S b.buf.view.vars s.vars) b.buf.view.size.ptr 4 s.sizeWord := by
    unfold EdmView.store
    rw [if_neg h0]
  rw [hst, storeVars_putTable]
  -- the rows that are written
  have hat : ∀ (i : Nat) (v : Var) (as : List Nat) (ls : List (List Elem)), S[i]? = some v →
      (b.buf.view.vars.map fun x => x.rows.map (·.ptr))[i]? = some as → (List.zipWith leftCells b.buf.view.vars s.vars)[i]? = some ls →
      ∃ (x : VarView) (w : View) (l : List Elem), b.buf.view.vars[i]? = some x ∧ x.rows = [w] ∧ as = [w.ptr] ∧ ls = [l] ∧
        l.length = w.capacity ∧ ∀ e ∈ l, e.length = v.type.size := by
    intro i v as ls hv ha hls
    rw [List.getElem?_map] at ha
    obtain ⟨x, hx, rfl⟩ := Option.map_eq_some_iff.1 ha
    rw [List.getElem?_zipWith, hx] at hls
    cases hd : s.vars[i]? with
    | none => rw [hd] at hls; simp at hls
    | some d =>
      rw [hd] at hls
      simp only [Option.some.injEq] at hls
      have hok := hleft i v x d hv hx hd
      cases x with
      | scalar a =>
        cases d with
        | scalar e =>
          refine ⟨.scalar a, ⟨1, 0, a⟩, [e], hx, rfl, rfl, hls.symm, rfl, ?_⟩
          intro e' he'
          rw [List.mem_singleton] at he'
          subst he'
          exact hok
        | vector => exact hok.elim
      | vector w =>
        cases d with
        | scalar e => exact hok.elim
        | vector d cp f =>
          refine ⟨.vector w, w, _, hx, rfl, rfl, hls.symm, by simp, ?_⟩
          intro e he
          obtain ⟨j, hj, rfl⟩ := List.mem_map.1 he
          exact hok j (List.mem_range.1 hj)
      | jagged j => exact hok.elim
  have hone : ∀ {k a : Nat} {w : View}, [w.ptr][k]? = some a → k = 0 ∧ a = w.ptr := by
    intro k a w h
    cases k with
    | zero => simp at h; exact ⟨rfl, h.symm⟩
    | succ k => simp at h
  have hone' : ∀ {k : Nat} {l l' : List Elem}, [l][k]? = some l' → l' = l := by
    intro k l l' h
    cases k with
    | zero => simp at h; exact h.symm
    | succ k => simp at h
  generalize hM : putTable m S (b.buf.view.vars.map fun x => x.rows.map (·.ptr)) (List.zipWith leftCells b.buf.view.vars s.vars) = M
  have hel : ∀ (i : Nat) (v : Var) (x : VarView) (w : View) (d : DevVar Elem) (l : List Elem), S[i]? = some v → b.buf.view.vars[i]? = some x →
      x.rows = [w] → s.vars[i]? = some d → leftCells x d = [l] → (View.mk l.length 0 w.ptr).elems M v.type.size = l := by
    intro i v x w d l hv hx hw hd hl
    rw [← hM]
    refine putTable_elems ?_ ?_ i v [w.ptr] [l] hv (by rw [List.getElem?_map, hx]; simp [hw]) (by
      rw [List.getElem?_zipWith, hx, hd]; simp [hl]) 0 w.ptr l rfl rfl
    · intro i v as ls hv ha hls
      obtain ⟨x, w, l, -, -, rfl, rfl, -, h5⟩ := hat i v as ls hv ha hls
      refine ⟨?_, ?_⟩
      · intro l' hl'
        rw [List.mem_singleton] at hl'
        subst hl'
        exact h5
      · intro k k' a a' l' l'' hkk x1 x2
        obtain ⟨rfl, -⟩ := hone x1
        obtain ⟨rfl, -⟩ := hone x2
        omega
    · intro i j v v' as bs ls ls' hij hv hv' ha hb hls hls' k k' a a' l' l'' x1 x2 x3 x4 y ⟨y1, y2⟩
      obtain ⟨x, w, l1, hx, hxw, rfl, rfl, h4, -⟩ := hat i v as ls hv ha hls
      obtain ⟨x', w', l2, hx', hxw', rfl, rfl, h4', -⟩ := hat j v' bs ls' hv' hb hls'
      obtain ⟨-, rfl⟩ := hone x1
      obtain ⟨-, rfl⟩ := hone x2
      rw [hone' x3] at y1
      rw [hone' x4] at y2
      refine hvp.apart i j v v' x x' (by omega) hv hv' hx hx' y ⟨⟨w, by rw [hxw]; simp, ?_⟩, .inl ⟨w', by rw [hxw']; simp, ?_⟩⟩
      · rw [h4] at y1; exact y1
      · rw [h4'] at y2; exact y2
  have hword : ∀ (i : Nat) (v : Var) (x : VarView), S[i]? = some v → b.buf.view.vars[i]? = some x → ∀ w ∈ x.rows, ∀ y, w.HasPayload v.type.size y →
      writeLE M b.buf.view.size.ptr 4 s.sizeWord y = M y := by
    intro i v x hv hx w hw y hy
    apply writeLE_other
    by_contra hc
    have hww : w0.HasWord y := ⟨by rw [s1]; exact h0, by rw [s1]; omega, by rw [s1]; omega⟩
    by_cases hii : i = i0
    · subst hii
      cases hx.symm.trans hi0
      simp only [VarView.rows, List.mem_singleton] at hw
      subst hw
      exact ((hvp.each i v _ hv hx).2.2.placed w (by simp [VarView.rows])).apart y ⟨hy, hww⟩
    · exact hvp.apart i i0 v v0 x _ hii hv hv0 hx hi0 y ⟨⟨w, hw, hy⟩, .inr ⟨w0, by simp [VarView.rows], hww⟩⟩
  refine ⟨?_, ?_, ?_⟩
  · intro a haw ha
    rw [writeLE_other (by omega), ← hM]
    refine putTable_other ?_
    intro i v as ls hv h1 h2 k a' l x1 x2 hc
    obtain ⟨x, w, l1, hx, hxw, rfl, rfl, h4, -⟩ := hat i v as ls hv h1 h2
    obtain ⟨-, rfl⟩ := hone x1
    rw [hone' x2, h4] at hc
    exact ha i v x hv hx w (by rw [hxw]; simp) hc
  · intro i v w d cp f hv hx hd
    obtain ⟨t1, t2⟩ := o2 w (List.mem_of_getElem? hx)
    refine ⟨?_, ?_⟩
    · unfold View.len
      rw [if_neg (by rw [t1]; exact h0), t1, readLE_writeLE (by simpa using hs)]
    · intro j hj
      rw [bytesAt_same (m := M)]
      · have := hel i v _ w _ _ hv hx rfl hd rfl
        exact bytesAt_of_elems this (by simp [hj])
      · intro y y1 y2
        refine hword i v _ hv hx w (by simp [VarView.rows]) y ⟨by omega, ?_⟩
        have : (j + 1) * v.type.size ≤ w.capacity * v.type.size := Nat.mul_le_mul_right _ (by omega)
        rw [Nat.succ_mul] at this
        omega
  · intro i v a e hv hx hd
    rw [bytesAt_same (m := M)]
    · have := hel i v _ ⟨1, 0, a⟩ _ [e] hv hx rfl hd rfl
      have := bytesAt_of_elems this (j := 0) rfl
      simpa using this
    · intro y y1 y2
      exact hword i v _ hv hx ⟨1, 0, a⟩ (by simp [VarView.rows]) y ⟨y1, by simpa using y2⟩

theorem lastAssigned_sized {t k : Nat} : ∀ {as : List (Nat × Elem)} {d : Elem}, d.length = t → (∀ a ∈ as, a.1 = k → a.2.length = t) →
    (lastAssigned d k as).length = t := by
  intro as
  induction as with
  | nil => exact fun h _ => h
  | cons a as ih =>
    intro d hd h
    obtain ⟨j, x⟩ := a
    unfold lastAssigned
    refine ih ?_ fun a ha => h a (List.mem_cons_of_mem _ ha)
    split
    · exact h (j, x) List.mem_cons_self (by assumption)
    · exact hd

/-- A container without jagged vectors that kernels may append to: its buffer `b` has room for `caps.length` elements and holds `n`. -/
structure AppendReady (c : EdmCfg) (k : Nat) (m : Mem) (b : EBuffer) (caps : List Nat) (n : Nat) (progs : List (List (DCall Elem))) : Prop where
  count : (c.schema k).length = b.buf.view.vars.length
  kind : ∀ (i : Nat) (v : Var) (x : VarView), (c.schema k)[i]? = some v → b.buf.view.vars[i]? = some x →
    (v.kind = .scalar ∧ ∃ a, x = .scalar a) ∨ (v.kind = .vector ∧ ∃ w, x = .vector w ∧ w.sizePtr ≠ 0 ∧ w.capacity = caps.length ∧ w.len m = n)
  one : ∃ (i : Nat) (v : Var) (w : View), (c.schema k)[i]? = some v ∧ b.buf.view.vars[i]? = some (.vector w) ∧ w.sizePtr ≠ 0 ∧ w.sizePtr = b.buf.view.size.ptr
  size : b.buf.view.size.ptr ≠ 0
  cap : b.buf.view.capacity = caps.length
  cap32 : caps.length < 2 ^ 32
  vars : ∀ (i : Nat) (v : Var) (x : VarView), (c.schema k)[i]? = some v → b.buf.view.vars[i]? = some x →
    (b.buf.view.device c.dbg (c.dflt k) (c.schema k) m).vars[i]? = some (x.device (c.dflt k i) v.type.size m)
  vlen : (b.buf.view.device c.dbg (c.dflt k) (c.schema k) m).vars.length = (c.schema k).length
  ready : (b.buf.view.device c.dbg (c.dflt k) (c.schema k) m).Ready n
  room : n + callCount progs ≤ (b.buf.view.device c.dbg (c.dflt k) (c.schema k) m).cap
  valid : ∀ pr ∈ progs, ∀ cl ∈ pr, cl.Valid (b.buf.view.device c.dbg (c.dflt k) (c.schema k) m)
  args : ∀ pr ∈ progs, ∀ x ∈ pr, ∀ a ∈ x.assigns, ∃ v, (c.schema k)[a.1]? = some v ∧ v.kind = .vector ∧ a.2.length = v.type.size

theorem EInv.appendReady (hc : c.Wf) (h : EInv c R G ups u0 p q) {k : Nat} {caps : List Nat} {t : Table} {n : Nat} {progs : List (List (DCall Elem))}
    (hnj : (c.schema k).hasJagged = false) (f2 : (p.store c q).Has k caps true true t) (hn : VectorsHave (c.schema k) n t) (hfit : n + callCount progs ≤ caps.length)
    (hargs : ∀ p ∈ progs, ∀ x ∈ p, ∀ a ∈ x.assigns, ∃ v, (c.schema k)[a.1]? = some v ∧ v.kind = .vector ∧ a.2.length = v.type.size) :
    ∃ b, p.bufs.lookup k = some b ∧ EdmOk σ R G (c.schema k) c.align (c.hasHost k) b ∧ AppendReady c k p.mem b caps n progs := by
  obtain ⟨b, b1, b2, b3, b4, b5, b6, b7, b8, b9⟩ := h.has f2
  refine ⟨b, b1, b5, ?_⟩
  have hvp := b5.varsPlaced
  have hgrow : ∀ v : Var, v.kind = .vector → (c.schema k).grows b.resizable v = true := by
    intro v hv
    unfold Schema.grows
    rw [b4, hv, hnj]
    rfl
  have hkind : ∀ (i : Nat) (v : Var) (x : VarView), (c.schema k)[i]? = some v → b.buf.view.vars[i]? = some x →
      (v.kind = .scalar ∧ ∃ a, x = .scalar a) ∨ (v.kind = .vector ∧ ∃ w, x = .vector w ∧ w.sizePtr ≠ 0 ∧ w.capacity = caps.length ∧ w.len p.mem = n) := by
    intro i v x hv hx
    obtain ⟨k1, k2, k3⟩ := b5.row_facts hv hx
    cases x with
    | scalar a => exact .inl ⟨k1.symm, a, rfl⟩
    | vector w =>
      have hk : v.kind = .vector := k1.symm
      refine .inr ⟨hk, w, rfl, (k3 w (by simp [VarView.rows])).2 (hgrow v hk), ?_, ?_⟩
      · unfold Var.rowCaps at k2
        rw [hk, b3] at k2
        simpa [VarView.rows] using k2
      · obtain ⟨l, l1, l2⟩ := hn i v _ hv hk (by rw [b8]; exact tableOf_get hv hx)
        simp only [VarView.rows, List.map_cons, List.map_nil, List.cons.injEq, and_true] at l1
        rw [← l2, ← l1, elems_length]
    | jagged j =>
      have : (c.schema k).hasJagged = true := by
        unfold Schema.hasJagged
        rw [List.any_eq_true]
        exact ⟨v, List.mem_of_getElem? hv, by rw [← k1]; rfl⟩
      rw [hnj] at this
      cases this
  obtain ⟨⟨v0, hv0m, hv0k⟩, -⟩ := hc.2 k
  obtain ⟨i0, hi0⟩ := List.mem_iff_getElem?.1 hv0m
  obtain ⟨x0, hx0⟩ := get_same hvp.count.symm hi0
  obtain ⟨hv0v, w0, rfl, hw0s, hw0c, hw0l⟩ : v0.kind = .vector ∧ ∃ w, x0 = .vector w ∧ w.sizePtr ≠ 0 ∧ w.capacity = caps.length ∧ w.len p.mem = n := by
    rcases hkind i0 v0 x0 hi0 hx0 with h1 | h1
    · exact absurd h1.1 hv0k
    · exact h1
  obtain ⟨o1, -⟩ := buffer_oneSize p.mem b5.facts.1 b5.placed
  obtain ⟨-, o2⟩ := o1 hnj
  obtain ⟨s1, s2⟩ := o2 w0 (List.mem_of_getElem? hx0)
  have hsp : b.buf.view.size.ptr ≠ 0 := by rw [← s1]; exact hw0s
  have hecap : b.buf.view.capacity = caps.length := by rw [← s2]; exact hw0c
  have hcap32 : caps.length < 2 ^ 32 := by
    rw [← hw0c]
    exact ((hvp.each i0 v0 _ hi0 hx0).2.2.placed w0 (by simp [VarView.rows])).word32
  -- the device container
  generalize hs0 : b.buf.view.device c.dbg (c.dflt k) (c.schema k) p.mem = s0
  have hvars : ∀ (i : Nat) (v : Var) (x : VarView), (c.schema k)[i]? = some v → b.buf.view.vars[i]? = some x →
      s0.vars[i]? = some (x.device (c.dflt k i) v.type.size p.mem) := by
    intro i v x hv hx
    rw [← hs0]
    have := deviceVars_get (dflt := c.dflt k) (m := p.mem) (n := 0) hv hx
    rw [Nat.zero_add] at this
    exact this
  have hvlen : s0.vars.length = (c.schema k).length := by
    rw [← hs0]
    exact deviceVars_length hvp.count
  have hready : s0.Ready n := by
    refine ⟨?_, ?_, ?_, ?_⟩
    · rw [← hs0]
      simp [EdmView.device, hsp]
    · rw [← hs0]
      simp only [EdmView.device, if_neg hsp]
      rw [← hw0l]
      unfold View.len
      rw [if_neg hw0s, s1]
    · intro i d cp m hd
      have hlt : i < (c.schema k).length := by rw [← hvlen]; exact (List.getElem?_eq_some_iff.1 hd).1
      have hv := List.getElem?_eq_getElem hlt
      obtain ⟨x, hx⟩ := get_same hvp.count.symm hv
      rw [hvars i _ x hv hx] at hd
      have hcap : s0.cap = caps.length := by rw [← hs0]; exact hecap
      rcases hkind i _ x hv hx with ⟨-, a, rfl⟩ | ⟨-, w, rfl, -, hwc, -⟩
      · cases hd
      · simp only [VarView.device, Option.some.injEq, DevVar.vector.injEq] at hd
        rw [hcap, ← hwc]
        exact hd.2.1.symm
    · rw [← hs0]
      show b.buf.view.capacity < 2 ^ 32
      rw [hecap]
      exact hcap32
  have hcap0 : s0.cap = caps.length := by rw [← hs0]; exact hecap
  have hvalid : ∀ pr ∈ progs, ∀ cl ∈ pr, cl.Valid s0 := by
    intro pr hpr cl hcl a ha
    obtain ⟨v, hv, hvk, -⟩ := hargs pr hpr cl hcl a ha
    obtain ⟨x, hx⟩ := get_same hvp.count.symm hv
    rcases hkind a.1 v x hv hx with ⟨h1, -⟩ | ⟨-, w, rfl, -⟩
    · rw [h1] at hvk; cases hvk
    · exact ⟨_, _, _, hvars a.1 v _ hv hx⟩
  subst hs0
  exact ⟨hvp.count.symm, hkind, ⟨i0, v0, w0, hi0, hx0, hw0s, s1⟩, hsp, hecap, hcap32, hvars, hvlen, hready, by rw [hcap0]; exact hfit, hvalid, hargs⟩

/-- The cells of a vector after a kernel. -/
theorem AppendReady.cells {m : Mem} {b : EBuffer} {k : Nat} {caps : List Nat} {n : Nat} {progs : List (List (DCall Elem))} (hc : c.Wf) (ha : AppendReady c k m b caps n progs)
    {g : DConc Elem} {order : List (Nat × DCall Elem × Nat)}
    (g5 : (g.threads.map DThread.done).map (fun (l : List (DCall Elem × Nat)) => l.map (·.1)) = progs)
    (g6 : ∀ i, (order.filter (·.1 = i)).map (·.2) = (g.threads.map DThread.done).getD i []) (g8 : order.length = callCount progs)
    (g9 : ∀ (j : Nat) (d : Elem) (cp : Nat) (m0 : Nat → Option Elem), (b.buf.view.device c.dbg (c.dflt k) (c.schema k) m).vars[j]? = some (.vector d cp m0) →
        ∃ m', g.cont.vars[j]? = some (.vector d cp m') ∧ (∀ i, i < n ∨ n + callCount progs ≤ i → m' i = m0 i) ∧
          ∀ (i : Nat) (x : Nat × DCall Elem × Nat), order[i]? = some x → m' (n + i) = some (lastAssigned d j x.2.1.assigns))
    (i : Nat) (v : Var) (w : View) (hv : (c.schema k)[i]? = some v) (hx : b.buf.view.vars[i]? = some (.vector w)) :
    ∃ f', g.cont.vars[i]? = some (.vector (c.dflt k i) w.capacity f') ∧
      (∀ j, j < n → f' j = some (bytesAt m (w.ptr + j * v.type.size) v.type.size)) ∧
      (∀ (j : Nat) (x : Nat × DCall Elem × Nat), order[j]? = some x → f' (n + j) = some (lastAssigned (c.dflt k i) i x.2.1.assigns)) ∧
      ∀ j, j < w.capacity → ((f' j).getD []).length = v.type.size := by
  obtain ⟨-, hkind, -, -, hecap, -, hvars, -, -, hfit, -, hargs⟩ := ha
  change n + callCount progs ≤ b.buf.view.capacity at hfit
  rw [hecap] at hfit
  obtain ⟨-, hwf⟩ := hc.2 k
  -- calls are those of the programs
  have hcalls : ∀ x ∈ order, ∃ pr ∈ progs, x.2.1 ∈ pr := by
    intro x hx
    have h1 : x.2 ∈ (g.threads.map DThread.done).getD x.1 [] := by
      rw [← g6]
      exact List.mem_map.2 ⟨x, List.mem_filter.2 ⟨hx, by simp⟩, rfl⟩
    rw [List.getD_eq_getElem?_getD] at h1
    cases hi : (g.threads.map DThread.done)[x.1]? with
    | none => rw [hi] at h1; simp at h1
    | some l =>
      rw [hi, Option.getD_some] at h1
      refine ⟨l.map (·.1), ?_, List.mem_map.2 ⟨_, h1, rfl⟩⟩
      rw [← g5]
      exact List.mem_map.2 ⟨l, List.mem_of_getElem? hi, rfl⟩
  have hsized : ∀ (i : Nat) (v : Var), (c.schema k)[i]? = some v → ∀ x ∈ order, (lastAssigned (c.dflt k i) i x.2.1.assigns).length = v.type.size := by
    intro i v hv x hx
    obtain ⟨pr, hpr, hxp⟩ := hcalls x hx
    refine lastAssigned_sized (hwf i v hv).2.2 ?_
    rintro a ha rfl
    obtain ⟨v', hv', -, h3⟩ := hargs pr hpr x.2.1 hxp a ha
    cases hv.symm.trans hv'
    exact h3
  obtain ⟨f', q1, q2, q3⟩ := g9 i _ _ _ (hvars i v _ hv hx)
  have hwc : w.capacity = caps.length := by
    rcases hkind i v _ hv hx with ⟨-, a, ha⟩ | ⟨-, w', hw', -, hwc, -⟩
    · cases ha
    · cases hw'; exact hwc
  have hold : ∀ j, j < w.capacity → (j < n ∨ n + callCount (progs) ≤ j) → f' j = some (bytesAt m (w.ptr + j * v.type.size) v.type.size) := by
    intro j hj hj'
    rw [q2 j hj']
    exact if_pos hj
  refine ⟨f', q1, fun j hj => hold j (by rw [hwc]; omega) (.inl hj), q3, ?_⟩
  intro j hj
  by_cases hj' : j < n ∨ n + callCount (progs) ≤ j
  · rw [hold j hj hj', Option.getD_some, bytesAt_length]
  · obtain ⟨d, hd⟩ : ∃ d, j = n + d := ⟨j - n, by omega⟩
    subst hd
    have hlt : d < order.length := by omega
    have ho := List.getElem?_eq_getElem hlt
    rw [q3 d _ ho, Option.getD_some]
    exact hsized i v hv _ (List.mem_of_getElem? ho)

theorem estep_append (hl : FamLawful R G ups u0) (hc : c.Wf) (h : EInv c R G ups u0 p q) {ins : List Nat} {k : Nat}
    {f : List Table → List (List (DCall Elem))} {sched : List Nat} {out : Nat → Nat → Prop}
    (hf : (EdmOp.append ins k f sched).Fits c R G out (p.store c q)) : EStepOk c R G ups u0 p q (.append ins k f sched) := by
  obtain ⟨-, hnj, ts, caps, t, n, f1, f2, hn, hfit, hargs⟩ := hf
  obtain ⟨b, b1, b2, b3, b4, b5, b6, b7, b8, b9⟩ := h.has f2
  obtain ⟨b', b1', -, ha⟩ := h.appendReady hc hnj f2 hn hfit hargs
  cases b1.symm.trans b1'
  have hcell := @AppendReady.cells c p.mem b k caps n (f ts) hc ha
  obtain ⟨-, hkind, ⟨i0, v0, w0, hi0, hx0, hw0s, s1⟩, hsp, hecap, hcap32, hvars, hvlen, hready, hroom, hvalid, -⟩ := ha
  generalize hs0 : b.buf.view.device c.dbg (c.dflt k) (c.schema k) p.mem = s0 at hcell hvars hvlen hready hroom hvalid
  obtain ⟨g1, g2, g3, g4, g5, order, g6, g7, g8, g9⟩ := DConc.kernel_ok hready (progs := f ts) hroom hvalid sched
  have hex : p.exec c ups (.append ins k f sched) =
      (.ok (.calls ((DConc.kernel s0 (f ts) sched).threads.map DThread.done)),
        { p with mem := b.buf.view.store (c.schema k) p.mem (DConc.kernel s0 (f ts) sched).cont }) := by
    simp only [EPipe.exec, b1, h.reads f1, hs0, g1]
    rfl
  generalize DConc.kernel s0 (f ts) sched = g at g1 g2 g3 g4 g5 g6 g9 hex
  have hcells := hcell g5 g6 g8 g9
  obtain ⟨w1, w2, w3⟩ := store_spec b5 hnj hx0 hsp p.mem g.cont (by rw [g2]; omega) (g3.trans hvlen) (by
    intro i v x d hv hx hd
    rcases hkind i v x hv hx with ⟨-, a, rfl⟩ | ⟨-, w, rfl, -⟩
    · have := g4 i _ (hvars i v _ hv hx)
      cases hd.symm.trans this
      exact bytesAt_length _ _ _
    · obtain ⟨f', q1, -, -, q4⟩ := hcells i v w hv hx
      cases hd.symm.trans q1
      exact q4)
  have w1' : ∀ a, ¬ EdmHas (c.schema k) b.buf.view a → b.buf.view.store (c.schema k) p.mem g.cont a = p.mem a := by
    intro a ha
    refine w1 a (fun hc => ha (.inl ⟨i0, v0, _, hi0, hx0, .inr ⟨w0, by simp [VarView.rows], ?_⟩⟩))
      fun i v x hv hx w hw hc => ha (.inl ⟨i, v, x, hv, hx, .inl ⟨w, hw, hc⟩⟩)
    exact ⟨hw0s, by rw [s1]; exact hc.1, by rw [s1]; exact hc.2⟩
  generalize b.buf.view.store (c.schema k) p.mem g.cont = m' at w1' w2 w3 hex
  have hsz : EdmSizes m' b.buf.view := by
    intro x hx w hw
    obtain ⟨i, v, hv, hi, -⟩ := b5.var_at hx
    rcases hkind i v x hv hi with ⟨-, a, rfl⟩ | ⟨-, w', rfl, -, hwc, -⟩
    · simp only [VarView.rows, List.mem_singleton] at hw
      subst hw
      simp [View.len]
    · simp only [VarView.rows, List.mem_singleton] at hw
      subst hw
      obtain ⟨f', q1, -⟩ := hcells i v w hv hi
      rw [(w2 i v w _ _ _ hv hi q1).1, g2, hwc]
      exact hfit
  obtain ⟨i1, i2⟩ := h.changeData hl b1 (m' := m') w1' (q' := q) (fun _ _ => rfl) rfl (fun _ => hsz)
  unfold EStepOk
  rw [show (EdmOp.append ins k f sched).ready q = q from rfl, hex]
  refine ⟨i1, ?_⟩
  show EdmStep c (p.store c q) _ _ (EPipe.store c { p with mem := m' } q)
  rw [i2, if_pos b7, ← b9, b3, b4]
  refine .append ins k f sched f1 f2 n hn order _ _ g6 g5 g7 ?_
  refine ⟨by rw [tableOf_length b5, b8, tableOf_length b5], ?_⟩
  intro i v rows rows' hv hr hr'
  obtain ⟨x, hx, hx'⟩ := tableOf_at b5 (m := m') hv
  rw [hx'] at hr'
  cases hr'
  rw [b8, tableOf_get hv hx] at hr
  cases hr
  rcases hkind i v x hv hx with ⟨hvk, a, rfl⟩ | ⟨hvk, w, rfl, -, hwc, hwl⟩
  · rw [if_neg (by rw [hvk]; simp)]
    have := w3 i v a _ hv hx (g4 i _ (hvars i v _ hv hx))
    simp [VarView.rows, View.elems, View.len, this]
  · rw [if_pos hvk]
    obtain ⟨f', q1, q2, q3, -⟩ := hcells i v w hv hx
    obtain ⟨l1, l2⟩ := w2 i v w _ _ _ hv hx q1
    simp only [VarView.rows, List.map_cons, List.map_nil, List.cons.injEq, and_true]
    refine list_eq (by rw [elems_length, l1, g2, List.length_append, elems_length, hwl, List.length_map, List.length_map, g8]) ?_
    intro j e e' x1 x2
    have hj : j < n + callCount (f ts) := by
      have := (List.getElem?_eq_some_iff.1 x1).1
      rw [elems_length, l1, g2] at this
      exact this
    rw [elems_get (by rw [l1, g2]; exact hj), l2 j (by rw [hwc]; omega)] at x1
    by_cases hjn : j < n
    · rw [List.getElem?_append_left (by rw [elems_length, hwl]; exact hjn), elems_get (by rw [hwl]; exact hjn)] at x2
      rw [q2 j hjn, Option.getD_some] at x1
      exact Option.some.inj (x1.symm.trans x2)
    · obtain ⟨d, rfl⟩ : ∃ d, j = n + d := ⟨j - n, by omega⟩
      rw [List.getElem?_append_right (by rw [elems_length, hwl]; omega), elems_length, hwl, Nat.add_sub_cancel_left, List.getElem?_map,
        List.getElem?_map] at x2
      have ho := List.getElem?_eq_getElem (show d < order.length by omega)
      rw [ho] at x2
      simp only [Option.map_some, Option.some.injEq] at x2
      rw [q3 d _ ho, Option.getD_some] at x1
      rw [← x2]
      exact (Option.some.inj x1).symm

end Vecmem
