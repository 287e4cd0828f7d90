import Verif.Lemmas.EdmSame

/-! # Lemmas about `setup` and `memset` of containers -/

namespace Vecmem

open IntMath Prog

variable {S : Schema} {caps : List Nat} {resizable hasHost : Bool} {e : EdmView}

/-- Regions of elements of one type leave no gaps. -/
theorem placeEnd_aligned {t : CType} (ht : 0 < t.align) (hs : t.align ∣ t.size) : ∀ (ts : List (CType × Nat)) (p : Nat),
    (∀ x ∈ ts, x.2 ≠ 0 → x.1 = t) → t.align ∣ p → placeEnd p ts = p + (ts.map (·.2)).sum * t.size := by
  intro ts
  induction ts with
  | nil => intro p _ _; simp [placeEnd]
  | cons x ts ih =>
    obtain ⟨u, n⟩ := x
    intro p hu hp
    unfold placeEnd
    have hu' : ∀ x ∈ ts, x.2 ≠ 0 → x.1 = t := fun x hx => hu x (List.mem_cons_of_mem _ hx)
    by_cases h0 : n = 0
    · rw [if_pos h0, ih p hu' hp]
      simp [h0]
    · rw [if_neg h0]
      have : u = t := hu (u, n) (List.mem_cons_self ..) h0
      subst this
      have ha : alignUp u.align p = p := by
        unfold alignUp
        rw [Nat.mod_eq_zero_of_dvd hp]
        simp
      rw [ha, ih _ hu' (Nat.dvd_add hp (Nat.dvd_trans hs (Nat.dvd_mul_left _ _)))]
      simp only [List.map_cons, List.sum_cons, Nat.add_mul]
      omega

theorem placeEnd_uniform {t : CType} (ht : 0 < t.align) (hs : t.align ∣ t.size) : ∀ (ts : List (CType × Nat)) (p : Nat),
    (∀ x ∈ ts, x.2 ≠ 0 → x.1 = t) → p ≠ 0 → (∃ x ∈ ts, x.2 ≠ 0) →
    placeEnd p ts = findFirst (placeAt p ts) + (ts.map (·.2)).sum * t.size := by
  intro ts
  induction ts with
  | nil => rintro p _ _ ⟨x, hx, _⟩; simp at hx
  | cons x ts ih =>
    obtain ⟨u, n⟩ := x
    intro p hu hp hex
    have hu' : ∀ x ∈ ts, x.2 ≠ 0 → x.1 = t := fun x hx => hu x (List.mem_cons_of_mem _ hx)
    by_cases h0 : n = 0
    · obtain ⟨y, hy, hy0⟩ := hex
      have hy' : y ∈ ts := by
        rcases List.mem_cons.1 hy with rfl | h
        · exact absurd h0 hy0
        · exact h
      have := ih p hu' hp ⟨y, hy', hy0⟩
      unfold placeEnd placeAt
      rw [if_pos h0, if_pos h0, this]
      unfold findFirst
      simp [h0]
    · have hut : u = t := hu (u, n) (List.mem_cons_self ..) h0
      subst hut
      unfold placeEnd placeAt
      rw [if_neg h0, if_neg h0]
      have hge : p ≤ alignUp u.align p ∧ u.align ∣ alignUp u.align p := ⟨alignUp_ge _ _, alignUp_dvd ht _⟩
      have hf : findFirst (alignUp u.align p :: placeAt (alignUp u.align p + n * u.size) ts) = alignUp u.align p := by
        unfold findFirst
        rw [List.find?_cons_of_pos (by simp; omega)]
        rfl
      rw [hf, placeEnd_aligned ht hs ts _ hu' (Nat.dvd_add hge.2 (Nat.dvd_trans hs (Nat.dvd_mul_left _ _)))]
      simp only [List.map_cons, List.sum_cons, Nat.add_mul]
      omega

theorem layout_uniform : ∀ x ∈ S.layoutRegions caps, x.2 ≠ 0 → x.1 = CType.view := by
  intro x hx h0
  obtain ⟨v, _, rfl⟩ := List.mem_map.1 hx
  unfold Var.layoutSize at h0
  unfold Var.layoutType
  split at h0
  · rename_i h; simp [h]
  · exact absurd rfl h0

/-- What `setup` does. -/
theorem setupEdm_acts {m : Mem} (dbg : Bool) (hc : e.capacity ≠ 0) (hs : e.size.ptr ≠ 0 → e.size.capacity ≠ 0)
    (hl : e.layout.ptr ≠ e.hostLayout.ptr → e.layout.capacity ≠ 0 ∧ e.layout.capacity = e.hostLayout.capacity ∧
      (e.layout.Placed 1 ∧ e.layout.sizePtr = 0) ∧ (e.hostLayout.Placed 1 ∧ e.hostLayout.sizePtr = 0) ∧
      ∀ a, ¬ (e.hostLayout.bytes.At a ∧ e.layout.bytes.At a)) :
    ∃ m1 m2, (setupEdm dbg e).Acts m (.ok ()) m2 ∧
      (m1 = if e.layout.ptr ≠ e.hostLayout.ptr then memCopy m e.layout.ptr e.hostLayout.ptr e.layout.capacity else m) ∧
      (m2 = if e.size.ptr ≠ 0 then memFill m1 e.size.ptr 0 e.size.capacity else m1) := by
  refine ⟨_, _, ?_, rfl, rfl⟩
  unfold setupEdm
  rw [if_neg hc]
  have h1 : (setupLayout dbg e).Does m (.ok ())
      (if e.layout.ptr ≠ e.hostLayout.ptr then memCopy m e.layout.ptr e.hostLayout.ptr e.layout.capacity else m) := by
    unfold setupLayout
    by_cases h : e.layout.ptr ≠ e.hostLayout.ptr
    · rw [if_pos h, if_pos h]
      obtain ⟨k1, k2, k3, k4, k5⟩ := hl h
      unfold assertion
      rw [if_neg (by simp; omega)]
      have h := copyView_does (block_valid k4 m) (block_valid k3 m) (block_separate k4.2 k3.2 k5)
      rw [block_len k4, if_neg (by omega), if_neg (by omega), if_neg (by omega), if_neg (by omega), if_pos k3.2, Nat.mul_one,
        ← k2] at h
      refine h.bind ?_
      rw [if_neg (by simp)]
      exact does_ret _ _
    · rw [if_neg h, if_neg h]
      exact does_ret _ _
  refine h1.bindActs ?_
  generalize (if e.layout.ptr ≠ e.hostLayout.ptr then memCopy m e.layout.ptr e.hostLayout.ptr e.layout.capacity else m) = m1
  unfold setupSizes
  by_cases h : e.size.ptr ≠ 0
  · rw [if_pos h, if_pos h]
    unfold assertion
    rw [if_neg (by simp; have := hs h; omega)]
    exact acts_memset (acts_retEvent _)
  · rw [if_neg h, if_neg h]
    exact acts_retEvent _

/-- Reading a size word, into a variable with any previous value. -/
theorem fetch_does (k p : Nat) (m : Mem) :
    (scope (.uint k) fun s => .issue (.fetch s 0 4 p) <| sync <| .read s fun b => .ret (.ok (readLE b 0 4)) : Prog Nat).Does m
      (.ok (readLE m p 4)) m := by
  intro L d
  refine ⟨d + 1, run_scope (l' := ⟨4, memPut (Local.uint k).bytes 0 4 m p⟩) ?_ (by simp)⟩
  have h1 : (L ++ [Local.uint k])[L.length]? = some (Local.uint k) := by simp
  simp only [run, COp.exec, h1, sync]
  rw [if_pos (show 0 + 4 ≤ (Local.uint k).size from Nat.le_refl 4)]
  simp only [List.set_append_right _ _ (Nat.le_refl _), Nat.sub_self, List.set_cons_zero]
  have h2 : (L ++ [(⟨(Local.uint k).size, memPut (Local.uint k).bytes 0 4 m p⟩ : Local)])[L.length]? =
    some ⟨(Local.uint k).size, memPut (Local.uint k).bytes 0 4 m p⟩ := by simp
  rw [h2]
  simp only [Prod.mk.injEq, Res.ok.injEq]
  refine ⟨?_, rfl⟩
  simp only [readLE, memPut]
  simp

theorem Prog.Acts.bindOk {p : Prog β} {q : Prog γ} {m m1 m2 : Mem} {r : Res γ} (h : p.Acts m (.ok ()) m1)
    (h2 : q.Does m1 r m2) : (p.bind fun _ => q).Does m r m2 := by
  intro L d
  obtain ⟨x, d1, e1, hx⟩ := h L d
  obtain ⟨d2, e2⟩ := h2 L d1
  cases x with
  | ok b => exact ⟨d2, by rw [run_bind_ok e1, e2]⟩
  | _ => simp [Res.map] at hx

theorem memsetVec_acts {m : Mem} {t : Nat} {v : View} (h : v.Placed t) (value : UInt8) :
    ∃ m', (memsetVec t v value).Acts m (.ok ()) m' ∧
      ∀ x, (v.HasPayload t x → m' x = value) ∧ (¬ v.HasPayload t x → m' x = m x) := by
  unfold memsetVec
  by_cases h0 : v.capacity = 0
  · rw [if_pos h0]
    refine ⟨m, acts_retNoEvent _, fun x => ⟨fun hx => ?_, fun _ => rfl⟩⟩
    obtain ⟨x1, x2⟩ := hx
    rw [h0] at x2
    omega
  · rw [if_neg h0]
    refine ⟨memFill m v.ptr value (v.capacity * t), ?_, fun x => ⟨fun hx => ?_, fun hx => ?_⟩⟩
    · rw [h.wrap]
      exact acts_memset (acts_retEvent _)
    · unfold memFill
      rw [if_pos ⟨hx.1, hx.2⟩]
    · unfold memFill
      exact if_neg hx

theorem acts_discard {p : Prog Nat} {m m1 : Mem} (h : p.Acts m (.ok ()) m1) : (p.bind (discard false)).Does m (.ok ()) m1 := by
  intro L d
  obtain ⟨x, d1, e1, hx⟩ := h L d
  cases x with
  | ok b => exact ⟨d1, by rw [run_bind_ok e1]; rfl⟩
  | _ => simp [Res.map] at hx

theorem memsetVar_does {m : Mem} {t : Nat} {x : VarView} (ht : 0 < t) (hp : ∀ v ∈ x.rows, v.Placed t) (hne : x.rows ≠ [])
    (value : UInt8) : ∃ m', (memsetVar t value x).Does m (.ok ()) m' ∧
      ∀ a, (x.HasPayload t a → m' a = value) ∧ (¬ x.HasPayload t a → m' a = m a) := by
  cases x with
  | scalar p =>
    refine ⟨memFill m p value t, fun L d => ⟨d + 1, rfl⟩, fun a => ⟨?_, ?_⟩⟩
    · rintro ⟨v, hv, h1, h2⟩
      simp only [VarView.rows, List.mem_singleton] at hv
      subst hv
      unfold memFill
      simp only [Nat.one_mul] at h1 h2
      rw [if_pos ⟨h1, h2⟩]
    · intro h
      unfold memFill
      rw [if_neg]
      intro hc
      exact h ⟨⟨1, 0, p⟩, by simp [VarView.rows], by simpa [View.HasPayload] using hc⟩
  | vector v =>
    obtain ⟨m', e1, e2⟩ := memsetVec_acts (m := m) (hp v (by simp [VarView.rows])) value
    refine ⟨m', acts_discard e1, fun a => ?_⟩
    have : (VarView.vector v).HasPayload t a ↔ v.HasPayload t a := by simp [VarView.HasPayload, VarView.rows]
    rw [this]
    exact e2 a
  | jagged j =>
    obtain ⟨m', e1, e2⟩ := memsetJag_acts (m := m) (value := value) ht hp hne
    exact ⟨m', acts_discard e1, e2⟩

theorem memsetVars_does (value : UInt8) : ∀ (S : Schema) (xs : List VarView) (m : Mem), xs.length = S.length →
    (∀ (i : Nat) (v : Var) (x : VarView), S[i]? = some v → xs[i]? = some x →
      0 < v.type.size ∧ (∀ w ∈ x.rows, w.Placed v.type.size) ∧ x.rows ≠ []) →
    ∃ m', (memsetVars value S xs).Does m (.ok ()) m' ∧ ∀ a,
      ((∃ (i : Nat) (v : Var) (x : VarView), S[i]? = some v ∧ xs[i]? = some x ∧ x.HasPayload v.type.size a) → m' a = value) ∧
      ((¬ ∃ (i : Nat) (v : Var) (x : VarView), S[i]? = some v ∧ xs[i]? = some x ∧ x.HasPayload v.type.size a) → m' a = m a) := by
  intro S
  induction S with
  | nil =>
    intro xs m hl h
    refine ⟨m, ?_, fun a => ⟨?_, fun _ => rfl⟩⟩
    · unfold memsetVars; exact does_ret _ _
    · rintro ⟨i, v, x, hv, _⟩; simp at hv
  | cons v S ih =>
    intro xs m hl h
    cases xs with
    | nil => simp at hl
    | cons x xs =>
      obtain ⟨h1, h2, h3⟩ := h 0 v x rfl rfl
      obtain ⟨m1, a1, a2⟩ := memsetVar_does (m := m) h1 h2 h3 value
      obtain ⟨m2, b1, b2⟩ := ih xs m1 (by simpa using hl) (fun i w y hw hy => h (i + 1) w y (by simpa using hw) (by simpa using hy))
      refine ⟨m2, ?_, fun a => ?_⟩
      · unfold memsetVars
        exact a1.bind b1
      · by_cases hr : ∃ (i : Nat) (v : Var) (x : VarView), S[i]? = some v ∧ xs[i]? = some x ∧ x.HasPayload v.type.size a
        · refine ⟨fun _ => (b2 a).1 hr, fun hn => ?_⟩
          obtain ⟨i, w, y, hw, hy, hp⟩ := hr
          exact absurd ⟨i + 1, w, y, by simpa using hw, by simpa using hy, hp⟩ hn
        · rw [(b2 a).2 hr]
          refine ⟨?_, fun hn => (a2 a).2 fun hp => hn ⟨0, v, x, rfl, rfl, hp⟩⟩
          rintro ⟨i, w, y, hw, hy, hp⟩
          cases i with
          | zero =>
            simp only [List.getElem?_cons_zero, Option.some.injEq] at hw hy
            subst hw hy
            exact (a2 a).1 hp
          | succ i => exact absurd ⟨i, w, y, by simpa using hw, by simpa using hy, hp⟩ hr

end Vecmem
