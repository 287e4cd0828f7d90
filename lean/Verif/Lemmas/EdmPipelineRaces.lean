import Verif.Lemmas.EdmPipelineAppend

/-! # Lemmas for C65: kernels whose threads load and store elements -/

namespace Vecmem

open IntMath Props

variable {σ : Type} {R : Limits} {G : Nat} {ups : Nat → MR σ} {u0 : σ} {c : EdmCfg} {p : EPipe σ} {q : EReady}

/-! ## Tables -/

theorem cell_setCell_ne {t : Table} {c d : Cell} {x : Elem} (h : c ≠ d) : (t.setCell c x).cell d = t.cell d := by
  obtain ⟨v, r, i⟩ := c
  obtain ⟨v', r', i'⟩ := d
  unfold Table.cell Table.setCell
  simp only [List.getElem?_modify]
  cases hv : t[v']? with
  | none => rfl
  | some rows =>
    simp only [Option.map_eq_map, Option.map_some]
    by_cases h1 : v = v'
    · subst h1
      rw [if_pos rfl, List.getElem?_modify]
      cases hr : rows[r']? with
      | none => rfl
      | some l =>
        simp only [Option.map_eq_map, Option.map_some]
        by_cases h2 : r = r'
        · subst h2
          rw [if_pos rfl, List.getElem?_set, if_neg (by rintro rfl; exact h rfl)]
        · rw [if_neg h2]
    · rw [if_neg h1]

theorem setCell_comm {t : Table} {c d : Cell} {x y : Elem} (h : c ≠ d) : (t.setCell c x).setCell d y = (t.setCell d y).setCell c x := by
  obtain ⟨v, r, i⟩ := c
  obtain ⟨v', r', i'⟩ := d
  unfold Table.setCell
  apply List.ext_getElem?
  intro n
  simp only [List.getElem?_modify]
  cases t[n]? with
  | none => rfl
  | some rows =>
    simp only [Option.map_eq_map, Option.map_some, Option.some.injEq]
    by_cases h1 : v = n
    · by_cases h2 : v' = n
      · rw [if_pos h1, if_pos h2, if_pos h2, if_pos h1]
        apply List.ext_getElem?
        intro k
        simp only [List.getElem?_modify]
        cases rows[k]? with
        | none => rfl
        | some l =>
          simp only [Option.map_eq_map, Option.map_some, Option.some.injEq]
          by_cases h3 : r = k
          · by_cases h4 : r' = k
            · rw [if_pos h3, if_pos h4, if_pos h4, if_pos h3]
              rw [List.set_comm]
              rintro rfl
              exact h (by rw [h1, h2, h3, h4])
            · rw [if_pos h3, if_neg h4, if_neg h4, if_pos h3]
          · rw [if_neg h3, if_neg h3]
      · rw [if_pos h1, if_neg h2, if_neg h2, if_pos h1]
    · rw [if_neg h1, if_neg h1]

/-- A thread that does not access an element does not notice when it is stored. -/
theorem KProg.apart {S : Schema} {d : Cell} {x : Elem} : ∀ {p : KProg} {t : Table}, (∀ b, (b, d) ∉ p.accesses t) →
    p.accesses (t.setCell d x) = p.accesses t ∧ p.run (t.setCell d x) = (p.run t).setCell d x ∧ (p.Valid S t → p.Valid S (t.setCell d x)) := by
  intro p
  induction p with
  | done => intro t _; exact ⟨rfl, rfl, id⟩
  | load c next ih =>
    intro t h
    have hne : d ≠ c := by rintro rfl; exact h false (by simp [KProg.accesses])
    have hc := cell_setCell_ne (t := t) (x := x) hne
    obtain ⟨i1, i2, i3⟩ := ih ((t.cell c).getD []) (t := t) fun b hb => h b (by simp only [KProg.accesses]; exact List.mem_cons_of_mem _ hb)
    refine ⟨?_, ?_, ?_⟩
    · simp only [KProg.accesses, hc, i1]
    · simp only [KProg.run, hc, i2]
    · rintro ⟨y, y1, y2⟩
      refine ⟨y, hc.trans y1, ?_⟩
      rw [y1, Option.getD_some] at i3
      exact i3 y2
  | store c y next ih =>
    intro t h
    have hne : d ≠ c := by rintro rfl; exact h true (by simp [KProg.accesses])
    have hc := cell_setCell_ne (t := t) (x := x) hne
    obtain ⟨i1, i2, i3⟩ := ih (t := t.setCell c y) fun b hb => h b (by simp only [KProg.accesses]; exact List.mem_cons_of_mem _ hb)
    refine ⟨?_, ?_, ?_⟩
    · simp only [KProg.accesses, setCell_comm hne, i1]
    · simp only [KProg.run, setCell_comm hne, i2]
    · rintro ⟨y1, y2, y3⟩
      refine ⟨by rw [hc]; exact y1, y2, ?_⟩
      rw [setCell_comm hne]
      exact i3 y3

/-- The threads store nothing that the other one accesses. -/
def KProg.Safe (t : Table) (p q : KProg) : Prop := ∀ c b, (true, c) ∈ p.accesses t → (b, c) ∉ q.accesses t

/-- A thread that accesses nothing of what another one stores does not notice it. -/
theorem KProg.Safe.after {S : Schema} {q : KProg} : ∀ {p : KProg} {t : Table}, p.Safe t q →
    q.accesses (p.run t) = q.accesses t ∧ (q.Valid S t → q.Valid S (p.run t)) := by
  intro p
  induction p with
  | done => intro t _; exact ⟨rfl, id⟩
  | load c next ih =>
    intro t h
    exact ih ((t.cell c).getD []) (t := t) fun d b hd => h d b (by simp only [KProg.accesses]; exact List.mem_cons_of_mem _ hd)
  | store c x next ih =>
    intro t h
    obtain ⟨a1, -, a3⟩ := KProg.apart (S := S) (d := c) (x := x) (p := q) (t := t) fun b => h c b (by simp [KProg.accesses])
    obtain ⟨i1, i2⟩ := ih (t := t.setCell c x) fun d b hd => by
      rw [a1]
      exact h d b (by simp only [KProg.accesses]; exact List.mem_cons_of_mem _ hd)
    exact ⟨i1.trans a1, fun hv => i2 (a3 hv)⟩

/-- What a thread stores nothing at is unchanged by it. -/
theorem KProg.cell_run {d : Cell} : ∀ {p : KProg} {t : Table}, (true, d) ∉ p.accesses t → (p.run t).cell d = t.cell d := by
  intro p
  induction p with
  | done => intro t _; rfl
  | load c next ih =>
    intro t h
    exact ih ((t.cell c).getD []) (t := t) fun hd => h (by simp only [KProg.accesses]; exact List.mem_cons_of_mem _ hd)
  | store c x next ih =>
    intro t h
    have hne : c ≠ d := by rintro rfl; exact h (by simp [KProg.accesses])
    exact (ih (t := t.setCell c x) fun hd => h (by simp only [KProg.accesses]; exact List.mem_cons_of_mem _ hd)).trans (cell_setCell_ne hne)

/-- All threads, one after the other. -/
def runAll (ps : List KProg) (t : Table) : Table := ps.foldl (fun t p => p.run t) t

theorem runAll_cons {p : KProg} {ps : List KProg} {t : Table} : runAll (p :: ps) t = runAll ps (p.run t) := rfl

theorem NoRaces.tail {t : Table} {p : KProg} {ps : List KProg} (h : NoRaces t (p :: ps)) :
    NoRaces t ps ∧ (∀ q ∈ ps, p.Safe t q ∧ q.Safe t p) := by
  refine ⟨fun i j p q hij hp hq => h (i + 1) (j + 1) p q (by omega) (by simpa using hp) (by simpa using hq), ?_⟩
  intro q hq
  obtain ⟨i, hi⟩ := List.mem_iff_getElem?.1 hq
  exact ⟨fun c b => h 0 (i + 1) p q (by omega) rfl (by simpa using hi) c b, fun c b => h (i + 1) 0 q p (by omega) (by simpa using hi) rfl c b⟩

theorem NoRaces.after {t : Table} {p : KProg} {ps : List KProg} (h : NoRaces t (p :: ps)) : NoRaces (p.run t) ps := by
  obtain ⟨h1, h2⟩ := h.tail
  intro i j p' q' hij hp hq c b
  rw [((h2 p' (List.mem_of_getElem? hp)).1.after (S := [])).1, ((h2 q' (List.mem_of_getElem? hq)).1.after (S := [])).1]
  exact h1 i j p' q' hij hp hq c b

/-- A store of a thread can be made before all others run. -/
theorem runAll_setCell {d : Cell} {x : Elem} : ∀ {ps : List KProg} {t : Table}, NoRaces t ps → (∀ p ∈ ps, ∀ b, (b, d) ∉ p.accesses t) →
    runAll ps (t.setCell d x) = (runAll ps t).setCell d x := by
  intro ps
  induction ps with
  | nil => intros; rfl
  | cons p ps ih =>
    intro t hr h
    rw [runAll_cons, runAll_cons, (KProg.apart (S := []) (h p List.mem_cons_self)).2.1]
    refine ih hr.after fun q hq b => ?_
    rw [((hr.tail.2 q hq).1.after (S := [])).1]
    exact h q (List.mem_cons_of_mem _ hq) b

theorem runAll_cell {d : Cell} : ∀ {ps : List KProg} {t : Table}, NoRaces t ps → (∀ p ∈ ps, (true, d) ∉ p.accesses t) →
    (runAll ps t).cell d = t.cell d := by
  intro ps
  induction ps with
  | nil => intros; rfl
  | cons p ps ih =>
    intro t hr h
    rw [runAll_cons]
    refine (ih hr.after fun q hq => ?_).trans (KProg.cell_run (h p List.mem_cons_self))
    rw [((hr.tail.2 q hq).1.after (S := [])).1]
    exact h q (List.mem_cons_of_mem _ hq)

/-- One access, in the view of the user. -/
def KProg.tick (t : Table) : KProg → KProg × Table
  | .done => (.done, t)
  | .load c next => (next ((t.cell c).getD []), t)
  | .store c x next => (next, t.setCell c x)

theorem runAll_append {ps qs : List KProg} {t : Table} : runAll (ps ++ qs) t = runAll qs (runAll ps t) := List.foldl_append

theorem NoRaces.take {t : Table} {ps : List KProg} (h : NoRaces t ps) (n : Nat) : NoRaces t (ps.take n) := by
  intro i j p q hij hp hq
  rw [List.getElem?_take] at hp hq
  split at hp
  · split at hq
    · exact h i j p q hij hp hq
    · cases hq
  · cases hp

/-- After one access of a thread nothing has changed for the others, and the end is the same. -/
theorem tick_ok {S : Schema} {t : Table} {ps : List KProg} {i : Nat} {p : KProg} (hi : ps[i]? = some p) (hv : ∀ p ∈ ps, p.Valid S t)
    (hr : NoRaces t ps) :
    (∀ q ∈ ps.set i (p.tick t).1, q.Valid S (p.tick t).2) ∧ NoRaces (p.tick t).2 (ps.set i (p.tick t).1) ∧
    runAll (ps.set i (p.tick t).1) (p.tick t).2 = runAll ps t := by
  have hlt := (List.getElem?_eq_some_iff.1 hi).1
  have hpv := hv p (List.mem_of_getElem? hi)
  have hsplit : ps = ps.take i ++ p :: ps.drop (i + 1) := by
    conv => lhs; rw [← List.take_append_drop i ps]
    rw [List.drop_eq_getElem_cons hlt, (List.getElem?_eq_some_iff.1 hi).2]
  have hset : ∀ p', ps.set i p' = ps.take i ++ p' :: ps.drop (i + 1) := fun p' => by
    rw [List.set_eq_take_append_cons_drop, if_pos hlt]
  -- the other threads before this one
  have hbefore : ∀ q ∈ ps.take i, ∃ j, j ≠ i ∧ ps[j]? = some q := by
    intro q hq
    obtain ⟨j, hj⟩ := List.mem_iff_getElem?.1 hq
    rw [List.getElem?_take] at hj
    split at hj
    · exact ⟨j, by omega, hj⟩
    · cases hj
  -- membership in the new list
  have hget : ∀ (p' : KProg) (j : Nat) (q : KProg), (ps.set i p')[j]? = some q → (j = i ∧ q = p') ∨ (j ≠ i ∧ ps[j]? = some q) := by
    intro p' j q hq
    rw [List.getElem?_set] at hq
    by_cases hji : i = j
    · rw [if_pos hji, if_pos hlt] at hq
      exact .inl ⟨hji.symm, (Option.some.inj hq).symm⟩
    · rw [if_neg hji] at hq
      exact .inr ⟨fun hc => hji hc.symm, hq⟩
  cases p with
  | done =>
    simp only [KProg.tick]
    rw [show ps.set i .done = ps by
      apply List.ext_getElem?
      intro j
      rw [List.getElem?_set]
      by_cases hji : i = j
      · subst hji; rw [if_pos rfl, if_pos hlt, hi]
      · rw [if_neg hji]]
    exact ⟨hv, hr, rfl⟩
  | load c next =>
    simp only [KProg.tick]
    obtain ⟨x, x1, x2⟩ := hpv
    rw [x1, Option.getD_some]
    have hsub : ∀ b d, (b, d) ∈ (next x).accesses t → (b, d) ∈ (KProg.load c next).accesses t := by
      intro b d h
      simp only [KProg.accesses, x1, Option.getD_some]
      exact List.mem_cons_of_mem _ h
    refine ⟨?_, ?_, ?_⟩
    · intro q hq
      obtain ⟨j, hj⟩ := List.mem_iff_getElem?.1 hq
      rcases hget _ j q hj with ⟨-, rfl⟩ | ⟨-, hj⟩
      · exact x2
      · exact hv q (List.mem_of_getElem? hj)
    · intro j k p' q' hjk hp' hq' d b hd
      rcases hget _ j p' hp' with ⟨rfl, rfl⟩ | ⟨hj1, hj2⟩
      · rcases hget _ k q' hq' with ⟨rfl, rfl⟩ | ⟨hk1, hk2⟩
        · exact absurd rfl hjk
        · exact hr j k _ q' hjk hi hk2 d b (hsub _ _ hd)
      · rcases hget _ k q' hq' with ⟨rfl, rfl⟩ | ⟨hk1, hk2⟩
        · exact fun hc => hr j k p' _ hjk hj2 hi d b hd (hsub _ _ hc)
        · exact hr j k p' q' hjk hj2 hk2 d b hd
    · rw [hset]
      conv => rhs; rw [hsplit]
      rw [runAll_append, runAll_append, runAll_cons, runAll_cons]
      congr 1
      simp only [KProg.run]
      rw [runAll_cell (hr.take i), x1, Option.getD_some]
      intro q hq
      obtain ⟨j, j1, j2⟩ := hbefore q hq
      exact fun hc => hr j i q _ j1 j2 hi c false hc (by simp [KProg.accesses])
  | store c x next =>
    simp only [KProg.tick]
    obtain ⟨-, -, x2⟩ := hpv
    have hsub : ∀ b d, (b, d) ∈ next.accesses (t.setCell c x) → (b, d) ∈ (KProg.store c x next).accesses t := by
      intro b d h
      simp only [KProg.accesses]
      exact List.mem_cons_of_mem _ h
    have hoth : ∀ (j : Nat) (q : KProg), j ≠ i → ps[j]? = some q → ∀ b, (b, c) ∉ q.accesses t :=
      fun j q hji hj b => hr i j _ q (Ne.symm hji) hi hj c b (by simp [KProg.accesses])
    refine ⟨?_, ?_, ?_⟩
    · intro q hq
      obtain ⟨j, hj⟩ := List.mem_iff_getElem?.1 hq
      rcases hget _ j q hj with ⟨-, rfl⟩ | ⟨hj1, hj⟩
      · exact x2
      · exact (KProg.apart (hoth j q hj1 hj)).2.2 (hv q (List.mem_of_getElem? hj))
    · intro j k p' q' hjk hp' hq' d b hd
      rcases hget _ j p' hp' with ⟨rfl, rfl⟩ | ⟨hj1, hj2⟩
      · rcases hget _ k q' hq' with ⟨rfl, rfl⟩ | ⟨hk1, hk2⟩
        · exact absurd rfl hjk
        · rw [(KProg.apart (S := S) (hoth k q' hk1 hk2)).1]
          exact hr j k _ q' hjk hi hk2 d b (hsub _ _ hd)
      · rw [(KProg.apart (S := S) (hoth j p' hj1 hj2)).1] at hd
        rcases hget _ k q' hq' with ⟨rfl, rfl⟩ | ⟨hk1, hk2⟩
        · exact fun hc => hr j k p' _ hjk hj2 hi d b hd (hsub _ _ hc)
        · rw [(KProg.apart (S := S) (hoth k q' hk1 hk2)).1]
          exact hr j k p' q' hjk hj2 hk2 d b hd
    · rw [hset]
      conv => rhs; rw [hsplit]
      rw [runAll_append, runAll_append, runAll_cons, runAll_cons]
      congr 1
      simp only [KProg.run]
      rw [runAll_setCell (hr.take i)]
      intro q hq b
      obtain ⟨j, j1, j2⟩ := hbefore q hq
      exact hoth j q j1 j2 b

/-! ## The memory -/

/-- The memory has this table, and kernels can find it. -/
structure Shows (S : Schema) (b : EBuffer) (m : Mem) (t : Table) : Prop where
  table : tableOf m S b.buf.view.vars = t
  sizes : EdmSizes m b.buf.view
  described : ∀ j, VarView.jagged j ∈ b.buf.view.vars → DescribedAt m j.ptr j.views

theorem separate_get {t : Nat} {vs : List View} (h : vs.Pairwise (View.Separate t)) {i j : Nat} {v w : View} (hij : i ≠ j) (hv : vs[i]? = some v)
    (hw : vs[j]? = some w) : v.Separate t w := by
  obtain ⟨h1, rfl⟩ := List.getElem?_eq_some_iff.1 hv
  obtain ⟨h2, rfl⟩ := List.getElem?_eq_some_iff.1 hw
  rcases Nat.lt_or_gt_of_ne hij with hlt | hlt
  · exact (List.pairwise_iff_getElem.1 h) i j h1 h2 hlt
  · intro x hx
    exact (List.pairwise_iff_getElem.1 h) j i h2 h1 hlt x ⟨hx.2, hx.1⟩

theorem Shows.locate {S : Schema} {A : Nat} {hasHost : Bool} {b : EBuffer} (ho : EdmOk σ R G S A hasHost b) {m : Mem} {t : Table}
    (h : Shows S b m t) {d : Cell} {x : Elem} (hd : t.cell d = some x) :
    ∃ (v : Var) (y : VarView) (w : View), S[d.var]? = some v ∧ b.buf.view.vars[d.var]? = some y ∧ y.rows[d.row]? = some w ∧ d.index < w.len m ∧
      b.buf.view.locate S m d = some (v.type.size, w.ptr + d.index * v.type.size) ∧ bytesAt m (w.ptr + d.index * v.type.size) v.type.size = x := by
  rw [← h.table] at hd
  unfold Table.cell at hd
  split at hd
  · rename_i rows hrows
    split at hd
    · rename_i l hl
      have hlt : d.var < S.length := by
        rw [← tableOf_length ho m]
        exact (List.getElem?_eq_some_iff.1 hrows).1
      have hv := List.getElem?_eq_getElem hlt
      obtain ⟨y, hy, hy'⟩ := tableOf_at ho (m := m) hv
      cases hrows.symm.trans hy'
      rw [List.getElem?_map] at hl
      obtain ⟨w, hw, rfl⟩ := Option.map_eq_some_iff.1 hl
      have hix : d.index < w.len m := by
        have := (List.getElem?_eq_some_iff.1 hd).1
        rw [elems_length] at this
        exact this
      rw [elems_get hix] at hd
      refine ⟨_, y, w, hv, hy, hw, hix, ?_, Option.some.inj hd⟩
      obtain ⟨a1, a2⟩ := VarView.deviceRows_alike (m := m) (x := y) fun j hj => h.described j (by rw [← hj]; exact List.mem_of_getElem? hy)
      obtain ⟨w', hw'⟩ := get_same a1.symm hw
      obtain ⟨e1, e2, e3⟩ := a2 _ _ _ hw' hw
      have hlen : w'.len m = w.len m := by unfold View.len; rw [e1, e2]
      have hcap : w.capacity ≠ 0 := by
        have := h.sizes y (List.mem_of_getElem? hy) w (List.mem_of_getElem? hw)
        omega
      unfold EdmView.locate
      simp only [hv, hy, hw', hlen, if_pos hix, e3 hcap]
    · cases hd
  · cases hd

theorem Shows.put {S : Schema} {A : Nat} {hasHost : Bool} {b : EBuffer} (ho : EdmOk σ R G S A hasHost b) {m : Mem} {t : Table}
    (h : Shows S b m t) {d : Cell} {v : Var} {y : VarView} {w : View} (hv : S[d.var]? = some v) (hy : b.buf.view.vars[d.var]? = some y)
    (hw : y.rows[d.row]? = some w) (hix : d.index < w.len m) {e : Elem} (he : e.length = v.type.size) :
    Shows S b (Pipe.putElems v.type.size m (w.ptr + d.index * v.type.size) [e]) (t.setCell d e) ∧
    ∀ a, ¬ EdmHas S b.buf.view a → Pipe.putElems v.type.size m (w.ptr + d.index * v.type.size) [e] a = m a := by
  have hvp := ho.varsPlaced
  have hwm := List.mem_of_getElem? hw
  have hcap := h.sizes y (List.mem_of_getElem? hy) w hwm
  generalize hm' : Pipe.putElems v.type.size m (w.ptr + d.index * v.type.size) [e] = m'
  have hother : ∀ a, ¬ (w.ptr + d.index * v.type.size ≤ a ∧ a < w.ptr + d.index * v.type.size + v.type.size) → m' a = m a := by
    intro a ha
    rw [← hm']
    exact putElems_other (by simpa using ha)
  have hin : ∀ a, (w.ptr + d.index * v.type.size ≤ a ∧ a < w.ptr + d.index * v.type.size + v.type.size) → w.HasPayload v.type.size a := by
    rintro a ⟨h1, h2⟩
    refine ⟨by omega, ?_⟩
    have : (d.index + 1) * v.type.size ≤ w.capacity * v.type.size := Nat.mul_le_mul_right _ (by omega)
    rw [Nat.succ_mul] at this
    omega
  have hnot : ∀ a, ¬ w.HasPayload v.type.size a → m' a = m a := fun a ha => hother a fun hc => ha (hin a hc)
  have hhas : ∀ a, w.HasPayload v.type.size a → EdmHas S b.buf.view a := fun a ha => .inl ⟨d.var, v, y, hv, hy, .inl ⟨w, hwm, ha⟩⟩
  have hframe : ∀ a, ¬ EdmHas S b.buf.view a → m' a = m a := fun a ha => hnot a fun hc => ha (hhas a hc)
  have hnew : bytesAt m' (w.ptr + d.index * v.type.size) v.type.size = e := by
    have := putElems_elems (t := v.type.size) (m := m) (at_ := w.ptr + d.index * v.type.size) (l := [e]) (by simpa using he)
    rw [hm'] at this
    simpa using bytesAt_of_elems this (j := 0) rfl
  -- sizes
  have hlen : ∀ (i : Nat) (v' : Var) (y' : VarView) (k : Nat) (w' : View), S[i]? = some v' → b.buf.view.vars[i]? = some y' → y'.rows[k]? = some w' →
      w'.len m' = w'.len m := by
    intro i v' y' k w' hv' hy' hw'
    refine len_of_word fun a ha => hnot a fun hc => ?_
    by_cases hi : d.var = i
    · subst hi
      cases hy.symm.trans hy'
      cases hv.symm.trans hv'
      by_cases hk : d.row = k
      · subst hk
        cases hw.symm.trans hw'
        exact ((hvp.each _ v y hv hy).2.2.placed w hwm).apart a ⟨hc, ha⟩
      · exact separate_get (hvp.each _ v y hv hy).2.2.separate hk hw hw' a ⟨.inl hc, .inr ha⟩
    · exact hvp.apart _ i v v' y y' hi hv hv' hy hy' a ⟨⟨w, hwm, hc⟩, .inr ⟨w', List.mem_of_getElem? hw', ha⟩⟩
  have hrow : ∀ (i : Nat) (v' : Var) (y' : VarView) (k : Nat) (w' : View), S[i]? = some v' → b.buf.view.vars[i]? = some y' → y'.rows[k]? = some w' →
      ¬ (d.var = i ∧ d.row = k) → w'.elems m' v'.type.size = w'.elems m v'.type.size := by
    intro i v' y' k w' hv' hy' hw' hne
    refine elems_of_len (h.sizes y' (List.mem_of_getElem? hy') w' (List.mem_of_getElem? hw')) (hlen i v' y' k w' hv' hy' hw') fun a ha =>
      hnot a fun hc => ?_
    by_cases hi : d.var = i
    · subst hi
      cases hy.symm.trans hy'
      cases hv.symm.trans hv'
      have hk : d.row ≠ k := fun hk => hne ⟨rfl, hk⟩
      exact separate_get (hvp.each _ v y hv hy).2.2.separate hk hw hw' a ⟨.inl hc, .inl ha⟩
    · exact hvp.apart _ i v v' y y' hi hv hv' hy hy' a ⟨⟨w, hwm, hc⟩, .inl ⟨w', List.mem_of_getElem? hw', ha⟩⟩
  have hself : w.elems m' v.type.size = (w.elems m v.type.size).set d.index e := by
    have hl := hlen _ v y _ w hv hy hw
    refine list_eq (by rw [List.length_set, elems_length, elems_length, hl]) ?_
    intro j e1 e2 x1 x2
    have hj : j < w.len m := by
      have := (List.getElem?_eq_some_iff.1 x1).1
      rw [elems_length, hl] at this
      exact this
    rw [elems_get (by rw [hl]; exact hj)] at x1
    rw [List.getElem?_set] at x2
    by_cases hjd : d.index = j
    · subst hjd
      rw [if_pos rfl, if_pos (by rw [elems_length]; exact hj)] at x2
      rw [hnew] at x1
      exact Option.some.inj (x1.symm.trans x2)
    · rw [if_neg hjd, elems_get hj] at x2
      rw [bytesAt_same (m := m)] at x1
      · exact Option.some.inj (x1.symm.trans x2)
      · intro a a1 a2
        refine hother a fun hc => ?_
        rcases Nat.lt_or_gt_of_ne hjd with hlt | hlt
        · have : (d.index + 1) * v.type.size ≤ j * v.type.size := Nat.mul_le_mul_right _ (by omega)
          rw [Nat.succ_mul] at this
          omega
        · have : (j + 1) * v.type.size ≤ d.index * v.type.size := Nat.mul_le_mul_right _ (by omega)
          rw [Nat.succ_mul] at this
          omega
  refine ⟨⟨?_, ?_, ?_⟩, hframe⟩
  · rw [← h.table]
    unfold Table.setCell
    apply List.ext_getElem?
    intro i
    rw [List.getElem?_modify]
    cases hv' : S[i]? with
    | none =>
      have h3 := List.getElem?_eq_none_iff.1 hv'
      rw [List.getElem?_eq_none (by rw [tableOf_length ho]; exact h3), List.getElem?_eq_none (by rw [tableOf_length ho]; exact h3)]
      rfl
    | some v' =>
      obtain ⟨y', hy', hy''⟩ := tableOf_at ho (m := m') hv'
      rw [hy'', tableOf_get hv' hy']
      simp only [Option.map_eq_map, Option.map_some, Option.some.injEq]
      apply List.ext_getElem?
      intro k
      by_cases hi : d.var = i
      · rw [if_pos hi, List.getElem?_modify, List.getElem?_map, List.getElem?_map]
        cases hw' : y'.rows[k]? with
        | none => rfl
        | some w' =>
          simp only [Option.map_eq_map, Option.map_some, Option.some.injEq]
          by_cases hk : d.row = k
          · rw [if_pos hk]
            subst hi
            subst hk
            cases hy.symm.trans hy'
            cases hv.symm.trans hv'
            cases hw.symm.trans hw'
            exact hself
          · rw [if_neg hk]
            exact hrow i v' y' k w' hv' hy' hw' fun hc => hk hc.2
      · rw [if_neg hi, List.getElem?_map, List.getElem?_map]
        cases hw' : y'.rows[k]? with
        | none => rfl
        | some w' =>
          simp only [Option.map_some, Option.some.injEq]
          exact hrow i v' y' k w' hv' hy' hw' fun hc => hi hc.1
  · intro y' hy' w' hw'
    obtain ⟨i, v', hv', hi, -⟩ := ho.var_at hy'
    obtain ⟨k, hk⟩ := List.mem_iff_getElem?.1 hw'
    rw [hlen i v' y' k w' hv' hi hk]
    exact h.sizes y' hy' w' hw'
  · intro j hj
    exact described_congr (h.described j hj) fun q hq => hframe _ (ho.dev_apart ⟨j, hj, by omega, by omega⟩)

/-- An access of a thread. -/
theorem Shows.act {S : Schema} {A : Nat} {hasHost : Bool} {b : EBuffer} (ho : EdmOk σ R G S A hasHost b) {m : Mem} {t : Table}
    (h : Shows S b m t) {pr : KProg} (hv : pr.Valid S t) : ∃ m', pr.act S b.buf.view m = .ok ((pr.tick t).1, m') ∧
      Shows S b m' (pr.tick t).2 ∧ ∀ a, ¬ EdmHas S b.buf.view a → m' a = m a := by
  cases pr with
  | done => exact ⟨m, rfl, h, fun _ _ => rfl⟩
  | load d next =>
    obtain ⟨x, x1, -⟩ := hv
    obtain ⟨v, y, w, -, -, -, -, h1, h2⟩ := h.locate ho x1
    refine ⟨m, ?_, h, fun _ _ => rfl⟩
    simp only [KProg.act, h1, h2, KProg.tick, x1, Option.getD_some]
  | store d x next =>
    obtain ⟨x1, ⟨v', hv', hx⟩, -⟩ := hv
    obtain ⟨z, hz⟩ := Option.isSome_iff_exists.1 x1
    obtain ⟨v, y, w, k1, k2, k3, k4, h1, h2⟩ := h.locate ho hz
    cases k1.symm.trans hv'
    obtain ⟨p1, p2⟩ := h.put ho k1 k2 k3 k4 hx
    refine ⟨_, ?_, p1, p2⟩
    simp only [KProg.act, h1, KProg.tick]

/-- All accesses of a thread. -/
theorem Shows.exec {S : Schema} {A : Nat} {hasHost : Bool} {b : EBuffer} (ho : EdmOk σ R G S A hasHost b) : ∀ {pr : KProg} {m : Mem} {t : Table},
    Shows S b m t → pr.Valid S t → ∃ m', pr.exec S b.buf.view m = .ok m' ∧ Shows S b m' (pr.run t) ∧
      ∀ a, ¬ EdmHas S b.buf.view a → m' a = m a := by
  intro pr
  induction pr with
  | done => exact fun h _ => ⟨_, rfl, h, fun _ _ => rfl⟩
  | load d next ih =>
    rintro m t h ⟨x, x1, x2⟩
    obtain ⟨v, y, w, -, -, -, -, h1, h2⟩ := h.locate ho x1
    obtain ⟨m', i1, i2, i3⟩ := ih x h x2
    refine ⟨m', ?_, ?_, i3⟩
    · simp only [KProg.exec, h1, h2]
      exact i1
    · simp only [KProg.run, x1, Option.getD_some]
      exact i2
  | store d x next ih =>
    rintro m t h ⟨x1, ⟨v', hv', hx⟩, x3⟩
    obtain ⟨z, hz⟩ := Option.isSome_iff_exists.1 x1
    obtain ⟨v, y, w, k1, k2, k3, k4, h1, h2⟩ := h.locate ho hz
    cases k1.symm.trans hv'
    obtain ⟨p1, p2⟩ := h.put ho k1 k2 k3 k4 hx
    obtain ⟨m', i1, i2, i3⟩ := ih p1 x3
    refine ⟨m', ?_, i2, fun a ha => (i3 a ha).trans (p2 a ha)⟩
    simp only [KProg.exec, h1]
    exact i1

theorem Shows.threads {S : Schema} {A : Nat} {hasHost : Bool} {b : EBuffer} (ho : EdmOk σ R G S A hasHost b) : ∀ {ps : List KProg} {m : Mem} {t : Table},
    Shows S b m t → (∀ p ∈ ps, p.Valid S t) → NoRaces t ps → ∃ m', execThreads S b.buf.view ps m = .ok m' ∧ Shows S b m' (runAll ps t) ∧
      ∀ a, ¬ EdmHas S b.buf.view a → m' a = m a := by
  intro ps
  induction ps with
  | nil => exact fun h _ _ => ⟨_, rfl, h, fun _ _ => rfl⟩
  | cons p ps ih =>
    intro m t h hv hr
    obtain ⟨m1, e1, e2, e3⟩ := h.exec ho (hv p List.mem_cons_self)
    obtain ⟨m2, f1, f2, f3⟩ := ih e2 (fun q hq => ((hr.tail.2 q hq).1.after).2 (hv q (List.mem_cons_of_mem _ hq))) hr.after
    refine ⟨m2, ?_, f2, fun a ha => (f3 a ha).trans (e3 a ha)⟩
    simp only [execThreads, e1]
    exact f1

theorem Shows.kernel {S : Schema} {A : Nat} {hasHost : Bool} {b : EBuffer} (ho : EdmOk σ R G S A hasHost b) : ∀ {sched : List Nat} {ps : List KProg}
    {m : Mem} {t : Table}, Shows S b m t → (∀ p ∈ ps, p.Valid S t) → NoRaces t ps → ∃ m', execKernel S b.buf.view ps sched m = .ok m' ∧
      Shows S b m' (runAll ps t) ∧ ∀ a, ¬ EdmHas S b.buf.view a → m' a = m a := by
  intro sched
  induction sched with
  | nil => exact fun h hv hr => h.threads ho hv hr
  | cons i sched ih =>
    intro ps m t h hv hr
    unfold execKernel
    cases hi : ps[i]? with
    | none => exact ih h hv hr
    | some pr =>
      obtain ⟨m1, e1, e2, e3⟩ := h.act ho (hv pr (List.mem_of_getElem? hi))
      obtain ⟨t1, t2, t3⟩ := tick_ok hi hv hr
      obtain ⟨m2, f1, f2, f3⟩ := ih e2 t1 t2
      simp only [e1]
      exact ⟨m2, f1, t3 ▸ f2, fun a ha => (f3 a ha).trans (e3 a ha)⟩

theorem estep_kernel (hl : FamLawful R G ups u0) (h : EInv c R G ups u0 p q) {ins : List Nat} {k : Nat} {f : List Table → List KProg}
    {sched : List Nat} {out : Nat → Nat → Prop} (hf : (EdmOp.kernel ins k f sched).Fits c R G out (p.store c q)) :
    EStepOk c R G ups u0 p q (.kernel ins k f sched) := by
  obtain ⟨-, ts, caps, r, t, f1, f2, f3, f4⟩ := hf
  obtain ⟨b, b1, b2, b3, b4, b5, b6, b7, b8, b9⟩ := h.has f2
  have hsh : Shows (c.schema k) b p.mem t := ⟨b8.symm, b6.sizes b7, fun j hj => b6.described b5 b9.symm j hj⟩
  obtain ⟨m', e1, e2, e3⟩ := hsh.kernel b5 (sched := sched) f3 f4
  obtain ⟨i1, i2⟩ := h.changeData hl b1 (m' := m') e3 (q' := q) (fun _ _ => rfl) rfl (fun _ => e2.sizes)
  unfold EStepOk
  rw [show (EdmOp.kernel ins k f sched).ready q = q from rfl]
  simp only [EPipe.exec, b1, h.reads f1, e1]
  refine ⟨i1, ?_⟩
  rw [i2, if_pos b7, ← b9, b3, b4, e2.table]
  exact .kernel ins k f sched f1 f2

end Vecmem
