import Verif.Spec.WeakAccessLists
import Verif.Lemmas.WeakReadingLists

/-!
# Lemmas for C85: kernels that load and store elements of vectors and jagged vectors on weak memory
-/

namespace Vecmem

theorem cell_setCell_self {t : Table} {c : Cell} {x z : Elem} (h : t.cell c = some z) : (t.setCell c x).cell c = some x := by
  obtain ⟨v, r, i⟩ := c
  unfold Table.cell at h
  unfold Table.cell Table.setCell
  simp only [List.getElem?_modify] at h ⊢
  cases hv : t[v]? with
  | none => rw [hv] at h; cases h
  | some rows =>
    rw [hv] at h
    simp only [Option.map_eq_map, Option.map_some, if_true, List.getElem?_modify] at h ⊢
    cases hr : rows[r]? with
    | none => rw [hr] at h; cases h
    | some l =>
      rw [hr] at h
      simp only [Option.map_eq_map, Option.map_some, if_true] at h ⊢
      exact List.getElem?_set_self (List.getElem?_eq_some_iff.1 h).1

/-! ## the lengths of rows -/

theorem map_modify_same {α β : Type} (f : α → β) (g : α → α) (h : ∀ a, f (g a) = f a) (l : List α) (i : Nat) : (l.modify i g).map f = l.map f := by
  apply List.ext_getElem?
  intro j
  simp only [List.getElem?_map, List.getElem?_modify]
  cases l[j]? with
  | none => rfl
  | some a =>
    simp only [Option.map_eq_map, Option.map_some, Option.some.injEq]
    by_cases hij : i = j
    · rw [if_pos hij, h]
    · rw [if_neg hij]

theorem setCell_shape (t : Table) (c : Cell) (x : Elem) : (t.setCell c x).map (·.map List.length) = t.map (·.map List.length) :=
  map_modify_same _ _ (fun _ => map_modify_same _ _ (fun _ => List.length_set) _ _) _ _

theorem run_shape : ∀ (p : KProg) (t : Table), (p.run t).map (·.map List.length) = t.map (·.map List.length) := by
  intro p
  induction p with
  | done => intro t; rfl
  | load c next ih => intro t; exact ih _ t
  | store c x next ih => intro t; exact (ih _).trans (setCell_shape _ _ _)

theorem runAll_shape : ∀ (ps : List KProg) (t : Table), (runAll ps t).map (·.map List.length) = t.map (·.map List.length)
  | [], _ => rfl
  | p :: ps, t => by rw [runAll_cons, runAll_shape ps, run_shape]

/-! ## elements at addresses -/

/-- The elements of `t`, of `n` bytes, are where `loc` says. -/
def Cells (loc : Cell → Option (Nat × Nat)) (n : Nat) (m : Mem) (t : Table) : Prop :=
  ∀ d x, t.cell d = some x → x.length = n ∧ ∃ a, loc d = some (n, a) ∧ bytesAt m a n = x

/-- Different elements have no byte in common. -/
def CellsApart (loc : Cell → Option (Nat × Nat)) (t : Table) : Prop :=
  ∀ c d a, (t.cell c).isSome → (t.cell d).isSome → InCell loc c a → InCell loc d a → c = d

/-- The byte is one of an element. -/
def InTable (loc : Cell → Option (Nat × Nat)) (t : Table) (a : Nat) : Prop := ∃ d, (t.cell d).isSome ∧ InCell loc d a

/-- The elements of the inputs are in memory, elsewhere. -/
def FarCells (loc : Cell → Option (Nat × Nat)) (t0 : Table) (locs : Nat → Cell → Option (Nat × Nat)) (ts : List Table) (m : Mem) : Prop :=
  ∀ k d x, (ts[k]?).bind (·.cell d) = some x → ∃ t a, locs k d = some (t, a) ∧ bytesAt m a t = x ∧ ∀ y, a ≤ y → y < a + t → ¬ InTable loc t0 y

section

variable {loc : Cell → Option (Nat × Nat)} {locs : Nat → Cell → Option (Nat × Nat)} {ts : List Table} {S : Schema} {N n : Nat} {t0 : Table}

theorem FarCells.congr {m m' : Mem} (h : FarCells loc t0 locs ts m) (hm : ∀ a, ¬ InTable loc t0 a → m' a = m a) : FarCells loc t0 locs ts m' := by
  intro k d x hx
  obtain ⟨t, a, h1, h2, h3⟩ := h k d x hx
  refine ⟨t, a, h1, ?_, h3⟩
  rw [← h2]
  unfold bytesAt
  exact List.map_congr_left fun i hi => hm _ (h3 _ (by omega) (by have := List.mem_range.1 hi; omega))

/-- An element is stored. -/
theorem Cells.put (ha : CellsApart loc t0) {m : Mem} {t : Table} (h : Cells loc n m t) (hs : ∀ d, (t.cell d).isSome = (t0.cell d).isSome) {d : Cell} {z x : Elem} {a : Nat}
    (hz : t.cell d = some z) (hd : loc d = some (n, a)) (hx : x.length = n) :
    Cells loc n (soloBytes m a x) (t.setCell d x) ∧ ∀ b, ¬ InTable loc t0 b → soloBytes m a x b = m b := by
  have hd0 : (t0.cell d).isSome := by rw [← hs, hz]; rfl
  constructor
  · intro e y hy
    by_cases he : d = e
    · subst he
      rw [cell_setCell_self hz] at hy
      cases hy
      refine ⟨hx, a, hd, ?_⟩
      unfold bytesAt
      apply List.ext_getElem
      · simp [hx]
      · intro i h1 h2
        simp only [List.getElem_map, List.getElem_range]
        rw [soloBytes_at, if_pos ⟨by omega, by omega⟩, show a + i - a = i by omega, List.getD_eq_getElem?_getD, List.getElem?_eq_getElem h2, Option.getD_some]
    · rw [cell_setCell_ne he] at hy
      obtain ⟨h1, a', h2, h3⟩ := h e y hy
      refine ⟨h1, a', h2, ?_⟩
      rw [← h3]
      unfold bytesAt
      refine List.map_congr_left fun i hi => ?_
      have hi := List.mem_range.1 hi
      rw [soloBytes_at, if_neg]
      intro hc
      exact he (ha d e (a' + i) hd0 (by rw [← hs, hy]; rfl) ⟨n, a, hd, hc.1, by omega⟩ ⟨n, a', h2, by omega, by omega⟩)
  · intro b hb
    rw [soloBytes_at, if_neg]
    intro hc
    exact hb ⟨d, hd0, n, a, hd, hc.1, by omega⟩

/-- What the code of a thread does when it runs alone. -/
theorem Cells.solo (hS : ∀ v ∈ S, v.type.size = n) (ha : CellsApart loc t0) (hN : t0.cell ⟨N, 0, 0⟩ = none) : ∀ {pr : IProg} {m : Mem} {t : Table}, Cells loc n m t →
    FarCells loc t0 locs ts m → (∀ d, (t.cell d).isSome = (t0.cell d).isSome) → (pr.known N ts).Valid S t →
    ∃ m' l, (pr.code loc locs).solo (byteVars m) = (l, byteVars m', true) ∧ Cells loc n m' ((pr.known N ts).run t) ∧ (∀ b, ¬ InTable loc t0 b → m' b = m b) ∧
      ∀ x ∈ l, (∃ w d, (w, d) ∈ (pr.known N ts).accesses t ∧ (t0.cell d).isSome ∧ InCell loc d x.addr ∧ (x.wrote.isSome → w = true)) ∨
        (x.wrote = none ∧ ¬ InTable loc t0 x.addr) := by
  intro pr
  induction pr with
  | done => exact fun h _ _ _ => ⟨_, [], rfl, h, fun _ _ => rfl, by simp⟩
  | input k d next ih =>
    intro m t h hf hs hv
    cases hx : (ts[k]?).bind (·.cell d) with
    | none =>
      simp only [IProg.known, hx] at hv
      obtain ⟨x, hx, -⟩ := hv
      have := hs ⟨N, 0, 0⟩
      rw [hx, hN] at this
      cases this
    | some x =>
      simp only [IProg.known, hx] at hv ⊢
      obtain ⟨n', a, h1, h2, h3⟩ := hf k d x hx
      obtain ⟨m', l, i1, i2, i3, i4⟩ := ih x h hf hs hv
      obtain ⟨r, r1, r2⟩ := solo_readBytes (fun x => (next x).code loc locs) m n' a []
      rw [List.nil_append, h2] at r1
      refine ⟨m', r ++ l, ?_, i2, i3, ?_⟩
      · simp only [IProg.code, h1]
        rw [r1, i1]
      · intro z hz
        rcases List.mem_append.1 hz with hz | hz
        · obtain ⟨z1, z2⟩ := r2 z hz
          exact .inr ⟨z2, h3 _ z1.1 z1.2⟩
        · exact i4 z hz
  | load d next ih =>
    rintro m t h hf hs ⟨x, x1, x2⟩
    obtain ⟨-, a, h1, h2⟩ := h d x x1
    obtain ⟨m', l, i1, i2, i3, i4⟩ := ih x h hf hs x2
    have hd : (t0.cell d).isSome := by rw [← hs, x1]; rfl
    obtain ⟨r, r1, r2⟩ := solo_readBytes (fun x => (next x).code loc locs) m n a []
    rw [List.nil_append, h2] at r1
    refine ⟨m', r ++ l, ?_, ?_, i3, ?_⟩
    · simp only [IProg.code, h1]
      rw [r1, i1]
    · simp only [IProg.known, KProg.run, x1, Option.getD_some]
      exact i2
    · intro z hz
      simp only [IProg.known, KProg.accesses, x1, Option.getD_some]
      rcases List.mem_append.1 hz with hz | hz
      · obtain ⟨z1, z2⟩ := r2 z hz
        exact .inl ⟨false, d, List.mem_cons_self, hd, ⟨_, _, h1, z1.1, z1.2⟩, by rw [z2]; simp⟩
      · exact (i4 z hz).imp_left fun ⟨w', d', z1, z2⟩ => ⟨w', d', List.mem_cons_of_mem _ z1, z2⟩
  | store d x next ih =>
    rintro m t h hf hs ⟨x1, ⟨v', hv', hx⟩, x3⟩
    rw [hS v' (List.mem_of_getElem? hv')] at hx
    obtain ⟨z, hz⟩ := Option.isSome_iff_exists.1 x1
    obtain ⟨-, a, h1, -⟩ := h d z hz
    obtain ⟨p1, p2⟩ := h.put ha hs hz h1 hx
    obtain ⟨m', l, i1, i2, i3, i4⟩ := ih p1 (hf.congr p2) (fun d' => by rw [cell_setCell]; exact hs d') x3
    have hd : (t0.cell d).isSome := by rw [← hs]; exact x1
    obtain ⟨r, r1, r2⟩ := solo_writeBytes (next.code loc locs) x m a
    refine ⟨m', r ++ l, ?_, i2, fun b hb => (i3 b hb).trans (p2 b hb), ?_⟩
    · simp only [IProg.code, h1]
      rw [r1, i1]
    · intro y hy
      simp only [IProg.known, KProg.accesses]
      rcases List.mem_append.1 hy with hy | hy
      · obtain ⟨z1, z2⟩ := r2 y hy
        exact .inl ⟨true, d, List.mem_cons_self, hd, ⟨_, _, h1, z1, hx ▸ z2⟩, fun _ => rfl⟩
      · exact (i4 y hy).imp_left fun ⟨w', d', z1, z2⟩ => ⟨w', d', List.mem_cons_of_mem _ z1, z2⟩

/-- The threads of a kernel, one after the other. -/
theorem Cells.soloAll (hS : ∀ v ∈ S, v.type.size = n) (ha : CellsApart loc t0) (hN : t0.cell ⟨N, 0, 0⟩ = none) : ∀ {ps : List IProg} {m : Mem} {t : Table}, Cells loc n m t →
    FarCells loc t0 locs ts m → (∀ d, (t.cell d).isSome = (t0.cell d).isSome) → (∀ p ∈ ps.map (·.known N ts), p.Valid S t) → NoRaces t (ps.map (·.known N ts)) →
    ∃ m', ps.foldl (fun m p => ((p.code loc locs).solo m).2.1) (byteVars m) = byteVars m' ∧ Cells loc n m' (runAll (ps.map (·.known N ts)) t) ∧
      ∀ b, ¬ InTable loc t0 b → m' b = m b := by
  intro ps
  induction ps with
  | nil => exact fun h _ _ _ _ => ⟨_, rfl, h, fun _ _ => rfl⟩
  | cons p ps ih =>
    intro m t h hf hs hv hr
    rw [List.map_cons] at hv hr ⊢
    obtain ⟨m1, l, g1, g2, g3, -⟩ := h.solo hS ha hN hf hs (hv _ List.mem_cons_self)
    obtain ⟨m2, f1, f2, f3⟩ := ih g2 (hf.congr g3) (fun d => by
      rw [← hs d]
      exact runAll_isSome (ps := [p.known N ts])) (fun q hq => ((hr.tail.2 q hq).1.after).2 (hv q (List.mem_cons_of_mem _ hq))) hr.after
    refine ⟨m2, ?_, f2, fun b hb => (f3 b hb).trans (g3 b hb)⟩
    rw [List.foldl_cons, g1]
    exact f1

/-- Threads that do not race for elements do not race for bytes. -/
theorem Cells.raceFree (hS : ∀ v ∈ S, v.type.size = n) (ha : CellsApart loc t0) (hN : t0.cell ⟨N, 0, 0⟩ = none) {m : Mem} (h : Cells loc n m t0) (hf : FarCells loc t0 locs ts m)
    {ps : List IProg} (hv : ∀ p ∈ ps.map (·.known N ts), p.Valid S t0) (hr : NoRaces t0 (ps.map (·.known N ts))) :
    RaceFree (byteVars m) (inputCode loc locs ps) ∧ ∀ i, ((inputCode loc locs ps i).solo (byteVars m)).2.2 = true := by
  constructor
  · intro i j hij x hx hw y hy hxy
    cases hi : ps[i]? with
    | none => rw [inputCode_rest (List.getElem?_eq_none_iff.1 hi)] at hx; cases hx
    | some p =>
      cases hj : ps[j]? with
      | none => rw [inputCode_rest (List.getElem?_eq_none_iff.1 hj)] at hy; cases hy
      | some q =>
        unfold inputCode at hx hy
        rw [hi, Option.getD_some] at hx
        rw [hj, Option.getD_some] at hy
        obtain ⟨_, l, g2, -, -, g3⟩ := h.solo hS ha hN hf (fun _ => rfl) (hv _ (List.mem_map_of_mem (List.mem_of_getElem? hi)))
        obtain ⟨_, l', k2, -, -, k3⟩ := h.solo hS ha hN hf (fun _ => rfl) (hv _ (List.mem_map_of_mem (List.mem_of_getElem? hj)))
        rw [g2] at hx
        rw [k2] at hy
        rcases g3 x hx with ⟨w, d, x1, x2, x3, x4⟩ | ⟨x1, -⟩
        · rcases k3 y hy with ⟨w', d', y1, y2, y3, -⟩ | ⟨-, y1⟩
          · rw [hxy] at y3
            cases ha _ _ _ x2 y2 x3 y3
            cases x4 hw
            exact hr i j _ _ hij (by rw [List.getElem?_map, hi]; rfl) (by rw [List.getElem?_map, hj]; rfl) d w' x1 y1
          · exact y1 (by rw [hxy]; exact ⟨d, x2, x3⟩)
        · rw [x1] at hw
          cases hw
  · intro i
    cases hi : ps[i]? with
    | none => rw [inputCode_rest (List.getElem?_eq_none_iff.1 hi)]; rfl
    | some p =>
      obtain ⟨_, l, g2, -⟩ := h.solo hS ha hN hf (fun _ => rfl) (hv _ (List.mem_map_of_mem (List.mem_of_getElem? hi)))
      unfold inputCode
      rw [hi, Option.getD_some, g2]

end

/-! ## rows -/

section

variable {vs : List View} {t : Nat} {m : Mem}

/-- Which elements there are. -/
theorem row_cell {d : Cell} : (Table.cell [vs.map fun v => v.elems m t] d).isSome ↔ d.var = 0 ∧ ∃ v, vs[d.row]? = some v ∧ d.index < v.len m := by
  obtain ⟨var, row, index⟩ := d
  unfold Table.cell
  cases var with
  | succ _ => simp
  | zero =>
    simp only [List.getElem?_cons_zero, List.getElem?_map, true_and]
    cases hv : vs[row]? with
    | none => simp
    | some v =>
      simp only [Option.map_some, Option.some.injEq, exists_eq_left']
      rw [← elems_length m t v]
      constructor
      · intro h
        obtain ⟨x, hx⟩ := Option.isSome_iff_exists.1 h
        exact (List.getElem?_eq_some_iff.1 hx).1
      · intro h
        rw [List.getElem?_eq_getElem h]
        rfl

theorem rows_cells : Cells (locateRow vs t m) t m [vs.map fun v => v.elems m t] := by
  intro d x hx
  obtain ⟨n, a, h1, h2⟩ := locateRow_elem hx
  have hn : n = t := by
    unfold locateRow at h1
    split at h1
    · split at h1
      · cases h1; rfl
      · cases h1
    · cases h1
  subst hn
  exact ⟨by rw [← h2]; simp [bytesAt], a, h1, h2⟩

/-- The bytes of an element are in the payload of its row. -/
theorem rows_inCell (hv : ∀ v ∈ vs, v.len m ≤ v.capacity) {d : Cell} {a : Nat} (h : InCell (locateRow vs t m) d a) :
    d.var = 0 ∧ ∃ v, vs[d.row]? = some v ∧ d.index < v.len m ∧ v.ptr + d.index * t ≤ a ∧ a < v.ptr + d.index * t + t ∧ v.HasPayload t a := by
  obtain ⟨n, b, h1, h2, h3⟩ := h
  unfold locateRow at h1
  split at h1
  · rename_i v g1 g2
    split at h1
    · rename_i g3
      cases h1
      refine ⟨g1, v, g2, g3, h2, h3, by omega, ?_⟩
      have := hv v (List.mem_of_getElem? g2)
      have : (d.index + 1) * t ≤ v.capacity * t := Nat.mul_le_mul_right _ (by omega)
      rw [Nat.succ_mul] at this
      omega
    · cases h1
  · cases h1

theorem rows_apart (hv : ∀ v ∈ vs, v.len m ≤ v.capacity) (hs : vs.Pairwise (View.Separate t)) (T : Table) : CellsApart (locateRow vs t m) T := by
  intro c d a _ _ h1 h2
  obtain ⟨c1, v, c2, c3, c4, c5, c6⟩ := rows_inCell hv h1
  obtain ⟨d1, w, d2, d3, d4, d5, d6⟩ := rows_inCell hv h2
  by_cases hr : c.row = d.row
  · rw [← hr] at d2
    cases c2.symm.trans d2
    have hi : c.index = d.index := by
      by_contra hi
      rcases Nat.lt_or_gt_of_ne hi with hlt | hlt
      · have : (c.index + 1) * t ≤ d.index * t := Nat.mul_le_mul_right _ (by omega)
        rw [Nat.succ_mul] at this
        omega
      · have : (d.index + 1) * t ≤ c.index * t := Nat.mul_le_mul_right _ (by omega)
        rw [Nat.succ_mul] at this
        omega
    cases c
    cases d
    simp_all
  · exact (separate_get hs hr c2 d2 a ⟨.inl c6, .inl d6⟩).elim

/-- The size words are not in the payloads. -/
theorem rows_len (hp : ∀ v ∈ vs, v.Placed t) (hs : vs.Pairwise (View.Separate t)) {m' : Mem} (hm : ∀ a, (∀ v ∈ vs, ¬ v.HasPayload t a) → m' a = m a) : ∀ v ∈ vs, v.len m' = v.len m := by
  intro v hv
  unfold View.len
  by_cases hz : v.sizePtr = 0
  · rw [if_pos hz, if_pos hz]
  · rw [if_neg hz, if_neg hz]
    refine readLE_congr fun i hi hi' => hm _ fun w hw hc => ?_
    have hword : v.HasWord i := ⟨hz, by omega, by omega⟩
    obtain ⟨j, hj⟩ := List.mem_iff_getElem?.1 hv
    obtain ⟨k, hk⟩ := List.mem_iff_getElem?.1 hw
    by_cases hjk : j = k
    · subst hjk
      cases hj.symm.trans hk
      exact (hp v hv).apart _ ⟨hc, hword⟩
    · exact separate_get hs hjk hj hk _ ⟨.inr hword, .inl hc⟩

/-- The rows that memory then has. -/
theorem cells_left {m' : Mem} (hlen : ∀ v ∈ vs, v.len m' = v.len m) {T : Table} (hc : Cells (locateRow vs t m) t m' T)
    (hT : T.map (·.map List.length) = [vs.map fun v => v.elems m t].map (·.map List.length)) : T = [vs.map fun v => v.elems m' t] := by
  obtain ⟨R, rfl⟩ : ∃ R, T = [R] := by
    have := congrArg List.length hT
    simp only [List.length_map, List.length_cons, List.length_nil] at this
    exact List.length_eq_one_iff.1 (by simpa using this)
  simp only [List.map_cons, List.map_nil, List.cons.injEq, and_true, List.map_map] at hT
  congr 1
  have hl : R.length = vs.length := by simpa using congrArg List.length hT
  apply List.ext_getElem
  · simpa using hl
  · intro r h1 h2
    have hr : r < vs.length := by omega
    have hlr : R[r].length = vs[r].len m := by
      have := congrArg (fun l => l[r]?) hT
      simp only [List.getElem?_map, List.getElem?_eq_getElem h1, List.getElem?_eq_getElem hr, Option.map_some, Function.comp, Option.some.injEq, elems_length] at this
      exact this
    have hlm := hlen vs[r] (List.getElem_mem hr)
    rw [List.getElem_map]
    apply List.ext_getElem
    · rw [elems_length, hlm, hlr]
    · intro i g1 g2
      have hi : i < vs[r].len m := by omega
      obtain ⟨-, a, e1, e2⟩ := hc ⟨0, r, i⟩ R[r][i] (by simp [Table.cell, h1, g1])
      simp only [locateRow, List.getElem?_eq_getElem hr, if_pos hi, Option.some.injEq, Prod.mk.injEq, true_and] at e1
      rw [← e2, ← e1]
      have := elems_get (m := m') (t := t) (v := vs[r]) (i := i) (by omega)
      rw [List.getElem?_eq_getElem g2] at this
      exact (Option.some.inj this).symm

theorem locateRow_alike {ws : List View} (h1 : vs.length = ws.length) (h2 : ∀ (i : Nat) (v w : View), vs[i]? = some v → ws[i]? = some w → v.Alike w)
    (hw : ∀ w ∈ ws, w.len m ≤ w.capacity) : locateRow vs t m = locateRow ws t m := by
  funext d
  obtain ⟨var, row, index⟩ := d
  unfold locateRow
  cases var with
  | succ _ => rfl
  | zero =>
    cases hv : vs[row]? with
    | none =>
      rw [List.getElem?_eq_none (by rw [← h1]; exact List.getElem?_eq_none_iff.1 hv)]
    | some v =>
      have hlt : row < ws.length := by rw [← h1]; exact (List.getElem?_eq_some_iff.1 hv).1
      rw [List.getElem?_eq_getElem hlt]
      have ha := h2 row v _ hv (List.getElem?_eq_getElem hlt)
      have hl : v.len m = ws[row].len m := by unfold View.len; rw [ha.1, ha.2.1]
      simp only [hl]
      by_cases hi : index < ws[row].len m
      · rw [if_pos hi, if_pos hi, ha.2.2 (by have := hw _ (List.getElem_mem hlt); omega)]
      · rw [if_neg hi, if_neg hi]

end

end Vecmem
