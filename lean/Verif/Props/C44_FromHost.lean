import Verif.Lemmas.EdmFromHost
import Verif.Props.C44_ToHost

/-!
# C44: copies of host containers, and back
-/

namespace Vecmem.Props

open Vecmem Prog

variable {σ : Type} {R : Limits} {G : Nat}

/-- `get_data` of a host container does not throw. -/
theorem hostData_shape {S : Schema} {n : Nat} {sizes : List (List Nat)} (addrs : List (List Nat)) (hs : HostSizes S n sizes) (hv : ∃ v ∈ S, v.kind ≠ .scalar) :
    hostData S sizes addrs = .ok { capacity := n, vars := hostVars S sizes addrs } := by
  unfold hostData
  have hall : ∀ k ∈ (List.zipWith Var.outerSize S sizes).filterMap id, k = n := by
    intro k hk
    obtain ⟨o, ho, e⟩ := List.mem_filterMap.1 hk
    obtain ⟨i, hi⟩ := List.mem_iff_getElem?.1 ho
    rw [List.getElem?_zipWith] at hi
    cases hvi : S[i]? with
    | none => rw [hvi] at hi; simp at hi
    | some v =>
      cases hni : sizes[i]? with
      | none => rw [hvi, hni] at hi; simp at hi
      | some ns =>
        rw [hvi, hni] at hi
        simp only [Option.some.injEq] at hi
        obtain ⟨a, b, c⟩ := hs.each i v ns hvi hni
        unfold Var.outerSize at hi
        simp only [id] at e
        subst e
        cases hk : v.kind with
        | scalar => rw [hk] at hi; simp at hi
        | vector => rw [hk] at hi; rw [b hk] at hi; simpa using hi.symm
        | jagged => rw [hk] at hi; simp only [Option.some.injEq] at hi; rw [← hi, (c hk).1]
  have hne : (List.zipWith Var.outerSize S sizes).filterMap id ≠ [] := by
    obtain ⟨v, hv, hk⟩ := hv
    obtain ⟨i, hi⟩ := List.mem_iff_getElem?.1 hv
    have hlt : i < sizes.length := by rw [hs.count]; exact (List.getElem?_eq_some_iff.1 hi).1
    have hn := List.getElem?_eq_getElem hlt
    have hm : (List.zipWith Var.outerSize S sizes)[i]? = some (v.outerSize sizes[i]) := by
      rw [List.getElem?_zipWith, hi, hn]
    intro h0
    have : ∃ k, v.outerSize sizes[i] = some k := by
      unfold Var.outerSize
      cases hk' : v.kind with
      | scalar => exact absurd hk' hk
      | vector => exact ⟨_, rfl⟩
      | jagged => exact ⟨_, rfl⟩
    obtain ⟨k, hk⟩ := this
    have : k ∈ (List.zipWith Var.outerSize S sizes).filterMap id :=
      List.mem_filterMap.2 ⟨some k, by rw [← hk]; exact List.mem_of_getElem? hm, rfl⟩
    rw [h0] at this
    simp at this
  rw [getHostSize_unknown _ _ hne]
  cases hl : (List.zipWith Var.outerSize S sizes).filterMap id with
  | nil => exact absurd hl hne
  | cons k ks =>
    rw [hl] at hall
    have hk : k = n := hall k List.mem_cons_self
    simp only
    rw [if_pos (fun j hj => by rw [hall j (List.mem_cons_of_mem _ hj), hk])]
    simp only [Res.map]
    rw [hk, Nat.mod_eq_of_lt hs.small]


theorem hostVars_has {S : Schema} {n : Nat} {sizes addrs : List (List Nat)} (hs : HostSizes S n sizes) (hf : Fits sizes addrs)
    {a : Nat} (h : VarsHave S (hostVars S sizes addrs) a) : ArraysHave S (hostArrays sizes addrs) a := by
  obtain ⟨i, v, y, hv, hy, ha⟩ := h
  obtain ⟨ns, as, h1, h2, h3, h4, h5, h6, h7⟩ := hostVars_at hs hf hv
  rw [hy] at h4
  cases h4
  refine ⟨i, v, _, hv, h7, ?_⟩
  rw [VarView.has_iff, h6] at ha
  exact ha

/-- **C44, partial**, for host containers: a copy of a host container of `n` elements to any container that it has no memory in
common with and that has room for it makes every variable of the target equal to that of the host container.

Missing: an empty vector is not copied to a vector that is not (`c44_empty_not_copied`). -/
theorem c44_from_host_partial (dbg : Bool) (m : Mem) (S : Schema) (ht : ∀ v ∈ S, 0 < v.type.size)
    (hv : ∃ v ∈ S, v.kind ≠ .scalar) (n : Nat) (sizes addrs : List (List Nat)) (hs : HostSizes S n sizes)
    (hf : addrs.map (·.length) = sizes.map (·.length)) (rows : List (List View)) (hr : rows = hostArrays sizes addrs)
    (hp : HostPlaced S rows) (dst : EdmView) (hd : VarsValid m S dst.vars)
    (hsep : ∀ a, ¬ (ArraysHave S rows a ∧ VarsHave S dst.vars a))
    (he : ∀ r, VarView.vector r ∈ dst.vars → r.sizePtr ≠ 0 → n = 0 → r.len m = 0)
    (hroom : ∀ (i : Nat) (ns : List Nat) (y : VarView), sizes[i]? = some ns → dst.vars[i]? = some y →
      y.rows.length = ns.length ∧ ∀ (k c : Nat) (r : View), ns[k]? = some c → y.rows[k]? = some r → c ≤ r.capacity) :
    ∃ m', (copyEdmFromHost dbg S sizes addrs dst).result m = (.ok (), m') ∧
      (∀ (i : Nat) (v : Var) (y : VarView), S[i]? = some v → dst.vars[i]? = some y → ∃ rs, rows[i]? = some rs ∧
        ∀ (k : Nat) (q r : View), rs[k]? = some q → y.rows[k]? = some r → q.HoldsRow m m' v.type.size r) ∧
      ∀ a, ¬ VarsHave S dst.vars a → m' a = m a := by
  subst hr
  have hvalid := hostVars_placed (m := m) ht hs hf hp
  obtain ⟨m', f, h⟩ := copyEdm_variables (dbg := dbg) (src := { capacity := n, vars := hostVars S sizes addrs }) hvalid hd
    (fun a ⟨x, y⟩ => hsep a ⟨hostVars_has hs hf x, y⟩) (by simp [oneBlock]) (by
      intro i a b ha hb h0 hl
      have hlt : i < S.length := by rw [← hostVars_length hs hf]; exact (List.getElem?_eq_some_iff.1 ha).1
      have hvi := List.getElem?_eq_getElem hlt
      obtain ⟨ns, as, h1, h2, h3, h4, h5, h6, h7⟩ := hostVars_at hs hf hvi
      simp only at ha
      rw [ha] at h4
      rw [← Option.some.inj h4] at h5 h6
      have hk : S[i].kind = .vector := h5.symm
      have hns := (hs.each i _ ns hvi h1).2.1 hk
      subst hns
      have e : a ∈ List.zipWith (fun n p => (⟨n, 0, p⟩ : View)) [n] as := by rw [← h6]; simp [VarView.rows]
      obtain ⟨e1, e2⟩ := arr_row e
      rw [List.mem_singleton] at e2
      exact he b (List.mem_of_getElem? hb) h0 (by rw [← e2]; simpa [View.len, e1] using hl))
  refine ⟨m', ?_⟩
  have hcan : EdmCanHold m { capacity := n, vars := hostVars S sizes addrs } dst := by
    intro i x y hx hy
    simp only at hx
    have hlt : i < S.length := by rw [← hostVars_length hs hf]; exact (List.getElem?_eq_some_iff.1 hx).1
    have hvi := List.getElem?_eq_getElem hlt
    obtain ⟨ns, as, h1, h2, h3, h4, h5, h6, h7⟩ := hostVars_at hs hf hvi
    rw [hx] at h4
    cases h4
    obtain ⟨r1, r2⟩ := hroom i ns y h1 hy
    refine ⟨.inr (by rw [h6, r1]; simp [h3]), ?_⟩
    intro k a b hka hkb
    rw [h6, List.getElem?_zipWith] at hka
    cases hn : ns[k]? with
    | none => rw [hn] at hka; simp at hka
    | some c =>
      cases hpk : as[k]? with
      | none => rw [hn, hpk] at hka; simp at hka
      | some p =>
        rw [hn, hpk] at hka
        simp only [Option.some.injEq] at hka
        rw [← hka]
        exact r2 k c b hn hkb
  rcases h with ⟨_, h, k⟩ | ⟨h, _⟩
  · refine ⟨?_, ?_, f⟩
    · unfold copyEdmFromHost
      rw [hostData_shape addrs hs hv]
      exact h
    · intro i v y hvi hy
      obtain ⟨ns, as, h1, h2, h3, h4, h5, h6, h7⟩ := hostVars_at hs hf hvi
      refine ⟨_, h7, ?_⟩
      intro q a b ha hb
      exact k i v _ y hvi h4 hy q a b (by rw [h6]; exact ha) hb
  · exact absurd hcan h

/-- Exactly what a copy of a host container does, as `c44_variables`. -/
theorem copyEdmFromHost_cases {dbg : Bool} {m : Mem} {S : Schema} (ht : ∀ v ∈ S, 0 < v.type.size)
    (hv : ∃ v ∈ S, v.kind ≠ .scalar) {n : Nat} {sizes addrs : List (List Nat)} (hs : HostSizes S n sizes)
    (hf : addrs.map (·.length) = sizes.map (·.length)) (hp : HostPlaced S (hostArrays sizes addrs)) {dst : EdmView}
    (hd : VarsValid m S dst.vars) (hsep : ∀ a, ¬ (ArraysHave S (hostArrays sizes addrs) a ∧ VarsHave S dst.vars a)) :
    ∃ k m', Copied dbg S (hostVars S sizes addrs) dst.vars m k m' ∧
      ((k = S.length ∧ (copyEdmFromHost dbg S sizes addrs dst).result m = (.ok (), m')) ∨
        (k < S.length ∧ (copyEdmFromHost dbg S sizes addrs dst).result m = (.lengthError, m'))) := by
  have hvalid := hostVars_placed (m := m) ht hs hf hp
  have h := copyEdm_cases (dbg := dbg) (src := { capacity := n, vars := hostVars S sizes addrs }) hvalid hd
    (fun a ⟨x, y⟩ => hsep a ⟨hostVars_has hs hf x, y⟩) (by simp [oneBlock])
  unfold copyEdmFromHost
  rw [hostData_shape addrs hs hv]
  exact h

/-- **C44**, there and back: a host container that is copied to a buffer that has room for it, and then to another host
container, which may have held anything, is the same as the first one, and no other memory is changed.  (The vectors of the
buffer are empty before, as after `setup`, or the container is not empty.) -/
theorem c44_round_trip (ups : Bool → MR σ) (u0 u u' : σ) (T : List (Bool × Blk)) (h : FamLawful R G ups u0)
    (hu : FReach R ups u0 u T) (S : Schema) (hv : ∃ v ∈ S, v.kind ≠ .scalar) (caps : List Nat) (ho : S.Ok caps)
    (hasHost resizable : Bool) (A : Nat) (hA : ∀ v ∈ S, v.type.align ≤ A) (hA8 : 8 ≤ A) (hq : IsReq R (S.room caps A) maxAlign)
    (b : EdmBuffer) (hb : EdmBuffer.create ups u S caps hasHost resizable = (.ok b, u'))
    (dbg : Bool) (m : Mem) (hbs : EdmSizes m b.view)
    (n : Nat) (sizes addrs addrs' : List (List Nat)) (hs : HostSizes S n sizes) (hroom : FitInto sizes b.view.vars)
    (he : ∀ r, VarView.vector r ∈ b.view.vars → r.sizePtr ≠ 0 → n = 0 → r.len m = 0)
    (hf : addrs.map (·.length) = sizes.map (·.length)) (hf' : addrs'.map (·.length) = sizes.map (·.length))
    (rows rows' : List (List View)) (hr : rows = hostArrays sizes addrs) (hr' : rows' = hostArrays sizes addrs')
    (hp : HostPlaced S rows) (hp' : HostPlaced S rows')
    (hsep : ∀ a, ArraysHave S rows a → ¬ (b.mem.ptr ≤ a ∧ a < b.mem.ptr + b.mem.size))
    (hsep' : ∀ a, ArraysHave S rows' a → ¬ (b.mem.ptr ≤ a ∧ a < b.mem.ptr + b.mem.size))
    (place : List (List Nat) → List (List Nat)) (hpl : place sizes = addrs') :
    ∃ m' m'', (copyEdmFromHost dbg S sizes addrs b.view).result m = (.ok (), m') ∧
      (copyEdmToHost dbg S b.view place).result m' = (.ok (), m'') ∧
      (∀ (i : Nat) (v : Var), S[i]? = some v → ∃ rs rs', rows[i]? = some rs ∧ rows'[i]? = some rs' ∧
        rs'.map (·.elems m'' v.type.size) = rs.map (·.elems m v.type.size)) ∧
      ∀ a, ¬ ArraysHave S rows' a → ¬ (b.mem.ptr ≤ a ∧ a < b.mem.ptr + b.mem.size) → m'' a = m a := by
  have hS : S ≠ [] := by rintro rfl; obtain ⟨v, h, _⟩ := hv; simp at h
  obtain ⟨b1, b2, b3, b4, _, b6⟩ := create_at h hu hS ho hA hA8 hq hb
  obtain ⟨b7, b8, _⟩ := placed_of_create h hu hS ho hA hA8 hq hb
  have hplaced := b8.varsPlaced ho b7 b3
  obtain ⟨m', e1, c1, f1⟩ := c44_from_host_partial dbg m S (fun v hv => (ho.types v hv).1) hv n sizes addrs hs hf rows hr hp b.view
    ⟨hplaced, hbs⟩ (fun a ⟨x, y⟩ => hsep a x (b8.has_inside y)) he (fun i ns y hi hy => by
      obtain ⟨r1, r2⟩ := hroom i ns y hi hy
      exact ⟨r1, fun k c r hc hr => (r2 k c r hc hr).1⟩)
  -- the contents of the buffer
  have key : ∀ (i : Nat) (v : Var) (y : VarView), S[i]? = some v → b.view.vars[i]? = some y → ∃ ns as,
      sizes[i]? = some ns ∧ as.length = ns.length ∧ rows[i]? = some (List.zipWith (fun n p => ⟨n, 0, p⟩) ns as) ∧
      y.rows.length = ns.length ∧ ∀ (k : Nat) (r : View), y.rows[k]? = some r → ∃ c p, ns[k]? = some c ∧ as[k]? = some p ∧
        c ≤ r.capacity ∧ r.elems m' v.type.size = View.elems m v.type.size ⟨c, 0, p⟩ := by
    intro i v y hvi hy
    obtain ⟨ns, as, h1, h2, h3, -, -, -, h7⟩ := hostVars_at hs hf hvi
    rw [← hr] at h7
    obtain ⟨rs, hrs, hh⟩ := c1 i v y hvi hy
    rw [h7] at hrs
    cases hrs
    obtain ⟨r1, r2⟩ := hroom i ns y h1 hy
    refine ⟨ns, as, h1, h3, h7, r1, ?_⟩
    intro k r hk
    have hlt := (List.getElem?_eq_some_iff.1 hk).1
    have hn := List.getElem?_eq_getElem (show k < ns.length by omega)
    have ha := List.getElem?_eq_getElem (show k < as.length by omega)
    obtain ⟨q1, q2⟩ := r2 k _ r hn hk
    refine ⟨_, _, hn, ha, q1, ?_⟩
    have := hh k ⟨ns[k], 0, as[k]⟩ r (by rw [List.getElem?_zipWith, hn, ha]) hk
    unfold View.HoldsRow at this
    by_cases h0 : r.sizePtr = 0
    · rw [if_pos h0] at this
      exact (this.eq_of_length (by simp [View.elems, View.len, h0, q2 h0])).symm
    · rw [if_neg h0] at this
      exact this
  have hlen : ∀ (i : Nat) (v : Var) (y : VarView), S[i]? = some v → b.view.vars[i]? = some y → ∀ ns, sizes[i]? = some ns →
      ∀ (k : Nat) (r : View), y.rows[k]? = some r → ns[k]? = some (r.len m') ∧ r.len m' ≤ r.capacity := by
    intro i v y hvi hy ns hns k r hk
    obtain ⟨ns', as, h1, h3, h7, r1, r2⟩ := key i v y hvi hy
    rw [hns] at h1
    cases h1
    obtain ⟨c, p, hc, ha, hle, e⟩ := r2 k r hk
    have : r.len m' = c := by simpa [View.elems, View.len] using congrArg List.length e
    rw [this]
    exact ⟨hc, hle⟩
  have hget : ∀ {i : Nat} {y : VarView}, b.view.vars[i]? = some y → ∃ v ns, S[i]? = some v ∧ sizes[i]? = some ns := by
    intro i y hy
    have hlt : i < S.length := by rw [← hplaced.count]; exact (List.getElem?_eq_some_iff.1 hy).1
    exact ⟨_, _, List.getElem?_eq_getElem hlt, List.getElem?_eq_getElem (by rw [hs.count]; exact hlt)⟩
  have hsz : rowSizes m' b.view.vars = sizes := by
    apply List.ext_getElem?
    intro i
    unfold rowSizes
    rw [List.getElem?_map]
    cases hy : b.view.vars[i]? with
    | none =>
      have := List.getElem?_eq_none_iff.1 hy
      exact (List.getElem?_eq_none_iff.2 (by rw [hs.count, ← hplaced.count]; exact this)).symm
    | some y =>
      obtain ⟨v, ns, hvi, hns⟩ := hget hy
      rw [hns]
      simp only [Option.map_some, Option.some.injEq]
      apply List.ext_getElem?
      intro k
      rw [List.getElem?_map]
      cases hk : y.rows[k]? with
      | none =>
        have := List.getElem?_eq_none_iff.1 hk
        rw [(hroom i ns y hns hy).1] at this
        exact (List.getElem?_eq_none_iff.2 this).symm
      | some r => exact (hlen i v y hvi hy ns hns k r hk).1.symm
  have hsizes : EdmSizes m' b.view := by
    intro y hy r hrm
    obtain ⟨i, hi⟩ := List.mem_iff_getElem?.1 hy
    obtain ⟨v, ns, hvi, hns⟩ := hget hi
    obtain ⟨k, hk⟩ := List.mem_iff_getElem?.1 hrm
    exact (hlen i v y hvi hi ns hns k r hk).2
  obtain ⟨m'', e2, c2, f2⟩ := c44_buffer_to_host ups u0 u u' T h hu S hv caps ho hasHost resizable A hA hA8 hq b hb dbg m' hsizes
    place addrs' (by rw [hsz, hpl]) (by rw [hsz]; exact hf') rows' (by rw [hsz]; exact hr') hp' hsep'
  refine ⟨m', m'', e1, e2, ?_, ?_⟩
  · intro i v hvi
    have hlt : i < b.view.vars.length := by rw [hplaced.count]; exact (List.getElem?_eq_some_iff.1 hvi).1
    have hy := List.getElem?_eq_getElem hlt
    obtain ⟨rs', hrs', e⟩ := c2 i v _ hvi hy
    obtain ⟨ns, as, h1, h3, h7, r1, r2⟩ := key i v _ hvi hy
    refine ⟨_, rs', h7, hrs', e.trans ?_⟩
    apply List.ext_getElem?
    intro k
    rw [List.getElem?_map, List.getElem?_map, List.getElem?_zipWith]
    cases hk : b.view.vars[i].rows[k]? with
    | none =>
      have := List.getElem?_eq_none_iff.1 hk
      rw [r1] at this
      rw [List.getElem?_eq_none_iff.2 this]
      rfl
    | some r =>
      obtain ⟨c, p, hc, ha, -, e⟩ := r2 k r hk
      rw [hc, ha]
      simp only [Option.map_some, Option.some.injEq]
      exact e
  · intro a h1 h2
    rw [f2 a h1, f1 a fun hh => h2 (b8.has_inside hh)]

/-! ## examples -/

/-- A host container of three elements: the sizes are those of a container, and there is room for it in the buffer. -/
def demoSizes : List (List Nat) := [[1], [3], [1, 0, 2], [2, 0, 3]]

example : HostSizes demoSchema 3 demoSizes := by
  refine ⟨rfl, by decide, ?_⟩
  intro i v ns hv hn
  match i with
  | 0 | 1 | 2 | 3 =>
    simp only [demoSchema, demoSizes, List.getElem?_cons_zero, List.getElem?_cons_succ, Option.some.injEq] at hv hn
    subst hv hn
    simp
  | i + 4 => simp [demoSchema] at hv

example : FitInto demoSizes (demoPair demoSchema [2, 0, 3] [2, 0, 3] true true).1.view.vars := by
  have e : (demoPair demoSchema [2, 0, 3] [2, 0, 3] true true).1.view.vars.map
      (fun x => x.rows.map fun r => (r.capacity, decide (r.sizePtr = 0))) =
      [[(1, true)], [(3, true)], [(2, false), (0, false), (3, false)], [(2, false), (0, false), (3, false)]] := by decide +kernel
  intro i ns x hn hx
  have ei := congrArg (fun l => l[i]?) e
  simp only [List.getElem?_map, hx, Option.map_some] at ei
  match i with
  | 0 | 1 | 2 | 3 =>
    simp only [demoSizes, List.getElem?_cons_zero, List.getElem?_cons_succ, Option.some.injEq] at hn ei
    subst hn
    refine ⟨by simpa using congrArg List.length ei, ?_⟩
    intro k n r hk hr
    have ek := congrArg (fun l => l[k]?) ei
    simp only [List.getElem?_map, hr, Option.map_some] at ek
    match k with
    | 0 => simp at ek hk; have e1 := ek.1; have e2 := ek.2; subst hk; omega
    | 1 => simp at ek hk; try (have e1 := ek.1; have e2 := ek.2; subst hk; omega)
    | 2 => simp at ek hk; try (have e1 := ek.1; have e2 := ek.2; subst hk; omega)
    | k + 3 => simp at hk
  | i + 4 => simp [demoSizes] at hn

/-- There and back, computed. -/
example :
    let b := (demoPair demoSchema [2, 0, 3] [2, 0, 3] true true).1
    let here : List (List Nat) := [[2 ^ 20], [2 ^ 20 + 100], [2 ^ 20 + 200, 0, 2 ^ 20 + 300], [2 ^ 20 + 400, 0, 2 ^ 20 + 500]]
    let there : List (List Nat) := [[2 ^ 21], [2 ^ 21 + 100], [2 ^ 21 + 200, 0, 2 ^ 21 + 300], [2 ^ 21 + 400, 0, 2 ^ 21 + 500]]
    let r := (copyEdmFromHost true demoSchema demoSizes here b.view).result demoEdmMem
    let r' := (copyEdmToHost true demoSchema b.view fun _ => there).result r.2
    r.1 = .ok () ∧ r'.1 = .ok () ∧
      (List.zipWith (fun (v : Var) rs => rs.map fun (w : View) => w.elems r'.2 v.type.size) demoSchema (hostArrays demoSizes there)) =
      List.zipWith (fun (v : Var) rs => rs.map fun (w : View) => w.elems demoEdmMem v.type.size) demoSchema (hostArrays demoSizes here) := by
  decide +kernel

end Vecmem.Props
