import Verif.Lemmas.EdmToHost
import Verif.Props.C43_EdmHost
import Verif.Props.C44_EdmCopy

/-!
# C44: copies of containers to host containers
-/

namespace Vecmem.Props

open Vecmem Prog

variable {σ : Type} {R : Limits} {G : Nat}

theorem outerSizes_eq {m : Mem} {S : Schema} {xs : List VarView} (hs : VarsPlaced S xs) :
    List.zipWith Var.outerSize S (rowSizes m xs) = xs.map (·.outer m) := by
  apply List.ext_getElem?
  intro i
  unfold rowSizes
  rw [List.getElem?_zipWith, List.getElem?_map, List.getElem?_map]
  cases hx : xs[i]? with
  | none => cases S[i]? <;> rfl
  | some x =>
    obtain ⟨v, hv⟩ := hs.nth hx
    rw [hv]
    obtain ⟨hk, -⟩ := hs.each i v x hv hx
    simp only [Option.map_some, Option.some.injEq]
    unfold Var.outerSize
    rw [← hk]
    cases x <;> simp [VarView.kind, VarView.rows, VarView.outer]

theorem hostData_ok {m : Mem} {S : Schema} {xs : List VarView} {addrs : List (List Nat)} (hs : VarsPlaced S xs)
    (hv : ∃ v ∈ S, v.kind ≠ .scalar) :
    (SameSize m xs ∧ ∃ n, hostData S (rowSizes m xs) addrs = .ok { capacity := n, vars := hostVars S (rowSizes m xs) addrs }) ∨
    (¬ SameSize m xs ∧ hostData S (rowSizes m xs) addrs = .lengthError) := by
  unfold hostData
  rw [outerSizes_eq hs]
  have hne : (xs.map (·.outer m)).filterMap id ≠ [] := by
    obtain ⟨v, hv, hk⟩ := hv
    obtain ⟨i, hi⟩ := List.mem_iff_getElem?.1 hv
    have hlt := (List.getElem?_eq_some_iff.1 hi).1
    rw [← hs.count] at hlt
    have hx := List.getElem?_eq_getElem hlt
    obtain ⟨hk', -⟩ := hs.each i v _ hi hx
    rw [← hk'] at hk
    intro h0
    have hmem := List.mem_of_getElem? hx
    generalize xs[i] = x at hk hmem
    have : ∃ k, x.outer m = some k := by
      cases x with
      | scalar p => exact absurd rfl hk
      | vector v => exact ⟨_, rfl⟩
      | jagged j => exact ⟨_, rfl⟩
    obtain ⟨k, hk⟩ := this
    have : k ∈ (xs.map (·.outer m)).filterMap id := List.mem_filterMap.2 ⟨some k, List.mem_map.2 ⟨x, hmem, hk⟩, rfl⟩
    rw [h0] at this
    simp at this
  rw [getHostSize_unknown _ _ hne]
  have hmem : ∀ k, k ∈ (xs.map (·.outer m)).filterMap id ↔ ∃ x ∈ xs, x.outer m = some k := by
    intro k
    simp [List.mem_filterMap]
  cases hl : (xs.map (·.outer m)).filterMap id with
  | nil => exact absurd hl hne
  | cons n ns =>
    rw [hl] at hmem
    simp only
    by_cases h : ∀ k ∈ ns, k = n
    · rw [if_pos h]
      refine .inl ⟨⟨n, fun x hx k hk => ?_⟩, _, rfl⟩
      have := (hmem k).2 ⟨x, hx, hk⟩
      rcases List.mem_cons.1 this with e | e
      · exact e
      · exact h k e
    · rw [if_neg h]
      refine .inr ⟨fun ⟨n', h'⟩ => h fun k hk => ?_, rfl⟩
      obtain ⟨x, hx, e⟩ := (hmem k).1 (List.mem_cons_of_mem _ hk)
      obtain ⟨y, hy, e'⟩ := (hmem n).1 List.mem_cons_self
      rw [h' x hx k e, h' y hy n e']

/-- **C44** for host containers: a copy of a container to a host container first gives its vectors, and the inner vectors of
its jagged vectors, the sizes of those of the source, whatever it held before; then every variable has exactly the contents of
that of the source, and no other memory is changed.  If the vectors of the source are not all of the same size, there is a
`length_error`, and no memory is changed.  `addrs` are the addresses of the arrays of the host container with the new
sizes. -/
theorem c44_to_host (dbg : Bool) (m : Mem) (S : Schema) (src : EdmView) (place : List (List Nat) → List (List Nat))
    (hs : VarsValid m S src.vars) (h1 : OneSize S src) (hv : ∃ v ∈ S, v.kind ≠ .scalar)
    (addrs : List (List Nat)) (ha : addrs = place (rowSizes m src.vars))
    (hf : addrs.map (·.length) = (rowSizes m src.vars).map (·.length))
    (rows : List (List View)) (hr : rows = hostArrays (rowSizes m src.vars) addrs) (hp : HostPlaced S rows)
    (hsep : ∀ a, ¬ (VarsHave S src.vars a ∧ ArraysHave S rows a)) :
    (SameSize m src.vars ∧ ∃ m', (copyEdmToHost dbg S src place).result m = (.ok (), m') ∧
      (∀ (i : Nat) (v : Var) (x : VarView), S[i]? = some v → src.vars[i]? = some x →
        ∃ rs, rows[i]? = some rs ∧ rs.map (·.elems m' v.type.size) = x.rows.map (·.elems m v.type.size)) ∧
      ∀ a, ¬ ArraysHave S rows a → m' a = m a) ∨
    (¬ SameSize m src.vars ∧ (copyEdmToHost dbg S src place).result m = (.lengthError, m)) := by
  subst hr
  unfold copyEdmToHost
  have hsizes := hostSizes_does (dbg := dbg) hs h1
  rcases hostData_ok (m := m) (addrs := addrs) hs.toVarsPlaced hv with ⟨hsame, n, hd⟩ | ⟨hsame, hd⟩
  · left
    refine ⟨hsame, ?_⟩
    have hvalid := hostVars_valid hs hf hp
    have hrows : ∀ (i : Nat) (v : Var) (x : VarView), S[i]? = some v → src.vars[i]? = some x →
        ∃ as, addrs[i]? = some as ∧ as.length = x.rows.length ∧
        (hostArrays (rowSizes m src.vars) addrs)[i]? = some (List.zipWith (fun n p => ⟨n, 0, p⟩) (x.rows.map (·.len m)) as) ∧
        (hostVars S (rowSizes m src.vars) addrs)[i]? = some (v.hostView (x.rows.map (·.len m)) as) ∧
        (v.hostView (x.rows.map (·.len m)) as).rows = List.zipWith (fun n p => ⟨n, 0, p⟩) (x.rows.map (·.len m)) as := by
      intro i v x hv hx
      obtain ⟨as, ha, hl⟩ := Fits.get hf hx
      obtain ⟨hk, -, hj⟩ := hs.each i v x hv hx
      refine ⟨as, ha, hl, hostArrays_get hx ha, ?_, (hostView_rows hk ⟨hj, hs.sizes x (List.mem_of_getElem? hx)⟩ hl).2⟩
      unfold hostVars rowSizes
      have hz : (List.zip (src.vars.map fun x => x.rows.map (·.len m)) addrs)[i]? = some (x.rows.map (·.len m), as) :=
        List.getElem?_zip_eq_some.2 ⟨by simp only [List.getElem?_map, hx, Option.map_some], ha⟩
      rw [List.getElem?_zipWith, hv, hz]
    have hhave : ∀ a, VarsHave S (hostVars S (rowSizes m src.vars) addrs) a → ArraysHave S (hostArrays (rowSizes m src.vars) addrs) a := by
      rintro a ⟨i, v, y, hv, hy, h⟩
      obtain ⟨v', x, as, hv', hx, has, rfl⟩ := hostVars_get hy
      rw [hv] at hv'
      cases hv'
      obtain ⟨as', ha', _, k2, _, k4⟩ := hrows i v x hv hx
      rw [has] at ha'
      cases ha'
      refine ⟨i, v, _, hv, k2, ?_⟩
      rw [VarView.has_iff, k4] at h
      exact h
    obtain ⟨m', f, h⟩ := copyVars_does dbg S src.vars _ m hs hvalid (fun a ⟨x, y⟩ => hsep a ⟨x, hhave a y⟩) (by
      intro i a b _ hb h0
      exfalso
      obtain ⟨v, x, as, hv, hx, has, e⟩ := hostVars_get hb
      obtain ⟨as', ha', _, _, _, k4⟩ := hrows i v x hv hx
      rw [has] at ha'
      cases ha'
      rw [← e] at k4
      have : b ∈ List.zipWith (fun n p => (⟨n, 0, p⟩ : View)) (x.rows.map (·.len m)) as := by rw [← k4]; simp [VarView.rows]
      exact h0 (arr_row this).1)
    have hcan : ∀ (i : Nat) (x y : VarView), src.vars[i]? = some x → (hostVars S (rowSizes m src.vars) addrs)[i]? = some y →
        x.CanHold m y := by
      intro i x y hx hy
      obtain ⟨v, x', as, hv, hx', has, rfl⟩ := hostVars_get hy
      rw [hx] at hx'
      cases hx'
      obtain ⟨as', ha', hl, _, _, k4⟩ := hrows i v x hv hx
      rw [has] at ha'
      cases ha'
      refine ⟨.inr (by rw [k4]; simp [hl]), ?_⟩
      intro k a b hka hkb
      rw [k4, List.getElem?_zipWith, List.getElem?_map, hka] at hkb
      cases hp : as[k]? with
      | none => rw [hp] at hkb; simp at hkb
      | some p =>
        rw [hp] at hkb
        simp only [Option.map_some, Option.some.injEq] at hkb
        rw [← hkb]
    rcases h with ⟨hn, _⟩ | ⟨_, h, k⟩
    · exact absurd hcan hn
    refine ⟨m', ?_, ?_, fun a hna => f a fun hh => hna (hhave a hh)⟩
    · refine (hsizes.bindActs ?_).result
      rw [← ha, hd]
      have e : copyEdm dbg S src { capacity := n, vars := hostVars S (rowSizes m src.vars) addrs } =
          (copyVars dbg S src.vars (hostVars S (rowSizes m src.vars) addrs)).bind fun _ => retEvent := by
        unfold copyEdm
        have : oneBlock src { capacity := n, vars := hostVars S (rowSizes m src.vars) addrs } = false := by simp [oneBlock]
        rw [this]
        rfl
      exact (does_ret _ m).bindActs (by rw [e]; exact h.bindActs (acts_retEvent m'))
    · intro i v x hv hx
      obtain ⟨as, hai, hl, k2, k3, k4⟩ := hrows i v x hv hx
      refine ⟨_, k2, ?_⟩
      have hh := k i v x _ hv hx k3
      apply List.ext_getElem?
      intro q
      rw [List.getElem?_map, List.getElem?_map]
      cases hq : x.rows[q]? with
      | none =>
        rw [List.getElem?_zipWith, List.getElem?_map, hq]
        rfl
      | some w =>
        have hlt := (List.getElem?_eq_some_iff.1 hq).1
        rw [← hl] at hlt
        have hp := List.getElem?_eq_getElem hlt
        have hrow : (List.zipWith (fun n p => (⟨n, 0, p⟩ : View)) (x.rows.map (·.len m)) as)[q]? = some ⟨w.len m, 0, as[q]⟩ := by
          rw [List.getElem?_zipWith, List.getElem?_map, hq, hp]
          rfl
        rw [hrow]
        have := hh q w ⟨w.len m, 0, as[q]⟩ hq (by rw [k4]; exact hrow)
        unfold View.HoldsRow at this
        rw [if_pos rfl] at this
        simp only [Option.map_some, Option.some.injEq]
        exact (this.eq_of_length (by simp [View.elems, View.len])).symm
  · right
    refine ⟨hsame, (hsizes.bindActs ?_).result⟩
    rw [← ha, hd]
    exact ((does_ret .lengthError m).bindErr (by simp [Res.Exc]) fun _ => 0).acts

/-- What `c44_to_host` needs to know holds of buffers. -/
theorem buffer_oneSize {S : Schema} {caps : List Nat} {resizable hasHost : Bool} {p : Nat} {b mh : Blk} {e : EdmView} (m : Mem)
    (hb : BufferAt S caps resizable p e) (hp : EdmPlaced b mh S caps hasHost resizable e) :
    OneSize S e ∧ SameSize m e.vars := by
  have hfit : ∀ x ∈ e.vars, ∃ v, v ∈ S ∧ x.Fits b mh hasHost resizable caps (if resizable && !S.hasJagged then e.size.ptr else 0) v := by
    intro x hx
    obtain ⟨i, hi⟩ := List.mem_iff_getElem?.1 hx
    have hlt : i < S.length := by rw [← hp.count]; exact (List.getElem?_eq_some_iff.1 hi).1
    have hv := List.getElem?_eq_getElem hlt
    exact ⟨_, List.mem_of_getElem? hv, hp.vars i _ x hv hi⟩
  refine ⟨?_, ?_⟩
  · intro hj
    refine ⟨?_, ?_⟩
    · intro h0
      cases resizable with
      | false => exact absurd (hp.fixed rfl) h0
      | true =>
        rw [hb.size]
        simp [Schema.sizeView, hj]
    · intro v hv
      obtain ⟨w, hw, hf⟩ := hfit _ hv
      unfold VarView.Fits at hf
      cases hk : w.kind <;> rw [hk] at hf <;> simp only at hf
      rw [hf.1, hf.2.1, hp.capacity]
      refine ⟨?_, rfl⟩
      cases resizable with
      | false => simp [hp.fixed rfl]
      | true => simp [hj]
  · by_cases hj : resizable = true ∧ S.hasJagged = false
    · refine ⟨(⟨caps.length, e.size.ptr, 0⟩ : View).len m, fun x hx k hk => ?_⟩
      obtain ⟨w, hw, hf⟩ := hfit _ hx
      unfold VarView.Fits at hf
      cases x with
      | scalar p => simp [VarView.outer] at hk
      | vector v =>
        cases hkw : w.kind <;> rw [hkw] at hf <;> simp only at hf
        simp only [VarView.outer, Option.some.injEq] at hk
        rw [← hk]
        simp [View.len, hf.1, hf.2.1, hj]
      | jagged j =>
        cases hkw : w.kind <;> rw [hkw] at hf <;> simp only at hf
        have : S.hasJagged = true := List.any_eq_true.2 ⟨w, hw, by simp [hkw]⟩
        rw [hj.2] at this
        simp at this
    · refine ⟨caps.length, fun x hx k hk => ?_⟩
      have h0 : (if resizable && !S.hasJagged then e.size.ptr else 0) = 0 := by
        apply if_neg
        intro h
        simp only [Bool.and_eq_true, Bool.not_eq_true'] at h
        exact hj h
      obtain ⟨w, hw, hf⟩ := hfit _ hx
      rw [h0] at hf
      unfold VarView.Fits at hf
      cases x with
      | scalar p => simp [VarView.outer] at hk
      | vector v =>
        cases hkw : w.kind <;> rw [hkw] at hf <;> simp only at hf
        simp only [VarView.outer, Option.some.injEq] at hk
        rw [← hk]
        simp [View.len, hf.1, hf.2.1]
      | jagged j =>
        cases hkw : w.kind <;> rw [hkw] at hf <;> simp only at hf
        simp only [VarView.outer, Option.some.injEq] at hk
        rw [← hk]
        have := congrArg List.length hf.1.capacities
        simpa using this

/-- **C44** for buffers and host containers: a copy of a buffer, however large, to a host container is exact, and never
fails, if the arrays of the host container have no memory in common with the buffer. -/
theorem c44_buffer_to_host (ups : Bool → MR σ) (u0 u u' : σ) (T : List (Bool × Blk)) (h : FamLawful R G ups u0)
    (hu : FReach R ups u0 u T) (S : Schema) (hv : ∃ v ∈ S, v.kind ≠ .scalar) (caps : List Nat) (ho : S.Ok caps)
    (hasHost resizable : Bool) (A : Nat) (hA : ∀ v ∈ S, v.type.align ≤ A) (hA8 : 8 ≤ A) (hq : IsReq R (S.room caps A) maxAlign)
    (b : EdmBuffer) (hb : EdmBuffer.create ups u S caps hasHost resizable = (.ok b, u'))
    (dbg : Bool) (m : Mem) (hs : EdmSizes m b.view) (place : List (List Nat) → List (List Nat))
    (addrs : List (List Nat)) (ha : addrs = place (rowSizes m b.view.vars))
    (hf : addrs.map (·.length) = (rowSizes m b.view.vars).map (·.length))
    (rows : List (List View)) (hr : rows = hostArrays (rowSizes m b.view.vars) addrs) (hp : HostPlaced S rows)
    (hsep : ∀ a, ArraysHave S rows a → ¬ (b.mem.ptr ≤ a ∧ a < b.mem.ptr + b.mem.size)) :
    ∃ m', (copyEdmToHost dbg S b.view place).result m = (.ok (), m') ∧
      (∀ (i : Nat) (v : Var) (x : VarView), S[i]? = some v → b.view.vars[i]? = some x →
        ∃ rs, rows[i]? = some rs ∧ rs.map (·.elems m' v.type.size) = x.rows.map (·.elems m v.type.size)) ∧
      ∀ a, ¬ ArraysHave S rows a → m' a = m a := by
  have hS : S ≠ [] := by rintro rfl; obtain ⟨v, h, _⟩ := hv; simp at h
  obtain ⟨b1, b2, b3, b4, _, b6⟩ := create_at h hu hS ho hA hA8 hq hb
  obtain ⟨b7, b8, _⟩ := placed_of_create h hu hS ho hA hA8 hq hb
  obtain ⟨o1, o2⟩ := buffer_oneSize m b1 b8
  rcases c44_to_host dbg m S b.view place ⟨b8.varsPlaced ho b7 b3, hs⟩ o1 hv addrs ha hf rows hr hp
    (fun a ⟨x, y⟩ => hsep a y (b8.has_inside x)) with ⟨_, h⟩ | ⟨n, _⟩
  · exact h
  · exact absurd o2 n

/-- **C44**, `get_size`: the contents of the size word of a container without jagged vectors, or its capacity. -/
theorem c44_get_size (dbg : Bool) (m : Mem) (S : Schema) (e : EdmView) (hj : S.hasJagged = false) (h1 : OneSize S e) :
    (getSizeEdm dbg S e).value m = .ok (if e.size.ptr = 0 then e.capacity else readLE m e.size.ptr 4) ∧
    ((getSizeEdm dbg S e).result m).2 = m := (getSizeEdm_does hj (h1 hj).1).value

/-! ## examples -/

/-- The hypotheses of `c44_buffer_to_host` are met by a buffer with jagged vectors, which is the first one of `demoPair`, with
the sizes that `demoEdmMem` has; the addresses are those of the arrays of a host container. -/
def demoAddrs : List (List Nat) := [[2 ^ 20], [2 ^ 20 + 100], [2 ^ 20 + 200, 0, 2 ^ 20 + 300], [0, 0, 2 ^ 20 + 400]]

example :
    let b := (demoPair demoSchema [2, 0, 3] [2, 0, 3] true true).1
    let r := (copyEdmToHost true demoSchema b.view fun _ => demoAddrs).result demoEdmMem
    rowSizes demoEdmMem b.view.vars = [[1], [3], [1, 0, 2], [0, 0, 3]] ∧ r.1 = .ok () ∧
      (hostArrays (rowSizes demoEdmMem b.view.vars) demoAddrs).map (·.length) = [1, 1, 3, 3] ∧
      (List.zipWith (fun (v : Var) rs => rs.map fun (w : View) => w.elems r.2 v.type.size) demoSchema
        (hostArrays (rowSizes demoEdmMem b.view.vars) demoAddrs)) =
      List.zipWith (fun (v : Var) (x : VarView) => x.rows.map fun (w : View) => w.elems demoEdmMem v.type.size) demoSchema
        b.view.vars := by
  decide +kernel

/-- They are placed well. -/
example : HostPlaced demoSchema (hostArrays [[1], [3], [1, 0, 2], [0, 0, 3]] demoAddrs) := by
  have hrows : hostArrays [[1], [3], [1, 0, 2], [0, 0, 3]] demoAddrs =
      [[⟨1, 0, 2 ^ 20⟩], [⟨3, 0, 2 ^ 20 + 100⟩], [⟨1, 0, 2 ^ 20 + 200⟩, ⟨0, 0, 0⟩, ⟨2, 0, 2 ^ 20 + 300⟩],
        [⟨0, 0, 0⟩, ⟨0, 0, 0⟩, ⟨3, 0, 2 ^ 20 + 400⟩]] := rfl
  rw [hrows]
  refine ⟨?_, ?_⟩
  · intro i v rs hv hr
    match i with
    | 0 | 1 | 2 | 3 =>
      simp only [demoSchema, List.getElem?_cons_zero, List.getElem?_cons_succ, Option.some.injEq] at hv hr
      subst hv hr
      refine ⟨by simp [View.Separate, View.Has, View.HasPayload, View.HasWord]; try omega, by decide⟩
    | i + 4 => simp [demoSchema] at hv
  · intro i j v w rs qs hij hv hw hr hq a
    have hb : ∀ (i : Nat) (v : Var) (rs : List View), demoSchema[i]? = some v →
        ([[⟨1, 0, 2 ^ 20⟩], [⟨3, 0, 2 ^ 20 + 100⟩],
          [⟨1, 0, 2 ^ 20 + 200⟩, ⟨0, 0, 0⟩, ⟨2, 0, 2 ^ 20 + 300⟩],
          [⟨0, 0, 0⟩, ⟨0, 0, 0⟩, ⟨3, 0, 2 ^ 20 + 400⟩]] : List (List View))[i]? = some rs →
        JagHas v.type.size rs a →
        i = 0 ∧ 2 ^ 20 ≤ a ∧ a < 2 ^ 20 + 100 ∨ i = 1 ∧ 2 ^ 20 + 100 ≤ a ∧ a < 2 ^ 20 + 200 ∨
          i = 2 ∧ 2 ^ 20 + 200 ≤ a ∧ a < 2 ^ 20 + 400 ∨ i = 3 ∧ 2 ^ 20 + 400 ≤ a := by
      intro i v rs hv hr ha
      match i with
      | 0 | 1 | 2 | 3 =>
        simp only [demoSchema, List.getElem?_cons_zero, List.getElem?_cons_succ, Option.some.injEq] at hv hr
        subst hv hr
        simp [JagHas, View.Has, View.HasPayload, View.HasWord] at ha
        omega
      | i + 4 => simp [demoSchema] at hv
    intro ⟨h1, h2⟩
    have := hb i v rs hv hr h1
    have := hb j w qs hw hq h2
    omega

/-- A vector of two and a jagged vector of three: there is an exception. -/
example :
    ((copyEdmToHost true [⟨.vector, ⟨1, 1⟩⟩, ⟨.jagged, ⟨1, 1⟩⟩]
      { capacity := 2, vars := [.vector ⟨2, 0, 4096⟩, .jagged ⟨[⟨0, 0, 0⟩, ⟨0, 0, 0⟩, ⟨0, 0, 0⟩], 0, 0⟩] }
      fun _ => [[2 ^ 20], [0, 0, 0]]).result demoEdmMem).1 = .lengthError := by
  decide +kernel

end Vecmem.Props
