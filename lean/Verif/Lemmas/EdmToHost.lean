import Verif.Model.EdmToHost
import Verif.Spec.EdmToHost
import Verif.Lemmas.EdmCopy

namespace Vecmem

open Prog

theorem hostSizesVar_does {m : Mem} {t : Nat} {x : VarView} (hx : JagValid m t x.rows) :
    (hostSizesVar x).Does m (.ok (x.rows.map (·.len m))) m := by
  cases x with
  | scalar p => exact does_ret _ _
  | vector v => exact (getSize_does v m).bind (does_ret _ _)
  | jagged j => exact getSizes_does hx

theorem hostSizesVars_does {m : Mem} : ∀ {S : Schema} {xs : List VarView}, VarsValid m S xs →
    (hostSizesVars xs).Does m (.ok (rowSizes m xs)) m
  | _, [], _ => does_ret _ _
  | [], x :: xs, h => by have := h.count; simp at this
  | v :: S, x :: xs, h => by
    unfold hostSizesVars
    refine (hostSizesVar_does h.head.2.2).bind ?_
    refine (hostSizesVars_does h.tail).bind ?_
    exact does_ret _ _

theorem getSizeEdm_does {m : Mem} {dbg : Bool} {S : Schema} {e : EdmView} (hj : S.hasJagged = false)
    (h4 : e.size.ptr ≠ 0 → e.size.capacity = 4) :
    (getSizeEdm dbg S e).Does m (.ok ((⟨e.capacity, e.size.ptr, 0⟩ : View).len m)) m := by
  unfold getSizeEdm View.len
  rw [if_neg (by simp [hj])]
  by_cases h : e.size.ptr = 0
  · rw [if_pos h, if_pos h]; exact does_ret _ _
  · rw [if_neg h, if_neg h]
    have has : assertion dbg (e.size.capacity == 4) (scope (.uint e.capacity) fun s => .issue (.fetch s 0 4 e.size.ptr) <| sync <|
        .read s fun b => .ret (.ok (readLE b 0 4))) = scope (.uint e.capacity) fun s => .issue (.fetch s 0 4 e.size.ptr) <| sync <|
        .read s fun b => .ret (.ok (readLE b 0 4)) := by
      unfold assertion
      rw [h4 h]
      simp
    rw [has]
    intro L d
    refine ⟨d + 1, run_scope (l' := ⟨4, memPut (Local.uint e.capacity).bytes 0 4 m e.size.ptr⟩) ?_ (by simp)⟩
    have h1 : (L ++ [Local.uint e.capacity])[L.length]? = some (Local.uint e.capacity) := by simp
    simp only [run, COp.exec, h1, sync]
    rw [if_pos (show 0 + 4 ≤ (Local.uint e.capacity).size from Nat.le_refl 4)]
    simp only [List.set_append_right _ _ (Nat.le_refl _), Nat.sub_self, List.set_cons_zero]
    have h2 : (L ++ [(⟨(Local.uint e.capacity).size, memPut (Local.uint e.capacity).bytes 0 4 m e.size.ptr⟩ : Local)])[L.length]? =
      some ⟨(Local.uint e.capacity).size, memPut (Local.uint e.capacity).bytes 0 4 m e.size.ptr⟩ := by simp
    rw [h2]
    simp only [Prod.mk.injEq, Res.ok.injEq]
    refine ⟨?_, rfl⟩
    simp only [readLE, memPut]
    simp

theorem VarsPlaced.nth {S : Schema} {xs : List VarView} (h : VarsPlaced S xs) {i : Nat} {x : VarView} (hx : xs[i]? = some x) :
    ∃ v, S[i]? = some v := by
  have := (List.getElem?_eq_some_iff.1 hx).1
  rw [h.count] at this
  exact ⟨_, List.getElem?_eq_getElem this⟩

theorem hostSizes_does {m : Mem} {dbg : Bool} {S : Schema} {src : EdmView} (hs : VarsValid m S src.vars) (h1 : OneSize S src) :
    (hostSizes dbg S src).Does m (.ok (rowSizes m src.vars)) m := by
  unfold hostSizes
  cases hj : S.hasJagged with
  | true =>
    rw [if_pos rfl]
    exact hostSizesVars_does hs
  | false =>
    rw [if_neg (by simp)]
    obtain ⟨h4, hv⟩ := h1 hj
    refine (getSizeEdm_does hj h4).bind ?_
    have e : (S.map fun v => if v.kind = .vector then [(⟨src.capacity, src.size.ptr, 0⟩ : View).len m] else [1]) =
        rowSizes m src.vars := by
      apply List.ext_getElem?
      intro i
      unfold rowSizes
      rw [List.getElem?_map, List.getElem?_map]
      cases hx : src.vars[i]? with
      | none =>
        have : S[i]? = none := by
          rw [List.getElem?_eq_none_iff] at hx ⊢
          rw [← hs.count]
          exact hx
        rw [this]
        rfl
      | some x =>
        obtain ⟨v, hvi⟩ := hs.toVarsPlaced.nth hx
        rw [hvi]
        obtain ⟨hk, -⟩ := hs.each i v x hvi hx
        simp only [Option.map_some, Option.some.injEq]
        cases x with
        | scalar p =>
          simp only [VarView.kind] at hk
          rw [← hk]
          rfl
        | vector w =>
          simp only [VarView.kind] at hk
          obtain ⟨g1, g2⟩ := hv w (List.mem_of_getElem? hx)
          rw [← hk, if_pos rfl]
          simp [VarView.rows, View.len, g1, g2]
        | jagged j =>
          simp only [VarView.kind] at hk
          have : S.hasJagged = true := List.any_eq_true.2 ⟨v, List.mem_of_getElem? hvi, by simp [← hk]⟩
          rw [hj] at this
          simp at this
    rw [e]
    exact does_ret _ _

/-- The rows of the view of a variable of the host container are its arrays. -/
theorem hostView_rows {m : Mem} {v : Var} {x : VarView} {addrs : List Nat} (hk : x.kind = v.kind)
    (hx : JagValid m v.type.size x.rows) (hl : addrs.length = x.rows.length) :
    (v.hostView (x.rows.map (·.len m)) addrs).kind = v.kind ∧
    (v.hostView (x.rows.map (·.len m)) addrs).rows = List.zipWith (fun n p => ⟨n, 0, p⟩) (x.rows.map (·.len m)) addrs := by
  have hlt : ∀ r ∈ x.rows, r.len m < 2 ^ 32 := fun r hr => View.len_lt (hx.inner r hr)
  unfold Var.hostView
  cases x with
  | scalar p =>
    simp only [VarView.kind] at hk
    rw [← hk]
    obtain ⟨a, rfl⟩ : ∃ a, addrs = [a] := List.length_eq_one_iff.1 (by simpa [VarView.rows] using hl)
    exact ⟨rfl, rfl⟩
  | vector w =>
    simp only [VarView.kind] at hk
    rw [← hk]
    obtain ⟨a, rfl⟩ : ∃ a, addrs = [a] := List.length_eq_one_iff.1 (by simpa [VarView.rows] using hl)
    refine ⟨rfl, ?_⟩
    simp only [VarView.rows, List.map_cons, List.map_nil, List.headD_cons, List.zipWith_cons_cons, List.zipWith_nil_left]
    rw [Nat.mod_eq_of_lt (hlt w (by simp [VarView.rows]))]
  | jagged j =>
    simp only [VarView.kind] at hk
    rw [← hk]
    refine ⟨rfl, ?_⟩
    simp only [VarView.rows]
    rw [List.zipWith_map_left, List.zipWith_map_left]
    apply List.ext_getElem?
    intro i
    rw [List.getElem?_zipWith, List.getElem?_zipWith]
    cases hi : j.views[i]? with
    | none => rfl
    | some r =>
      cases addrs[i]? with
      | none => rfl
      | some p =>
        simp only [Option.some.injEq, View.mk.injEq, and_true]
        exact Nat.mod_eq_of_lt (hlt r (List.mem_of_getElem? hi))

theorem hostArrays_get {m : Mem} {xs : List VarView} {addrs : List (List Nat)} {i : Nat} {x : VarView} {as : List Nat}
    (hx : xs[i]? = some x) (ha : addrs[i]? = some as) :
    (hostArrays (rowSizes m xs) addrs)[i]? = some (List.zipWith (fun n p => ⟨n, 0, p⟩) (x.rows.map (·.len m)) as) := by
  unfold hostArrays rowSizes
  rw [List.getElem?_zipWith, List.getElem?_map, hx, ha]
  rfl

theorem hostVars_get {m : Mem} {S : Schema} {xs : List VarView} {addrs : List (List Nat)} {i : Nat} {y : VarView}
    (hy : (hostVars S (rowSizes m xs) addrs)[i]? = some y) :
    ∃ v x as, S[i]? = some v ∧ xs[i]? = some x ∧ addrs[i]? = some as ∧ y = v.hostView (x.rows.map (·.len m)) as := by
  unfold hostVars rowSizes at hy
  rw [List.getElem?_zipWith] at hy
  cases hv : S[i]? with
  | none => rw [hv] at hy; simp at hy
  | some v =>
    rw [hv] at hy
    cases hz : (List.zip (xs.map fun x => x.rows.map (·.len m)) addrs)[i]? with
    | none => rw [hz] at hy; simp at hy
    | some z =>
      rw [hz] at hy
      simp only [Option.some.injEq] at hy
      rw [List.getElem?_zip_eq_some, List.getElem?_map] at hz
      obtain ⟨h1, h2⟩ := hz
      cases hx : xs[i]? with
      | none => rw [hx] at h1; simp at h1
      | some x =>
        rw [hx] at h1
        simp only [Option.map_some, Option.some.injEq] at h1
        exact ⟨v, x, z.2, rfl, rfl, h2, by rw [← hy, ← h1]⟩

/-- The addresses fit the sizes. -/
def Fits (sizes addrs : List (List Nat)) : Prop := addrs.map (·.length) = sizes.map (·.length)

theorem Fits.get {m : Mem} {xs : List VarView} {addrs : List (List Nat)} (h : Fits (rowSizes m xs) addrs) {i : Nat} {x : VarView}
    (hx : xs[i]? = some x) : ∃ as, addrs[i]? = some as ∧ as.length = x.rows.length := by
  have := congrArg (fun l => l[i]?) h
  simp only [rowSizes, List.getElem?_map, hx, Option.map_some, List.length_map] at this
  cases ha : addrs[i]? with
  | none => rw [ha] at this; simp at this
  | some as => rw [ha] at this; simp only [Option.map_some, Option.some.injEq] at this; exact ⟨as, rfl, this⟩

theorem arr_row {ns ps : List Nat} {r : View} (h : r ∈ List.zipWith (fun n p => (⟨n, 0, p⟩ : View)) ns ps) :
    r.sizePtr = 0 ∧ r.capacity ∈ ns := by
  obtain ⟨i, hi⟩ := List.mem_iff_getElem?.1 h
  rw [List.getElem?_zipWith] at hi
  cases hn : ns[i]? with
  | none => rw [hn] at hi; simp at hi
  | some n =>
    cases hp : ps[i]? with
    | none => rw [hn, hp] at hi; simp at hi
    | some p =>
      rw [hn, hp] at hi
      simp only [Option.some.injEq] at hi
      rw [← hi]
      exact ⟨rfl, List.mem_of_getElem? hn⟩

/-- The variables of the host container may be used. -/
theorem hostVars_valid {m : Mem} {S : Schema} {xs : List VarView} {addrs : List (List Nat)} (hs : VarsValid m S xs)
    (hf : Fits (rowSizes m xs) addrs) (hp : HostPlaced S (hostArrays (rowSizes m xs) addrs)) :
    VarsValid m S (hostVars S (rowSizes m xs) addrs) := by
  have key : ∀ {i : Nat} {y : VarView}, (hostVars S (rowSizes m xs) addrs)[i]? = some y → ∃ v x rs, S[i]? = some v ∧
      xs[i]? = some x ∧ (hostArrays (rowSizes m xs) addrs)[i]? = some rs ∧ y.kind = v.kind ∧ y.rows = rs ∧ x.kind = v.kind ∧
      rs.length = x.rows.length ∧ JagValid m v.type.size x.rows ∧ (∀ r ∈ rs, r.sizePtr = 0 ∧ r.capacity ∈ x.rows.map (·.len m)) := by
    intro i y hy
    obtain ⟨v, x, as, hv, hx, ha, rfl⟩ := hostVars_get hy
    obtain ⟨as', ha', hl⟩ := hf.get hx
    rw [ha] at ha'
    cases ha'
    obtain ⟨hk, ht, hj⟩ := hs.each i v x hv hx
    have hv' : JagValid m v.type.size x.rows := ⟨hj, hs.sizes x (List.mem_of_getElem? hx)⟩
    obtain ⟨k1, k2⟩ := hostView_rows hk hv' hl
    exact ⟨v, x, _, hv, hx, hostArrays_get hx ha, k1, k2, hk, by simp [hl], hv', fun r hr => arr_row hr⟩
  have noword : ∀ {i : Nat} {y : VarView}, (hostVars S (rowSizes m xs) addrs)[i]? = some y → ∀ a, ¬ y.HasWord a := by
    intro i y hy a ⟨r, hr, h0, _⟩
    obtain ⟨v, x, rs, -, -, -, -, e, -, -, -, h⟩ := key hy
    rw [e] at hr
    exact h0 (h r hr).1
  have hlen : ∀ {i : Nat} {y : VarView}, (hostVars S (rowSizes m xs) addrs)[i]? = some y → ∀ r ∈ y.rows, r.capacity < 2 ^ 32 ∧
      r.len m = r.capacity := by
    intro i y hy r hr
    obtain ⟨v, x, rs, -, -, -, -, e, -, -, hx, h⟩ := key hy
    rw [e] at hr
    obtain ⟨h0, hc⟩ := h r hr
    obtain ⟨w, hw, hwc⟩ := List.mem_map.1 hc
    exact ⟨by rw [← hwc]; exact View.len_lt (hx.inner w hw), by simp [View.len, h0]⟩
  refine ⟨⟨?_, ?_, ?_, ?_, ?_⟩, ?_⟩
  · unfold hostVars rowSizes
    have h1 : addrs.length = xs.length := by have := congrArg List.length hf; simpa [rowSizes] using this
    have h2 := hs.count
    simp only [List.length_zipWith, List.length_zip, List.length_map]
    omega
  · intro i v y hv hy
    obtain ⟨v', x, rs, hv', hx, hrs, k1, k2, k3, k4, k5, k6⟩ := key hy
    rw [hv] at hv'
    cases hv'
    obtain ⟨p1, p2⟩ := hp.each i v rs hv hrs
    refine ⟨k1, (hs.each i v x hv hx).2.1, ⟨?_, ?_, ?_, ?_⟩⟩
    · intro r hr
      have h32 := (hlen hy r hr).1
      rw [k2] at hr
      refine ⟨fun h => (p2 r hr h).1, fun h => (p2 r hr h).2, h32, ?_⟩
      intro a ⟨_, h0, _⟩
      exact h0 (k6 r hr).1
    · rw [k2]; exact p1
    · exact .inl fun r hr => by rw [k2] at hr; exact (k6 r hr).1
    · rw [k2, k4]; exact k5.count
  · intro i j v w y z hij hv hw hy hz a ⟨⟨r, hr, hra⟩, hza⟩
    obtain ⟨v', x, rs, hv', hx, hrs, k1, k2, k3, k4, k5, k6⟩ := key hy
    obtain ⟨w', x', qs, hw', hx', hqs, l1, l2, l3, l4, l5, l6⟩ := key hz
    rcases hza with ⟨q, hq, hqa⟩ | hza
    · exact hp.apart i j v w rs qs hij hv hw hrs hqs a ⟨⟨r, by rw [← k2]; exact hr, .inl hra⟩, ⟨q, by rw [← l2]; exact hq, .inl hqa⟩⟩
    · exact noword hz a hza
  · intro i j y z _ hy _ _ a ⟨h, _⟩
    exact noword hy a h
  · intro i j a b ha hb
    obtain ⟨v, x, rs, hv, hx, hrs, k1, k2, k3, k4, k5, k6⟩ := key ha
    obtain ⟨w, z, qs, hw, hz, hqs, l1, l2, l3, l4, l5, l6⟩ := key hb
    have a1 := k6 a (by rw [← k2]; simp [VarView.rows])
    have b1 := l6 b (by rw [← l2]; simp [VarView.rows])
    refine ⟨by rw [a1.1, b1.1], ?_⟩
    rw [← k1] at k3
    rw [← l1] at l3
    cases x with
    | vector c =>
      cases z with
      | vector d =>
        have := hs.toVarsPlaced.len_eq (m := m) hx hz
        have e1 := a1.2
        have e2 := b1.2
        simp only [VarView.rows, List.map_cons, List.map_nil, List.mem_singleton] at e1 e2
        rw [e1, e2, this]
      | _ => simp [VarView.kind] at l3
    | _ => simp [VarView.kind] at k3
  · intro y hy r hr
    obtain ⟨i, hi⟩ := List.mem_iff_getElem?.1 hy
    exact Nat.le_of_eq (hlen hi r hr).2

end Vecmem
