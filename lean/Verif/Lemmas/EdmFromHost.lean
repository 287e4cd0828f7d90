import Verif.Lemmas.EdmToHost

/-!
# Lemmas about the views of host containers
-/

namespace Vecmem

open Prog

/-- The rows of the view of a variable of a host container. -/
theorem hostView_shape {v : Var} {n : Nat} {ns as : List Nat} (hn : n < 2 ^ 32)
    (h : (v.kind = .scalar → ns = [1]) ∧ (v.kind = .vector → ns = [n]) ∧ (v.kind = .jagged → ns.length = n ∧ ∀ k ∈ ns, k < 2 ^ 32))
    (hl : as.length = ns.length) :
    (v.hostView ns as).kind = v.kind ∧ (v.hostView ns as).rows = List.zipWith (fun n p => ⟨n, 0, p⟩) ns as := by
  obtain ⟨h1, h2, h3⟩ := h
  unfold Var.hostView
  cases hk : v.kind with
  | scalar =>
    obtain rfl := h1 hk
    obtain ⟨a, rfl⟩ : ∃ a, as = [a] := List.length_eq_one_iff.1 hl
    exact ⟨rfl, rfl⟩
  | vector =>
    obtain rfl := h2 hk
    obtain ⟨a, rfl⟩ : ∃ a, as = [a] := List.length_eq_one_iff.1 hl
    refine ⟨rfl, ?_⟩
    simp only [VarView.rows, List.headD_cons, List.zipWith_cons_cons, List.zipWith_nil_left]
    rw [Nat.mod_eq_of_lt hn]
  | jagged =>
    refine ⟨rfl, ?_⟩
    simp only [VarView.rows]
    apply List.ext_getElem?
    intro i
    rw [List.getElem?_zipWith, List.getElem?_zipWith]
    cases hi : ns[i]? with
    | none => rfl
    | some r =>
      cases as[i]? with
      | none => rfl
      | some p =>
        simp only [Option.some.injEq, View.mk.injEq, and_true]
        exact Nat.mod_eq_of_lt ((h3 hk).2 r (List.mem_of_getElem? hi))

theorem fits_get {sizes addrs : List (List Nat)} (h : Fits sizes addrs) {i : Nat} {ns : List Nat} (hi : sizes[i]? = some ns) :
    ∃ as, addrs[i]? = some as ∧ as.length = ns.length := by
  have := congrArg (fun l => l[i]?) h
  simp only [List.getElem?_map, hi, Option.map_some] at this
  cases ha : addrs[i]? with
  | none => rw [ha] at this; simp at this
  | some as => rw [ha] at this; simp only [Option.map_some, Option.some.injEq] at this; exact ⟨as, rfl, this⟩

/-- The variable with index `i` of the view of a host container. -/
theorem hostVars_at {S : Schema} {n : Nat} {sizes addrs : List (List Nat)} (hs : HostSizes S n sizes) (hf : Fits sizes addrs)
    {i : Nat} {v : Var} (hv : S[i]? = some v) :
    ∃ ns as, sizes[i]? = some ns ∧ addrs[i]? = some as ∧ as.length = ns.length ∧
      (hostVars S sizes addrs)[i]? = some (v.hostView ns as) ∧ (v.hostView ns as).kind = v.kind ∧
      (v.hostView ns as).rows = List.zipWith (fun n p => ⟨n, 0, p⟩) ns as ∧
      (hostArrays sizes addrs)[i]? = some (List.zipWith (fun n p => ⟨n, 0, p⟩) ns as) := by
  have hlt : i < sizes.length := by rw [hs.count]; exact (List.getElem?_eq_some_iff.1 hv).1
  have hn := List.getElem?_eq_getElem hlt
  generalize sizes[i] = ns at hn
  obtain ⟨as, ha, hl⟩ := fits_get hf hn
  obtain ⟨k1, k2⟩ := hostView_shape hs.small (hs.each i v ns hv hn) hl
  refine ⟨ns, as, hn, ha, hl, ?_, k1, k2, ?_⟩
  · unfold hostVars
    have hz : (List.zip sizes addrs)[i]? = some (ns, as) := List.getElem?_zip_eq_some.2 ⟨hn, ha⟩
    rw [List.getElem?_zipWith, hv, hz]
  · unfold hostArrays
    rw [List.getElem?_zipWith, hn, ha]

theorem hostVars_length {S : Schema} {n : Nat} {sizes addrs : List (List Nat)} (hs : HostSizes S n sizes) (hf : Fits sizes addrs) :
    (hostVars S sizes addrs).length = S.length := by
  have h1 : addrs.length = sizes.length := by simpa using congrArg List.length hf
  have := hs.count
  unfold hostVars
  simp only [List.length_zipWith, List.length_zip]
  omega

/-- The view of a host container may be used. -/
theorem hostVars_placed {m : Mem} {S : Schema} {n : Nat} {sizes addrs : List (List Nat)} (ht : ∀ v ∈ S, 0 < v.type.size)
    (hs : HostSizes S n sizes) (hf : Fits sizes addrs) (hp : HostPlaced S (hostArrays sizes addrs)) :
    VarsValid m S (hostVars S sizes addrs) := by
  have hlen := hostVars_length hs hf
  have key : ∀ {i : Nat} {y : VarView}, (hostVars S sizes addrs)[i]? = some y → ∃ v ns rs, S[i]? = some v ∧
      sizes[i]? = some ns ∧ (hostArrays sizes addrs)[i]? = some rs ∧ y.kind = v.kind ∧ y.rows = rs ∧
      rs.length = ns.length ∧ (∀ r ∈ rs, r.sizePtr = 0 ∧ r.capacity ∈ ns) := by
    intro i y hy
    have hlt : i < S.length := by rw [← hlen]; exact (List.getElem?_eq_some_iff.1 hy).1
    have hv := List.getElem?_eq_getElem hlt
    obtain ⟨ns, as, h1, h2, h3, h4, h5, h6, h7⟩ := hostVars_at hs hf hv
    rw [hy] at h4
    cases h4
    exact ⟨_, ns, _, hv, h1, h7, h5, h6, by simp [h3], fun r hr => arr_row hr⟩
  have small : ∀ {i : Nat} {v : Var} {ns : List Nat}, S[i]? = some v → sizes[i]? = some ns → ns.length < 2 ^ 32 ∧ ∀ k ∈ ns, k < 2 ^ 32 := by
    intro i v ns hv hn
    obtain ⟨a, b, c⟩ := hs.each i v ns hv hn
    have := hs.small
    cases hk : v.kind with
    | scalar => rw [a hk]; simp
    | vector => rw [b hk]; simp; omega
    | jagged => rw [(c hk).1]; exact ⟨this, (c hk).2⟩
  have noword : ∀ {i : Nat} {y : VarView}, (hostVars S sizes addrs)[i]? = some y → ∀ a, ¬ y.HasWord a := by
    intro i y hy a ⟨r, hr, h0, _⟩
    obtain ⟨v, x, rs, -, -, -, -, e, -, h⟩ := key hy
    rw [e] at hr
    exact h0 (h r hr).1
  refine ⟨⟨hlen, ?_, ?_, ?_, ?_⟩, ?_⟩
  · intro i v y hv hy
    obtain ⟨v', ns, rs, hv', hn, hrs, k1, k2, k3, k4⟩ := key hy
    rw [hv] at hv'
    cases hv'
    obtain ⟨p1, p2⟩ := hp.each i v rs hv hrs
    obtain ⟨s1, s2⟩ := small hv hn
    refine ⟨k1, ht v (List.mem_of_getElem? hv), ⟨?_, ?_, ?_, ?_⟩⟩
    · intro r hr
      rw [k2] at hr
      refine ⟨fun h => (p2 r hr h).1, fun h => (p2 r hr h).2, s2 _ (k4 r hr).2, ?_⟩
      intro a ⟨_, h0, _⟩
      exact h0 (k4 r hr).1
    · rw [k2]; exact p1
    · exact .inl fun r hr => by rw [k2] at hr; exact (k4 r hr).1
    · rw [k2, k3]; omega
  · intro i j v w y z hij hv hw hy hz a ⟨⟨r, hr, hra⟩, hza⟩
    obtain ⟨v', x, rs, hv', hx, hrs, k1, k2, k3, k4⟩ := key hy
    obtain ⟨w', x', qs, hw', hx', hqs, l1, l2, l3, l4⟩ := key hz
    rcases hza with ⟨q, hq, hqa⟩ | hza
    · exact hp.apart i j v w rs qs hij hv hw hrs hqs a ⟨⟨r, by rw [← k2]; exact hr, .inl hra⟩, ⟨q, by rw [← l2]; exact hq, .inl hqa⟩⟩
    · exact noword hz a hza
  · intro i j y z _ hy _ _ a ⟨h, _⟩
    exact noword hy a h
  · intro i j a b ha hb
    obtain ⟨v, ns, rs, hv, hx, hrs, k1, k2, k3, k4⟩ := key ha
    obtain ⟨w, ms, qs, hw, hz, hqs, l1, l2, l3, l4⟩ := key hb
    have a1 := k4 a (by rw [← k2]; simp [VarView.rows])
    have b1 := l4 b (by rw [← l2]; simp [VarView.rows])
    refine ⟨by rw [a1.1, b1.1], ?_⟩
    have e1 := (hs.each i v ns hv hx).2.1 (by rw [← k1]; rfl)
    have e2 := (hs.each j w ms hw hz).2.1 (by rw [← l1]; rfl)
    have e3 := a1.2
    have e4 := b1.2
    rw [e1, List.mem_singleton] at e3
    rw [e2, List.mem_singleton] at e4
    rw [e3, e4]
  · intro y hy r hr
    obtain ⟨i, hi⟩ := List.mem_iff_getElem?.1 hy
    obtain ⟨v, x, rs, -, -, -, -, e, -, h⟩ := key hi
    rw [e] at hr
    simp [View.len, (h r hr).1]

end Vecmem
