import Verif.Spec.EdmHost
import Verif.Lemmas.Tactics

/-!
# C43, C54: containers on the host
-/

namespace Vecmem.Props

open Vecmem

variable {α β : Type}

/-! ## size -/

theorem vectorSizes_eq (h : HostCont α) : h.vectorSizes = (h.map (·.size)).filterMap id := by
  induction h with
  | nil => rfl
  | cons v h ih => cases v <;> simp_all [HostCont.vectorSizes, HostVar.size]

theorem getHostSize_known (xs : List (Option Nat)) (s : Nat) (hx : xs ≠ []) :
    getHostSize xs s true = if ∀ x ∈ xs.filterMap id, x = s then .ok s else .lengthError := by
  induction xs with
  | nil => exact absurd rfl hx
  | cons x xs ih =>
    cases xs with
    | nil =>
      cases x with
      | none => simp [getHostSize]
      | some x => by_cases h : x = s <;> simp [getHostSize, h]
    | cons y ys =>
      cases x with
      | none =>
        have e : getHostSize (none :: y :: ys) s true = getHostSize (y :: ys) s true := by simp [getHostSize]
        rw [e, ih (by simp)]
        rfl
      | some x =>
        by_cases h : x = s
        · subst h
          have e : getHostSize (some x :: y :: ys) x true = getHostSize (y :: ys) x true := by simp [getHostSize]
          rw [e, ih (by simp)]
          have e2 : (some x :: y :: ys).filterMap id = x :: (y :: ys).filterMap id := rfl
          rw [e2]
          simp only [List.mem_cons, forall_eq_or_imp, true_and]
        · simp [getHostSize, h]

theorem getHostSize_unknown (xs : List (Option Nat)) (s : Nat) (hx : xs.filterMap id ≠ []) :
    getHostSize xs s false = match xs.filterMap id with
      | [] => .ub
      | n :: ns => if ∀ x ∈ ns, x = n then .ok n else .lengthError := by
  induction xs with
  | nil => exact absurd rfl hx
  | cons x xs ih =>
    cases x with
    | none =>
      have hx' : xs.filterMap id ≠ [] := by simpa using hx
      have hxs : xs ≠ [] := by rintro rfl; exact hx' rfl
      rw [getHostSize]
      simp only [Option.getD_none, Option.isSome_none, Bool.false_eq_true, if_false, hxs,
        Bool.or_false]
      rw [ih hx']
      simp
    | some x =>
      rw [getHostSize]
      by_cases hxs : xs = []
      · subst hxs; simp
      · simp only [Option.getD_some, Option.isSome_some, Bool.false_eq_true, false_and, if_false, hxs,
          Bool.or_true]
        rw [getHostSize_known _ _ hxs]
        simp

/-- C43: `size()` is the common size of the vectors of a container. -/
theorem c43_size (h : HostCont α) (hv : h.vectorSizes ≠ []) (n : Nat) :
    h.size = .ok n ↔ ∀ s ∈ h.vectorSizes, s = n := by
  unfold HostCont.size
  rw [vectorSizes_eq] at *
  rw [getHostSize_unknown _ _ hv]
  cases e : (h.map (·.size)).filterMap id with
  | nil => exact absurd e hv
  | cons m ms =>
    simp only [List.mem_cons, forall_eq_or_imp]
    by_cases hm : ∀ x ∈ ms, x = m
    · rw [if_pos hm]
      constructor
      · intro hmn
        cases hmn
        exact ⟨rfl, hm⟩
      · rintro ⟨rfl, _⟩
        rfl
    · rw [if_neg hm]
      constructor
      · intro hc; cases hc
      · rintro ⟨rfl, h2⟩
        exact absurd h2 hm

/-- C43: `size()` throws `std::length_error` exactly when two vectors of a container have different sizes; there is no other
exception. -/
theorem c43_size_throws (h : HostCont α) (hv : h.vectorSizes ≠ []) :
    (h.size = .lengthError ↔ ∃ s ∈ h.vectorSizes, ∃ t ∈ h.vectorSizes, s ≠ t) ∧
      (h.size = .lengthError ∨ ∃ n, h.size = .ok n) := by
  have h0 := c43_size h hv
  have h1 : h.size = .lengthError ∨ ∃ n, h.size = .ok n := by
    unfold HostCont.size
    rw [vectorSizes_eq] at hv
    rw [getHostSize_unknown _ _ hv]
    cases e : (h.map (·.size)).filterMap id with
    | nil => exact absurd e hv
    | cons m ms =>
      simp only
      split
      · exact Or.inr ⟨_, rfl⟩
      · exact Or.inl rfl
  refine ⟨?_, h1⟩
  constructor
  · intro he
    by_contra hc
    push Not at hc
    cases e : h.vectorSizes with
    | nil => exact hv e
    | cons m ms =>
      have := (h0 m).2 (fun s hs => hc s hs m (by simp [e]))
      rw [he] at this
      cases this
  · rintro ⟨s, hs, t, ht, hst⟩
    rcases h1 with h1 | ⟨n, hn⟩
    · exact h1
    · have := (h0 n).1 hn
      exact absurd ((this s hs).trans (this t ht).symm) hst

/-- A container with a scalar, a vector with two elements and a jagged vector with two rows. -/
def demoHost : HostCont Nat :=
  [.scalar 5, .vector 0 ⟨[1, 2], 2⟩, .jagged ⟨[[3], []], 4⟩]

example : demoHost.vectorSizes ≠ [] ∧ demoHost.size = .ok 2 := by decide

example : HostCont.vectorSizes [.vector 0 ⟨[1], 1⟩, .scalar 5, .vector 0 ⟨[], 1⟩] ≠ [] ∧
    HostCont.size [.vector 0 ⟨[1], 1⟩, .scalar 5, .vector 0 ⟨[], 1⟩] = .lengthError := by decide

/-! ## the constructor -/

/-- C43: in a new container all vectors are empty, scalars are value-initialised, and the size is 0. -/
theorem c43_new (S : List (HostKind α)) :
    (HostCont.new S).length = S.length ∧
      (∀ (k : Nat) (d : α), S[k]? = some (.scalar d) → (HostCont.new S)[k]?.map (·.contents) = some (.scalar d)) ∧
      (∀ (k : Nat) (d : α), S[k]? = some (.vector d) → (HostCont.new S)[k]?.map (·.contents) = some (.vector [])) ∧
      (∀ k : Nat, S[k]? = some .jagged → (HostCont.new S)[k]?.map (·.contents) = some (.jagged [])) ∧
      ((HostCont.new S).vectorSizes ≠ [] → (HostCont.new S).size = .ok 0) := by
  refine ⟨by simp [HostCont.new], ?_, ?_, ?_, ?_⟩
  · intro k d hk
    simp [HostCont.new, hk, HostKind.make, HostVar.contents]
  · intro k d hk
    simp [HostCont.new, hk, HostKind.make, HostVar.contents]
  · intro k hk
    simp [HostCont.new, hk, HostKind.make, HostVar.contents]
  · intro hv
    rw [c43_size _ hv]
    intro s hs
    unfold HostCont.vectorSizes HostCont.new at hs
    simp only [List.filterMap_map, List.mem_filterMap, Function.comp_apply] at hs
    obtain ⟨a, _, ha⟩ := hs
    cases a <;> simp [HostKind.make] at ha <;> omega

/-! ## resize -/

theorem StdVec.resize_ok {alloc : Nat → Res Unit} {d : β} {n : Nat} {v v' : StdVec β}
    (h : v.resize alloc d n = (.ok (), v')) :
    v'.elems = v.elems.take n ++ List.replicate (n - v.elems.length) d := by
  unfold StdVec.resize at h
  simp only at h
  split at h
  · cases h; rfl
  · split at h
    · cases h; rfl
    · rename_i hne
      cases e : alloc (v.elems.length + max v.elems.length (n - v.elems.length)) with
      | ok u => exact absurd e (hne · )
      | _ => rw [e] at h; cases h

theorem StdVec.resize_exc {alloc : Nat → Res Unit} {d : β} {n : Nat} {v v' : StdVec β} {r : Res Unit}
    (h : v.resize alloc d n = (r, v')) (hr : r ≠ .ok ()) : v' = v ∧ v.capacity < n ∧ ∃ c, n ≤ c ∧ alloc c = r := by
  unfold StdVec.resize at h
  simp only at h
  split at h
  · cases h; exact absurd rfl hr
  · rename_i hc
    split at h
    · cases h; exact absurd rfl hr
    · cases h
      exact ⟨rfl, by omega, _, by omega, rfl⟩

theorem resizedList_take (d : β) (n : Nat) (xs : List β) :
    ResizedList d n xs (xs.take n ++ List.replicate (n - xs.length) d) := by
  refine ⟨by simp; omega, ?_, ?_⟩
  · intro i hi hx
    rw [List.getElem?_append_left (by simp; omega), List.getElem?_take_of_lt hi]
  · intro i hi hx
    rw [List.getElem?_append_right (by simp; omega)]
    simp only [List.length_take]
    rw [List.getElem?_replicate, if_pos (by omega)]

theorem HostVar.resize_ok {alloc : Nat → Res Unit} {n : Nat} {v v' : HostVar α}
    (h : v.resize alloc n = (.ok (), v')) : v.Resized n v' := by
  cases v with
  | scalar x => cases h; rfl
  | vector d v =>
    simp only [HostVar.resize, Prod.mk.injEq] at h
    obtain ⟨h1, rfl⟩ := h
    refine ⟨_, rfl, ?_⟩
    rw [StdVec.resize_ok (v' := (v.resize alloc d n).2) (by rw [← h1])]
    exact resizedList_take ..
  | jagged v =>
    simp only [HostVar.resize, Prod.mk.injEq] at h
    obtain ⟨h1, rfl⟩ := h
    refine ⟨_, rfl, ?_⟩
    rw [StdVec.resize_ok (v' := (v.resize alloc [] n).2) (by rw [← h1])]
    exact resizedList_take ..

theorem HostVar.resize_exc {alloc : Nat → Res Unit} {n : Nat} {v v' : HostVar α} {r : Res Unit}
    (h : v.resize alloc n = (r, v')) (hr : r ≠ .ok ()) :
    v' = v ∧ ¬ v.HasCapacity n ∧ ∃ c, n ≤ c ∧ alloc c = r := by
  cases v with
  | scalar x => cases h; exact absurd rfl hr
  | vector d v =>
    simp only [HostVar.resize, Prod.mk.injEq] at h
    obtain ⟨h1, rfl⟩ := h
    obtain ⟨a, b, c⟩ := StdVec.resize_exc (v' := (v.resize alloc d n).2) (by rw [← h1]) hr
    exact ⟨by rw [a], by simpa [HostVar.HasCapacity] using b, c⟩
  | jagged v =>
    simp only [HostVar.resize, Prod.mk.injEq] at h
    obtain ⟨h1, rfl⟩ := h
    obtain ⟨a, b, c⟩ := StdVec.resize_exc (v' := (v.resize alloc [] n).2) (by rw [← h1]) hr
    exact ⟨by rw [a], by simpa [HostVar.HasCapacity] using b, c⟩

theorem forVars_spec {f : Nat → HostVar α → Res Unit × HostVar α} {P : HostVar α → HostVar α → Prop}
    {Q : Res Unit → Nat → HostVar α → HostVar α → Prop}
    (hP : ∀ k v v', f k v = (.ok (), v') → P v v')
    (hQ : ∀ k v v' r, f k v = (r, v') → r ≠ .ok () → Q r k v v')
    {k : Nat} {h h' : HostCont α} {r : Res Unit} (e : forVars f k h = (r, h')) :
    h'.length = h.length ∧
    (r = .ok () → ∀ (j : Nat) (v : HostVar α), h[j]? = some v → ∃ w, h'[j]? = some w ∧ P v w) ∧
    (r ≠ .ok () → ∃ j, ∃ hj : j < h.length,
      (∀ (i : Nat) (v : HostVar α), i < j → h[i]? = some v → ∃ w, h'[i]? = some w ∧ P v w) ∧
      (∃ w, h'[j]? = some w ∧ Q r (k + j) h[j] w) ∧
      ∀ i, j < i → h'[i]? = h[i]?) := by
  induction h generalizing k h' with
  | nil =>
    cases e
    exact ⟨rfl, fun _ j v hv => by simp at hv, fun hr => absurd rfl hr⟩
  | cons v vs ih =>
    unfold forVars at e
    cases hf : f k v with
    | mk r' v' =>
      rw [hf] at e
      by_cases hr' : r' = .ok ()
      · subst hr'
        simp only [Prod.mk.injEq] at e
        obtain ⟨e1, rfl⟩ := e
        obtain ⟨a, b, c⟩ := ih (k := k + 1) (h' := (forVars f (k + 1) vs).2) (by rw [← e1])
        refine ⟨by simp [a], ?_, ?_⟩
        · intro hr j w hw
          cases j with
          | zero =>
            simp only [List.getElem?_cons_zero, Option.some.injEq] at hw
            subst hw
            exact ⟨v', by simp, hP _ _ _ hf⟩
          | succ j =>
            simp only [List.getElem?_cons_succ] at hw ⊢
            exact b hr j w hw
        · intro hr
          obtain ⟨j, hj, c1, ⟨w, c2, c3⟩, c4⟩ := c hr
          refine ⟨j + 1, by simp; omega, ?_, ⟨w, by simpa using c2, by simpa [Nat.add_assoc, Nat.add_comm 1] using c3⟩, ?_⟩
          · intro i u hi hu
            cases i with
            | zero =>
              simp only [List.getElem?_cons_zero, Option.some.injEq] at hu
              subst hu
              exact ⟨v', by simp, hP _ _ _ hf⟩
            | succ i =>
              simp only [List.getElem?_cons_succ] at hu ⊢
              exact c1 i u (by omega) hu
          · intro i hi
            cases i with
            | zero => omega
            | succ i => simpa using c4 i (by omega)
      · have e' : (r', v' :: vs) = (r, h') := by
          cases r' with
          | ok u => exact absurd rfl hr'
          | _ => exact e
        cases e'
        refine ⟨by simp, fun h => absurd h hr', fun _ => ⟨0, by simp, fun i _ hi => absurd hi (by omega),
          ⟨v', by simp, by simpa using hQ _ _ _ _ hf hr'⟩, ?_⟩⟩
        intro i hi
        cases i with
        | zero => omega
        | succ i => simp

theorem vectorSizes_resized {n : Nat} {h h' : HostCont α}
    (hl : h'.length = h.length)
    (hr : ∀ (j : Nat) (v : HostVar α), h[j]? = some v → ∃ w, h'[j]? = some w ∧ v.Resized n w) :
    (∀ s ∈ h'.vectorSizes, s = n) ∧ h'.vectorSizes.length = h.vectorSizes.length := by
  induction h generalizing h' with
  | nil =>
    have : h' = [] := by simpa using hl
    subst this
    simp [HostCont.vectorSizes]
  | cons v vs ih =>
    cases h' with
    | nil => simp at hl
    | cons w ws =>
      obtain ⟨a, b⟩ := ih (h' := ws) (by simpa using hl) (fun j u hu => by
        have := hr (j + 1) u (by simpa using hu)
        simpa using this)
      obtain ⟨w', hw', hR⟩ := hr 0 v (by simp)
      simp only [List.getElem?_cons_zero, Option.some.injEq] at hw'
      subst hw'
      have hcons : ∀ (u : HostVar α) (us : HostCont α), HostCont.vectorSizes (u :: us) =
          match u.size with
          | none => HostCont.vectorSizes us
          | some n => n :: HostCont.vectorSizes us := by
        intro u us
        cases u <;> simp [HostCont.vectorSizes, HostVar.size]
      rw [hcons, hcons]
      cases v with
      | scalar x =>
        cases hR
        exact ⟨a, b⟩
      | vector d v =>
        obtain ⟨v', rfl, h1⟩ := hR
        simp only [HostVar.size, List.mem_cons, forall_eq_or_imp, List.length_cons]
        exact ⟨⟨h1.length, a⟩, by rw [b]⟩
      | jagged v =>
        obtain ⟨v', rfl, h1⟩ := hR
        simp only [HostVar.size, List.mem_cons, forall_eq_or_imp, List.length_cons]
        exact ⟨⟨h1.length, a⟩, by rw [b]⟩

/-- C43: after a call to `resize(n)` that returns, every vector has `n` elements, those that were there are kept, new ones are
value-initialised (the new rows of a jagged vector are empty), scalars are as they were, and `size()` is `n`. -/
theorem c43_resize (alloc : Nat → Nat → Res Unit) (n : Nat) (h h' : HostCont α)
    (hr : h.resize alloc n = (.ok (), h')) :
    h'.length = h.length ∧
      (∀ (k : Nat) (v : HostVar α), h[k]? = some v → ∃ w, h'[k]? = some w ∧ v.Resized n w) ∧
      (h.vectorSizes ≠ [] → h'.size = .ok n) := by
  obtain ⟨a, b, _⟩ := forVars_spec (P := HostVar.Resized n) (Q := fun _ _ _ _ => True)
    (fun k v v' e => HostVar.resize_ok e) (fun _ _ _ _ _ _ => trivial) hr
  refine ⟨a, b rfl, fun hv => ?_⟩
  obtain ⟨c, d⟩ := vectorSizes_resized a (b rfl)
  refine (c43_size _ ?_ n).2 c
  intro hc
  rw [hc] at d
  exact hv (by simpa using d.symm)

/-- C43: an exception of `resize(n)` is one of an allocation of at least `n` elements for a variable without the capacity; then
the variables before this one are resized, and this one and those after it are as they were. -/
theorem c43_resize_exception (alloc : Nat → Nat → Res Unit) (n : Nat) (h h' : HostCont α) (r : Res Unit)
    (hr : h.resize alloc n = (r, h')) (hx : r ≠ .ok ()) :
    ∃ j, ∃ hj : j < h.length,
      (∃ c, n ≤ c ∧ alloc j c = r) ∧ ¬ h[j].HasCapacity n ∧
      (∀ (k : Nat) (v : HostVar α), k < j → h[k]? = some v → ∃ w, h'[k]? = some w ∧ v.Resized n w) ∧
      ∀ k, j ≤ k → h'[k]? = h[k]? := by
  obtain ⟨_, _, c⟩ := forVars_spec (P := HostVar.Resized n)
    (Q := fun r k v v' => v' = v ∧ ¬ v.HasCapacity n ∧ ∃ c, n ≤ c ∧ alloc k c = r)
    (fun k v v' e => HostVar.resize_ok e) (fun k v v' r e hr => HostVar.resize_exc e hr) hr
  obtain ⟨j, hj, c1, ⟨w, c2, rfl, c3, c4⟩, c5⟩ := c hx
  refine ⟨j, hj, by simpa using c4, c3, c1, ?_⟩
  intro k hk
  rcases Nat.lt_or_eq_of_le hk with hk | rfl
  · exact c5 k hk
  · rw [c2, List.getElem?_eq_getElem hj]

/-- C43: `resize(n)` does not throw if every vector has the capacity, or if no allocation throws. -/
theorem c43_resize_returns (alloc : Nat → Nat → Res Unit) (n : Nat) (h : HostCont α)
    (hc : (∀ v ∈ h, v.HasCapacity n) ∨ ∀ k c, alloc k c = .ok ()) : (h.resize alloc n).1 = .ok () := by
  by_contra hx
  obtain ⟨j, hj, ⟨c, _, c1⟩, c2, _⟩ := c43_resize_exception alloc n h _ _ rfl hx
  rcases hc with hc | hc
  · exact c2 (hc _ (List.getElem_mem hj))
  · rw [hc] at c1
    exact hx c1.symm

example : ∃ h', demoHost.resize (fun _ _ => .ok ()) 3 = (.ok (), h') ∧ h'.map (·.contents) =
    [.scalar 5, .vector [1, 2, 0], .jagged [[3], [], []]] := ⟨_, rfl, by decide⟩

/-- What is not guaranteed: `resize` can throw when some vectors are resized already.  From then on `size()` throws
`std::length_error`. -/
theorem c43_failed_resize :
    ∃ (alloc : Nat → Nat → Res Unit) (h h' : HostCont Nat), h.size = .ok 2 ∧
      h.resize alloc 3 = (.badAlloc, h') ∧ h'.size = .lengthError :=
  ⟨fun k _ => if k = 2 then .badAlloc else .ok (),
    [.scalar 5, .vector 0 ⟨[1, 2], 2⟩, .vector 0 ⟨[1, 2], 2⟩], _, by decide, rfl, by decide⟩

/-! ## reserve -/

theorem StdVec.reserve_spec {alloc : Nat → Res Unit} {n : Nat} {v v' : StdVec β} {r : Res Unit}
    (h : v.reserve alloc n = (r, v')) :
    v'.elems = v.elems ∧ (r = .ok () → n ≤ v'.capacity) ∧ (r ≠ .ok () → v.capacity < n ∧ alloc n = r) := by
  unfold StdVec.reserve at h
  split at h
  · cases h
    exact ⟨rfl, fun _ => by assumption, fun h => absurd rfl h⟩
  · rename_i hc
    split at h
    · cases h
      exact ⟨rfl, fun _ => by simp, fun h => absurd rfl h⟩
    · rename_i hne
      cases h
      refine ⟨rfl, fun h => ?_, fun _ => ⟨by omega, rfl⟩⟩
      exact absurd h (hne ·)

theorem HostVar.reserve_spec {alloc : Nat → Res Unit} {n : Nat} {v v' : HostVar α} {r : Res Unit}
    (h : v.reserve alloc n = (r, v')) :
    v'.contents = v.contents ∧ (r = .ok () → v'.HasCapacity n) ∧ (r ≠ .ok () → ¬ v.HasCapacity n ∧ alloc n = r) := by
  cases v with
  | scalar x => cases h; exact ⟨rfl, fun _ => trivial, fun h => absurd rfl h⟩
  | vector d v =>
    simp only [HostVar.reserve, Prod.mk.injEq] at h
    obtain ⟨h1, rfl⟩ := h
    obtain ⟨a, b, c⟩ := StdVec.reserve_spec (r := r) (v' := (v.reserve alloc n).2) (by rw [← h1])
    exact ⟨by simp [HostVar.contents, a], b, fun hr => ⟨by simpa [HostVar.HasCapacity] using (c hr).1, (c hr).2⟩⟩
  | jagged v =>
    simp only [HostVar.reserve, Prod.mk.injEq] at h
    obtain ⟨h1, rfl⟩ := h
    obtain ⟨a, b, c⟩ := StdVec.reserve_spec (r := r) (v' := (v.reserve alloc n).2) (by rw [← h1])
    exact ⟨by simp [HostVar.contents, a], b, fun hr => ⟨by simpa [HostVar.HasCapacity] using (c hr).1, (c hr).2⟩⟩

/-- C43: `reserve(n)` changes nothing that is in the container, also when it throws.  When it returns, every vector has the
capacity; an exception is one of an allocation of `n` elements. -/
theorem c43_reserve (alloc : Nat → Nat → Res Unit) (n : Nat) (h h' : HostCont α) (r : Res Unit)
    (hr : h.reserve alloc n = (r, h')) :
    h'.map (·.contents) = h.map (·.contents) ∧ (r = .ok () → ∀ v ∈ h', v.HasCapacity n) ∧
      (r ≠ .ok () → ∃ k, alloc k n = r) := by
  obtain ⟨a, b, c⟩ := forVars_spec (P := fun v w => w.contents = v.contents ∧ w.HasCapacity n)
    (Q := fun r k v v' => v'.contents = v.contents ∧ alloc k n = r)
    (fun k v v' e => ⟨(HostVar.reserve_spec e).1, (HostVar.reserve_spec e).2.1 rfl⟩)
    (fun k v v' r e hr => ⟨(HostVar.reserve_spec e).1, ((HostVar.reserve_spec e).2.2 hr).2⟩) hr
  refine ⟨?_, ?_, ?_⟩
  · apply List.ext_getElem?
    intro i
    simp only [List.getElem?_map]
    by_cases hx : r = .ok ()
    · cases e : h[i]? with
      | none =>
        have : h'[i]? = none := by
          rw [List.getElem?_eq_none_iff] at *
          omega
        rw [this]
      | some v =>
        obtain ⟨w, h1, h2, _⟩ := b hx i v e
        rw [h1]
        simp [h2]
    · obtain ⟨j, hj, c1, ⟨w, c2, c3, _⟩, c4⟩ := c hx
      rcases Nat.lt_trichotomy i j with hi | rfl | hi
      · cases e : h[i]? with
        | none =>
          have : h'[i]? = none := by
            rw [List.getElem?_eq_none_iff] at *
            omega
          rw [this]
        | some v =>
          obtain ⟨w, h1, h2, _⟩ := c1 i v hi e
          rw [h1]
          simp [h2]
      · rw [c2, List.getElem?_eq_getElem hj]
        simp [c3]
      · rw [c4 i hi]
  · intro hx v hv
    obtain ⟨i, hi, rfl⟩ := List.getElem_of_mem hv
    obtain ⟨w, h1, h2, h3⟩ := b hx i h[i] (List.getElem?_eq_getElem (by omega))
    rw [List.getElem?_eq_getElem hi] at h1
    cases h1
    exact h3
  · intro hx
    obtain ⟨j, hj, _, ⟨w, _, _, c3⟩, _⟩ := c hx
    exact ⟨_, c3⟩

example : ∃ h', demoHost.reserve (fun k _ => if k = 2 then .badAlloc else .ok ()) 7 = (.badAlloc, h') ∧
    h'.map (·.contents) = demoHost.map (·.contents) := ⟨_, rfl, by decide⟩

/-- After `reserve(n)`, calls to `resize` with at most `n` elements do not throw. -/
theorem c43_reserve_resize (alloc alloc' : Nat → Nat → Res Unit) (n m : Nat) (h h' : HostCont α)
    (hr : h.reserve alloc n = (.ok (), h')) (hm : m ≤ n) : (h'.resize alloc' m).1 = .ok () := by
  refine c43_resize_returns _ _ _ (Or.inl fun v hv => ?_)
  have := (c43_reserve alloc n h h' _ hr).2.1 rfl v hv
  cases v <;> simp only [HostVar.HasCapacity] at * <;> omega

/-! ## access to elements -/

theorem ref_ok {k i : Nat} {v : HostVar α} (hs : ∀ s, v.size = some s → i < s) :
    ∃ r, v.ref k i = .ok r := by
  cases v with
  | scalar x => exact ⟨_, rfl⟩
  | vector d v => exact ⟨_, if_pos (hs _ rfl)⟩
  | jagged v => exact ⟨_, if_pos (hs _ rfl)⟩

theorem refs_ok {i : Nat} {k : Nat} {h : HostCont α} (hs : ∀ s ∈ h.vectorSizes, i < s) :
    ∃ rs, refs i k h = .ok rs ∧ rs.length = h.length ∧
      ∀ (j : Nat) (v : HostVar α), h[j]? = some v → ∃ r, rs[j]? = some r ∧ v.ref (k + j) i = .ok r := by
  induction h generalizing k with
  | nil => exact ⟨[], rfl, rfl, fun j v hv => by simp at hv⟩
  | cons v vs ih =>
    rw [vectorSizes_eq] at hs
    obtain ⟨rs, h1, h2, h3⟩ := ih (k := k + 1) (fun s hs' => by
      rw [vectorSizes_eq] at hs'
      refine hs s ?_
      simp only [List.map_cons, List.filterMap_cons]
      split
      · exact hs'
      · exact List.mem_cons_of_mem _ hs')
    obtain ⟨r, hr⟩ := ref_ok (k := k) (i := i) (v := v) (fun s hs' => hs s (by simp [hs']))
    refine ⟨r :: rs, ?_, by simp [h2], ?_⟩
    · unfold refs
      rw [hr]
      simp only [h1]
      rfl
    · intro j w hw
      cases j with
      | zero =>
        simp only [List.getElem?_cons_zero, Option.some.injEq] at hw
        subst hw
        exact ⟨r, by simp, hr⟩
      | succ j =>
        obtain ⟨q, h4, h5⟩ := h3 j w (by simpa using hw)
        exact ⟨q, by simpa using h4, by rw [← h5]; congr 1; omega⟩

/-- C43: in a container of size `n`, `at(i)` throws `std::out_of_range` if `i` is at least `n`; otherwise it returns.  It throws
`std::length_error` exactly if the vectors have different sizes. -/
theorem c43_at (h : HostCont α) (hv : h.vectorSizes ≠ []) (i : Nat) :
    (∀ n, h.size = .ok n → n ≤ i → h.at i = .outOfRange) ∧
      (∀ n, h.size = .ok n → i < n → ∃ rs, h.at i = .ok rs ∧ rs.length = h.length) ∧
      (h.at i = .lengthError ↔ ∃ s ∈ h.vectorSizes, ∃ t ∈ h.vectorSizes, s ≠ t) := by
  have hi : ∀ n, h.size = .ok n → i < n → ∃ rs, h.at i = .ok rs ∧ rs.length = h.length := by
    intro n hn hi
    obtain ⟨rs, h1, h2, _⟩ := refs_ok (i := i) (k := 0) (h := h) (fun s hs => by
      rw [(c43_size h hv n).1 hn s hs]; exact hi)
    refine ⟨rs, ?_, h2⟩
    unfold HostCont.at
    rw [hn]
    simp only
    rw [if_neg (by omega)]
    exact h1
  refine ⟨?_, hi, ?_⟩
  · intro n hn hi
    unfold HostCont.at
    rw [hn]
    exact if_pos hi
  · obtain ⟨h1, h2⟩ := c43_size_throws h hv
    rw [← h1]
    rcases h2 with h2 | ⟨n, hn⟩
    · unfold HostCont.at
      rw [h2]
      simp [Res.map]
    · constructor
      · intro ha
        rcases Nat.lt_or_ge i n with hin | hin
        · obtain ⟨rs, e, _⟩ := hi n hn hin
          rw [e] at ha
          cases ha
        · unfold HostCont.at at ha
          rw [hn] at ha
          simp only at ha
          rw [if_pos hin] at ha
          cases ha
      · intro hl
        rw [hl] at hn
        cases hn

example : demoHost.at 1 = .ok [.scalar 0, .elem 1 1, .row 2 1] ∧ demoHost.at 2 = .outOfRange := by decide

theorem read_ref {h : HostCont α} {k i : Nat} {v : HostVar α} {r : HostRef} (hk : h[k]? = some v)
    (hr : v.ref k i = .ok r) : r.read h = v.nth i := by
  cases v with
  | scalar x => cases hr; simp [HostRef.read, hk, HostVar.nth]
  | vector d v =>
    simp only [HostVar.ref] at hr
    split at hr
    · cases hr; simp [HostRef.read, hk, HostVar.nth]
    · cases hr
  | jagged v =>
    simp only [HostVar.ref] at hr
    split at hr
    · cases hr; simp [HostRef.read, hk, HostVar.nth]
    · cases hr

theorem at_refs {h : HostCont α} (hv : h.vectorSizes ≠ []) {i : Nat} {rs : List HostRef} (ha : h.at i = .ok rs) :
    h.proxy i = .ok rs ∧ rs.length = h.length ∧ (∀ s ∈ h.vectorSizes, i < s) ∧
      ∀ (j : Nat) (v : HostVar α), h[j]? = some v → ∃ r, rs[j]? = some r ∧ v.ref j i = .ok r := by
  rcases (c43_size_throws h hv).2 with hl | ⟨n, hn⟩
  · unfold HostCont.at at ha
    rw [hl] at ha
    cases ha
  · unfold HostCont.at at ha
    rw [hn] at ha
    simp only at ha
    split at ha
    · cases ha
    · have hs : ∀ s ∈ h.vectorSizes, i < s := fun s hs => by
        rw [(c43_size h hv n).1 hn s hs]; omega
      obtain ⟨rs', h1, h2, h3⟩ := refs_ok (i := i) (k := 0) (h := h) hs
      have : rs' = rs := by
        rw [HostCont.proxy, h1] at ha
        cases ha
        rfl
      subst this
      exact ⟨h1, h2, hs, fun j v hj => by simpa using h3 j v hj⟩

/-- C54: the proxy `at(i)` refers to the `i`-th value of every variable. -/
theorem c54_read (h : HostCont α) (hv : h.vectorSizes ≠ []) (i : Nat) (rs : List HostRef) (ha : h.at i = .ok rs) (k : Nat)
    (v : HostVar α) (hk : h[k]? = some v) :
    ∃ r x, rs[k]? = some r ∧ r.read h = some x ∧ v.nth i = some x := by
  obtain ⟨_, _, hs, h3⟩ := at_refs hv ha
  obtain ⟨r, h4, h5⟩ := h3 k v hk
  have : ∃ x, v.nth i = some x := by
    rw [vectorSizes_eq] at hs
    cases v with
    | scalar x => exact ⟨_, rfl⟩
    | vector d v =>
      have : i < v.elems.length := hs _ (by
        simp only [List.mem_filterMap, List.mem_map]
        exact ⟨_, ⟨_, List.mem_of_getElem? hk, rfl⟩, rfl⟩)
      exact ⟨_, by simp [HostVar.nth, List.getElem?_eq_getElem this]; rfl⟩
    | jagged v =>
      have : i < v.elems.length := hs _ (by
        simp only [List.mem_filterMap, List.mem_map]
        exact ⟨_, ⟨_, List.mem_of_getElem? hk, rfl⟩, rfl⟩)
      exact ⟨_, by simp [HostVar.nth, List.getElem?_eq_getElem this]; rfl⟩
  obtain ⟨x, hx⟩ := this
  exact ⟨r, x, h4, by rw [read_ref hk h5, hx], hx⟩

/-- C54: assigning to variable `k` of `at(i)` makes this the `i`-th value of this variable.  No other variable and, if the
variable is a vector, no other element changes; all sizes stay the same. -/
theorem c54_write (h : HostCont α) (hv : h.vectorSizes ≠ []) (i : Nat) (rs : List HostRef) (ha : h.at i = .ok rs) (k : Nat)
    (v : HostVar α) (hk : h[k]? = some v) (x : HostVal α) (hx : HostVar.Takes v x) :
    ∃ r w, rs[k]? = some r ∧ (r.write h x)[k]? = some w ∧ w.nth i = some x ∧ w.size = v.size ∧
      (v.size ≠ none → ∀ j, j ≠ i → w.nth j = v.nth j) ∧
      (r.write h x).length = h.length ∧ ∀ j, j ≠ k → (r.write h x)[j]? = h[j]? := by
  obtain ⟨r, _, h4, _, _⟩ := c54_read h hv i rs ha k v hk
  obtain ⟨_, _, hs, h3⟩ := at_refs hv ha
  obtain ⟨r', h4', h5⟩ := h3 k v hk
  rw [h4] at h4'
  cases h4'
  have hn : ∀ (f : HostVar α → HostVar α) (j : Nat), j ≠ k → (List.modify h k f)[j]? = h[j]? := by
    intro f j hj
    rw [List.getElem?_modify]
    simp [Ne.symm hj]
  cases v with
  | scalar y =>
    cases h5
    cases x with
    | row xs => exact absurd hx (by simp [HostVar.Takes])
    | one x =>
      refine ⟨_, .scalar x, h4, ?_, rfl, rfl, fun h => absurd rfl h, ?_, ?_⟩
      · simp [HostRef.write, hk]
      · simp [HostRef.write]
      · exact hn _
  | vector d v =>
    simp only [HostVar.ref] at h5
    split at h5
    · rename_i hi
      cases h5
      cases x with
      | row xs => exact absurd hx (by simp [HostVar.Takes])
      | one x =>
        refine ⟨_, .vector d { v with elems := v.elems.set i x }, h4, ?_, ?_, ?_, ?_, ?_, ?_⟩
        · simp [HostRef.write, hk]
        · simp [HostVar.nth, hi]
        · simp [HostVar.size]
        · intro _ j hj
          simp [HostVar.nth, List.getElem?_set_ne (Ne.symm hj)]
        · simp [HostRef.write]
        · exact hn _
    · cases h5
  | jagged v =>
    simp only [HostVar.ref] at h5
    split at h5
    · rename_i hi
      cases h5
      cases x with
      | one xs => exact absurd hx (by simp [HostVar.Takes])
      | row x =>
        refine ⟨_, .jagged { v with elems := v.elems.set i x }, h4, ?_, ?_, ?_, ?_, ?_, ?_⟩
        · simp [HostRef.write, hk]
        · simp [HostVar.nth, hi]
        · simp [HostVar.size]
        · intro _ j hj
          simp [HostVar.nth, List.getElem?_set_ne (Ne.symm hj)]
        · simp [HostRef.write]
        · exact hn _
    · cases h5

/-- C54: `operator[]` checks the index against each vector: it throws `std::out_of_range` if it is not an index of all of
them, and otherwise returns.  (With vectors of different sizes, `at` throws `std::length_error` instead.) -/
theorem c54_subscript (h : HostCont α) (i : Nat) :
    ((∃ s ∈ h.vectorSizes, s ≤ i) → h.proxy i = .outOfRange) ∧
      ((∀ s ∈ h.vectorSizes, i < s) → ∃ rs, h.proxy i = .ok rs ∧ rs.length = h.length) ∧
      (∀ rs, h.at i = .ok rs → h.vectorSizes ≠ [] → h.proxy i = .ok rs) := by
  refine ⟨?_, ?_, fun rs ha hv => (at_refs hv ha).1⟩
  · intro hs
    unfold HostCont.proxy
    generalize 0 = k
    induction h generalizing k with
    | nil => obtain ⟨s, hs, _⟩ := hs; cases hs
    | cons v vs ih =>
      unfold refs
      by_cases hv : ∃ s, v.size = some s ∧ s ≤ i
      · obtain ⟨s, h1, h2⟩ := hv
        have : v.ref k i = .outOfRange := by
          cases v with
          | scalar x => cases h1
          | vector d v => cases h1; exact if_neg (by omega)
          | jagged v => cases h1; exact if_neg (by omega)
        rw [this]
        rfl
      · obtain ⟨r, hr⟩ := ref_ok (k := k) (i := i) (v := v) (fun s hs => by
          by_contra hc
          exact hv ⟨s, hs, by omega⟩)
        rw [hr]
        simp only
        rw [ih]
        · rfl
        · obtain ⟨s, h1, h2⟩ := hs
          refine ⟨s, ?_, h2⟩
          rw [vectorSizes_eq] at *
          simp only [List.map_cons, List.filterMap_cons] at h1
          split at h1
          · exact h1
          · rename_i b hb
            rcases List.mem_cons.1 h1 with rfl | h1
            · exact absurd ⟨_, hb, h2⟩ hv
            · exact h1
  · intro hs
    obtain ⟨rs, h1, h2, _⟩ := refs_ok (i := i) (k := 0) (h := h) hs
    exact ⟨rs, h1, h2⟩

example : ∃ rs, demoHost.at 1 = .ok rs ∧ HostVar.Takes (.vector 0 ⟨[1, 2], 2⟩) (.one 9) ∧
    (rs[1]?.map fun r => (r.write demoHost (.one 9)).map (·.contents)) =
      some [.scalar 5, .vector [1, 9], .jagged [[3], []]] := ⟨_, rfl, trivial, rfl⟩

/-! ## histories -/

theorem write_sizes (h : HostCont α) (r : HostRef) (x : HostVal α) : (r.write h x).map (·.size) = h.map (·.size) := by
  have key : ∀ (f : HostVar α → HostVar α) (k : Nat), (∀ v, (f v).size = v.size) →
      (List.modify h k f).map (·.size) = h.map (·.size) := by
    intro f k hf
    apply List.ext_getElem?
    intro j
    simp only [List.getElem?_map, List.getElem?_modify]
    cases h[j]? with
    | none => simp
    | some v =>
      by_cases hkj : k = j <;> simp [hkj, hf]
  cases r <;> cases x <;> simp only [HostRef.write] <;>
    exact key _ _ (fun v => by cases v <;> simp [HostVar.size])

theorem reserve_sizes (h h' : HostCont α) (hc : h'.map (·.contents) = h.map (·.contents)) :
    h'.vectorSizes = h.vectorSizes := by
  have key : ∀ g : HostCont α, g.vectorSizes = (g.map (·.contents)).filterMap fun c => match c with
      | .scalar _ => none
      | .vector xs => some xs.length
      | .jagged xs => some xs.length := by
    intro g
    unfold HostCont.vectorSizes
    rw [List.filterMap_map]
    congr 1
    funext v
    cases v <;> rfl
  rw [key, key, hc]

theorem lastSize_append (n : Nat) (ops : List (HostOp α)) (op : HostOp α) :
    lastSize n (ops ++ [op]) = lastSize (lastSize n ops) [op] := by
  induction ops generalizing n with
  | nil => rfl
  | cons a ops ih => cases a <;> simp [lastSize, ih]

/-- C43: a program that uses only the functions of the container, and no call to `resize` throws, always finds the size it
last asked for.  Calls to `reserve` and `at` may throw. -/
theorem c43_history (S : List (HostKind α)) (ops : List (HostOp α)) (h : HostCont α)
    (hv : (HostCont.new S).vectorSizes ≠ []) (hr : HostRun (HostCont.new S) ops h) :
    h.size = .ok (lastSize 0 ops) := by
  have key : h.vectorSizes ≠ [] ∧ h.size = .ok (lastSize 0 ops) := by
    induction hr with
    | nil =>
      exact ⟨hv, (c43_new S).2.2.2.2 hv⟩
    | @step h' ops before alloc op ok ih =>
      obtain ⟨hv', hs⟩ := ih
      rw [lastSize_append]
      have same : ∀ h'' : HostCont α, h''.vectorSizes = h'.vectorSizes →
          h''.vectorSizes ≠ [] ∧ h''.size = .ok (lastSize 0 ops) := by
        intro h'' e
        refine ⟨by rw [e]; exact hv', (c43_size _ (by rw [e]; exact hv') _).2 ?_⟩
        rw [e]
        exact (c43_size _ hv' _).1 hs
      cases op with
      | resize n =>
        have h1 := ok n rfl
        obtain ⟨h2, h3, h4⟩ := c43_resize alloc n h' (HostOp.run alloc h' (.resize n)).2 (by
          rw [← h1]; rfl)
        have h5 := vectorSizes_resized h2 h3
        refine ⟨?_, h4 hv'⟩
        intro hc
        rw [hc] at h5
        exact hv' (by simpa using h5.2.symm)
      | reserve n =>
        exact same _ (reserve_sizes _ _ (c43_reserve alloc n h' _ _ rfl).1)
      | assign i k x =>
        have e0 : lastSize (lastSize 0 ops) [HostOp.assign i k x] = lastSize 0 ops := rfl
        rw [e0]
        refine same _ ?_
        simp only [HostOp.run]
        split
        · split
          · rw [vectorSizes_eq, vectorSizes_eq, write_sizes]
          · rfl
        · rfl
  exact key.2

example : ∃ h : HostCont Nat, HostRun (HostCont.new [.scalar 7, .vector 0, .jagged])
    [.resize 3, .reserve 10, .assign 1 1 (.one 8), .assign 9 1 (.one 8)] h ∧
      h.map (·.contents) = [.scalar 7, .vector [0, 8, 0], .jagged [[], [], []]] := by
  have h1 := HostRun.step (ops := [_, _, _]) (.step (ops := [_, _]) (.step (ops := [_])
    (.step (ops := []) (.nil (HostCont.new [.scalar 7, .vector 0, .jagged])) (fun _ _ => .ok ()) (.resize 3) (fun _ _ => rfl))
    (fun _ _ => .badAlloc) (.reserve 10) (fun _ h => nomatch h)) (fun _ _ => .ok ()) (.assign 1 1 (.one 8))
    (fun _ h => nomatch h)) (fun _ _ => .ok ()) (.assign 9 1 (.one 8)) (fun _ h => nomatch h)
  exact ⟨_, h1, rfl⟩

end Vecmem.Props
