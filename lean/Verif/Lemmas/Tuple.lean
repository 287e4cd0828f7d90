import Verif.Spec.Tuple
import Verif.Lemmas.Tactics

namespace Vecmem

namespace Tup

variable {α : Type}

theorem accepts_length {ts : List ElemTy} {as : List TupArg} (h : accepts ts as = true) : as.length = ts.length := by
  induction ts generalizing as with
  | nil => cases as <;> simp_all [accepts]
  | cons t ts ih =>
    cases as with
    | nil => simp [accepts] at h
    | cons a as =>
      simp only [accepts, Bool.and_eq_true] at h
      simp [ih h.2]

/-- The tuple is made of the objects of its sources. -/
theorem init_ok {m : Objs α} {ts : List ElemTy} {as : List TupArg} (hl : as.length = ts.length)
    (ha : ∀ a ∈ as, Alive m a.obj) :
    ∃ t m', init m ts as = .ok (t, m') ∧ Built m m' ts (as.map TupArg.obj) t ∧ t.types = ts ∧ m.length ≤ m'.length ∧
      (∀ c i o k, ts[i]? = some .val → t.get c i = some (o, k) → m.length ≤ o) := by
  induction ts generalizing m as with
  | nil =>
    cases as with
    | cons a as => simp at hl
    | nil =>
      refine ⟨.nil, m, by simp [init], ⟨?_, ?_, ?_, ?_, ?_, ?_⟩, rfl, Nat.le_refl _, ?_⟩ <;> simp [get]
  | cons t ts ih =>
    cases as with
    | nil => simp at hl
    | cons a as =>
      have hal : ∀ {o}, Alive m o → o < m.length := by
        rintro o ⟨v, hv⟩
        rcases Nat.lt_or_ge o m.length with h | h
        · exact h
        · rw [List.getElem?_eq_none h] at hv
          cases hv
      have hsrc : ∀ {s}, s ∈ as.map TupArg.obj → s < m.length := by
        intro s hs
        obtain ⟨a', ha', rfl⟩ := List.mem_map.1 hs
        exact hal (ha a' (List.mem_cons_of_mem _ ha'))
      simp only [List.length_cons, Nat.add_right_cancel_iff] at hl
      by_cases ht : t = .val
      · subst ht
        obtain ⟨v, hv⟩ := ha a List.mem_cons_self
        have he : initElem m .val a = .ok (m.length, m ++ [some v]) := by simp [initElem, hv]
        obtain ⟨t', m', h1, hB, hty, hle, hnew⟩ := ih (m := m ++ [some v]) hl (fun a' h' => by
          obtain ⟨w, hw⟩ := ha a' (List.mem_cons_of_mem _ h')
          exact ⟨w, by rw [List.getElem?_append_left (hal ⟨w, hw⟩)]; exact hw⟩)
        have hlen : (m ++ [some v]).length = m.length + 1 := by simp
        rw [hlen] at hle hnew
        have hoth : ∀ o < m.length, m'[o]? = m[o]? := fun o ho => by
          rw [hB.others o (by rw [hlen]; omega), List.getElem?_append_left ho]
        refine ⟨.cons .val m.length t', m', by simp [init, he, h1, Res.map], ⟨?_, hoth, ?_, ?_, ?_, ?_⟩, by simp [types, hty],
          by omega, ?_⟩
        · intro c i
          cases i with
          | zero => simp [get]
          | succ i => simpa [get] using hB.size c i
        · intro c i s h1 h2
          cases i with
          | zero =>
            simp only [List.map_cons, List.getElem?_cons_zero, Option.some.injEq] at h2
            subst h2
            refine ⟨m.length, by simp [get], Nat.le_refl _, ?_⟩
            rw [hB.others _ (by rw [hlen]; omega)]
            simp [hv]
          | succ i =>
            simp only [List.map_cons, List.getElem?_cons_succ] at h1 h2
            obtain ⟨o, ho, hge, hval⟩ := hB.value c i s h1 h2
            rw [hlen] at hge
            refine ⟨o, by simpa [get] using ho, by omega, ?_⟩
            rw [hval, List.getElem?_append_left (hsrc (List.mem_of_getElem? h2))]
        · intro c i s h1 h2
          cases i with
          | zero => simp at h1
          | succ i =>
            simp only [List.map_cons, List.getElem?_cons_succ] at h1 h2
            simpa [get] using hB.reference c i s h1 h2
        · intro c i s h1 h2
          cases i with
          | zero => simp at h1
          | succ i =>
            simp only [List.map_cons, List.getElem?_cons_succ] at h1 h2
            simpa [get] using hB.constReference c i s h1 h2
        · intro c i j o k l h1 hij h2
          have key : ∀ j' l', t'.get c j' ≠ some (m.length, l') := by
            intro j' l' hc
            have hlt : j' < ts.length := (hB.size c j').1 (by simp [hc])
            cases hj : ts[j'] with
            | val =>
              have := hnew c j' _ _ (by rw [List.getElem?_eq_getElem hlt, hj]) hc
              omega
            | ref =>
              have hlt' : j' < (as.map TupArg.obj).length := by simpa [hl] using hlt
              have := hB.reference c j' _ (by rw [List.getElem?_eq_getElem hlt, hj]) (List.getElem?_eq_getElem hlt')
              rw [this] at hc
              have h3 := hsrc (List.getElem_mem hlt')
              simp only [Option.some.injEq, Prod.mk.injEq] at hc
              omega
            | cref =>
              have hlt' : j' < (as.map TupArg.obj).length := by simpa [hl] using hlt
              have := hB.constReference c j' _ (by rw [List.getElem?_eq_getElem hlt, hj]) (List.getElem?_eq_getElem hlt')
              rw [this] at hc
              have h3 := hsrc (List.getElem_mem hlt')
              simp only [Option.some.injEq, Prod.mk.injEq] at hc
              omega
          cases i with
          | zero =>
            cases j with
            | zero => exact absurd rfl hij
            | succ j =>
              simp only [get, Option.some.injEq, Prod.mk.injEq] at h2
              rw [← h2.1]
              simpa [get] using key j l
          | succ i =>
            simp only [List.getElem?_cons_succ] at h1
            simp only [get] at h2
            cases j with
            | zero =>
              intro hc
              simp only [get, Option.some.injEq, Prod.mk.injEq] at hc
              exact key i k (by rw [hc.1]; exact h2)
            | succ j =>
              simpa [get] using hB.distinct c i j o k l h1 (by omega) h2
        · intro c i o k h1 h2
          cases i with
          | zero =>
            simp only [get, Option.some.injEq, Prod.mk.injEq] at h2
            omega
          | succ i =>
            simp only [List.getElem?_cons_succ] at h1
            have := hnew c i o k h1 (by simpa [get] using h2)
            omega
      · have he : initElem m t a = .ok (a.obj, m) := by cases t <;> simp_all [initElem]
        obtain ⟨t', m', h1, hB, hty, hle, hnew⟩ := ih (m := m) hl (fun a' h' => ha a' (List.mem_cons_of_mem _ h'))
        have hao := hal (ha a List.mem_cons_self)
        refine ⟨.cons t a.obj t', m', by simp [init, he, h1, Res.map], ⟨?_, hB.others, ?_, ?_, ?_, ?_⟩, by simp [types, hty],
          hle, ?_⟩
        · intro c i
          cases i with
          | zero => simp [get]
          | succ i => simpa [get] using hB.size c i
        · intro c i s h1 h2
          cases i with
          | zero => simp at h1; exact absurd h1 ht
          | succ i =>
            simp only [List.map_cons, List.getElem?_cons_succ] at h1 h2
            simpa [get] using hB.value c i s h1 h2
        · intro c i s h1 h2
          cases i with
          | zero =>
            simp only [List.map_cons, List.getElem?_cons_zero, Option.some.injEq] at h1 h2
            subst h1 h2
            simp [get]
          | succ i =>
            simp only [List.map_cons, List.getElem?_cons_succ] at h1 h2
            simpa [get] using hB.reference c i s h1 h2
        · intro c i s h1 h2
          cases i with
          | zero =>
            simp only [List.map_cons, List.getElem?_cons_zero, Option.some.injEq] at h1 h2
            subst h1 h2
            simp [get]
          | succ i =>
            simp only [List.map_cons, List.getElem?_cons_succ] at h1 h2
            simpa [get] using hB.constReference c i s h1 h2
        · intro c i j o k l h1 hij h2
          cases i with
          | zero => simp at h1; exact absurd h1 ht
          | succ i =>
            simp only [List.getElem?_cons_succ] at h1
            simp only [get] at h2
            cases j with
            | zero =>
              intro hc
              simp only [get, Option.some.injEq, Prod.mk.injEq] at hc
              have := hnew c i o k h1 h2
              omega
            | succ j => simpa [get] using hB.distinct c i j o k l h1 (by omega) h2
        · intro c i o k h1 h2
          cases i with
          | zero => simp at h1; exact absurd h1 ht
          | succ i =>
            simp only [List.getElem?_cons_succ] at h1
            exact hnew c i o k h1 (by simpa [get] using h2)

/-- The objects of the elements. -/
def objs : Tup → List Nat
  | .nil => []
  | .cons _ o rest => o :: rest.objs

theorem objs_get (t : Tup) (c : Bool) (i : Nat) : t.objs[i]? = (t.get c i).map Prod.fst := by
  induction t generalizing i with
  | nil => simp [objs, get]
  | cons ty o rest ih => cases i <;> simp [objs, get, ih]

theorem constArgs_obj (t : Tup) : t.constArgs.map TupArg.obj = t.objs := by
  induction t with
  | nil => rfl
  | cons ty o rest ih => cases ty <;> simp [objs, constArgs, ih]

theorem movedArgs_obj (t : Tup) : t.movedArgs.map TupArg.obj = t.objs := by
  induction t with
  | nil => rfl
  | cons ty o rest ih => cases ty <;> simp [objs, movedArgs, ih]

theorem length_types (t : Tup) : t.types.length = t.objs.length := by
  induction t with
  | nil => rfl
  | cons ty o rest ih => simp [types, objs, ih]

theorem length_constArgs (t : Tup) : t.constArgs.length = t.objs.length := by
  rw [← constArgs_obj, List.length_map]

theorem length_movedArgs (t : Tup) : t.movedArgs.length = t.objs.length := by
  rw [← movedArgs_obj, List.length_map]

theorem alive_lt {m : Objs α} {o : Nat} (h : Alive m o) : o < m.length := by
  obtain ⟨v, hv⟩ := h
  rcases Nat.lt_or_ge o m.length with h | h
  · exact h
  · rw [List.getElem?_eq_none h] at hv
    cases hv

/-- The concatenation constructor does what the main constructor does with all elements. -/
theorem concat_eq {m : Objs α} {t : ElemTy} {ts : List ElemTy} {head : TupArg} {tail : Tup} {r : Res (Tup × Objs α)}
    (h : concat m (t :: ts) head tail = some r) (ha : Alive m head.obj) :
    ∃ as : List TupArg, as.length = ts.length ∧ as.map TupArg.obj = tail.objs ∧ r = init m (t :: ts) (head :: as) := by
  simp only [concat] at h
  split at h
  · obtain ⟨v, hv⟩ := ha
    cases he : initElem m t head with
    | ok p =>
      rw [he] at h
      simp only [Option.map_eq_some_iff] at h
      obtain ⟨r', h1, rfl⟩ := h
      unfold moveOrConvert at h1
      split at h1
      · rename_i hty
        simp only [Option.some.injEq] at h1
        subst h1
        exact ⟨tail.movedArgs, by rw [length_movedArgs, ← hty, length_types], movedArgs_obj tail, by simp [init, he]⟩
      · simp only [convert, make] at h1
        split at h1
        · rename_i hacc
          simp only [Option.some.injEq] at h1
          subst h1
          exact ⟨tail.constArgs, accepts_length hacc, constArgs_obj tail, by simp [init, he]⟩
        · cases h1
    | _ => cases t <;> simp [initElem, hv] at he
  · cases h

theorem destroy_get {m : Objs α} {t : Tup} {o : Nat}
    (h : ∀ i k, t.types[i]? = some .val → t.get true i ≠ some (o, k)) : (destroy m t)[o]? = m[o]? := by
  induction t generalizing m with
  | nil => rfl
  | cons ty p rest ih =>
    have hr : ∀ i k, rest.types[i]? = some .val → rest.get true i ≠ some (o, k) := fun i k h1 h2 =>
      h (i + 1) k (by simpa [types] using h1) (by simpa [get] using h2)
    cases ty with
    | val =>
      rw [destroy, ih hr]
      have : p ≠ o := fun hc => h 0 true (by simp [types]) (by simp [get, hc])
      rw [List.getElem?_set_ne this]
    | ref => exact ih hr
    | cref => exact ih hr

/-- A tuple whose elements come from another one, which is then destroyed. -/
theorem Built.from_tail {m m1 m3 : Objs α} {t : ElemTy} {ts : List ElemTy} {s : Nat} {srcs : List Nat} {tail T : Tup}
    (hm : m.length ≤ m1.length) (hs : Alive m s) (hsrcs : ∀ x ∈ srcs, Alive m x) (hl : srcs.length = ts.length)
    (ht : Built m m1 ts srcs tail) (hty : tail.types = ts)
    (hT : Built m1 m3 (t :: ts) (s :: tail.objs) T) :
    Built m (destroy m3 tail) (t :: ts) (s :: srcs) T := by
  have own : ∀ i o k, tail.types[i]? = some .val → tail.get true i = some (o, k) → m.length ≤ o ∧ o < m1.length := by
    intro i o k h1 h2
    rw [hty] at h1
    have hlt : i < srcs.length := by rw [hl]; exact (List.getElem?_eq_some_iff.1 h1).1
    obtain ⟨o', h3, h4, h5⟩ := ht.value true i _ h1 (List.getElem?_eq_getElem hlt)
    rw [h2] at h3
    simp only [Option.some.injEq, Prod.mk.injEq] at h3
    obtain ⟨v, hv⟩ := hsrcs _ (List.getElem_mem hlt)
    rw [hv] at h5
    obtain ⟨rfl, -⟩ := h3
    exact ⟨h4, (List.getElem?_eq_some_iff.1 h5).1⟩
  have low : ∀ o < m.length, (destroy m3 tail)[o]? = m3[o]? := fun o ho =>
    destroy_get fun i k h1 h2 => by have := own i o k h1 h2; omega
  have high : ∀ o, m1.length ≤ o → (destroy m3 tail)[o]? = m3[o]? := fun o ho =>
    destroy_get fun i k h1 h2 => by have := own i o k h1 h2; omega
  have src : ∀ (c : Bool) (i x : Nat), srcs[i]? = some x → ∃ o k, tail.get c i = some (o, k) ∧ tail.objs[i]? = some o := by
    intro c i x h
    have hlt : i < ts.length := by rw [← hl]; exact (List.getElem?_eq_some_iff.1 h).1
    obtain ⟨⟨o, k⟩, hg⟩ := Option.isSome_iff_exists.1 ((ht.size c i).2 hlt)
    exact ⟨o, k, hg, by rw [objs_get tail c i, hg]; rfl⟩
  refine ⟨hT.size, fun o ho => ?_, fun c i x h1 h2 => ?_, fun c i x h1 h2 => ?_, fun c i x h1 h2 => ?_, hT.distinct⟩
  · rw [low o ho, hT.others o (by omega), ht.others o ho]
  · cases i with
    | zero =>
      simp only [List.getElem?_cons_zero, Option.some.injEq] at h2
      subst h2
      obtain ⟨o, h3, h4, h5⟩ := hT.value c 0 s h1 (by simp)
      exact ⟨o, h3, by omega, by rw [high o h4, h5, ht.others _ (alive_lt hs)]⟩
    | succ i =>
      simp only [List.getElem?_cons_succ] at h2
      obtain ⟨o', k, hg, hob⟩ := src c i x h2
      obtain ⟨o, h3, h4, h5⟩ := hT.value c (i + 1) o' h1 (by simpa using hob)
      obtain ⟨o'', h6, h7, h8⟩ := ht.value c i x (by simpa using h1) h2
      rw [hg] at h6
      simp only [Option.some.injEq, Prod.mk.injEq] at h6
      obtain ⟨rfl, -⟩ := h6
      exact ⟨o, h3, by omega, by rw [high o h4, h5, h8]⟩
  · cases i with
    | zero => exact hT.reference c 0 x h1 (by simpa using h2)
    | succ i =>
      simp only [List.getElem?_cons_succ] at h2
      obtain ⟨o', k, hg, hob⟩ := src c i x h2
      have h3 := ht.reference c i x (by simpa using h1) h2
      rw [hg] at h3
      simp only [Option.some.injEq, Prod.mk.injEq] at h3
      obtain ⟨rfl, -⟩ := h3
      exact hT.reference c (i + 1) o' h1 (by simpa using hob)
  · cases i with
    | zero => exact hT.constReference c 0 x h1 (by simpa using h2)
    | succ i =>
      simp only [List.getElem?_cons_succ] at h2
      obtain ⟨o', k, hg, hob⟩ := src c i x h2
      have h3 := ht.constReference c i x (by simpa using h1) h2
      rw [hg] at h3
      simp only [Option.some.injEq, Prod.mk.injEq] at h3
      obtain ⟨rfl, -⟩ := h3
      exact hT.constReference c (i + 1) o' h1 (by simpa using hob)

/-- The elements of a new tuple are alive. -/
theorem Built.alive {m m' : Objs α} {ts : List ElemTy} {srcs : List Nat} {t : Tup} (hB : Built m m' ts srcs t)
    (hl : srcs.length = ts.length) (hs : ∀ s ∈ srcs, Alive m s) (o : Nat) (ho : o ∈ t.objs) : Alive m' o := by
  obtain ⟨i, hi⟩ := List.getElem?_of_mem ho
  rw [objs_get t true i, Option.map_eq_some_iff] at hi
  obtain ⟨⟨o', k⟩, hg, hx⟩ := hi
  obtain rfl : o' = o := hx
  have hlt : i < ts.length := (hB.size true i).1 (by simp [hg])
  have hlt' : i < srcs.length := by omega
  have hal := hs _ (List.getElem_mem hlt')
  have hout : Alive m' srcs[i] := by
    obtain ⟨v, hv⟩ := hal
    exact ⟨v, by rw [hB.others _ (alive_lt ⟨v, hv⟩), hv]⟩
  cases hj : ts[i] with
  | val =>
    obtain ⟨o, h3, h4, h5⟩ := hB.value true i _ (by rw [List.getElem?_eq_getElem hlt, hj]) (List.getElem?_eq_getElem hlt')
    rw [hg] at h3
    simp only [Option.some.injEq, Prod.mk.injEq] at h3
    obtain ⟨rfl, -⟩ := h3
    obtain ⟨v, hv⟩ := hal
    exact ⟨v, by rw [h5, hv]⟩
  | ref =>
    have h3 := hB.reference true i _ (by rw [List.getElem?_eq_getElem hlt, hj]) (List.getElem?_eq_getElem hlt')
    rw [hg] at h3
    simp only [Option.some.injEq, Prod.mk.injEq] at h3
    rw [h3.1]
    exact hout
  | cref =>
    have h3 := hB.constReference true i _ (by rw [List.getElem?_eq_getElem hlt, hj]) (List.getElem?_eq_getElem hlt')
    rw [hg] at h3
    simp only [Option.some.injEq, Prod.mk.injEq] at h3
    rw [h3.1]
    exact hout

end Tup

end Vecmem
