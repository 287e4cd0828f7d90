import Verif.Lemmas.Tuple

/-!
# C63: tuples hold what they were made from

`Tup.Built` (Verif/Spec/Tuple.lean) says what a tuple with elements of given types, made from given objects, is.
-/

namespace Vecmem.Props

open Vecmem

variable {α : Type}

/-- C63: the main constructor, if there is one for these arguments. -/
theorem c63_constructor (m : Objs α) (ts : List ElemTy) (as : List TupArg) (ha : ∀ a ∈ as, Alive m a.obj)
    (r : Res (Tup × Objs α)) (h : Tup.make m ts as = some r) :
    ∃ t m', r = .ok (t, m') ∧ Tup.Built m m' ts (as.map TupArg.obj) t := by
  unfold Tup.make at h
  split at h
  · rename_i hacc
    obtain ⟨t, m', h1, h2, -⟩ := Tup.init_ok (Tup.accepts_length hacc) ha
    simp only [Option.some.injEq] at h
    exact ⟨t, m', by rw [← h, h1], h2⟩
  · cases h

/-- C63: there is one if there is one argument for each element, and only lvalues that are not constant are bound to elements
`T&`. -/
theorem c63_constructor_exists (m : Objs α) (ts : List ElemTy) (as : List TupArg) :
    (Tup.make m ts as).isSome = true ↔ as.length = ts.length ∧
      ∀ (i : Nat) (a : TupArg), ts[i]? = some .ref → as[i]? = some a → a.cat = .lvalue := by
  have key : Tup.accepts ts as = true ↔ as.length = ts.length ∧
      ∀ (i : Nat) (a : TupArg), ts[i]? = some .ref → as[i]? = some a → a.cat = .lvalue := by
    induction ts generalizing as with
    | nil => cases as <;> simp [Tup.accepts]
    | cons t ts ih =>
      cases as with
      | nil => simp [Tup.accepts]
      | cons a as =>
        simp only [Tup.accepts, Bool.and_eq_true, ih, List.length_cons, Nat.add_right_cancel_iff]
        constructor
        · rintro ⟨h1, h2, h3⟩
          refine ⟨h2, fun i b hi hb => ?_⟩
          cases i with
          | zero =>
            simp only [List.getElem?_cons_zero, Option.some.injEq] at hi hb
            subst hi hb
            simpa [ElemTy.constructible] using h1
          | succ i => exact h3 i b (by simpa using hi) (by simpa using hb)
        · rintro ⟨h1, h2⟩
          refine ⟨?_, h1, fun i b hi hb => h2 (i + 1) b (by simpa using hi) (by simpa using hb)⟩
          cases t with
          | ref => simpa [ElemTy.constructible] using h2 0 a (by simp) (by simp)
          | _ => rfl
  rw [← key]
  unfold Tup.make
  split <;> simp_all

/-- C63: the copy of a tuple, possibly with elements of other types (values from references, references from values): its
elements come from those of the parent. -/
theorem c63_copy (m : Objs α) (ts : List ElemTy) (parent : Tup) (srcs : List Nat)
    (hsrcs : ∀ i, srcs[i]? = (parent.get true i).map Prod.fst) (ha : ∀ s ∈ srcs, Alive m s)
    (r : Res (Tup × Objs α)) (h : Tup.convert m ts parent = some r) :
    ∃ t m', r = .ok (t, m') ∧ Tup.Built m m' ts srcs t := by
  have hs : srcs = parent.constArgs.map TupArg.obj := by
    rw [Tup.constArgs_obj]
    exact List.ext_getElem? fun i => by rw [hsrcs, Tup.objs_get]
  rw [hs]
  exact c63_constructor m ts parent.constArgs
    (fun a hmem => ha _ (by rw [hs]; exact List.mem_map_of_mem hmem)) r h

/-- C63: the constructor from a first element and a tuple of the other ones. -/
theorem c63_concatenation (m : Objs α) (ts : List ElemTy) (head : TupArg) (tail : Tup) (srcs : List Nat)
    (hsrcs : ∀ i, srcs[i]? = (tail.get true i).map Prod.fst) (ha : ∀ s ∈ head.obj :: srcs, Alive m s)
    (r : Res (Tup × Objs α)) (h : Tup.concat m ts head tail = some r) :
    ∃ t m', r = .ok (t, m') ∧ Tup.Built m m' ts (head.obj :: srcs) t := by
  have hs : srcs = tail.objs := List.ext_getElem? fun i => by rw [hsrcs, Tup.objs_get]
  subst hs
  cases ts with
  | nil => simp [Tup.concat] at h
  | cons t ts =>
    obtain ⟨as, h1, h2, rfl⟩ := Tup.concat_eq h (ha _ List.mem_cons_self)
    obtain ⟨T, m', h3, h4, -⟩ := Tup.init_ok (m := m) (ts := t :: ts) (as := head :: as) (by simp [h1]) (by
      intro a hmem
      have : a.obj ∈ (head :: as).map TupArg.obj := List.mem_map_of_mem hmem
      rw [List.map_cons, h2] at this
      exact ha _ this)
    refine ⟨T, m', h3, ?_⟩
    rw [List.map_cons, h2] at h4
    exact h4

/-- C63: there is one if the numbers of elements agree, and only lvalues that are not constant are bound to elements `T&`: of a
tuple given for the other elements, those are its own elements `T&`. -/
theorem c63_concatenation_exists (m : Objs α) (ts : List ElemTy) (head : TupArg) (tail : Tup) (ha : Alive m head.obj) :
    (Tup.concat m ts head tail).isSome = true ↔
      ts.length = tail.types.length + 1 ∧ (ts[0]? = some .ref → head.cat = .lvalue) ∧
        ∀ i : Nat, ts[i + 1]? = some .ref → tail.types[i]? = some .ref := by
  cases ts with
  | nil => simp [Tup.concat]
  | cons t ts =>
    have hc : t.constructible head.cat = true ↔ (t = .ref → head.cat = .lvalue) := by
      cases t <;> simp [ElemTy.constructible]
    have hinit : ∃ o m', initElem m t head = .ok (o, m') := by
      obtain ⟨v, hv⟩ := ha
      cases t <;> simp [initElem, hv]
    obtain ⟨o, m', hi⟩ := hinit
    have hcat : ∀ (T : Tup) (i : Nat), ((T.constArgs)[i]?).map TupArg.cat =
        (T.types[i]?).map fun ty => if ty = ElemTy.ref then .lvalue else .constLvalue := by
      intro T
      induction T with
      | nil => intro i; simp [Tup.constArgs, Tup.types]
      | cons ty o rest ih => intro i; cases ty <;> cases i <;> simp [Tup.constArgs, Tup.types, ih]
    have hm : (Tup.moveOrConvert m' ts tail).isSome = true ↔
        ts.length = tail.types.length ∧ ∀ i : Nat, ts[i]? = some .ref → tail.types[i]? = some .ref := by
      unfold Tup.moveOrConvert
      by_cases hty : tail.types = ts
      · rw [if_pos hty]; simp [hty]
      · rw [if_neg hty, Tup.convert, c63_constructor_exists, Tup.length_constArgs, ← Tup.length_types]
        constructor
        · rintro ⟨h1, h2⟩
          refine ⟨h1.symm, fun i h => ?_⟩
          have hlt : i < tail.types.length := by rw [h1]; exact (List.getElem?_eq_some_iff.1 h).1
          have := hcat tail i
          rw [List.getElem?_eq_getElem hlt] at this ⊢
          obtain ⟨a, ha⟩ : ∃ a, tail.constArgs[i]? = some a := by
            cases hx : tail.constArgs[i]? with
            | none => simp [hx] at this
            | some a => exact ⟨a, rfl⟩
          have h3 := h2 i a h ha
          rw [ha] at this
          simp only [Option.map_some, Option.some.injEq, h3] at this
          by_cases hr : tail.types[i] = .ref
          · rw [hr]
          · simp [hr] at this
        · rintro ⟨h1, h2⟩
          refine ⟨h1.symm, fun i a h ha => ?_⟩
          have := hcat tail i
          rw [h2 i h, ha] at this
          simpa using this
    rw [show (t :: ts).length = ts.length + 1 from rfl, Nat.add_right_cancel_iff]
    simp only [List.getElem?_cons_zero, Option.some.injEq, List.getElem?_cons_succ]
    simp only [Tup.concat, hi]
    by_cases hk : t.constructible head.cat = true
    · rw [if_pos hk]
      simp only [Option.isSome_map, hm, hc.1 hk, implies_true, true_and]
      exact ⟨fun ⟨a, b⟩ => ⟨a, hc.1 hk, b⟩, fun ⟨a, _, b⟩ => ⟨a, b⟩⟩
    · rw [if_neg hk]
      simp only [Option.isSome_none, Bool.false_eq_true, false_iff]
      exact fun ⟨_, b, _⟩ => hk (hc.2 b)

/-- C63: `tie` always works, and gives a tuple of references. -/
theorem c63_tie (m : Objs α) (as : List (Nat × Bool)) :
    ∃ t, Tup.tie m as = some (.ok (t, m)) ∧
      ∀ (c : Bool) (i : Nat), t.get c i = (as[i]?).map fun a => (a.1, c || a.2) := by
  have key : ∀ as : List (Nat × Bool), ∃ t, Tup.init m (as.map fun a => if a.2 then .cref else .ref)
      (as.map fun a => ⟨a.1, if a.2 then .constLvalue else .lvalue⟩) = .ok (t, m) ∧
      ∀ (c : Bool) (i : Nat), t.get c i = (as[i]?).map fun a => (a.1, c || a.2) := by
    intro as
    induction as with
    | nil => exact ⟨.nil, rfl, fun c i => by simp [Tup.get]⟩
    | cons a as ih =>
      obtain ⟨t, h1, h2⟩ := ih
      obtain ⟨o, k⟩ := a
      cases k with
      | false =>
        refine ⟨.cons .ref o t, by simp only [List.map_cons, Bool.false_eq_true, if_false, Tup.init, initElem, h1, Res.map],
          fun c i => ?_⟩
        cases i <;> simp [Tup.get, h2]
      | true =>
        refine ⟨.cons .cref o t, by simp only [List.map_cons, if_true, Tup.init, initElem, h1, Res.map], fun c i => ?_⟩
        cases i <;> simp [Tup.get, h2]
  have hacc : ∀ as : List (Nat × Bool), Tup.accepts (as.map fun a => if a.2 then .cref else .ref)
      (as.map fun a => (⟨a.1, if a.2 then .constLvalue else .lvalue⟩ : TupArg)) = true := by
    intro as
    induction as with
    | nil => rfl
    | cons a as ih =>
      obtain ⟨o, k⟩ := a
      cases k <;> simp [Tup.accepts, ElemTy.constructible, ih]
  obtain ⟨t, h1, h2⟩ := key as
  exact ⟨t, by simp only [Tup.tie, Tup.make, hacc, if_true, h1], h2⟩

/-- C63: `make_tuple` always works, and gives a tuple of values. -/
theorem c63_make_tuple (m : Objs α) (as : List TupArg) (ha : ∀ a ∈ as, Alive m a.obj) :
    ∃ t m', Tup.makeTuple m as = some (.ok (t, m')) ∧
      Tup.Built m m' (List.replicate as.length .val) (as.map TupArg.obj) t := by
  have hrep : (as.map fun _ => ElemTy.val) = List.replicate as.length .val := List.map_const' ..
  have hacc : (Tup.make m (List.replicate as.length .val) as).isSome = true := by
    rw [c63_constructor_exists]
    refine ⟨by simp, fun i a h => ?_⟩
    simp [List.getElem?_replicate] at h
  obtain ⟨r, hr⟩ := Option.isSome_iff_exists.1 hacc
  obtain ⟨t, m', h1, h2⟩ := c63_constructor m _ as ha r hr
  exact ⟨t, m', by rw [Tup.makeTuple, hrep, hr, h1], h2⟩

/-- C63: the tuples of proxies, which are made by concatenation, element by element, with temporary tuples, are what the main
constructor makes; it does not matter that the temporary tuples are gone. -/
theorem c63_proxy (m : Objs α) (ts : List ElemTy) (as : List TupArg) (ha : ∀ a ∈ as, Alive m a.obj)
    (r : Res (Tup × Objs α)) (h : Tup.makeProxy m ts as = some r) :
    ∃ t m', r = .ok (t, m') ∧ Tup.Built m m' ts (as.map TupArg.obj) t := by
  suffices H : ∃ t m', r = .ok (t, m') ∧ Tup.Built m m' ts (as.map TupArg.obj) t ∧ t.types = ts ∧ m.length ≤ m'.length ∧
      as.length = ts.length by
    obtain ⟨t, m', h1, h2, -⟩ := H
    exact ⟨t, m', h1, h2⟩
  induction ts generalizing as r with
  | nil => simp [Tup.makeProxy] at h
  | cons t ts ih =>
    cases as with
    | nil => cases ts <;> simp [Tup.makeProxy] at h
    | cons a as =>
      by_cases hone : ts = [] ∧ as = []
      · obtain ⟨rfl, rfl⟩ := hone
        simp only [Tup.makeProxy, Tup.make] at h
        split at h
        · rename_i hacc
          obtain ⟨T, m', h1, h2, h3, h4, -⟩ := Tup.init_ok (Tup.accepts_length hacc) ha
          simp only [Option.some.injEq] at h
          exact ⟨T, m', by rw [← h, h1], h2, h3, h4, rfl⟩
        · cases h
      · have hrec : Tup.makeProxy m (t :: ts) (a :: as) = (match Tup.makeProxy m ts as with
            | some (.ok (tail, m)) =>
              (Tup.concat m (t :: ts) a tail).map fun r => r.map fun r => (r.1, Tup.destroy r.2 tail)
            | e => e) := by
          rw [Tup.makeProxy]
          · rfl
          · exact fun h1 h2 => hone ⟨h1, h2⟩
        rw [hrec] at h
        cases hp : Tup.makeProxy m ts as with
        | none => rw [hp] at h; cases h
        | some r1 =>
          obtain ⟨tail, m1, rfl, hB, hty, hle, hlen⟩ := ih as (fun b hb => ha b (List.mem_cons_of_mem _ hb)) r1 hp
          rw [hp] at h
          simp only [Option.map_eq_some_iff] at h
          obtain ⟨r2, hc, rfl⟩ := h
          have hlive : ∀ o, Alive m o → Alive m1 o := fun o ho => by
            obtain ⟨v, hv⟩ := ho
            exact ⟨v, by rw [hB.others _ (Tup.alive_lt ⟨v, hv⟩), hv]⟩
          have hsrc : ∀ s ∈ as.map TupArg.obj, Alive m s := fun s hs => by
            obtain ⟨b, hb, rfl⟩ := List.mem_map.1 hs
            exact ha b (List.mem_cons_of_mem _ hb)
          obtain ⟨as', h1, h2, rfl⟩ := Tup.concat_eq hc (hlive _ (ha a List.mem_cons_self))
          obtain ⟨T, m3, h3, h4, h5, h6, -⟩ := Tup.init_ok (m := m1) (ts := t :: ts) (as := a :: as') (by simp [h1]) (by
            intro b hb
            rcases List.mem_cons.1 hb with rfl | hb
            · exact hlive _ (ha b List.mem_cons_self)
            · have : b.obj ∈ tail.objs := by rw [← h2]; exact List.mem_map_of_mem hb
              exact hB.alive (by simp [hlen]) hsrc _ this)
          rw [List.map_cons, h2] at h4
          refine ⟨T, Tup.destroy m3 tail, by rw [h3]; rfl, ?_, h5, ?_, by simp [hlen]⟩
          · exact Tup.Built.from_tail hle (ha a List.mem_cons_self) hsrc (by simp [hlen]) hB hty h4
          · have : ∀ (m : Objs α) (t : Tup), (Tup.destroy m t).length = m.length := by
              intro m t
              induction t generalizing m with
              | nil => rfl
              | cons ty o rest ih => cases ty <;> simp [Tup.destroy, ih]
            rw [this]
            omega

/-- C63: assigning to an element that is a value changes this element, no other element, and no object outside of the
tuple. -/
theorem c63_assign_value (m m' : Objs α) (ts : List ElemTy) (srcs : List Nat) (t : Tup) (hB : Tup.Built m m' ts srcs t)
    (hl : srcs.length = ts.length) (hs : ∀ s ∈ srcs, Alive m s) (i : Nat) (hi : ts[i]? = some .val) (v : α) :
    ∃ m'', t.assign m' i v = some m'' ∧ t.read m'' i = some v ∧ (∀ j, j ≠ i → t.read m'' j = t.read m' j) ∧
      ∀ o < m.length, m''[o]? = m[o]? := by
  have hlt : i < srcs.length := by rw [hl]; exact (List.getElem?_eq_some_iff.1 hi).1
  obtain ⟨o, h1, h2, h3⟩ := hB.value false i _ hi (List.getElem?_eq_getElem hlt)
  obtain ⟨o', h1', h2', h3'⟩ := hB.value true i _ hi (List.getElem?_eq_getElem hlt)
  have hoo : o' = o := by
    have e1 := Tup.objs_get t false i
    have e2 := Tup.objs_get t true i
    rw [h1] at e1
    rw [h1'] at e2
    simpa using e2.symm.trans e1
  subst hoo
  have hin : o' < m'.length := by
    obtain ⟨w, hw⟩ := hs _ (List.getElem_mem hlt)
    rw [hw] at h3
    exact (List.getElem?_eq_some_iff.1 h3).1
  refine ⟨m'.set o' (some v), by simp [Tup.assign, h1], by simp [Tup.read, h1', hin], fun j hj => ?_, fun p hp => ?_⟩
  · unfold Tup.read
    cases hg : t.get true j with
    | none => rfl
    | some q =>
      obtain ⟨p, l⟩ := q
      have hne : o' ≠ p := by
        rintro rfl
        exact hB.distinct true i j o' true l hi (Ne.symm hj) h1' hg
      simp only [List.getElem?_set_ne hne]
  · rw [List.getElem?_set_ne (by omega), hB.others p hp]

/-- C63: assigning to an element that is a reference changes the object it was made from, and no other object. -/
theorem c63_assign_reference (m m' : Objs α) (ts : List ElemTy) (srcs : List Nat) (t : Tup)
    (hB : Tup.Built m m' ts srcs t) (i s : Nat) (hi : ts[i]? = some .ref) (hsrc : srcs[i]? = some s) (v : α) :
    t.assign m' i v = some (m'.set s (some v)) := by
  simp [Tup.assign, hB.reference false i s hi hsrc]

/-- C63: later changes of the sources are seen through the elements that are references, and only through these. -/
theorem c63_sources (m m' : Objs α) (ts : List ElemTy) (srcs : List Nat) (t : Tup) (hB : Tup.Built m m' ts srcs t)
    (hl : srcs.length = ts.length) (hs : ∀ s ∈ srcs, Alive m s) (o : Nat) (ho : Alive m o) (v : α) (i s : Nat)
    (hsrc : srcs[i]? = some s) :
    t.read (m'.set o (some v)) i =
      if ts[i]? ≠ some .val ∧ s = o then some v else (m[s]?).join := by
  have hlt : i < ts.length := by rw [← hl]; exact (List.getElem?_eq_some_iff.1 hsrc).1
  have hsa := hs s (List.mem_of_getElem? hsrc)
  have hsl := Tup.alive_lt hsa
  have hol := Tup.alive_lt ho
  have hm : o < m'.length := by
    obtain ⟨w, hw⟩ := ho
    rw [← hB.others o hol] at hw
    exact (List.getElem?_eq_some_iff.1 hw).1
  have hrf : ∀ k, t.get true i = some (s, k) → t.read (m'.set o (some v)) i = if s = o then some v else (m[s]?).join := by
    intro k hk
    simp only [Tup.read, hk]
    by_cases hso : s = o
    · subst hso
      rw [List.getElem?_set_self (by omega)]
      simp
    · rw [List.getElem?_set_ne (Ne.symm hso), hB.others s hsl, if_neg hso]
  cases hj : ts[i] with
  | val =>
    have hi : ts[i]? = some .val := by rw [List.getElem?_eq_getElem hlt, hj]
    obtain ⟨p, h1, h2, h3⟩ := hB.value true i s hi hsrc
    rw [if_neg (by simp [hi])]
    simp only [Tup.read, h1]
    rw [List.getElem?_set_ne (by omega), h3]
  | ref =>
    have hi : ts[i]? = some .ref := by rw [List.getElem?_eq_getElem hlt, hj]
    rw [hrf _ (hB.reference true i s hi hsrc)]
    simp [hi]
  | cref =>
    have hi : ts[i]? = some .cref := by rw [List.getElem?_eq_getElem hlt, hj]
    rw [hrf _ (hB.constReference true i s hi hsrc)]
    simp [hi]

/-- C63: through a tuple that is constant nothing can be changed, not even with elements that are references. -/
theorem c63_constant (t : Tup) (i o : Nat) (k : Bool) (h : t.get true i = some (o, k)) : k = true := by
  induction t generalizing i with
  | nil => simp [Tup.get] at h
  | cons ty p rest ih =>
    cases i with
    | zero =>
      simp only [Tup.get, Bool.true_or, Option.some.injEq, Prod.mk.injEq] at h
      exact h.2.symm
    | succ i => exact ih i (by simpa [Tup.get] using h)

/-- C63: but a copy of it can be used to change what they refer to. -/
theorem c63_constant_copy : ∃ (m : Objs Nat) (t t' : Tup) (m' : Objs Nat),
    t.get true 0 = some (0, true) ∧ Tup.convert m [.ref] t = some (.ok (t', m')) ∧ t'.assign m' 0 5 = some [some 5] := by
  exact ⟨[some 1], .cons .ref 0 .nil, .cons .ref 0 .nil, [some 1], rfl, rfl, rfl⟩

/-- C63: nothing prevents a tuple of references to constants from being made of a tuple of values that is about to end its
life: here the element refers to an object that is gone. -/
theorem c63_dangling : ∃ (m : Objs Nat) (parent : Tup), (∀ o, parent.get true 0 = some (o, true) → Alive m o) ∧
    ∃ t, Tup.convert m [.cref] parent = some (.ok (t, m)) ∧ t.read (Tup.destroy m parent) 0 = none :=
  ⟨[some 7], .cons .val 0 .nil, fun o h => by
    simp only [Tup.get, Bool.true_or, Option.some.injEq, Prod.mk.injEq] at h
    exact ⟨7, by rw [← h.1]; rfl⟩, .cons .cref 0 .nil, rfl, rfl⟩

/-! ### Non-vacuity -/

/-- Three objects, a value, a reference and a reference to a constant made from them. -/
example : Tup.make [some 1, some 2, some 3] [.val, .ref, .cref] [⟨0, .lvalue⟩, ⟨1, .lvalue⟩, ⟨2, .rvalue⟩] =
    some (.ok (.cons .val 3 (.cons .ref 1 (.cons .cref 2 .nil)), [some 1, some 2, some 3, some 1])) := by rfl

/-- There is no constructor that binds an rvalue to an element `T&`. -/
example : Tup.make [some 1] [.ref] [⟨0, .rvalue⟩] = none := by rfl

/-- A proxy with two references and a value. -/
example : Tup.makeProxy [some 1, some 2, some 3] [.ref, .val, .ref] [⟨0, .lvalue⟩, ⟨1, .rvalue⟩, ⟨2, .lvalue⟩] =
    some (.ok (.cons .ref 0 (.cons .val 4 (.cons .ref 2 .nil)), [some 1, some 2, some 3, none, some 2])) := by rfl

/-- Assigning to the second element of `tie(a, b)`. -/
example : ∃ t, Tup.tie [some 1, some 2] [(1, false), (0, false)] = some (.ok (t, [some 1, some 2])) ∧
    t.assign [some 1, some 2] 1 9 = some [some 9, some 2] := ⟨_, rfl, rfl⟩

example : ∀ a ∈ [(⟨0, .lvalue⟩ : TupArg), ⟨1, .lvalue⟩, ⟨2, .rvalue⟩], Alive [some 1, some 2, some 3] a.obj := by
  simp [Alive]

end Vecmem.Props
