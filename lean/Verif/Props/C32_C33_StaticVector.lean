import Verif.Lemmas.StaticVector
import Verif.Model.Layout

/-!
# C32, C33 and C53: `static_vector`

Vocabulary: `Verif/Spec/StaticVector.lean`.  A program works on any number of vectors of one type; `specRun` says what it
does to lists, and with `all = false` leaves out the operations for which the claims are false (see the witnesses below).
-/

namespace Vecmem
namespace Props

variable {α : Type}

/-- **C32**, in full: every program that is within the capacity gives what the same program on lists gives.  This is
false, see `c32_false`. -/
def C32Full : Prop :=
  ∀ (α : Type) (dbg triv : Bool) (dflt : α) (cap slots : Nat) (ops : List (SWOp α)) (rs : List (Ret α))
    (ls : List (Option (List α))), cap < 2 ^ 64 →
    specRun true triv dflt cap (List.replicate slots none) ops = some (rs, ls) →
    ((SVWorld.init dbg triv dflt cap slots).run ops).1 = rs.map .ok

/-- **C32**, partial: every program without the operations marked in the specification gives, with or without assertions,
what the same program on lists gives, and afterwards the vectors hold the resulting lists.  Missing: passing `insert`,
`emplace` or `assign` certain references to elements of the vector itself, and, for types that are not trivial, the
sized constructor and the copy assignment. -/
theorem c32_bounded_list_partial (dbg triv : Bool) (dflt : α) (cap slots : Nat) (hcap : cap < 2 ^ 64)
    (ops : List (SWOp α)) (rs : List (Ret α)) (ls : List (Option (List α)))
    (h : specRun false triv dflt cap (List.replicate slots none) ops = some (rs, ls)) :
    ((SVWorld.init dbg triv dflt cap slots).run ops).1 = rs.map .ok ∧
    ∃ oss, ((SVWorld.init dbg triv dflt cap slots).run ops).2.Holds oss ∧ values oss = ls := by
  obtain ⟨oss, h1, h2, h3, -⟩ := SVWorld.run_ok ops (SVWorld.init_holds dbg triv dflt cap slots) hcap (rs := rs)
    (ls' := ls) (by rw [values, List.map_replicate]; exact h)
  exact ⟨h1, oss, h2, h3⟩

/-- A program that uses most operations, on two vectors of capacity 8. -/
def svProgram : List (SWOp Nat) :=
  [.newRange 0 [10, 20, 30], .op 0 (.push (.elem 1)), .op 0 (.insert 2 (.elem 0)), .op 0 (.insertCount 4 2 (.val 7)),
   .newCopy 1 0, .op 0 (.erase 1), .op 0 (.eraseRange 0 2), .op 0 (.insertRange 1 [1, 2]), .op 0 .iterate,
   .op 1 .iterateBack, .op 1 (.resizeValue 2 (.elem 6)), .op 1 .pop, .op 1 (.assign 3 (.val 5)), .op 1 .iterate]

/-- The hypothesis of `c32_bounded_list_partial` is met. -/
example : specRun false false 0 8 [none, none] svProgram =
    some ([.unit, .unit, .num 2, .num 4, .unit, .num 1, .num 0, .num 1, .vals [30, 1, 2, 7, 7, 20],
      .vals [20, 7, 7, 30, 10, 20, 10], .unit, .unit, .unit, .vals [5, 5, 5]],
      [some [30, 1, 2, 7, 7, 20], some [5, 5, 5]]) := by rfl

/-- **C32**, assertions: when they are enabled, no access with an index behind the last element gives a value. -/
theorem c32_at_checked (s : SV α) (i : Nat) (hd : s.dbg = true) (h : s.size ≤ i) : s.at_ i = .ub := by
  simp [SV.at_, hd, Nat.not_lt.2 h]

/-- **C32** is false: a reference to an element of the vector that has been moved away is read after the move. -/
theorem c32_insert_own_element :
    specRun true true 0 8 [none] [.newRange 0 [1, 2, 3], .op 0 (.insert 0 (.elem 1)), .op 0 .iterate] =
      some ([.unit, .num 0, .vals [2, 1, 2, 3]], [some [2, 1, 2, 3]]) ∧
    ((SVWorld.init true true 0 8 1).run
      [.newRange 0 [1, 2, 3], .op 0 (.insert 0 (.elem 1)), .op 0 .iterate]).1 =
      [.ok .unit, .ok (.num 0), .ok (.vals [1, 1, 2, 3])] := by
  constructor <;> rfl

/-- **C32** is false (`C32Full` has counterexamples). -/
theorem c32_false : ¬ C32Full := by
  intro h
  have := h Nat true true 0 8 1 _ _ _ (by decide) c32_insert_own_element.1
  rw [c32_insert_own_element.2] at this
  exact absurd this (by decide)

/-- The same for `emplace` and for the insertion of several copies. -/
theorem c32_insert_own_element_forms :
    ((SVWorld.init true true 0 8 1).run
      [.newRange 0 [1, 2, 3], .op 0 (.emplace 0 (.elem 1)), .op 0 .iterate]).1 =
      [.ok .unit, .ok (.num 0), .ok (.vals [1, 1, 2, 3])] ∧
    ((SVWorld.init true true 0 8 1).run
      [.newRange 0 [1, 2, 3], .op 0 (.insertCount 0 2 (.elem 2)), .op 0 .iterate]).1 =
      [.ok .unit, .ok (.num 0), .ok (.vals [1, 1, 1, 2, 3])] := by
  constructor <;> rfl

/-- `assign` with a reference to an own element, of a type that is not trivial, reads a destroyed object. -/
theorem c32_assign_own_element :
    ((SVWorld.init true false 0 8 1).run [.newRange 0 [1, 2, 3], .op 0 (.assign 2 (.elem 1))]).1 =
      [.ok .unit, .ub] := by rfl

/-- **C33**, in full: every program within the capacity destroys only living elements, and the living objects are at the
end exactly the elements of the remaining vectors.  This is false, see `c33_false`. -/
def C33Full : Prop :=
  ∀ (α : Type) (dbg : Bool) (dflt : α) (cap slots : Nat) (ops : List (SWOp α)) (rs : List (Ret α))
    (ls : List (Option (List α))), cap < 2 ^ 64 →
    specRun true false dflt cap (List.replicate slots none) ops = some (rs, ls) →
    (∀ r ∈ ((SVWorld.init dbg false dflt cap slots).run ops).1, r ≠ .ub) ∧
    ((SVWorld.init dbg false dflt cap slots).run ops).2.alive.length = (ls.map fun l => (l.getD []).length).sum

/-- **C33**, partial: over every program without the marked operations, no destructor is called where no living object
is (that would be undefined), and the objects that are alive — constructed and not yet destroyed — are exactly the
elements of the vectors, each one once.  In particular none is left when the vectors have been destroyed.  Missing: the
sized constructor, the copy assignment, and references to own elements. -/
theorem c33_lifetimes_partial (dbg : Bool) (dflt : α) (cap slots : Nat) (hcap : cap < 2 ^ 64)
    (ops : List (SWOp α)) (rs : List (Ret α)) (ls : List (Option (List α)))
    (h : specRun false false dflt cap (List.replicate slots none) ops = some (rs, ls)) :
    (∀ r ∈ ((SVWorld.init dbg false dflt cap slots).run ops).1, r ≠ .ub) ∧
    (∃ oss : List (Option (List (Nat × α))), values oss = ls ∧
      ((SVWorld.init dbg false dflt cap slots).run ops).2.Holds oss ∧
      ((SVWorld.init dbg false dflt cap slots).run ops).2.alive.Perm (oss.flatMap fun o => (o.getD []).map (·.1)) ∧
      ((SVWorld.init dbg false dflt cap slots).run ops).2.alive.Nodup) ∧
    ((SVWorld.init dbg false dflt cap slots).run ops).2.alive.length = (ls.map fun l => (l.getD []).length).sum ∧
    ((∀ l ∈ ls, l = none) → ((SVWorld.init dbg false dflt cap slots).run ops).2.alive = []) := by
  obtain ⟨oss, h1, h2, h3, k1, k2, k3, k4⟩ := SVWorld.run_ok ops (SVWorld.init_holds dbg false dflt cap slots) hcap
    (rs := rs) (ls' := ls) (by rw [values, List.map_replicate]; exact h)
  have ha := h2.alive k2
  have hlen : ((SVWorld.init dbg false dflt cap slots).run ops).2.alive.length =
      (ls.map fun l => (l.getD []).length).sum := by
    rw [ha.length_eq, List.length_flatMap, ← h3, values, List.map_map]
    congr 1
    apply List.map_congr_left
    intro o _
    cases o <;> simp
  refine ⟨?_, ⟨oss, h3, h2, ha, h2.nodup k2⟩, hlen, ?_⟩
  · intro r hr
    rw [h1, List.mem_map] at hr
    obtain ⟨x, -, rfl⟩ := hr
    exact fun e => nomatch e
  · intro hn
    apply List.eq_nil_of_length_eq_zero
    rw [hlen]
    apply List.sum_eq_zero_iff_forall_eq_nat.2
    intro x hx
    rw [List.mem_map] at hx
    obtain ⟨l, hl, rfl⟩ := hx
    rw [hn l hl]
    rfl

/-- The hypothesis of `c33_lifetimes_partial` is met: a program that creates, modifies and destroys two vectors; the
objects of the second one are alive at the end. -/
example : specRun false false 0 8 [none, none] (svProgram ++ [.destroy 0]) =
    some ([.unit, .unit, .num 2, .num 4, .unit, .num 1, .num 0, .num 1, .vals [30, 1, 2, 7, 7, 20],
      .vals [20, 7, 7, 30, 10, 20, 10], .unit, .unit, .unit, .vals [5, 5, 5], .unit], [none, some [5, 5, 5]]) ∧
    ((SVWorld.init true false 0 8 2).run (svProgram ++ [.destroy 0])).2.alive.length = 3 := by
  constructor <;> rfl

/-- **C33** is false: the sized constructor destroys elements that were never constructed. -/
theorem c33_sized_constructor :
    specRun true false 0 8 [none] [.newFill 0 2 7] = some ([.unit], [some [7, 7]]) ∧
    ((SVWorld.init true false 0 8 1).run [.newFill 0 2 7]).1 = [.ub] := by
  constructor <;> rfl

/-- **C33** is false (`C33Full` has counterexamples). -/
theorem c33_false : ¬ C33Full := by
  intro h
  have := (h Nat true 0 8 1 _ _ _ (by decide) c33_sized_constructor.1).1
  rw [c33_sized_constructor.2] at this
  exact this .ub (by simp) rfl

/-- **C33** is false: the copy assignment copies bytes.  The old element of the target is never destroyed, and the
element of the source is destroyed twice. -/
theorem c33_copy_assignment :
    ((SVWorld.init true false 0 8 2).run
      [.newRange 0 [1], .newRange 1 [2], .copyAssign 0 1, .destroy 0, .destroy 1]).1 =
      [.ok .unit, .ok .unit, .ok .unit, .ok .unit, .ub] ∧
    ((SVWorld.init true false 0 8 2).run [.newRange 0 [1], .newRange 1 [2], .copyAssign 0 1, .destroy 0]).2.alive =
      [0] := by
  constructor <;> rfl

/-- **C53**, partial: the elements of a `static_vector` placed where its class alignment allows are aligned for their
type, if the alignment of the type is at most that of `std::size_t`.  Missing: types with a stricter alignment, for
which this is false. -/
theorem c53_elements_aligned_partial (elem : CType) (maxSize object i : Nat) (ha : elem.align ∣ 8)
    (hs : elem.align ∣ elem.size) (ho : classAlign (staticVectorMembers elem maxSize) ∣ object) :
    elem.align ∣ staticVectorElement elem maxSize object i := by
  have hoff : staticVectorArray elem maxSize = 8 := by
    simp [staticVectorArray, staticVectorMembers, memberOffsets, sizeT, padTo]
  have hc : classAlign (staticVectorMembers elem maxSize) = 8 := by
    simp [classAlign, staticVectorMembers, sizeT]
  rw [hc] at ho
  rw [staticVectorElement, hoff]
  exact Nat.dvd_add (Nat.dvd_add (ha.trans ho) ha) (Nat.dvd_mul_left_of_dvd hs i)

/-- The layout of a class: every member lies at an offset that its alignment allows, and behind the end of the one
declared before it. -/
theorem c53_member_offsets (offset : Nat) (ms : List CType) (h : ∀ m ∈ ms, 0 < m.align) :
    (memberOffsets offset ms).1.length = ms.length ∧
    (∀ (i o : Nat) (m : CType), (memberOffsets offset ms).1[i]? = some o → ms[i]? = some m →
      m.align ∣ o ∧ offset ≤ o ∧ o + m.size ≤ (memberOffsets offset ms).2 ∧
      ∀ o', (memberOffsets offset ms).1[i + 1]? = some o' → o + m.size ≤ o') := by
  induction ms generalizing offset with
  | nil => simp [memberOffsets]
  | cons c ms ih =>
    have hc := h c (by simp)
    have hpad : offset ≤ padTo offset c.align := by
      have h1 := Nat.div_add_mod (offset + c.align - 1) c.align
      have h2 := Nat.mod_lt (offset + c.align - 1) hc
      have h3 := Nat.mul_comm c.align ((offset + c.align - 1) / c.align)
      unfold padTo
      omega
    have hd : c.align ∣ padTo offset c.align := Nat.dvd_mul_left _ _
    have hend : ∀ (ms : List CType) (q : Nat), (∀ m ∈ ms, 0 < m.align) → q ≤ (memberOffsets q ms).2 := by
      intro ms
      induction ms with
      | nil => intro q _; exact Nat.le_refl _
      | cons d ms ih' =>
        intro q hq
        have h0 := hq d (by simp)
        have h1 := Nat.div_add_mod (q + d.align - 1) d.align
        have h2 := Nat.mod_lt (q + d.align - 1) h0
        have h3 := Nat.mul_comm d.align ((q + d.align - 1) / d.align)
        have h4 := ih' (padTo q d.align + d.size) (fun m hm => hq m (by simp [hm]))
        simp only [memberOffsets]
        unfold padTo at h4 ⊢
        omega
    obtain ⟨i1, i2⟩ := ih (padTo offset c.align + c.size) (fun m hm => h m (by simp [hm]))
    refine ⟨by simp [memberOffsets, i1], ?_⟩
    intro i o m ho hm
    cases i with
    | zero =>
      simp only [memberOffsets, List.getElem?_cons_zero, Option.some.injEq] at ho hm
      subst ho hm
      refine ⟨hd, hpad, hend ms _ (fun m hm => h m (by simp [hm])), ?_⟩
      intro o' ho'
      simp only [memberOffsets, List.getElem?_cons_succ] at ho'
      cases ms with
      | nil => simp [memberOffsets] at ho'
      | cons d ms => exact (i2 0 o' d ho' rfl).2.1
    | succ i =>
      simp only [memberOffsets, List.getElem?_cons_succ] at ho hm ⊢
      obtain ⟨j1, j2, j3, j4⟩ := i2 i o m ho hm
      exact ⟨j1, by omega, j3, j4⟩

/-- If alignments are powers of two, then every member of an object that is placed where its class alignment allows is aligned
for its own type, and the class alignment is that of a member, or 1. -/
theorem c53_members_aligned (ms : List CType) (h : ∀ m ∈ ms, ∃ k, m.align = 2 ^ k) :
    (∀ (object i o : Nat) (m : CType), classAlign ms ∣ object → (memberOffsets 0 ms).1[i]? = some o → ms[i]? = some m →
      m.align ∣ object + o) ∧ (classAlign ms = 1 ∨ ∃ m ∈ ms, classAlign ms = m.align) := by
  have hmax : ∀ j k : Nat, (2 : Nat) ^ j ∣ max (2 ^ j) (2 ^ k) ∧ (2 : Nat) ^ k ∣ max (2 ^ j) (2 ^ k) := by
    intro j k
    rcases Nat.le_total j k with hjk | hjk
    · have h1 := Nat.pow_le_pow_right (n := 2) (by decide) hjk
      rw [Nat.max_eq_right h1]
      exact ⟨Nat.pow_dvd_pow 2 hjk, Nat.dvd_refl _⟩
    · have h1 := Nat.pow_le_pow_right (n := 2) (by decide) hjk
      rw [Nat.max_eq_left h1]
      exact ⟨Nat.dvd_refl _, Nat.pow_dvd_pow 2 hjk⟩
  have key : ∀ ms : List CType, (∀ m ∈ ms, ∃ k, m.align = 2 ^ k) →
      (∃ k, classAlign ms = 2 ^ k) ∧ (∀ m ∈ ms, m.align ∣ classAlign ms) ∧
      (classAlign ms = 1 ∨ ∃ m ∈ ms, classAlign ms = m.align) := by
    intro ms
    induction ms with
    | nil => intro _; exact ⟨⟨0, rfl⟩, by simp, .inl rfl⟩
    | cons m ms ih =>
      intro h
      obtain ⟨⟨k, hk⟩, h2, h3⟩ := ih fun x hx => h x (by simp [hx])
      obtain ⟨j, hj⟩ := h m (by simp)
      have e : classAlign (m :: ms) = max m.align (classAlign ms) := rfl
      have hm := hmax j k
      rw [← hj, ← hk, ← e] at hm
      refine ⟨?_, ?_, ?_⟩
      · rw [e]
        rcases Nat.le_total m.align (classAlign ms) with hle | hle
        · exact ⟨k, by rw [Nat.max_eq_right hle, hk]⟩
        · exact ⟨j, by rw [Nat.max_eq_left hle, hj]⟩
      · intro x hx
        rcases List.mem_cons.1 hx with rfl | hx
        · exact hm.1
        · exact (h2 x hx).trans hm.2
      · rw [e]
        rcases Nat.le_total m.align (classAlign ms) with hle | hle
        · rw [Nat.max_eq_right hle]
          rcases h3 with h3 | ⟨x, hx, h3⟩
          · exact .inl h3
          · exact .inr ⟨x, by simp [hx], h3⟩
        · rw [Nat.max_eq_left hle]
          exact .inr ⟨m, by simp, rfl⟩
  obtain ⟨-, h2, h3⟩ := key ms h
  refine ⟨?_, h3⟩
  intro object i o m ho hi hm
  have hpos : ∀ m ∈ ms, 0 < m.align := by
    intro m hm
    obtain ⟨k, hk⟩ := h m hm
    rw [hk]
    exact Nat.pow_pos (by decide)
  have h4 := ((c53_member_offsets 0 ms hpos).2 i o m hi hm).1
  exact Nat.dvd_add ((h2 m (List.mem_of_getElem? hm)).trans ho) h4

/-- **C53**, where the elements are: all within the object, behind its size, and one behind the other. -/
theorem c53_elements_within (elem : CType) (maxSize object i : Nat) (hi : i < maxSize) :
    object + sizeT.size ≤ staticVectorElement elem maxSize object i ∧
    staticVectorElement elem maxSize object i + elem.size ≤ object + (memberOffsets 0 (staticVectorMembers elem maxSize)).2 ∧
    staticVectorElement elem maxSize object (i + 1) = staticVectorElement elem maxSize object i + elem.size := by
  have h := Nat.mul_le_mul_right elem.size (Nat.succ_le_of_lt hi)
  have h' := Nat.succ_mul i elem.size
  simp only [staticVectorElement, staticVectorArray, staticVectorMembers, memberOffsets, sizeT, padTo, List.getElem?_cons_succ,
    List.getElem?_cons_zero, Option.getD_some, Nat.succ_eq_add_one] at *
  omega

/-- An `int` vector for 10 elements: 48 bytes, of which the last 4 are the last element. -/
example : (memberOffsets 0 (staticVectorMembers ⟨4, 4⟩ 10)).2 = 48 ∧ staticVectorElement ⟨4, 4⟩ 10 0 9 = 44 := by decide

/-- The alignment of a class with an `int` and a `double` is that of the second member. -/
example : classAlign [⟨4, 4⟩, ⟨8, 8⟩, ⟨1, 1⟩] = 8 := by decide

/-- A `char`, a `double` and an `int`. -/
example : memberOffsets 0 [⟨1, 1⟩, ⟨8, 8⟩, ⟨4, 4⟩] = ([0, 8, 16], 20) := by decide

/-- The hypotheses of `c53_elements_aligned_partial` are met: `int`, and an object at address 24. -/
example : (4 : Nat) ∣ staticVectorElement ⟨4, 4⟩ 10 24 3 :=
  c53_elements_aligned_partial ⟨4, 4⟩ 10 24 3 (by decide) (by decide) (by decide)

/-- **C53** is false: for a type with an alignment of 16 bytes, no object placed at a multiple of 16 has an aligned
first element; and the alignment of the class is 8, so it may be placed anywhere else as well. -/
theorem c53_misaligned (maxSize object : Nat) (h : 16 ∣ object) :
    ¬ 16 ∣ staticVectorElement ⟨16, 16⟩ maxSize object 0 ∧ classAlign (staticVectorMembers ⟨16, 16⟩ maxSize) = 8 := by
  have hoff : staticVectorArray ⟨16, 16⟩ maxSize = 8 := by
    simp [staticVectorArray, staticVectorMembers, memberOffsets, sizeT, padTo]
  refine ⟨?_, by simp [classAlign, staticVectorMembers, sizeT]⟩
  rw [staticVectorElement, hoff]
  omega

end Props
end Vecmem
