import Verif.Lemmas.Misuse
import Verif.Model.EdmDevice

/-!
# C75: misuse of vectors
-/

namespace Vecmem.Props

open Vecmem

variable {α : Type}

/-! ## device vectors -/

/-- C75: no operation of a device vector throws, whatever its state and its arguments are. -/
theorem c75_device_no_exceptions (s : DV α) (op : DVOp α) : NoThrow (s.step op).1 := by
  cases op with
  | push a =>
    refine NoThrow.map _ ?_
    unfold DV.pushBack
    split
    · exact .inl rfl
    · dsimp only
      split
      · exact .inl rfl
      · exact (dv_construct _ _ _).map _
  | emplace a =>
    refine NoThrow.map _ ?_
    unfold DV.emplaceBack
    split
    · exact .inl rfl
    · dsimp only
      split
      · exact .inl rfl
      · split
        · exact .inl rfl
        · exact .inr ⟨_, rfl⟩
  | bulk n => exact (dv_bulk _ _ _).map _
  | bulkValue n a => exact (dv_bulk _ _ _).map _
  | bulkImplicit n =>
    refine NoThrow.map _ ?_
    unfold DV.bulkAppendImplicit
    split
    · exact .inl rfl
    · dsimp only
      split
      · exact .inl rfl
      · exact .inr ⟨_, rfl⟩
  | pop =>
    refine NoThrow.map _ ?_
    unfold DV.popBack
    split
    · exact .inl rfl
    · exact (dv_destruct _ _).map _
  | clear => exact (dv_clear _).map _
  | resize n => exact (dv_resize _ _ _).map _
  | resizeValue n a => exact (dv_resize _ _ _).map _
  | resizeImplicit n =>
    refine NoThrow.map _ ?_
    unfold DV.resizeImplicit
    split
    · exact .inl rfl
    · split
      · exact .inl rfl
      · exact .inr ⟨_, rfl⟩
  | assign n a =>
    refine NoThrow.map _ ?_
    unfold DV.assign
    split
    · exact .inl rfl
    · split
      · exact .inl rfl
      · have h := dv_clear s
        split
        · exact dv_constructs _ _ _ _
        · exact h
  | at_ i =>
    refine NoThrow.map _ ?_
    unfold DV.at_
    split
    · exact .inl rfl
    · exact dv_deref _ _
  | index i => exact (dv_deref _ _).map _
  | write c i v =>
    refine NoThrow.map _ ?_
    unfold DV.write
    split
    · exact .inl rfl
    · split
      · exact .inl rfl
      · exact .inr ⟨_, rfl⟩
  | front =>
    refine NoThrow.map _ ?_
    unfold DV.front
    split
    · exact .inl rfl
    · exact dv_deref _ _
  | back =>
    refine NoThrow.map _ ?_
    unfold DV.back
    split
    · exact .inl rfl
    · exact dv_deref _ _
  | size => exact .inr ⟨_, rfl⟩
  | empty => exact .inr ⟨_, rfl⟩
  | capacity => exact .inr ⟨_, rfl⟩
  | iterate => exact (dv_readFrom _ _ _).map _
  | iterateBack => exact (dv_readBack _ _ _).map _

/-- C75: with assertions enabled, an operation of a device vector that does not fit does not return, whatever the memory holds; no element has
changed, and no memory outside of the vector. -/
theorem c75_device_caught_partial (s : DV α) (hd : s.dbg = true) (hs : s.size ≤ s.cap) (hc : s.cap < 2 ^ 32) (op : DVOp α)
    (h : op.OutOfRange s.size s.cap) :
    (s.step op).1 = .ub ∧ ∀ i, i < s.size ∨ s.cap ≤ i → (s.step op).2.mem i = s.mem i := by
  have hsz : s.hasSize = true → s.size = s.sizeWord := fun h => by simp [DV.size, h]
  have nosize : s.hasSize = false → op.ChangesSize → (s.step op).1 = .ub ∧ (s.step op).2 = s := fun h0 hch => by
    cases op <;> first
      | exact hch.elim
      | simp [DV.step, DV.pushBack, DV.emplaceBack, DV.bulkAppendDefault, DV.bulkAppend, DV.bulkAppendImplicit, DV.popBack, DV.clear,
          DV.resizeDefault, DV.resize, DV.resizeImplicit, DV.assign, h0, Res.map]
  have fixed : op.ChangesSize → s.hasSize = true ∨ ((s.step op).1 = .ub ∧ (s.step op).2 = s) := fun hch => by
    cases h0 : s.hasSize
    · exact .inr (nosize h0 hch)
    · exact .inl rfl
  have done : ((s.step op).1 = .ub ∧ (s.step op).2 = s) →
      (s.step op).1 = .ub ∧ ∀ i, i < s.size ∨ s.cap ≤ i → (s.step op).2.mem i = s.mem i :=
    fun hh => ⟨hh.1, fun i _ => by rw [hh.2]⟩
  cases op with
  | push a =>
    rcases fixed trivial with h0 | h0
    · have h' : s.cap ≤ s.sizeWord := hsz h0 ▸ h
      have : ¬ s.sizeWord < s.cap := by omega
      simp [DV.step, DV.pushBack, h0, DV.fetchAdd, hd, this, Res.map]
    · exact done h0
  | emplace a =>
    rcases fixed trivial with h0 | h0
    · have h' : s.cap ≤ s.sizeWord := hsz h0 ▸ h
      have : ¬ s.sizeWord < s.cap := by omega
      simp [DV.step, DV.emplaceBack, h0, DV.fetchAdd, hd, this, Res.map]
    · exact done h0
  | bulk n =>
    rcases fixed trivial with h0 | h0
    · have h' : s.cap < s.sizeWord + n ∧ s.sizeWord + n < 2 ^ 32 := hsz h0 ▸ h
      have h2 : (s.sizeWord + n) % 2 ^ 32 = s.sizeWord + n := Nat.mod_eq_of_lt h'.2
      have : ¬ s.sizeWord + n ≤ s.cap := by omega
      simp only [DV.step, DV.bulkAppendDefault, DV.bulkAppend, h0, DV.fetchAdd, hd, h2]
      simp [this, Res.map]
    · exact done h0
  | bulkValue n a =>
    rcases fixed trivial with h0 | h0
    · have h' : s.cap < s.sizeWord + n ∧ s.sizeWord + n < 2 ^ 32 := hsz h0 ▸ h
      have h2 : (s.sizeWord + n) % 2 ^ 32 = s.sizeWord + n := Nat.mod_eq_of_lt h'.2
      have : ¬ s.sizeWord + n ≤ s.cap := by omega
      simp only [DV.step, DV.bulkAppend, h0, DV.fetchAdd, hd, h2]
      simp [this, Res.map]
    · exact done h0
  | bulkImplicit n =>
    rcases fixed trivial with h0 | h0
    · have h' : s.cap < s.sizeWord + n ∧ s.sizeWord + n < 2 ^ 32 := hsz h0 ▸ h
      have h2 : (s.sizeWord + n) % 2 ^ 32 = s.sizeWord + n := Nat.mod_eq_of_lt h'.2
      have : ¬ s.sizeWord + n ≤ s.cap := by omega
      simp only [DV.step, DV.bulkAppendImplicit, h0, DV.fetchAdd, hd, h2]
      simp [this, Res.map]
    · exact done h0
  | pop =>
    rcases fixed trivial with h0 | h0
    · have h' : s.sizeWord = 0 := hsz h0 ▸ h
      have h2 : s.cap ≤ 4294967295 := by omega
      simp [DV.step, DV.popBack, h0, h', DV.destruct, hd, h2, Res.map]
    · exact done h0
  | resize n =>
    rcases fixed trivial with h0 | h0
    · have e := hsz h0
      have h' : s.cap < n := h
      have hk := dv_constructs_over s hd hc s.sizeWord (by omega) (.val s.dflt) (n - s.sizeWord) (by omega)
      have n1 : n ≠ s.sizeWord := by omega
      have n2 : ¬ n < s.sizeWord := by omega
      rw [e]
      simp only [DV.step, DV.resizeDefault, DV.resize, h0, n1, n2]
      simp only [Bool.not_true, Bool.false_eq_true, if_false]
      generalize hr : s.constructs s.sizeWord (.val s.dflt) (n - s.sizeWord) = r at hk
      obtain ⟨r1, r2⟩ := r
      obtain ⟨rfl, hk⟩ := hk
      exact ⟨rfl, hk⟩
    · exact done h0
  | resizeValue n a =>
    rcases fixed trivial with h0 | h0
    · have e := hsz h0
      have h' : s.cap < n := h
      have hk := dv_constructs_over s hd hc s.sizeWord (by omega) a (n - s.sizeWord) (by omega)
      have n1 : n ≠ s.sizeWord := by omega
      have n2 : ¬ n < s.sizeWord := by omega
      rw [e]
      simp only [DV.step, DV.resize, h0, n1, n2]
      simp only [Bool.not_true, Bool.false_eq_true, if_false]
      generalize hr : s.constructs s.sizeWord a (n - s.sizeWord) = r at hk
      obtain ⟨r1, r2⟩ := r
      obtain ⟨rfl, hk⟩ := hk
      exact ⟨rfl, hk⟩
    · exact done h0
  | resizeImplicit n =>
    rcases fixed trivial with h0 | h0
    · have h' : s.cap < n := h
      have : ¬ n ≤ s.cap := by omega
      simp [DV.step, DV.resizeImplicit, h0, hd, this, Res.map]
    · exact done h0
  | assign n a =>
    rcases fixed trivial with h0 | h0
    · have h' : s.cap < n := h
      have : ¬ n ≤ s.cap := by omega
      simp [DV.step, DV.assign, h0, hd, this, Res.map]
    · exact done h0
  | at_ i =>
    have : ¬ i < s.size := Nat.not_lt.mpr h
    simp [DV.step, DV.at_, hd, this, Res.map]
  | write c i v =>
    cases c
    · exact h.elim
    · have : ¬ i < s.size := Nat.not_lt.mpr h
      simp [DV.step, DV.write, hd, this, Res.map]
  | front =>
    have : s.size = 0 := h
    simp [DV.step, DV.front, hd, this, Res.map]
  | back =>
    have : s.size = 0 := h
    simp [DV.step, DV.back, hd, this, Res.map]
  | clear => exact h.elim
  | index i => exact h.elim
  | size => exact h.elim
  | empty => exact h.elim
  | capacity => exact h.elim
  | iterate => exact h.elim
  | iterateBack => exact h.elim

/-- C75: a vector that is not resizable rejects all operations that would change its size, with or without assertions, and nothing has
changed. -/
theorem c75_device_fixed (s : DV α) (h0 : s.hasSize = false) (op : DVOp α) (h : op.ChangesSize) :
    (s.step op).1 = .ub ∧ (s.step op).2 = s := by
  cases op <;> first
    | exact h.elim
    | simp [DV.step, DV.pushBack, DV.emplaceBack, DV.bulkAppendDefault, DV.bulkAppend, DV.bulkAppendImplicit, DV.popBack, DV.clear,
        DV.resizeDefault, DV.resize, DV.resizeImplicit, DV.assign, h0, Res.map]

/-- C75: with assertions enabled, no operation of a device vector but an assignment through `operator[]` changes memory outside of the
vector, and if it returns, the size is at most the capacity. -/
theorem c75_device_contained (s : DV α) (hd : s.dbg = true) (hs : s.size ≤ s.cap) (hc : s.cap < 2 ^ 32) (op : DVOp α)
    (hop : ∀ i v, op ≠ .write false i v) :
    (∀ i, s.cap ≤ i → (s.step op).2.mem i = s.mem i) ∧ ((∃ x, (s.step op).1 = .ok x) → (s.step op).2.size ≤ s.cap) := by
  have h := dv_stays s hd hs hc op hop
  exact ⟨h.1, fun hx => h.2.1 ▸ h.2.2.2 hx⟩

/-- C75: the same for a program, which ends with the first operation that does not return. -/
theorem c75_device_programs (s : DV α) (hd : s.dbg = true) (hs : s.size ≤ s.cap) (hc : s.cap < 2 ^ 32) (ops : List (DVOp α))
    (hop : ∀ i v, .write false i v ∉ ops) (hend : ∀ r ∈ (s.run ops).1.dropLast, ∃ x, r = .ok x) (i : Nat) (hi : s.cap ≤ i) :
    (s.run ops).2.mem i = s.mem i := by
  induction ops generalizing s with
  | nil => rfl
  | cons op ops ih =>
    have h := dv_stays s hd hs hc op fun i v he => hop i v (he ▸ List.mem_cons_self ..)
    show ((s.step op).2.run ops).2.mem i = s.mem i
    cases ops with
    | nil => exact h.1 i hi
    | cons op' ops' =>
      have hend : ∀ r ∈ (s.step op).1 :: ((s.step op).2.run (op' :: ops')).1.dropLast, ∃ x, r = .ok x := hend
      have hok := hend _ (List.mem_cons_self ..)
      refine (ih (s.step op).2 (h.2.2.1.trans hd) (h.2.2.2 hok) (h.2.1 ▸ hc) (fun i v hm => hop i v (List.mem_cons_of_mem _ hm))
        (fun r hr => hend r (List.mem_cons_of_mem _ hr)) (h.2.1 ▸ hi)).trans (h.1 i hi)

/-- The hypotheses can be met: a vector with assertions, 2 elements, capacity 3 and other memory behind it, and operations that do and do not
fit.  The memory behind it is as before. -/
def c75Vec : DV Nat where
  dbg := true
  trivialDtor := true
  dflt := 0
  junk := fun _ => 9
  cap := 3
  hasSize := true
  sizeWord := 2
  mem := fun i => some (i + 10)

example : (c75Vec.run [.push (.val 1), .at_ 2, .push (.val 5)]).1 = [.ok (.num 2), .ok (.val 1), .ub] ∧
    DVOp.OutOfRange 3 3 (.push (.val 5)) ∧ (c75Vec.run [.push (.val 1), .at_ 2, .push (.val 5)]).2.mem 3 = some 13 :=
  ⟨by decide +kernel, Nat.le_refl 3, by decide +kernel⟩

example : DVOp.OutOfRange c75Vec.size c75Vec.cap (.resizeValue 5 (.val 7)) ∧ (c75Vec.step (.resizeValue 5 (.val 7))).1 = .ub ∧
    (c75Vec.step (.resizeValue 5 (.val 7))).2.mem 2 = some 7 ∧ (c75Vec.step (.resizeValue 5 (.val 7))).2.mem 3 = some 13 := by
  refine ⟨?_, ?_, ?_, ?_⟩
  · show 3 < 5
    decide
  all_goals decide +kernel

/-- Without assertions, the same operation changes memory behind the vector. -/
theorem c75_release : ({ c75Vec with dbg := false }.step (.resizeValue 5 (.val 7))).1 = .ok .unit ∧
    ({ c75Vec with dbg := false }.step (.resizeValue 5 (.val 7))).2.mem 3 = some 7 := by decide +kernel

example : ({ c75Vec with hasSize := false }.step (.push (.val 5))).1 = .ub ∧ (.push (.val 5) : DVOp Nat).ChangesSize := ⟨by decide +kernel, trivial⟩

/-! ## vectors of containers -/

/-- C75: `push_back` on a vector of a container on the device does not throw; with assertions enabled it does not return if the vector is full,
and the container's variables are as before. -/
theorem c75_edm_push (s : DevCont α) (k : Nat) (x : α) :
    NoThrow (s.varPushBack k x).1 ∧
    ∀ d cap m, s.dbg = true → s.vars[k]? = some (.vector d cap m) → cap ≤ s.sizeWord →
      (s.varPushBack k x).1 = .ub ∧ (s.varPushBack k x).2.vars = s.vars := by
  unfold DevCont.varPushBack
  constructor
  · split
    · exact .inl rfl
    · dsimp only
      split
      · split
        · exact .inl rfl
        · exact .inr ⟨_, rfl⟩
      · exact .inl rfl
  · intro d cap m hd hk hc
    split
    · exact ⟨rfl, rfl⟩
    · have : ¬ s.sizeWord < cap := by omega
      simp [hk, hd, this]

example : (DevCont.varPushBack (⟨true, true, 2, 2, [.vector 0 2 fun _ => some 5]⟩ : DevCont Nat) 0 7).1 = .ub ∧
    (DevCont.varPushBack (⟨true, true, 2, 1, [.vector 0 2 fun _ => some 5]⟩ : DevCont Nat) 0 7).1 = .ok 1 := by decide +kernel

/-! ## static vectors -/

/-- C75: no operation of a static vector throws, whatever its state and its arguments are. -/
theorem c75_static_no_exceptions (s : SV α) (op : SVOp α) : NoThrow (s.step op).1 := by
  cases op with
  | assign n a =>
    refine NoThrow.map _ ?_
    unfold SV.assign
    split
    · exact .inl rfl
    · have h := (sv_clear s).1
      split
      · next s' _ =>
        have h := sv_constructs s' 0 a n
        split
        · exact .inr ⟨_, rfl⟩
        · exact h
      · exact h
  | assignRange vs =>
    refine NoThrow.map _ ?_
    unfold SV.assignRange
    have h := (sv_clear s).1
    split
    · exact sv_constructEach _ _
    · exact h
  | insert i a => exact (sv_insert _ _ _).1.map _
  | insertCount i n a => exact (sv_insertCount _ _ _ _).map _
  | insertRange i vs =>
    refine NoThrow.map _ ?_
    unfold SV.insertRange
    split
    · exact .inl rfl
    · exact (sv_insertEach _ _ _).map _
  | emplace i a => exact (sv_emplace _ _ _).map _
  | emplaceBack a => exact (sv_emplace _ _ _).map _
  | push a => exact ((sv_insert _ _ _).1.map _).map _
  | erase i => exact (sv_erase _ _).map _
  | eraseRange i j => exact (sv_eraseRange _ _ _).map _
  | pop =>
    refine NoThrow.map _ ?_
    unfold SV.popBack
    split
    · exact .inl rfl
    · exact (sv_erase _ _).map _
  | clear => exact (sv_clear _).1.map _
  | resize n => exact (sv_resize _ _ _).map _
  | resizeValue n a => exact (sv_resize _ _ _).map _
  | reserve n =>
    refine NoThrow.map _ ?_
    unfold SV.reserve
    split
    · exact .inl rfl
    · exact .inr ⟨_, rfl⟩
  | at_ i =>
    refine NoThrow.map _ ?_
    unfold SV.at_
    split
    · exact .inl rfl
    · exact sv_deref _ _
  | index i => exact (sv_deref _ _).map _
  | write c i v =>
    refine NoThrow.map _ ?_
    unfold SV.write
    split
    · exact .inl rfl
    · split
      · exact .inl rfl
      · exact .inr ⟨_, rfl⟩
  | front =>
    refine NoThrow.map _ ?_
    unfold SV.front
    split
    · exact .inl rfl
    · exact sv_deref _ _
  | back =>
    refine NoThrow.map _ ?_
    unfold SV.back
    split
    · exact .inl rfl
    · exact sv_deref _ _
  | size => exact .inr ⟨_, rfl⟩
  | empty => exact .inr ⟨_, rfl⟩
  | capacity => exact .inr ⟨_, rfl⟩
  | iterate => exact (sv_readFrom _ _ _).map _
  | iterateBack => exact (sv_readBack _ _ _).map _

/-- C75: with assertions enabled, an operation of a static vector that does not fit does not return, whatever the array holds. -/
theorem c75_static_caught_partial (s : SV α) (hd : s.dbg = true) (hs : s.size ≤ s.cap) (op : SVOp α) (h : op.OutOfRange s.size s.cap) :
    (s.step op).1 = .ub := by
  have hid : ∀ p, s.size < p → s.elementId p = none := fun p hp => by
    have : ¬ p ≤ s.size := by omega
    simp [SV.elementId, hd, this]
  cases op with
  | assign n a =>
    have h' : ¬ n ≤ s.cap := Nat.not_le.mpr h
    simp [SV.step, SV.assign, hd, h', Res.map]
  | assignRange vs =>
    have h' : s.cap < vs.length := h
    show Res.map _ (s.assignRange vs).1 = _
    unfold SV.assignRange
    have hcl := sv_clear s
    split
    · next s' he =>
      rw [he] at hcl
      have e0 : s'.size = 0 := hcl.2.1 rfl
      have e1 : s'.cap = s.cap := hcl.2.2.2
      rw [sv_constructEach_over s' (hcl.2.2.1.trans hd) (by omega) vs (by omega)]
      rfl
    · next hne =>
      rcases hcl.1 with he | ⟨x, he⟩
      · rw [he]; rfl
      · exact (hne _ (Prod.ext he rfl)).elim
  | insert i a =>
    show Res.map _ (s.insert i a).1 = _
    unfold SV.insert
    rcases h with h | h
    · rw [if_pos (by simp [hd, Nat.not_lt.mpr h])]; rfl
    · split
      · rfl
      · rw [hid i h]; rfl
  | insertCount i n a =>
    show Res.map _ (s.insertCount i n a).1 = _
    unfold SV.insertCount
    rcases h with h | h
    · rw [if_pos (by rw [Nat.mod_eq_of_lt h.2]; simp [hd, Nat.not_le.mpr h.1])]; rfl
    · split
      · rfl
      · rw [hid i h]; rfl
  | insertRange i vs =>
    show Res.map _ (s.insertRange i vs).1 = _
    unfold SV.insertRange
    split
    · rfl
    · next hi =>
      rcases h with h | h
      · dsimp only
        rw [sv_insertEach_over s hd hs i vs h]; rfl
      · rw [hid i h] at hi; cases hi
  | emplace i a =>
    show Res.map _ (s.emplace i a).1 = _
    unfold SV.emplace
    rcases h with h | h
    · rw [if_pos (by simp [hd, Nat.not_lt.mpr h])]; rfl
    · split
      · rfl
      · rw [hid i h]; rfl
  | emplaceBack a =>
    show Res.map _ (s.emplace s.size a).1 = _
    unfold SV.emplace
    rw [if_pos (by simp [hd, Nat.not_lt.mpr h])]; rfl
  | push a =>
    show Res.map _ (Res.map _ (s.insert s.size a).1) = _
    unfold SV.insert
    rw [if_pos (by simp [hd, Nat.not_lt.mpr h])]; rfl
  | erase i =>
    show Res.map _ (s.erase i).1 = _
    unfold SV.erase
    split
    · rfl
    · next index hi =>
      have : index = i := by
        unfold SV.elementId at hi
        split at hi
        · cases hi
        · exact (Option.some.inj hi).symm
      subst this
      have h' : ¬ index < s.size := Nat.not_lt.mpr h
      unfold SV.destruct
      rw [if_pos (by simp [hd, h'])]
      rfl
  | eraseRange i j =>
    show Res.map _ (s.eraseRange i j).1 = _
    unfold SV.eraseRange
    split
    · next x y hi hj =>
      have ex : x = i := by
        unfold SV.elementId at hi
        split at hi
        · cases hi
        · exact (Option.some.inj hi).symm
      have ey : y = j := by
        unfold SV.elementId at hj
        split at hj
        · cases hj
        · exact (Option.some.inj hj).symm
      rcases h with h | h | h
      · rw [hid i h] at hi; cases hi
      · rw [hid j h] at hj; cases hj
      · subst ex; subst ey
        rw [if_pos (by simp [hd, Nat.not_le.mpr h])]; rfl
    · rfl
  | pop =>
    have h' : s.size = 0 := h
    simp [SV.step, SV.popBack, h', Res.map]
  | resize n =>
    have h' : ¬ n ≤ s.cap := Nat.not_le.mpr h
    simp [SV.step, SV.resize, hd, h', Res.map]
  | resizeValue n a =>
    have h' : ¬ n ≤ s.cap := Nat.not_le.mpr h
    simp [SV.step, SV.resize, hd, h', Res.map]
  | reserve n =>
    have h' : ¬ n ≤ s.cap := Nat.not_le.mpr h
    simp [SV.step, SV.reserve, hd, h', Res.map]
  | at_ i =>
    have : ¬ i < s.size := Nat.not_lt.mpr h
    simp [SV.step, SV.at_, hd, this, Res.map]
  | write c i v =>
    cases c
    · exact h.elim
    · have : ¬ i < s.size := Nat.not_lt.mpr h
      simp [SV.step, SV.write, hd, this, Res.map]
  | front =>
    have : s.size = 0 := h
    simp [SV.step, SV.front, hd, this, Res.map]
  | back =>
    have : s.size = 0 := h
    simp [SV.step, SV.back, hd, this, Res.map]
  | clear => exact h.elim
  | index i => exact h.elim
  | size => exact h.elim
  | empty => exact h.elim
  | capacity => exact h.elim
  | iterate => exact h.elim
  | iterateBack => exact h.elim

/-- C75: with assertions enabled, no operation of a static vector but an assignment through `operator[]` changes memory outside of its
array, and if it returns, the size is at most the capacity.  The number of elements inserted and the size do not wrap. -/
theorem c75_static_contained_partial (s : SV α) (hd : s.dbg = true) (hs : s.size ≤ s.cap) (hc : s.cap < 2 ^ 64) (op : SVOp α)
    (hop : ∀ i v, op ≠ .write false i v) (hop' : ∀ i n a, op = .insertCount i n a → s.size + n < 2 ^ 64) :
    (∀ i, s.cap ≤ i → (s.step op).2.mem i = s.mem i) ∧ ((∃ x, (s.step op).1 = .ok x) → (s.step op).2.size ≤ s.cap) := by
  have h := sv_stays s hd hs hc op hop hop'
  exact ⟨h.1, fun hx => h.2.1 ▸ h.2.2.2 hx⟩

/-- The hypotheses can be met. -/
def c75Static : SV Nat where
  dbg := true
  trivial := true
  dflt := 0
  cap := 3
  next := 4
  alive := []
  size := 2
  mem := fun i => some (0, i + 10)

example : (c75Static.step (.insertRange 1 [5, 6])).1 = .ub ∧ SVOp.OutOfRange 2 3 (.insertRange 1 [5, 6]) ∧
    (c75Static.step (.insertRange 1 [5, 6])).2.mem 1 = some (4, 5) ∧ (c75Static.step (.insertRange 1 [5, 6])).2.mem 3 = some (0, 13) :=
  ⟨by decide +kernel, .inl (by decide), by decide +kernel, by decide +kernel⟩

example : (c75Static.step (.insert 1 (.val 5))).1 = .ok (.num 1) ∧ (c75Static.step (.insert 1 (.val 5))).2.size = 3 := by decide +kernel

/-- Inserting so many elements that the sum of sizes wraps passes the assertion, and moves elements to memory far outside of the array before
an assertion fails. -/
theorem c75_static_wrap : (c75Static.step (.insertCount 0 (2 ^ 64 - 1) (.val 5))).2.mem (2 ^ 64 - 1) = some (0, 10) ∧
    c75Static.mem (2 ^ 64 - 1) ≠ some (0, 10) := by
  refine ⟨?_, by decide +kernel⟩
  have hm := (sv_constructs_within (c75Static.memmove (0 + (2 ^ 64 - 1)) 0 (2 - 0)) rfl 0 (.val 5) (2 ^ 64 - 1)).1 (2 ^ 64 - 1)
    (by show 3 ≤ 2 ^ 64 - 1; decide)
  show (c75Static.insertCount 0 (2 ^ 64 - 1) (.val 5)).2.mem _ = _
  unfold SV.insertCount
  rw [if_neg (by decide), show c75Static.elementId 0 = some 0 from rfl]
  dsimp only
  split
  · next s' he =>
    rw [show c75Static.size = 2 from rfl] at he
    rw [he] at hm
    exact hm
  · next r s' _ he =>
    rw [show c75Static.size = 2 from rfl] at he
    rw [he] at hm
    exact hm

end Vecmem.Props
