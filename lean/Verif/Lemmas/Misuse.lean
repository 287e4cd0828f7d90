import Verif.Spec.Misuse
import Verif.Lemmas.Tactics

/-!
# Lemmas on misuse of vectors (C75)
-/

namespace Vecmem

variable {α : Type}

theorem NoThrow.map {β γ : Type} {r : Res β} (f : β → γ) (h : NoThrow r) : NoThrow (r.map f) := by
  rcases h with rfl | ⟨x, rfl⟩
  · exact .inl rfl
  · exact .inr ⟨_, rfl⟩

/-! ## device vectors -/

theorem dv_construct (s : DV α) (p : Nat) (a : Arg α) : NoThrow (s.construct p a).1 := by
  unfold DV.construct
  split
  · exact .inl rfl
  · split
    · exact .inl rfl
    · exact .inr ⟨_, rfl⟩

theorem dv_destruct (s : DV α) (p : Nat) : NoThrow (s.destruct p).1 := by
  unfold DV.destruct
  split
  · exact .inl rfl
  · split
    · exact .inr ⟨_, rfl⟩
    · split
      · exact .inl rfl
      · exact .inr ⟨_, rfl⟩

theorem dv_constructs (s : DV α) (p : Nat) (a : Arg α) (n : Nat) : NoThrow (s.constructs p a n).1 := by
  induction n generalizing s p with
  | zero => exact .inr ⟨_, rfl⟩
  | succ n ih =>
    unfold DV.constructs
    have h := dv_construct s (p % 2 ^ 32) a
    split
    · exact ih _ _
    · exact h

theorem dv_destructs (s : DV α) (p : Nat) (n : Nat) : NoThrow (s.destructs p n).1 := by
  induction n generalizing s p with
  | zero => exact .inr ⟨_, rfl⟩
  | succ n ih =>
    unfold DV.destructs
    have h := dv_destruct s (p % 2 ^ 32)
    split
    · exact ih _ _
    · exact h

theorem dv_clear (s : DV α) : NoThrow s.clear.1 := by
  unfold DV.clear
  split
  · exact .inl rfl
  · have h := dv_destructs s 0 s.sizeWord
    split
    · exact .inr ⟨_, rfl⟩
    · exact h

theorem dv_resize (s : DV α) (n : Nat) (a : Arg α) : NoThrow (s.resize n a).1 := by
  unfold DV.resize
  split
  · exact .inl rfl
  · dsimp only
    split
    · exact .inr ⟨_, rfl⟩
    · have h : NoThrow (if n < s.sizeWord then s.destructs n (s.sizeWord - n) else s.constructs s.sizeWord a (n - s.sizeWord)).1 := by
        split
        · exact dv_destructs _ _ _
        · exact dv_constructs _ _ _ _
      split
      · exact .inr ⟨_, rfl⟩
      · exact h

theorem dv_bulk (s : DV α) (n : Nat) (a : Arg α) : NoThrow (s.bulkAppend n a).1 := by
  unfold DV.bulkAppend
  split
  · exact .inl rfl
  · dsimp only
    split
    · exact .inl rfl
    · exact (dv_constructs _ _ _ _).map _

theorem dv_deref (s : DV α) (p : Nat) : NoThrow (s.deref p) := by
  unfold DV.deref
  split
  · exact .inl rfl
  · exact .inr ⟨_, rfl⟩

theorem dv_readFrom (s : DV α) (p n : Nat) : NoThrow (s.readFrom p n) := by
  induction n generalizing p with
  | zero => exact .inr ⟨_, rfl⟩
  | succ n ih =>
    unfold DV.readFrom
    have h := dv_deref s p
    split
    · exact (ih _).map _
    · exact h.map _

theorem dv_readBack (s : DV α) (p n : Nat) : NoThrow (s.readBack p n) := by
  induction n generalizing p with
  | zero => exact .inr ⟨_, rfl⟩
  | succ n ih =>
    unfold DV.readBack
    have h := dv_deref s (p - 1)
    split
    · exact (ih _).map _
    · exact h.map _

/-- Objects constructed up to the end of the payload and then behind it: an assertion fails, and only the payload from `p` on has changed. -/
theorem dv_constructs_over (s : DV α) (hd : s.dbg = true) (hc : s.cap < 2 ^ 32) (p : Nat) (hp : p ≤ s.cap) (a : Arg α) (n : Nat)
    (hn : s.cap < p + n) : (s.constructs p a n).1 = .ub ∧ ∀ i, i < p ∨ s.cap ≤ i → (s.constructs p a n).2.mem i = s.mem i := by
  induction n generalizing s p with
  | zero => omega
  | succ n ih =>
    unfold DV.constructs
    have hmod : p % 2 ^ 32 = p := Nat.mod_eq_of_lt (by omega)
    rw [hmod]
    unfold DV.construct
    by_cases hpc : p < s.cap
    · have hno : ¬ ((s.dbg && !decide (p < s.cap)) = true) := by simp [hpc]
      rw [if_neg hno]
      cases hr : s.read a with
      | none => exact ⟨rfl, fun _ _ => rfl⟩
      | some v =>
        obtain ⟨h1, h2⟩ := ih (s.put p (some v)) hd hc (p + 1) hpc (by simpa [DV.put] using by omega)
        refine ⟨h1, fun i hi => ?_⟩
        refine (h2 i (by rcases hi with hi | hi; · exact .inl (by omega)
                         · exact .inr hi)).trans ?_
        have : i ≠ p := by rcases hi with hi | hi <;> omega
        simp [DV.put, this]
    · have hyes : (s.dbg && !decide (p < s.cap)) = true := by simp [hd, hpc]
      rw [if_pos hyes]
      exact ⟨rfl, fun _ _ => rfl⟩

/-! ## what stays in the payload of a device vector -/

/-- The memory outside of the payload is as before, and so are the fixed parts of the vector. -/
def DV.Within (s s' : DV α) : Prop :=
  (∀ i, s.cap ≤ i → s'.mem i = s.mem i) ∧ s'.cap = s.cap ∧ s'.dbg = s.dbg ∧ s'.hasSize = s.hasSize ∧ s'.sizeWord = s.sizeWord

theorem DV.Within.rfl' (s : DV α) : s.Within s := ⟨fun _ _ => rfl, rfl, rfl, rfl, rfl⟩

theorem DV.Within.trans {s s' s'' : DV α} (h : s.Within s') (h' : s'.Within s'') : s.Within s'' :=
  ⟨fun i hi => (h'.1 i (h.2.1 ▸ hi)).trans (h.1 i hi), h'.2.1.trans h.2.1, h'.2.2.1.trans h.2.2.1, h'.2.2.2.1.trans h.2.2.2.1,
    h'.2.2.2.2.trans h.2.2.2.2⟩

theorem DV.Within.put (s : DV α) (p : Nat) (hp : p < s.cap) (c : Option α) : s.Within (s.put p c) :=
  ⟨fun i hi => by have : i ≠ p := by omega
                  simp [DV.put, this], rfl, rfl, rfl, rfl⟩

theorem dv_construct_within (s : DV α) (hd : s.dbg = true) (p : Nat) (a : Arg α) : s.Within (s.construct p a).2 := by
  unfold DV.construct
  split
  · exact .rfl' s
  · next h =>
    have hp : p < s.cap := by simpa [hd] using h
    split
    · exact .rfl' s
    · exact .put s p hp _

theorem dv_destruct_within (s : DV α) (hd : s.dbg = true) (p : Nat) : s.Within (s.destruct p).2 := by
  unfold DV.destruct
  split
  · exact .rfl' s
  · next h =>
    have hp : p < s.cap := by simpa [hd] using h
    split
    · exact .rfl' s
    · split
      · exact .rfl' s
      · exact .put s p hp _

theorem dv_constructs_within (s : DV α) (hd : s.dbg = true) (p : Nat) (a : Arg α) (n : Nat) : s.Within (s.constructs p a n).2 := by
  induction n generalizing s p with
  | zero => exact .rfl' s
  | succ n ih =>
    unfold DV.constructs
    have h := dv_construct_within s hd (p % 2 ^ 32) a
    split
    · next s' he =>
      rw [he] at h
      exact h.trans (ih s' (h.2.2.1.trans hd) _)
    · exact h

theorem dv_destructs_within (s : DV α) (hd : s.dbg = true) (p n : Nat) : s.Within (s.destructs p n).2 := by
  induction n generalizing s p with
  | zero => exact .rfl' s
  | succ n ih =>
    unfold DV.destructs
    have h := dv_destruct_within s hd (p % 2 ^ 32)
    split
    · next s' he =>
      rw [he] at h
      exact h.trans (ih s' (h.2.2.1.trans hd) _)
    · exact h

/-- The same, but the size may have changed; it is at most the capacity if the operation has returned. -/
def DV.Stays {β : Type} (s : DV α) (r : Res β × DV α) : Prop :=
  (∀ i, s.cap ≤ i → r.2.mem i = s.mem i) ∧ r.2.cap = s.cap ∧ r.2.dbg = s.dbg ∧ ((∃ x, r.1 = .ok x) → r.2.size ≤ r.2.cap)

theorem DV.Stays.map {β γ : Type} {s : DV α} {r : Res β × DV α} (f : β → γ) (h : s.Stays r) : s.Stays (r.1.map f, r.2) := by
  refine ⟨h.1, h.2.1, h.2.2.1, fun ⟨x, hx⟩ => h.2.2.2 ?_⟩
  rcases r with ⟨r, s'⟩
  cases r <;> first
    | exact ⟨_, rfl⟩
    | cases hx

theorem DV.Stays.of_ub {β : Type} {s s' : DV α} (hm : ∀ i, s.cap ≤ i → s'.mem i = s.mem i) (hc : s'.cap = s.cap) (hd : s'.dbg = s.dbg) :
    s.Stays ((.ub, s') : Res β × DV α) := ⟨hm, hc, hd, fun ⟨_, h⟩ => by cases h⟩

theorem DV.Within.stays {β : Type} {s s' : DV α} (h : s.Within s') (hs : s.size ≤ s.cap) (r : Res β) : s.Stays (r, s') :=
  ⟨h.1, h.2.1, h.2.2.1, fun _ => by
    show s'.size ≤ s'.cap
    have : s'.size = s.size := by unfold DV.size; rw [h.2.2.2.1, h.2.2.2.2, h.2.1]
    rw [this, h.2.1]; exact hs⟩

/-- A change of the size word, and then something within the payload. -/
theorem DV.Within.resized {β : Type} {s s' : DV α} {w : Nat} (h : DV.Within { s with sizeWord := w } s') (r : Res β)
    (hw : (∃ x, r = .ok x) → w ≤ s.cap) : s.Stays (r, s') :=
  ⟨h.1, h.2.1, h.2.2.1, fun hr => by
    show s'.size ≤ s'.cap
    have h1 := hw hr
    have h2 : s'.sizeWord = w := h.2.2.2.2
    have h3 : s'.cap = s.cap := h.2.1
    unfold DV.size
    split <;> omega⟩

theorem dv_stays (s : DV α) (hd : s.dbg = true) (hs : s.size ≤ s.cap) (hc : s.cap < 2 ^ 32) (op : DVOp α)
    (hop : ∀ i v, op ≠ .write false i v) : s.Stays (s.step op) := by
  have ub : ∀ {β : Type}, s.Stays ((.ub, s) : Res β × DV α) := .of_ub (fun _ _ => rfl) rfl rfl
  have read : ∀ {β : Type} (r : Res β), s.Stays (r, s) := fun r => DV.Within.stays (.rfl' s) hs r
  have hsz : ¬ (!s.hasSize) = true → s.size = s.sizeWord := fun h => by
    have : s.hasSize = true := by simpa using h
    simp [DV.size, this]
  have clear : s.Stays s.clear := by
    unfold DV.clear
    split
    · exact ub
    · have h := dv_destructs_within s hd 0 s.sizeWord
      split
      · next s' he =>
        rw [he] at h
        refine ⟨h.1, h.2.1, h.2.2.1, fun _ => ?_⟩
        show DV.size _ ≤ s'.cap
        unfold DV.size
        split
        · exact Nat.zero_le _
        · exact Nat.le_refl _
      · exact h.stays hs _
  have bulk : ∀ n a, s.Stays (s.bulkAppend n a) := fun n a => by
    unfold DV.bulkAppend
    split
    · exact ub
    · dsimp only [DV.fetchAdd]
      split
      · exact .of_ub (fun _ _ => rfl) rfl rfl
      · next h =>
        have h' : (s.sizeWord + n) % 2 ^ 32 ≤ s.cap := by simpa [hd] using h
        exact (dv_constructs_within { s with sizeWord := (s.sizeWord + n) % 2 ^ 32 } hd s.sizeWord a n).resized _ fun _ => h'
  have resize : ∀ n a, s.Stays (s.resize n a) := fun n a => by
    unfold DV.resize
    split
    · exact ub
    · next h0 =>
      have e := hsz h0
      dsimp only
      split
      · exact read _
      · next hne =>
        by_cases hlt : n < s.sizeWord
        · rw [if_pos hlt]
          have h := dv_destructs_within s hd n (s.sizeWord - n)
          split
          · next s' he =>
            rw [he] at h
            refine ⟨h.1, h.2.1, h.2.2.1, fun _ => ?_⟩
            have h3 : s'.cap = s.cap := h.2.1
            show DV.size _ ≤ s'.cap
            unfold DV.size
            split
            · show n ≤ s'.cap
              omega
            · exact Nat.le_refl _
          · exact h.stays hs _
        · rw [if_neg hlt]
          have h := dv_constructs_within s hd s.sizeWord a (n - s.sizeWord)
          split
          · next s' he =>
            have hn : n ≤ s.cap := by
              by_contra hn
              have := (dv_constructs_over s hd hc s.sizeWord (by omega) a (n - s.sizeWord) (by omega)).1
              rw [he] at this
              cases this
            rw [he] at h
            refine ⟨h.1, h.2.1, h.2.2.1, fun _ => ?_⟩
            have h3 : s'.cap = s.cap := h.2.1
            show DV.size _ ≤ s'.cap
            unfold DV.size
            split
            · show n ≤ s'.cap
              omega
            · exact Nat.le_refl _
          · exact h.stays hs _
  cases op with
  | push a =>
    refine DV.Stays.map _ ?_
    unfold DV.pushBack
    split
    · exact ub
    · dsimp only [DV.fetchAdd]
      split
      · exact .of_ub (fun _ _ => rfl) rfl rfl
      · next h =>
        have h' : s.sizeWord < s.cap := by simpa [hd] using h
        refine (dv_construct_within { s with sizeWord := (s.sizeWord + 1) % 2 ^ 32 } hd s.sizeWord a).resized _ fun _ => ?_
        rw [Nat.mod_eq_of_lt (by omega)]; omega
  | emplace a =>
    refine DV.Stays.map _ ?_
    unfold DV.emplaceBack
    split
    · exact ub
    · dsimp only [DV.fetchAdd]
      split
      · exact .of_ub (fun _ _ => rfl) rfl rfl
      · next h =>
        have h' : s.sizeWord < s.cap := by simpa [hd] using h
        split
        · exact .of_ub (fun _ _ => rfl) rfl rfl
        · refine (DV.Within.put { s with sizeWord := (s.sizeWord + 1) % 2 ^ 32 } s.sizeWord h' _).resized _ fun _ => ?_
          rw [Nat.mod_eq_of_lt (by omega)]; omega
  | bulk n => exact (bulk _ _).map _
  | bulkValue n a => exact (bulk _ _).map _
  | bulkImplicit n =>
    refine DV.Stays.map _ ?_
    unfold DV.bulkAppendImplicit
    split
    · exact ub
    · dsimp only [DV.fetchAdd]
      split
      · exact .of_ub (fun _ _ => rfl) rfl rfl
      · next h =>
        have h' : (s.sizeWord + n) % 2 ^ 32 ≤ s.cap := by simpa [hd] using h
        refine DV.Within.resized (w := (s.sizeWord + n) % 2 ^ 32)
          (s' := DV.implicit { s with sizeWord := (s.sizeWord + n) % 2 ^ 32 } s.sizeWord n) ⟨fun i hi => ?_, rfl, rfl, rfl, rfl⟩ _ fun _ => h'
        have : ¬ i < s.cap := Nat.not_lt.mpr hi
        simp [DV.implicit, this]
  | pop =>
    refine DV.Stays.map _ ?_
    unfold DV.popBack
    split
    · exact ub
    · next h0 =>
      have e := hsz h0
      dsimp only
      refine DV.Stays.map _ ?_
      generalize hw : (s.sizeWord + 2 ^ 32 - 1) % 2 ^ 32 = w
      have h := dv_destruct_within { s with sizeWord := w } hd w
      have hover : s.cap ≤ w → (DV.destruct { s with sizeWord := w } w).1 = .ub := fun hn => by
        have : ¬ w < s.cap := by omega
        simp [DV.destruct, hd, this]
      generalize DV.destruct { s with sizeWord := w } w = r at h hover
      refine h.resized r.1 fun ⟨x, hx⟩ => ?_
      by_contra hn
      rw [hover (by omega)] at hx
      cases hx
  | clear => exact clear.map _
  | resize n => exact (resize _ _).map _
  | resizeValue n a => exact (resize _ _).map _
  | resizeImplicit n =>
    refine DV.Stays.map _ ?_
    unfold DV.resizeImplicit
    split
    · exact ub
    · split
      · exact ub
      · next h =>
        have h' : n ≤ s.cap := by simpa [hd] using h
        refine DV.Within.resized (s := s) (w := n) (s' := { s.implicit s.sizeWord (n - s.sizeWord) with sizeWord := n })
          ⟨fun i hi => ?_, rfl, rfl, rfl, rfl⟩ _ fun _ => h'
        have : ¬ i < s.cap := Nat.not_lt.mpr hi
        simp [DV.implicit, this]
  | assign n a =>
    refine DV.Stays.map _ ?_
    unfold DV.assign
    split
    · exact ub
    · split
      · exact ub
      · next h =>
        have h' : n ≤ s.cap := by simpa [hd] using h
        have hw := clear
        split
        · next s' he =>
          rw [he] at hw
          have hc' : s'.cap = s.cap := hw.2.1
          have hk := dv_constructs_within { s' with sizeWord := n } (hw.2.2.1.trans hd) 0 a n
          refine ⟨fun i hi => (hk.1 i (by rw [← hc'] at hi; exact hi)).trans (hw.1 i hi), hk.2.1.trans hw.2.1,
            hk.2.2.1.trans hw.2.2.1, fun _ => ?_⟩
          have h1 := hk.2.2.2.2
          have h2 := hk.2.1
          simp only at h1 h2
          unfold DV.size
          split
          · rw [h1, h2]; omega
          · exact Nat.le_refl _
        · exact hw
  | write c i v =>
    cases c
    · exact (hop i v rfl).elim
    · refine DV.Stays.map _ ?_
      unfold DV.write
      split
      · exact ub
      · next h =>
        have h' : i < s.size := by simpa [hd] using h
        split
        · exact ub
        · exact (DV.Within.put s i (by omega) _).stays hs _
  | at_ i => exact read _
  | index i => exact read _
  | front => exact read _
  | back => exact read _
  | size => exact read _
  | empty => exact read _
  | capacity => exact read _
  | iterate => exact read _
  | iterateBack => exact read _

/-! ## static vectors -/

theorem sv_construct (s : SV α) (p : Nat) (a : Arg α) :
    NoThrow (s.construct p a).1 ∧ (s.construct p a).2.size = s.size ∧ (s.construct p a).2.dbg = s.dbg ∧ (s.construct p a).2.cap = s.cap := by
  unfold SV.construct
  repeat' split
  all_goals first
    | exact ⟨.inl rfl, rfl, rfl, rfl⟩
    | exact ⟨.inr ⟨_, rfl⟩, rfl, rfl, rfl⟩

theorem sv_destruct (s : SV α) (p : Nat) :
    NoThrow (s.destruct p).1 ∧ (s.destruct p).2.size = s.size ∧ (s.destruct p).2.dbg = s.dbg ∧ (s.destruct p).2.cap = s.cap := by
  unfold SV.destruct
  split
  · exact ⟨.inl rfl, rfl, rfl, rfl⟩
  · split
    · exact ⟨.inr ⟨_, rfl⟩, rfl, rfl, rfl⟩
    · split
      · exact ⟨.inl rfl, rfl, rfl, rfl⟩
      · split
        · exact ⟨.inr ⟨_, rfl⟩, rfl, rfl, rfl⟩
        · exact ⟨.inl rfl, rfl, rfl, rfl⟩

theorem sv_constructs (s : SV α) (p : Nat) (a : Arg α) (n : Nat) : NoThrow (s.constructs p a n).1 := by
  induction n generalizing s p with
  | zero => exact .inr ⟨_, rfl⟩
  | succ n ih =>
    unfold SV.constructs
    have h := (sv_construct s p a).1
    split
    · exact ih _ _
    · exact h

theorem sv_destructs (s : SV α) (p : Nat) (n : Nat) :
    NoThrow (s.destructs p n).1 ∧ (s.destructs p n).2.size = s.size ∧ (s.destructs p n).2.dbg = s.dbg ∧ (s.destructs p n).2.cap = s.cap := by
  induction n generalizing s p with
  | zero => exact ⟨.inr ⟨_, rfl⟩, rfl, rfl, rfl⟩
  | succ n ih =>
    unfold SV.destructs
    have h := sv_destruct s p
    split
    · next s' he =>
      rw [he] at h
      obtain ⟨h1, h2, h3, h4⟩ := ih s' (p + 1)
      exact ⟨h1, h2.trans h.2.1, h3.trans h.2.2.1, h4.trans h.2.2.2⟩
    · exact h

theorem sv_clear (s : SV α) :
    NoThrow s.clear.1 ∧ (s.clear.1 = .ok () → s.clear.2.size = 0) ∧ s.clear.2.dbg = s.dbg ∧ s.clear.2.cap = s.cap := by
  unfold SV.clear
  have h := sv_destructs s 0 s.size
  split
  · next s' he => rw [he] at h; exact ⟨.inr ⟨_, rfl⟩, fun _ => rfl, h.2.2⟩
  · next hne => exact ⟨h.1, fun he => (hne _ (Prod.ext he rfl)).elim, h.2.2⟩

theorem sv_constructEach (s : SV α) (vs : List α) : NoThrow (s.constructEach vs).1 := by
  induction vs generalizing s with
  | nil => exact .inr ⟨_, rfl⟩
  | cons v vs ih =>
    unfold SV.constructEach
    have h := (sv_construct { s with size := s.size + 1 } s.size (.val v)).1
    split
    · exact ih _
    · exact h

theorem sv_insert (s : SV α) (p : Nat) (a : Arg α) :
    NoThrow (s.insert p a).1 ∧ (s.insert p a).2.dbg = s.dbg ∧ (s.insert p a).2.cap = s.cap ∧
      (∀ x, (s.insert p a).1 = .ok x → (s.insert p a).2.size = s.size + 1 ∧ (s.dbg = true → s.size < s.cap)) := by
  unfold SV.insert
  split
  · exact ⟨.inl rfl, rfl, rfl, fun _ h => (by cases h)⟩
  · next hif =>
    split
    · exact ⟨.inl rfl, rfl, rfl, fun _ h => (by cases h)⟩
    · next index _ =>
      have h := sv_construct (s.memmove (index + 1) index (s.size - index)) index a
      split
      · next s' he =>
        rw [he] at h
        refine ⟨.inr ⟨_, rfl⟩, h.2.2.1, h.2.2.2, fun _ _ => ⟨by rw [h.2.1]; rfl, fun hd => ?_⟩⟩
        simpa [hd] using hif
      · next r s' _ he =>
        rw [he] at h
        exact ⟨.inl rfl, h.2.2.1, h.2.2.2, fun _ h => (by cases h)⟩

theorem sv_insertEach (s : SV α) (p : Nat) (vs : List α) : NoThrow (s.insertEach p vs).1 := by
  induction vs generalizing s p with
  | nil => exact .inr ⟨_, rfl⟩
  | cons v vs ih =>
    unfold SV.insertEach
    split
    · exact ih _ _
    · exact .inl rfl

theorem sv_insertEach_over (s : SV α) (hd : s.dbg = true) (hs : s.size ≤ s.cap) (p : Nat) (vs : List α) (h : s.cap < s.size + vs.length) :
    (s.insertEach p vs).1 = .ub := by
  induction vs generalizing s p with
  | nil => simp at h; omega
  | cons v vs ih =>
    unfold SV.insertEach
    have hi := sv_insert s p (.val v)
    split
    · next x s' he =>
      rw [he] at hi
      obtain ⟨h1, h2⟩ := hi.2.2.2 x rfl
      have h3 : s'.cap = s.cap := hi.2.2.1
      have h1 : s'.size = s.size + 1 := h1
      have := h2 hd
      exact ih s' (hi.2.1.trans hd) (by omega) _ (by simp at h; omega)
    · rfl

theorem sv_constructEach_over (s : SV α) (hd : s.dbg = true) (hs : s.size ≤ s.cap) (vs : List α) (h : s.cap < s.size + vs.length) :
    (s.constructEach vs).1 = .ub := by
  induction vs generalizing s with
  | nil => simp at h; omega
  | cons v vs ih =>
    unfold SV.constructEach
    have hc := sv_construct { s with size := s.size + 1 } s.size (.val v)
    by_cases hlt : s.size < s.cap
    · split
      · next s' he =>
        rw [he] at hc
        have h1 : s'.size = s.size + 1 := hc.2.1
        have h3 : s'.cap = s.cap := hc.2.2.2
        exact ih s' (hc.2.2.1.trans hd) (by omega) (by simp at h; omega)
      · next hne =>
        rcases hc.1 with he | ⟨x, he⟩
        · exact he
        · exact (hne _ (Prod.ext he rfl)).elim
    · have : SV.construct { s with size := s.size + 1 } s.size (.val v) = (.ub, { s with size := s.size + 1 }) := by
        unfold SV.construct
        rw [if_pos (by simp [hd, hlt])]
      rw [this]

theorem sv_insertCount (s : SV α) (i n : Nat) (a : Arg α) : NoThrow (s.insertCount i n a).1 := by
  unfold SV.insertCount
  split
  · exact .inl rfl
  · split
    · exact .inl rfl
    · split
      · exact .inr ⟨_, rfl⟩
      · exact .inl rfl

theorem sv_emplace (s : SV α) (i : Nat) (a : Arg α) : NoThrow (s.emplace i a).1 := by
  unfold SV.emplace
  split
  · exact .inl rfl
  · split
    · exact .inl rfl
    · dsimp only
      repeat' split
      all_goals first
        | exact .inl rfl
        | exact .inr ⟨_, rfl⟩

theorem sv_eraseRange (s : SV α) (i j : Nat) : NoThrow (s.eraseRange i j).1 := by
  unfold SV.eraseRange
  split
  · split
    · exact .inl rfl
    · split
      · exact .inr ⟨_, rfl⟩
      · exact .inl rfl
  · exact .inl rfl

theorem sv_erase (s : SV α) (i : Nat) : NoThrow (s.erase i).1 := by
  unfold SV.erase
  split
  · exact .inl rfl
  · split
    · split
      · exact .inr ⟨_, rfl⟩
      · exact .inl rfl
    · exact .inl rfl

theorem sv_resize (s : SV α) (n : Nat) (a : Arg α) : NoThrow (s.resize n a).1 := by
  unfold SV.resize
  split
  · exact .inl rfl
  · split
    · exact .inr ⟨_, rfl⟩
    · split
      · exact (sv_eraseRange _ _ _).map _
      · exact (sv_insertCount _ _ _ _).map _

theorem sv_deref (s : SV α) (p : Nat) : NoThrow (s.deref p) := by
  unfold SV.deref
  split
  · exact .inl rfl
  · exact .inr ⟨_, rfl⟩

theorem sv_readFrom (s : SV α) (p n : Nat) : NoThrow (s.readFrom p n) := by
  induction n generalizing p with
  | zero => exact .inr ⟨_, rfl⟩
  | succ n ih =>
    unfold SV.readFrom
    have h := sv_deref s p
    split
    · exact (ih _).map _
    · exact h.map _

theorem sv_readBack (s : SV α) (p n : Nat) : NoThrow (s.readBack p n) := by
  induction n generalizing p with
  | zero => exact .inr ⟨_, rfl⟩
  | succ n ih =>
    unfold SV.readBack
    have h := sv_deref s (p - 1)
    split
    · exact (ih _).map _
    · exact h.map _

/-! ## what stays in the array of a static vector -/

/-- The memory outside of the array is as before, and so are the size and the fixed parts of the vector. -/
def SV.Within (s s' : SV α) : Prop :=
  (∀ i, s.cap ≤ i → s'.mem i = s.mem i) ∧ s'.cap = s.cap ∧ s'.dbg = s.dbg ∧ s'.size = s.size

theorem SV.Within.rfl' (s : SV α) : s.Within s := ⟨fun _ _ => rfl, rfl, rfl, rfl⟩

theorem SV.Within.trans {s s' s'' : SV α} (h : s.Within s') (h' : s'.Within s'') : s.Within s'' :=
  ⟨fun i hi => (h'.1 i (h.2.1 ▸ hi)).trans (h.1 i hi), h'.2.1.trans h.2.1, h'.2.2.1.trans h.2.2.1, h'.2.2.2.trans h.2.2.2⟩

theorem SV.Within.put (s : SV α) (p : Nat) (hp : p < s.cap) (c : Option (Nat × α)) : s.Within (s.put p c) :=
  ⟨fun i hi => by have : i ≠ p := by omega
                  simp [SV.put, this], rfl, rfl, rfl⟩

theorem SV.Within.move (s : SV α) (dst src n : Nat) (h : dst + n ≤ s.cap ∨ n = 0) : s.Within (s.memmove dst src n) :=
  ⟨fun i hi => by have : ¬ (dst ≤ i ∧ i < dst + n) := by omega
                  simp [SV.memmove, this], rfl, rfl, rfl⟩

theorem sv_construct_within (s : SV α) (hd : s.dbg = true) (p : Nat) (a : Arg α) : s.Within (s.construct p a).2 := by
  unfold SV.construct
  split
  · exact .rfl' s
  · next h =>
    have hp : p < s.cap := by simpa [hd] using h
    split
    · exact .rfl' s
    · next v _ =>
      repeat' split
      all_goals first
        | exact SV.Within.rfl' s
        | exact SV.Within.put s.born p hp (some (s.next, v))

theorem sv_destruct_within (s : SV α) (hd : s.dbg = true) (hs : s.size ≤ s.cap) (p : Nat) : s.Within (s.destruct p).2 := by
  unfold SV.destruct
  split
  · exact .rfl' s
  · next h =>
    have hp : p < s.size := by simpa [hd] using h
    split
    · exact .rfl' s
    · split
      · exact .rfl' s
      · split
        · exact SV.Within.put s p (by omega) none
        · exact .rfl' s

theorem sv_constructs_within (s : SV α) (hd : s.dbg = true) (p : Nat) (a : Arg α) (n : Nat) : s.Within (s.constructs p a n).2 := by
  induction n generalizing s p with
  | zero => exact .rfl' s
  | succ n ih =>
    unfold SV.constructs
    have h := sv_construct_within s hd p a
    split
    · next s' he =>
      rw [he] at h
      exact h.trans (ih s' (h.2.2.1.trans hd) _)
    · exact h

theorem sv_destructs_within (s : SV α) (hd : s.dbg = true) (hs : s.size ≤ s.cap) (p n : Nat) : s.Within (s.destructs p n).2 := by
  induction n generalizing s p with
  | zero => exact .rfl' s
  | succ n ih =>
    unfold SV.destructs
    have h := sv_destruct_within s hd hs p
    split
    · next s' he =>
      rw [he] at h
      have h1 : s'.size = s.size := h.2.2.2
      have h2 : s'.cap = s.cap := h.2.1
      exact h.trans (ih s' (h.2.2.1.trans hd) (by omega) _)
    · exact h

/-- The same, but the size may have changed; it is at most the capacity if the operation has returned. -/
def SV.Stays {β : Type} (s : SV α) (r : Res β × SV α) : Prop :=
  (∀ i, s.cap ≤ i → r.2.mem i = s.mem i) ∧ r.2.cap = s.cap ∧ r.2.dbg = s.dbg ∧ ((∃ x, r.1 = .ok x) → r.2.size ≤ r.2.cap)

theorem SV.Stays.map {β γ : Type} {s : SV α} {r : Res β × SV α} (f : β → γ) (h : s.Stays r) : s.Stays (r.1.map f, r.2) := by
  refine ⟨h.1, h.2.1, h.2.2.1, fun ⟨x, hx⟩ => h.2.2.2 ?_⟩
  rcases r with ⟨r, s'⟩
  cases r <;> first
    | exact ⟨_, rfl⟩
    | cases hx

theorem SV.Within.stays {β : Type} {s s' : SV α} (h : s.Within s') (hs : s.size ≤ s.cap) (r : Res β) : s.Stays (r, s') :=
  ⟨h.1, h.2.1, h.2.2.1, fun _ => by
    show s'.size ≤ s'.cap
    rw [h.2.2.2, h.2.1]; exact hs⟩

/-- Something within the array, and then a change of the size. -/
theorem SV.Within.resized {β : Type} {s s' : SV α} (h : s.Within s') (w : Nat) (hw : w ≤ s.cap) (r : Res β) :
    s.Stays (r, { s' with size := w }) :=
  ⟨h.1, h.2.1, h.2.2.1, fun _ => by
    show w ≤ s'.cap
    rw [h.2.1]; exact hw⟩

theorem SV.Stays.then {β γ : Type} {s s' : SV α} {r : Res β} {r' : Res γ × SV α} (h : s.Stays (r, s')) (h' : s'.Stays r') : s.Stays r' :=
  ⟨fun i hi => (h'.1 i (by have := h.2.1; simp only at this; omega)).trans (h.1 i hi), h'.2.1.trans h.2.1, h'.2.2.1.trans h.2.2.1, h'.2.2.2⟩

theorem sv_elementId (s : SV α) (hd : s.dbg = true) {p i : Nat} (h : s.elementId p = some i) : i = p ∧ p ≤ s.size := by
  unfold SV.elementId at h
  split at h
  · cases h
  · next hn => exact ⟨(Option.some.inj h).symm, by simpa [hd] using hn⟩

theorem sv_clear_stays (s : SV α) (hd : s.dbg = true) (hs : s.size ≤ s.cap) : s.Stays s.clear := by
  unfold SV.clear
  have h := sv_destructs_within s hd hs 0 s.size
  split
  · next s' he =>
    rw [he] at h
    exact h.resized 0 (Nat.zero_le _) _
  · exact h.stays hs _

theorem sv_insert_stays (s : SV α) (hd : s.dbg = true) (hs : s.size ≤ s.cap) (p : Nat) (a : Arg α) : s.Stays (s.insert p a) := by
  unfold SV.insert
  split
  · exact (SV.Within.rfl' s).stays hs _
  · next h =>
    have hlt : s.size < s.cap := by simpa [hd] using h
    split
    · exact (SV.Within.rfl' s).stays hs _
    · next index hi =>
      obtain ⟨rfl, hp⟩ := sv_elementId s hd hi
      have h1 := SV.Within.move s (index + 1) index (s.size - index) (by omega)
      have h2 := h1.trans (sv_construct_within _ (h1.2.2.1.trans hd) index a)
      split
      · next s' he =>
        rw [he] at h2
        have e : s'.size = s.size := h2.2.2.2
        exact h2.resized (s'.size + 1) (by omega) _
      · next r s' _ he =>
        rw [he] at h2
        exact h2.stays hs _

theorem sv_insertEach_stays (s : SV α) (hd : s.dbg = true) (hs : s.size ≤ s.cap) (p : Nat) (vs : List α) : s.Stays (s.insertEach p vs) := by
  induction vs generalizing s p with
  | nil => exact (SV.Within.rfl' s).stays hs _
  | cons v vs ih =>
    unfold SV.insertEach
    have h := sv_insert_stays s hd hs p (.val v)
    split
    · next x s' he =>
      rw [he] at h
      exact h.then (ih s' (h.2.2.1.trans hd) (h.2.2.2 ⟨x, rfl⟩) _)
    · next r s' _ he =>
      rw [he] at h
      exact ⟨h.1, h.2.1, h.2.2.1, fun ⟨_, h⟩ => by cases h⟩

theorem sv_constructEach_stays (s : SV α) (hd : s.dbg = true) (hs : s.size ≤ s.cap) (vs : List α) : s.Stays (s.constructEach vs) := by
  induction vs generalizing s with
  | nil => exact (SV.Within.rfl' s).stays hs _
  | cons v vs ih =>
    unfold SV.constructEach
    have h := sv_construct_within { s with size := s.size + 1 } hd s.size (.val v)
    by_cases hlt : s.size < s.cap
    · have h' : ∀ r, s.Stays ((r, (SV.construct { s with size := s.size + 1 } s.size (.val v)).2) : Res Unit × SV α) := fun r =>
        ⟨h.1, h.2.1, h.2.2.1, fun _ => by
          have e1 := h.2.2.2
          have e2 := h.2.1
          simp only at e1 e2 ⊢
          omega⟩
      split
      · next s' he =>
        rw [he] at h'
        have h'' := h' (.ok ())
        exact h''.then (ih s' (h''.2.2.1.trans hd) (h''.2.2.2 ⟨_, rfl⟩))
      · exact h' _
    · have : SV.construct { s with size := s.size + 1 } s.size (.val v) = (.ub, { s with size := s.size + 1 }) := by
        unfold SV.construct
        rw [if_pos (by simp [hd, hlt])]
      rw [this]
      exact ⟨fun _ _ => rfl, rfl, rfl, fun ⟨_, h⟩ => by cases h⟩

theorem sv_insertCount_stays (s : SV α) (hd : s.dbg = true) (hs : s.size ≤ s.cap) (p n : Nat) (hn : s.size + n < 2 ^ 64) (a : Arg α) :
    s.Stays (s.insertCount p n a) := by
  unfold SV.insertCount
  rw [Nat.mod_eq_of_lt hn]
  split
  · exact (SV.Within.rfl' s).stays hs _
  · next h =>
    have hle : s.size + n ≤ s.cap := by simpa [hd] using h
    split
    · exact (SV.Within.rfl' s).stays hs _
    · next index hi =>
      obtain ⟨rfl, hp⟩ := sv_elementId s hd hi
      have h1 := SV.Within.move s (index + n) index (s.size - index) (by omega)
      have h2 := h1.trans (sv_constructs_within _ (h1.2.2.1.trans hd) index a n)
      split
      · next s' he =>
        rw [he] at h2
        have e : s'.size = s.size := h2.2.2.2
        exact h2.resized ((s'.size + n) % 2 ^ 64) (by rw [e, Nat.mod_eq_of_lt hn]; omega) _
      · next r s' _ he =>
        rw [he] at h2
        exact h2.stays hs _

theorem sv_emplace_stays (s : SV α) (hd : s.dbg = true) (hs : s.size ≤ s.cap) (p : Nat) (a : Arg α) : s.Stays (s.emplace p a) := by
  unfold SV.emplace
  split
  · exact (SV.Within.rfl' s).stays hs _
  · next h =>
    have hlt : s.size < s.cap := by simpa [hd] using h
    split
    · exact (SV.Within.rfl' s).stays hs _
    · next index hi =>
      obtain ⟨rfl, hp⟩ := sv_elementId s hd hi
      have h1 := SV.Within.move s (index + 1) index (s.size - index) (by omega)
      dsimp only
      split
      · exact h1.stays hs _
      · next v _ =>
        have h2 := h1.trans (s'' := ((s.memmove (index + 1) index (s.size - index)).born.put index
            (some ((s.memmove (index + 1) index (s.size - index)).next, v))))
          (SV.Within.put (s.memmove (index + 1) index (s.size - index)).born index (by show index < s.cap; omega) _)
        repeat' split
        all_goals first
          | exact h1.stays hs _
          | exact h2.resized (s.size + 1) (by omega) _

theorem sv_eraseRange_stays (s : SV α) (hd : s.dbg = true) (hs : s.size ≤ s.cap) (i j : Nat) : s.Stays (s.eraseRange i j) := by
  unfold SV.eraseRange
  split
  · next x y hi hj =>
    obtain ⟨rfl, hi'⟩ := sv_elementId s hd hi
    obtain ⟨rfl, hj'⟩ := sv_elementId s hd hj
    split
    · exact (SV.Within.rfl' s).stays hs _
    · next hle =>
      have hle : x ≤ y := by simpa [hd] using hle
      have h1 := sv_destructs_within s hd hs x (y - x)
      split
      · next s' he =>
        rw [he] at h1
        have e : s'.size = s.size := h1.2.2.2
        have e2 : s'.cap = s.cap := h1.2.1
        have h2 := h1.trans (SV.Within.move s' x y (s'.size - y) (by omega))
        exact h2.resized (s'.size - (y - x)) (by omega) _
      · next r s' _ he =>
        rw [he] at h1
        exact h1.stays hs _
  · exact (SV.Within.rfl' s).stays hs _

theorem sv_erase_stays (s : SV α) (hd : s.dbg = true) (hs : s.size ≤ s.cap) (i : Nat) : s.Stays (s.erase i) := by
  unfold SV.erase
  split
  · exact (SV.Within.rfl' s).stays hs _
  · next index hi =>
    obtain ⟨rfl, hi'⟩ := sv_elementId s hd hi
    have h1 := sv_destruct_within s hd hs index
    split
    · next s' he =>
      rw [he] at h1
      have e : s'.size = s.size := h1.2.2.2
      have e2 : s'.cap = s.cap := h1.2.1
      split
      · have h2 := h1.trans (SV.Within.move s' index (index + 1) (s'.size - index - 1) (by omega))
        exact h2.resized (s'.size - 1) (by omega) _
      · exact h1.stays hs _
    · next r s' _ he =>
      rw [he] at h1
      exact h1.stays hs _

theorem sv_resize_stays (s : SV α) (hd : s.dbg = true) (hs : s.size ≤ s.cap) (hc : s.cap < 2 ^ 64) (n : Nat) (a : Arg α) :
    s.Stays (s.resize n a) := by
  unfold SV.resize
  split
  · exact (SV.Within.rfl' s).stays hs _
  · next h =>
    have hle : n ≤ s.cap := by simpa [hd] using h
    split
    · exact (SV.Within.rfl' s).stays hs _
    · split
      · exact (sv_eraseRange_stays s hd hs _ _).map _
      · exact (sv_insertCount_stays s hd hs _ _ (by omega) a).map _

theorem sv_stays (s : SV α) (hd : s.dbg = true) (hs : s.size ≤ s.cap) (hc : s.cap < 2 ^ 64) (op : SVOp α)
    (hop : ∀ i v, op ≠ .write false i v) (hop' : ∀ i n a, op = .insertCount i n a → s.size + n < 2 ^ 64) : s.Stays (s.step op) := by
  have read : ∀ {β : Type} (r : Res β), s.Stays (r, s) := fun r => (SV.Within.rfl' s).stays hs r
  cases op with
  | assign n a =>
    refine SV.Stays.map _ ?_
    unfold SV.assign
    split
    · exact read _
    · next h =>
      have hle : n ≤ s.cap := by simpa [hd] using h
      have hw := sv_clear_stays s hd hs
      split
      · next s' he =>
        rw [he] at hw
        have e : s'.cap = s.cap := hw.2.1
        have hk := sv_constructs_within s' (hw.2.2.1.trans hd) 0 a n
        split
        · next s'' he' =>
          rw [he'] at hk
          exact hw.then (hk.resized n (by omega) _)
        · exact hw.then (hk.stays (hw.2.2.2 ⟨_, rfl⟩) _)
      · exact hw
  | assignRange vs =>
    refine SV.Stays.map _ ?_
    unfold SV.assignRange
    have hw := sv_clear_stays s hd hs
    split
    · next s' he =>
      rw [he] at hw
      exact hw.then (sv_constructEach_stays s' (hw.2.2.1.trans hd) (hw.2.2.2 ⟨_, rfl⟩) vs)
    · exact hw
  | insert i a => exact (sv_insert_stays s hd hs _ _).map _
  | insertCount i n a => exact (sv_insertCount_stays s hd hs _ _ (hop' i n a rfl) _).map _
  | insertRange i vs =>
    refine SV.Stays.map _ ?_
    unfold SV.insertRange
    split
    · exact read _
    · exact (sv_insertEach_stays s hd hs _ _).map _
  | emplace i a => exact (sv_emplace_stays s hd hs _ _).map _
  | emplaceBack a => exact (sv_emplace_stays s hd hs _ _).map _
  | push a => exact ((sv_insert_stays s hd hs _ _).map _).map _
  | erase i => exact (sv_erase_stays s hd hs _).map _
  | eraseRange i j => exact (sv_eraseRange_stays s hd hs _ _).map _
  | pop =>
    refine SV.Stays.map _ ?_
    unfold SV.popBack
    split
    · exact read _
    · exact (sv_erase_stays s hd hs _).map _
  | clear => exact (sv_clear_stays s hd hs).map _
  | resize n => exact (sv_resize_stays s hd hs hc _ _).map _
  | resizeValue n a => exact (sv_resize_stays s hd hs hc _ _).map _
  | reserve n =>
    refine SV.Stays.map _ ?_
    unfold SV.reserve
    split <;> exact read _
  | write c i v =>
    cases c
    · exact (hop i v rfl).elim
    · refine SV.Stays.map _ ?_
      unfold SV.write
      split
      · exact read _
      · next h =>
        have h' : i < s.size := by simpa [hd] using h
        split
        · exact read _
        · exact (SV.Within.put s i (by omega) _).stays hs _
  | at_ i => exact read _
  | index i => exact read _
  | front => exact read _
  | back => exact read _
  | size => exact read _
  | empty => exact read _
  | capacity => exact read _
  | iterate => exact read _
  | iterateBack => exact read _

end Vecmem
