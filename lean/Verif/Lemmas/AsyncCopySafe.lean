import Verif.Lemmas.AsyncCopy
import Verif.Lemmas.Tactics

/-! # The functions of the copy object wait for what they use -/

namespace Vecmem

open Prog

variable {β γ : Type}

theorem Safe.mono {Q Q' : Res β → DState → List COp → Prop} {p : Prog β} {s : DState} {P : List COp}
    (h : Safe p Q s P) (hq : ∀ r s' P', Q r s' P' → Q' r s' P') : Safe p Q' s P := by
  induction p generalizing s P with
  | ret r => exact ⟨h.1, hq _ _ _ h.2⟩
  | issue op k ih => obtain ⟨t, h1, h2⟩ := h; exact ⟨t, h1, ih h2⟩
  | event k ih => exact ih _ h
  | wait e k ih => exact ⟨h.1, ih h.2⟩
  | new l k ih => exact ⟨h.1, ih _ h.2⟩
  | read i k ih => obtain ⟨l, h1, h2, h3⟩ := h; exact ⟨l, h1, h2, ih _ h3⟩
  | drop k ih => exact ⟨h.1, ih h.2⟩
  | load p n k ih => exact ⟨h.1, ih _ h.2⟩
  | poke p n b k ih => exact ⟨h.1, ih h.2⟩

theorem Safe.withRun {Q : Res β → DState → List COp → Prop} {p : Prog β} {s : DState} {P : List COp}
    (h : Safe p Q s P) : Safe p (fun r s' P' => Q r s' P' ∧ p.run s = (r, s')) s P := by
  induction p generalizing s P with
  | ret r => exact ⟨h.1, h.2, rfl⟩
  | issue op k ih =>
    obtain ⟨t, h1, h2⟩ := h
    exact ⟨t, h1, (ih h2).mono fun r s' P' hq => ⟨hq.1, by simp only [run, h1]; exact hq.2⟩⟩
  | event k ih => exact ih _ h
  | wait e k ih => exact ⟨h.1, ih h.2⟩
  | new l k ih => exact ⟨h.1, ih _ h.2⟩
  | read i k ih =>
    obtain ⟨l, h1, h2, h3⟩ := h
    exact ⟨l, h1, h2, (ih _ h3).mono fun r s' P' hq => ⟨hq.1, by simp only [run, h1]; exact hq.2⟩⟩
  | drop k ih => exact ⟨h.1, ih h.2⟩
  | load p n k ih => exact ⟨h.1, ih _ h.2⟩
  | poke p n b k ih => exact ⟨h.1, ih h.2⟩

theorem Safe.post {Q : Res β → DState → List COp → Prop} {p : Prog β} {s : DState} {P : List COp}
    (h : Safe p Q s P) : ∃ P', Q (p.run s).1 (p.run s).2 P' := by
  induction p generalizing s P with
  | ret r => exact ⟨P, h.2⟩
  | issue op k ih =>
    obtain ⟨t, h1, h2⟩ := h
    simp only [run, h1]
    exact ih h2
  | event k ih => exact ih _ h
  | wait e k ih => exact ih h.2
  | new l k ih => exact ih _ h.2
  | read i k ih =>
    obtain ⟨l, h1, h2, h3⟩ := h
    simp only [run, h1]
    exact ih _ h3
  | drop k ih => exact ih h.2
  | load p n k ih => exact ih _ h.2
  | poke p n b k ih => exact ih h.2

theorem Safe.bind {Q : Res γ → DState → List COp → Prop} {p : Prog β} {f : β → Prog γ} {s : DState} {P : List COp}
    (h : Safe p (fun r s' P' => (∀ b, r = .ok b → Safe (f b) Q s' P') ∧
      (∀ x : Res γ, (∀ c, x ≠ .ok c) → (∀ b, r ≠ .ok b) → Q x s' P')) s P) : Safe (p.bind f) Q s P := by
  induction p generalizing s P with
  | ret r =>
    cases r with
    | ok b => exact h.2.1 b rfl
    | ub => exact absurd rfl h.1
    | _ => exact ⟨by simp, h.2.2 _ (by simp) (by simp)⟩
  | issue op k ih => obtain ⟨t, h1, h2⟩ := h; exact ⟨t, h1, ih h2⟩
  | event k ih => exact ih _ h
  | wait e k ih => exact ⟨h.1, ih h.2⟩
  | new l k ih => exact ⟨h.1, ih _ h.2⟩
  | read i k ih => obtain ⟨l, h1, h2, h3⟩ := h; exact ⟨l, h1, h2, ih _ h3⟩
  | drop k ih => exact ⟨h.1, ih h.2⟩
  | load p n k ih => exact ⟨h.1, ih _ h.2⟩
  | poke p n b k ih => exact ⟨h.1, ih h.2⟩

theorem Safe.thenDrop {Q : Res β → DState → List COp → Prop} {p : Prog β} {s : DState} {P : List COp}
    (h : Safe p (fun r s' P' => Slotted P' (s'.locals.length - 1) ∧ Q r { s' with locals := s'.locals.dropLast } P') s P) :
    Safe p.thenDrop Q s P := by
  induction p generalizing s P with
  | ret r => exact ⟨h.2.1, h.1, h.2.2⟩
  | issue op k ih => obtain ⟨t, h1, h2⟩ := h; exact ⟨t, h1, ih h2⟩
  | event k ih => exact ih _ h
  | wait e k ih => exact ⟨h.1, ih h.2⟩
  | new l k ih => exact ⟨h.1, ih _ h.2⟩
  | read i k ih => obtain ⟨l, h1, h2, h3⟩ := h; exact ⟨l, h1, h2, ih _ h3⟩
  | drop k ih => exact ⟨h.1, ih h.2⟩
  | load p n k ih => exact ⟨h.1, ih _ h.2⟩
  | poke p n b k ih => exact ⟨h.1, ih h.2⟩

/-! ## undefined behaviour of parts -/

theorem run_bind_ub {p : Prog β} {f : β → Prog γ} {s : DState} (h : ((p.bind f).run s).1 ≠ .ub) : (p.run s).1 ≠ .ub := by
  induction p generalizing s with
  | ret r =>
    intro hr
    cases r with
    | ub => exact h rfl
    | _ => simp [run] at hr
  | issue op k ih =>
    simp only [run, Prog.bind] at h ⊢
    cases hx : op.exec s with
    | none => rw [hx] at h; exact absurd rfl h
    | some t => rw [hx] at h; exact ih h
  | event k ih => exact ih _ h
  | wait e k ih => exact ih h
  | new l k ih => exact ih _ h
  | read i k ih =>
    simp only [run, Prog.bind] at h ⊢
    cases hx : s.locals[i]? with
    | none => rw [hx] at h; exact absurd rfl h
    | some t => rw [hx] at h; exact ih _ h
  | drop k ih => exact ih h
  | load p n k ih => exact ih _ h
  | poke p n b k ih => exact ih h

theorem run_thenDrop_fst {p : Prog β} {s : DState} : (p.thenDrop.run s).1 = (p.run s).1 := by
  induction p generalizing s with
  | ret r => rfl
  | issue op k ih =>
    simp only [run, Prog.thenDrop]
    cases op.exec s with
    | none => rfl
    | some t => exact ih
  | event k ih => exact ih _
  | wait e k ih => exact ih
  | new l k ih => exact ih _
  | read i k ih =>
    simp only [run, Prog.thenDrop]
    cases s.locals[i]? with
    | none => rfl
    | some t => exact ih _
  | drop k ih => exact ih
  | load p n k ih => exact ih _
  | poke p n b k ih => exact ih

theorem exec_of_run {op : COp} {k : Prog β} {s : DState} (h : ((Prog.issue op k).run s).1 ≠ .ub) :
    ∃ t, op.exec s = some t ∧ (k.run t).1 ≠ .ub := by
  simp only [run] at h
  cases hx : op.exec s with
  | none => rw [hx] at h; exact absurd rfl h
  | some t => rw [hx] at h; exact ⟨t, rfl, h⟩

/-! ## slots -/

theorem Slotted.mono {P : List COp} {n k : Nat} (h : Slotted P n) (hk : n ≤ k) : Slotted P k :=
  fun op ho i hi => Nat.lt_of_lt_of_le (h op ho i hi) hk

theorem Slotted.nil {n : Nat} : Slotted [] n := fun _ h => nomatch h

theorem Slotted.drop {P : List COp} {n k : Nat} (h : Slotted P n) : Slotted (P.drop k) n :=
  fun op ho => h op (List.mem_of_mem_drop ho)

theorem Slotted.append {P R : List COp} {n : Nat} (h : Slotted P n) (h2 : Slotted R n) : Slotted (P ++ R) n := by
  intro op ho
  rcases List.mem_append.1 ho with ho | ho
  · exact h op ho
  · exact h2 op ho

theorem Slotted.one {op : COp} {n : Nat} (h : ∀ i, op.Uses i → i < n) : Slotted [op] n := by
  intro o ho
  rw [List.mem_singleton.1 ho]
  exact h

/-- The library's functions: if the synchronous run is not undefined they are safe, leave the variables alone, and leave no
operations that use variables. -/
def Lib (f : Prog β) (T : β → DState → Prop) : Prop :=
  ∀ s P, Slotted P s.locals.length → (f.run s).1 ≠ .ub →
    Safe f (fun r s' P' => Slotted P' s.locals.length ∧ s'.locals.length = s.locals.length ∧ ∀ b, r = .ok b → T b s') s P

/-- What is known of an event. -/
def EventOk (e : Nat) (s : DState) : Prop := e ≤ s.done

theorem Lib.mono {f : Prog β} {T T' : β → DState → Prop} (h : Lib f T) (hT : ∀ b s, T b s → T' b s) : Lib f T' :=
  fun s P hs hr => (h s P hs hr).mono fun _ _ _ hq => ⟨hq.1, hq.2.1, fun b hb => hT b _ (hq.2.2 b hb)⟩

theorem Lib.ret {r : Res β} {T : β → DState → Prop} (h : ∀ b, r = .ok b → ∀ s, T b s) : Lib (.ret r) T :=
  fun s _ hs hr => ⟨hr, hs, rfl, fun b hb => h b hb s⟩

theorem Lib.bind {p : Prog β} {f : β → Prog γ} {T : β → DState → Prop} {U : γ → DState → Prop} (h : Lib p T)
    (hf : ∀ b s P, T b s → Slotted P s.locals.length → ((f b).run s).1 ≠ .ub → Safe (f b) (fun r s' P' =>
      Slotted P' s.locals.length ∧ s'.locals.length = s.locals.length ∧ ∀ b, r = .ok b → U b s') s P) :
    Lib (p.bind f) U := by
  intro s P hs hr
  apply Safe.bind
  refine (h s P hs (run_bind_ub hr)).withRun.mono ?_
  rintro r s' P' ⟨⟨h1, h2, h3⟩, h4⟩
  constructor
  · rintro b rfl
    rw [run_bind_ok h4] at hr
    refine (hf b s' P' (h3 b rfl) (by rw [h2]; exact h1) hr).mono ?_
    rintro r'' s'' P'' ⟨g1, g2, g3⟩
    exact ⟨by rw [← h2]; exact g1, by rw [g2, h2], g3⟩
  · intro x hx hne
    exact ⟨h1, h2, fun b hb => absurd hb (hx b)⟩

theorem Lib.scope {body : Nat → Prog β} {l : Local} {T : β → DState → Prop}
    (h : ∀ (s : DState) (L : List Local) P, s.locals = L ++ [l] → Slotted P L.length → ((body L.length).run s).1 ≠ .ub →
      Safe (body L.length) (fun r s' P' => Slotted P' L.length ∧ s'.locals.length = L.length + 1 ∧
        ∀ b, r = .ok b → T b { s' with locals := s'.locals.dropLast }) s P) : Lib (Prog.scope l body) T := by
  intro s P hs hr
  refine ⟨hs, ?_⟩
  apply Safe.thenDrop
  have hr' : ((body s.locals.length).run { s with locals := s.locals ++ [l] }).1 ≠ .ub := by
    rw [← run_thenDrop_fst]
    exact hr
  refine (h { s with locals := s.locals ++ [l] } s.locals P rfl hs hr').mono ?_
  rintro r s' P' ⟨h1, h2, h3⟩
  refine ⟨by rw [h2]; exact h1, h1, ?_, h3⟩
  simp only [List.length_dropLast]
  omega

/-! ## vectors -/

theorem Lib.retNoEvent : Lib Prog.retNoEvent EventOk := Lib.ret fun b hb s => by cases hb; exact Nat.zero_le _

theorem Lib.retEvent : Lib Prog.retEvent EventOk := fun s P hs _ =>
  ⟨by simp, hs, rfl, fun b hb => by cases hb; exact Nat.le_refl _⟩

theorem Lib.issue {op : COp} {k : Prog β} {T : β → DState → Prop} (hop : ∀ i, ¬ op.Uses i) (h : Lib k T) :
    Lib (.issue op k) T := by
  intro s P hs hr
  obtain ⟨t, h1, h2⟩ := exec_of_run hr
  have hl := (exec_done h1).2
  refine ⟨t, h1, ?_⟩
  have := h t (P ++ [op]) (by rw [hl]; exact hs.append (.one fun i hi => absurd hi (hop i))) h2
  rw [hl] at this
  exact this

theorem safe_sync {k : Prog β} {Q : Res β → DState → List COp → Prop} {s : DState} {P : List COp} (h : Safe k Q s []) :
    Safe (Prog.sync k) Q s P := by
  refine ⟨Nat.le_refl _, ?_⟩
  simpa using h

theorem Lib.sync {k : Prog β} {T : β → DState → Prop} (h : Lib k T) : Lib (Prog.sync k) T := by
  intro s P hs hr
  exact safe_sync (h s [] .nil hr)

theorem lib_getSize (v : View) : Lib (getSize v) fun _ _ => True := by
  unfold getSize
  split
  · exact Lib.ret fun _ _ _ => trivial
  · apply Lib.scope
    intro s L P hL hP hr
    obtain ⟨t, h1, h2⟩ := exec_of_run hr
    have hl := (exec_done h1).2
    rw [hL] at hl
    simp only [List.length_append, List.length_singleton] at hl
    refine ⟨t, h1, safe_sync ?_⟩
    have hi : L.length < t.locals.length := by omega
    exact ⟨t.locals[L.length], List.getElem?_eq_getElem hi, by simp, by simp, Slotted.nil, hl, fun _ _ => trivial⟩

theorem lib_setupVec (v : View) : Lib (setupVec v) EventOk := by
  unfold setupVec
  split
  · exact Lib.retNoEvent
  · exact Lib.issue (fun _ h => h) Lib.retEvent

theorem lib_memsetVec (t : Nat) (v : View) (x : UInt8) : Lib (memsetVec t v x) EventOk := by
  unfold memsetVec
  split
  · exact Lib.retNoEvent
  · exact Lib.issue (fun _ h => h) Lib.retEvent

theorem lib_putSize (n : Nat) (v : View) : Lib (putSize n v) fun _ _ => True := by
  unfold putSize
  split
  · exact Lib.ret fun _ _ _ => trivial
  · apply Lib.scope
    intro s L P hL hP hr
    obtain ⟨t, h1, h2⟩ := exec_of_run hr
    have hl := (exec_done h1).2
    rw [hL] at hl
    simp only [List.length_append, List.length_singleton] at hl
    exact ⟨t, h1, safe_sync ⟨by simp, .nil, hl, fun _ _ => trivial⟩⟩

theorem lib_copyView (t : Nat) (v w : View) : Lib (copyView t v w) fun _ _ => True := by
  unfold copyView
  refine (lib_getSize v).bind fun n s P _ hs hr => ?_
  split at hr
  · rename_i h; rw [if_pos h]; exact Lib.ret (fun _ _ _ => trivial) s P hs hr
  · rename_i h
    rw [if_neg h]
    split at hr
    · rename_i h2; rw [if_pos h2]; exact Lib.ret (fun _ _ _ => trivial) s P hs hr
    · rename_i h2
      rw [if_neg h2]
      refine ((lib_putSize n w).bind fun _ s P _ hs hr => ?_) s P hs hr
      exact Lib.issue (op := .copy ..) (fun _ h => h) (Lib.ret fun _ _ _ => trivial) s P hs hr

theorem lib_copyVec (t : Nat) (v w : View) : Lib (copyVec t v w) EventOk := by
  unfold copyVec
  refine (lib_copyView t v w).bind fun b s P _ hs hr => ?_
  cases b with
  | true => exact Lib.retEvent s P hs hr
  | false => exact Lib.retNoEvent s P hs hr

theorem lib_copyToStd (t : Nat) (v : View) (resize : Nat → Nat) : Lib (copyToStd t v resize) EventOk := by
  unfold copyToStd
  exact (lib_getSize v).bind fun n s P _ hs hr => Lib.issue (op := .copy ..) (fun _ h => h) Lib.retEvent s P hs hr

/-! ## jagged vectors -/

theorem lib_setupJag (j : JagView) : Lib (setupJag j) EventOk := by
  unfold setupJag
  split
  · exact Lib.retNoEvent
  · have hrest : Lib (if j.ptr = j.hostPtr then Prog.retEvent
        else .issue (.copy (IntMath.wrap64 (j.views.length * viewSize)) j.hostPtr j.ptr) Prog.retEvent) EventOk := by
      split
      · exact Lib.retEvent
      · exact Lib.issue (fun _ h => h) Lib.retEvent
    simp only
    split
    · exact Lib.issue (fun _ h => h) hrest
    · exact hrest

theorem lib_memsetFirst (n : Nat) (x : UInt8) (vs : List View) : Lib (memsetFirst n x vs) EventOk := by
  induction vs with
  | nil => exact Lib.retNoEvent
  | cons v vs ih =>
    unfold memsetFirst
    split
    · exact Lib.issue (fun _ h => h) Lib.retEvent
    · exact ih

theorem lib_memsetEach (t : Nat) (x : UInt8) (vs : List View) : Lib (memsetEach t x vs) EventOk := by
  induction vs with
  | nil => exact Lib.retEvent
  | cons v vs ih => exact Lib.issue (fun _ h => h) ih

theorem lib_memsetJag (t : Nat) (j : JagView) (x : UInt8) : Lib (memsetJag t j x) EventOk := by
  unfold memsetJag
  split
  · exact Lib.ret fun _ h => nomatch h
  · split
    · apply lib_memsetFirst
    · apply lib_memsetEach

theorem lib_getSizes (vs : List View) : Lib (getSizes vs) fun _ _ => True := by
  unfold getSizes
  apply Lib.scope
  intro s L P hL hP hr
  split at hr
  · rename_i i hi
    obtain ⟨t, h1, h2⟩ := exec_of_run hr
    have hl := (exec_done h1).2
    rw [hL] at hl
    simp only [List.length_append, List.length_singleton] at hl
    refine ⟨t, h1, safe_sync ?_⟩
    have hi : L.length < t.locals.length := by omega
    exact ⟨t.locals[L.length], List.getElem?_eq_getElem hi, by simp, by simp, Slotted.nil, hl, fun _ _ => trivial⟩
  · rename_i hi
    exact ⟨by simp, hP, by rw [hL]; simp, fun _ _ => trivial⟩

/-- `set_sizes` leaves at most one operation more, which its event waits for. -/
theorem safe_setSizes (slot : Nat) (sizes : List Nat) (vs : List View) (s : DState) (P : List COp)
    (hr : ((setSizes slot sizes vs).run s).1 ≠ .ub) :
    Safe (setSizes slot sizes vs) (fun r s' P' => s'.locals.length = s.locals.length ∧
      ((∃ op, P' = P ++ [op] ∧ r = .ok s'.done) ∨ (P' = P ∧ ∀ e, r = .ok e → e = 0))) s P := by
  unfold setSizes at hr ⊢
  split at hr
  · rename_i h; rw [if_pos h]
    exact ⟨by simp, rfl, .inr ⟨rfl, fun e he => by cases he; rfl⟩⟩
  · rename_i h; rw [if_neg h]
    split at hr
    · rename_i h2; rw [if_pos h2]
      exact ⟨by simp, rfl, .inr ⟨rfl, fun e he => nomatch he⟩⟩
    · rename_i h2; rw [if_neg h2]
      cases hc : checkSizes true vs sizes with
      | ok b =>
        rw [hc] at hr
        simp only [Prog.bind] at hr ⊢
        cases b with
        | true =>
          simp only [if_true] at hr ⊢
          obtain ⟨t, h3, h4⟩ := exec_of_run hr
          exact ⟨t, h3, by simp, (exec_done h3).2, .inl ⟨_, rfl, rfl⟩⟩
        | false => exact ⟨by simp, rfl, .inr ⟨rfl, fun e he => by cases he; rfl⟩⟩
      | ub => rw [hc] at hr; exact absurd rfl hr
      | _ => exact ⟨by simp, rfl, .inr ⟨rfl, fun e he => nomatch he⟩⟩

/-- After waiting for that event. -/
theorem slotted_wait {P C P' : List COp} {op : COp} {n e d d' : Nat} (hP : Slotted P n) (hC : Slotted C n)
    (hd : d' = d + C.length) (h : (P' = P ++ [op] ∧ e = d) ∨ (P' = P ∧ e = 0)) :
    Slotted ((P' ++ C).drop ((P' ++ C).length - (d' - e))) n := by
  rcases h with ⟨rfl, rfl⟩ | ⟨rfl, rfl⟩
  · have : (P ++ [op] ++ C).length - (d' - e) = (P ++ [op]).length := by
      simp only [List.length_append, List.length_singleton]
      omega
    rw [this, List.drop_left]
    exact hC
  · exact (hP.append hC).drop

theorem lib_setSizesAndWait (sizes : List Nat) (vs : List View) : Lib (setSizesAndWait sizes vs) fun _ _ => True := by
  unfold setSizesAndWait
  apply Lib.scope
  intro s L P hL hP hr
  apply Safe.bind
  refine (safe_setSizes _ _ _ s P (run_bind_ub hr)).mono ?_
  rintro r s' P' ⟨h1, h2⟩
  rw [hL] at h1
  simp only [List.length_append, List.length_singleton] at h1
  constructor
  · rintro e rfl
    refine ⟨?_, by simp, ?_, h1, fun _ _ => trivial⟩
    · rcases h2 with ⟨_, _, h⟩ | ⟨_, h⟩
      · simp only [Res.ok.injEq] at h; omega
      · have := h e rfl; omega
    · rcases h2 with ⟨op, h3, h⟩ | ⟨h3, h⟩
      · simp only [Res.ok.injEq] at h
        have := slotted_wait (C := []) (d := s'.done) (d' := s'.done) hP .nil (by simp) (.inl ⟨h3, h⟩)
        simpa using this
      · subst h3
        exact hP.drop
  · intro x hx hne
    rcases h2 with ⟨_, _, h⟩ | ⟨h3, h⟩
    · exact absurd h (hne _)
    · exact ⟨by rw [h3]; exact hP, h1, fun _ _ => trivial⟩

/-- Copies only. -/
def Copying (p : Prog Unit) : Prop := ∀ s P, (p.run s).1 ≠ .ub → Safe p (fun r s' P' => r = .ok () ∧ s'.locals.length = s.locals.length ∧
  ∃ C, P' = P ++ C ∧ s'.done = s.done + C.length ∧ ∀ op ∈ C, ∀ i, ¬ op.Uses i) s P

theorem Copying.ret : Copying (.ret (.ok ())) := fun s P hr => ⟨hr, rfl, rfl, [], by simp, by simp, by simp⟩

theorem Copying.ub : Copying (.ret .ub) := fun s P hr => absurd rfl hr

theorem Copying.issue {n a b : Nat} {k : Prog Unit} (h : Copying k) : Copying (.issue (.copy n a b) k) := by
  intro s P hr
  obtain ⟨t, h1, h2⟩ := exec_of_run hr
  refine ⟨t, h1, (h t _ h2).mono ?_⟩
  rintro r s' P' ⟨g0, g1, C, g2, g3, g4⟩
  obtain ⟨e1, e2⟩ := exec_done h1
  refine ⟨g0, by rw [g1, e2], .copy n a b :: C, by rw [g2]; simp, by rw [g3, e1, List.length_cons]; omega, ?_⟩
  intro op ho
  rcases List.mem_cons.1 ho with rfl | ho
  · exact fun _ h => h
  · exact g4 op ho

theorem copying_copyViews (dbg : Bool) (t : Nat) (ns : List Nat) (vs ws : List View) : Copying (copyViews dbg t ns vs ws) := by
  induction ns generalizing vs ws with
  | nil => exact Copying.ret
  | cons n ns ih =>
    cases vs with
    | nil => exact Copying.ret
    | cons v vs =>
      cases ws with
      | nil => exact Copying.ret
      | cons w ws =>
        unfold copyViews
        split
        · apply ih
        · split
          · exact Copying.ub
          · exact Copying.issue (ih vs ws)

theorem copying_copyFirst (dbg : Bool) (t : Nat) (ns : List Nat) (vs ws : List View) : Copying (copyFirst dbg t ns vs ws) := by
  induction ns generalizing vs ws with
  | nil => exact Copying.ret
  | cons n ns ih =>
    cases vs with
    | nil => exact Copying.ret
    | cons v vs =>
      cases ws with
      | nil => exact Copying.ret
      | cons w ws =>
        unfold copyFirst
        split
        · apply ih
        · split
          · exact Copying.ub
          · exact Copying.issue Copying.ret

theorem lib_copyViewJag (dbg : Bool) (t : Nat) (v w : JagView) : Lib (copyViewJag dbg t v w) fun _ _ => True := by
  unfold copyViewJag
  simp only
  split
  · exact Lib.ret fun _ _ _ => trivial
  split
  · exact Lib.ret fun _ _ _ => trivial
  refine (lib_getSizes v.views).bind fun sizes s P _ hs hr => ?_
  revert s P
  apply Lib.scope
  intro s L P hL hP hr
  apply Safe.bind
  refine (safe_setSizes _ _ _ s P (run_bind_ub hr)).withRun.mono ?_
  rintro r s' P' ⟨⟨h1, h2⟩, hrun⟩
  rw [hL] at h1
  simp only [List.length_append, List.length_singleton] at h1
  constructor
  · rintro e rfl
    rw [run_bind_ok hrun] at hr
    apply Safe.bind
    have hcopy : Copying (if isContiguous t v.views && isContiguous t (w.views.take v.views.length) &&
        (v.views.map (·.capacity) == (w.views.take v.views.length).map (·.capacity)) then
          copyContiguous dbg t (v.views.map (·.capacity)) v.views w.views
        else copyViews dbg t sizes v.views w.views) := by
      split
      · apply copying_copyFirst
      · apply copying_copyViews
    refine (hcopy s' P' (run_bind_ub hr)).mono ?_
    rintro r2 s2 P2 ⟨rfl, g1, C, rfl, g3, g4⟩
    have hC : Slotted C L.length := fun op ho i hi => absurd hi (g4 op ho i)
    constructor
    · rintro _ -
      refine ⟨?_, by simp, ?_, by rw [g1, h1], fun _ _ => trivial⟩
      · rcases h2 with ⟨_, _, h⟩ | ⟨_, h⟩
        · simp only [Res.ok.injEq] at h; omega
        · have := h e rfl; omega
      · rcases h2 with ⟨op, h3, h⟩ | ⟨h3, h⟩
        · simp only [Res.ok.injEq] at h
          exact slotted_wait hP hC g3 (.inl ⟨h3, h⟩)
        · subst h3
          exact (hP.append hC).drop
    · intro x hx hne
      exact absurd rfl (hne ())
  · intro x hx hne
    rcases h2 with ⟨_, _, h⟩ | ⟨h3, h⟩
    · exact absurd h (hne _)
    · exact ⟨by rw [h3]; exact hP, h1, fun _ _ => trivial⟩

theorem lib_copyJag (dbg : Bool) (t : Nat) (v w : JagView) : Lib (copyJag dbg t v w) EventOk := by
  unfold copyJag
  refine (lib_copyViewJag dbg t v w).bind fun b s P _ hs hr => ?_
  cases b with
  | true => exact Lib.retEvent s P hs hr
  | false => exact Lib.retNoEvent s P hs hr

theorem lib_copyJagToStd (dbg : Bool) (t : Nat) (v : JagView) (resize : List Nat → List Nat) :
    Lib (copyJagToStd dbg t v resize) EventOk := by
  unfold copyJagToStd
  exact (lib_getSizes v.views).bind fun n s P _ hs hr => lib_copyJag _ _ _ _ s P hs hr

/-! ## users -/

theorem lib_call (c : CopyCall) : Lib c.prog EventOk := by
  cases c with
  | setup v => exact lib_setupVec v
  | memset t v x => exact lib_memsetVec t v x
  | copy t v w => exact lib_copyVec t v w
  | toStd t v r => exact lib_copyToStd t v r
  | setupJag j => exact lib_setupJag j
  | memsetJag t j x => exact lib_memsetJag t j x
  | copyJag dbg t v w => exact lib_copyJag dbg t v w
  | toStdJag dbg t v r => exact lib_copyJagToStd dbg t v r
  | setSizes n v => exact (lib_setSizesAndWait n v).bind fun _ s P _ hs hr => Lib.retNoEvent s P hs hr
  | getSize v => exact (lib_getSize v).bind fun _ s P _ hs hr => Lib.retNoEvent s P hs hr
  | getSizes v => exact (lib_getSizes v).bind fun _ s P _ hs hr => Lib.retNoEvent s P hs hr

theorem lib_calls {k : Prog β} {T : β → DState → Prop} (h : Lib k T) (cs : List (CopyCall × Bool)) : Lib (calls k cs) T := by
  induction cs with
  | nil => exact h
  | cons c cs ih =>
    obtain ⟨c, w⟩ := c
    refine (lib_call c).bind fun e s P he hs hr => ?_
    cases w with
    | true => exact ⟨he, ih s _ hs.drop hr⟩
    | false => exact ih s P hs hr

theorem bind_assoc {δ : Type} (p : Prog β) (f : β → Prog γ) (g : γ → Prog δ) :
    (p.bind f).bind g = p.bind fun b => (f b).bind g := by
  induction p with
  | ret r => cases r <;> rfl
  | issue op k ih => simp only [Prog.bind, ih]
  | event k ih => simp only [Prog.bind, ih]
  | wait e k ih => simp only [Prog.bind, ih]
  | new l k ih => simp only [Prog.bind, ih]
  | read i k ih => simp only [Prog.bind, ih]
  | drop k ih => simp only [Prog.bind, ih]
  | load p n k ih => simp only [Prog.bind, ih]
  | poke p n b k ih => simp only [Prog.bind, ih]

theorem calls_eq (k : Prog β) (cs : List (CopyCall × Bool)) : calls k cs = (calls (.ret (.ok ())) cs).bind fun _ => k := by
  induction cs with
  | nil => rfl
  | cons c cs ih =>
    obtain ⟨c, w⟩ := c
    simp only [calls, bind_assoc]
    congr 1
    funext e
    cases w with
    | true => simp only [if_true, Prog.bind, ← ih]
    | false => simp only [Bool.false_eq_true, if_false, ← ih]

theorem calls_ok {k : Prog β} {cs : List (CopyCall × Bool)} {s : DState} {b : β} (h : ((calls k cs).run s).1 = .ok b) :
    ∃ s1, (calls (.ret (.ok ())) cs).run s = (.ok (), s1) := by
  cases hx : (calls (.ret (.ok ())) cs).run s with
  | mk r s1 =>
    cases r with
    | ok => exact ⟨s1, rfl⟩
    | _ =>
      rw [calls_eq, run_bind_err hx (by intro b hb; cases hb) (fun _ => b)] at h
      simp [Res.map] at h

theorem safe_calls {k : Prog β} {Q : Res β → DState → List COp → Prop} (cs : List (CopyCall × Bool)) {s s1 : DState}
    {P : List COp} (hs : Slotted P s.locals.length) (h1 : (calls (.ret (.ok ())) cs).run s = (.ok (), s1))
    (h : ∀ P', Slotted P' s.locals.length → s1.locals.length = s.locals.length → Safe k Q s1 P') :
    Safe (calls k cs) Q s P ∧ (calls k cs).run s = k.run s1 := by
  induction cs generalizing s P with
  | nil =>
    simp only [calls, run, Prod.mk.injEq, true_and] at h1
    subst h1
    exact ⟨h P hs rfl, rfl⟩
  | cons c cs ih =>
    obtain ⟨c, w⟩ := c
    have hnub : (c.prog.run s).1 ≠ .ub := by
      have : ((calls (.ret (.ok ())) ((c, w) :: cs)).run s).1 ≠ .ub := by rw [h1]; simp
      exact run_bind_ub this
    have hsafe := (lib_call c s P hs hnub).withRun
    obtain ⟨P1, ⟨_, hlen, hev⟩, _⟩ := hsafe.post
    have hrun : ∃ e s', c.prog.run s = (.ok e, s') := by
      cases hx : c.prog.run s with
      | mk r s' =>
        cases r with
        | ok e => exact ⟨e, s', rfl⟩
        | _ =>
          have := run_bind_err (f := fun e => if w then Prog.wait e (calls (.ret (.ok ())) cs) else calls (.ret (.ok ())) cs) hx
            (by intro b hb; cases hb) (fun _ => ())
          simp only [calls] at h1
          rw [h1] at this
          simp [Res.map] at this
    obtain ⟨e, s', hrun⟩ := hrun
    have h1' : (calls (.ret (.ok ())) cs).run s' = (.ok (), s1) := by
      simp only [calls] at h1
      rw [run_bind_ok hrun] at h1
      cases w <;> exact h1
    rw [hrun] at hlen hev
    simp only at hlen hev
    constructor
    · apply Safe.bind
      refine hsafe.mono ?_
      rintro r s'' P' ⟨⟨g1, g2, g3⟩, g4⟩
      rw [hrun] at g4
      cases g4
      constructor
      · intro b hb
        cases hb
        cases w with
        | true =>
          exact ⟨g3 e rfl, (ih (P := P'.drop _) (by rw [g2]; exact g1.drop) h1' (by rw [g2]; exact h)).1⟩
        | false => exact (ih (P := P') (by rw [g2]; exact g1) h1' (by rw [g2]; exact h)).1
      · intro x _ hne
        exact absurd rfl (hne e)
    · simp only [calls]
      rw [run_bind_ok hrun]
      have := (ih (s := s') (P := []) .nil h1' (by rw [hlen]; exact h)).2
      cases w <;> exact this

end Vecmem
