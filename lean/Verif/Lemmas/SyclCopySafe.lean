import Verif.Lemmas.SyclCopy

/-! # The functions of the copy object on a queue that is not in order -/

namespace Vecmem

open IntMath Prog

variable {β γ : Type}

/-! ## outcomes -/

/-- The same outcome, up to `V` for values. -/
def SameOutcome (V : β → β → Prop) (r r0 : Res β) : Prop :=
  (∃ b b0, r = .ok b ∧ r0 = .ok b0 ∧ V b b0) ∨ ((∀ b, r ≠ .ok b) ∧ r0 = r)

/-- Waiting for the event waits for all that may be pending. -/
def SWaits (e : Nat) (B : SBook) : Prop := ∀ x ∈ B.pend, e ≠ 0 ∧ x.1 ∈ B.events.getD (e - 1) []

theorem SWaits.after {e : Nat} {B : SBook} (h : SWaits e B) : (B.after e).pend = [] := by
  simp only [SBook.after]
  rw [List.filter_eq_nil_iff]
  intro x hx
  obtain ⟨h1, h2⟩ := h x hx
  simp only [h1, false_or, decide_not, Bool.not_eq_true, Bool.not_eq_false', decide_eq_true_eq]
  exact h2

/-- The outcome of a program that is like its synchronous run. -/
def SPost (f : Prog β) (V : β → β → Prop) (W : β → SBook → Prop) (s : DState) (r : Res β) (s' : DState) (B : SBook) : Prop :=
  ∃ r0, f.run s = (r0, s') ∧ SameOutcome V r r0 ∧ (∀ b, r = .ok b → W b B) ∧ ((∀ b, r ≠ .ok b) → B.pend = [])

/-- Started with nothing pending, the program is safe, and has the same outcome as the synchronous run. -/
def SLib (f : Prog β) (V : β → β → Prop) (W : β → SBook → Prop) (s : DState) : Prop :=
  ∀ B : SBook, B.pend = [] → SSafe f (SPost f V W s) s B

/-- All was waited for. -/
def Idle : β → SBook → Prop := fun _ B => B.pend = []

/-- Any event. -/
def AnyEvent : Nat → Nat → Prop := fun _ _ => True

theorem slib_ret {r : Res β} {V : β → β → Prop} {W : β → SBook → Prop} {s : DState} (hr : r ≠ .ub)
    (hV : ∀ b, r = .ok b → V b b) (hW : ∀ b, r = .ok b → ∀ B : SBook, B.pend = [] → W b B) : SLib (.ret r) V W s := by
  intro B hB
  refine ⟨hr, r, rfl, ?_, fun b hb => hW b hb B hB, fun _ => hB⟩
  cases r with
  | ok b => exact .inl ⟨b, b, rfl, rfl, hV b rfl⟩
  | _ => exact .inr ⟨by simp, rfl⟩

theorem slib_noEvent {s : DState} : SLib Prog.retNoEvent AnyEvent SWaits s :=
  slib_ret (by simp) (fun _ _ => trivial) fun b _ B hB x hx => by rw [hB] at hx; cases hx

theorem slib_bind [Inhabited γ] {p : Prog β} {f : β → Prog γ} {V : γ → γ → Prop} {W : γ → SBook → Prop} {s : DState}
    (h : SLib p Eq Idle s) (hf : ∀ b s', p.run s = (.ok b, s') → SLib (f b) V W s') : SLib (p.bind f) V W s := by
  intro B hB
  apply SSafe.bind
  refine (h B hB).mono ?_
  rintro r s' B' ⟨r0, h1, h2, h3, h4⟩
  rcases h2 with ⟨b, b0, rfl, rfl, rfl⟩ | ⟨hne, rfl⟩
  · refine (hf b s' h1 B' (h3 b rfl)).mono ?_
    rintro r2 s2 B2 ⟨r3, g1, g2, g3, g4⟩
    exact ⟨r3, by rw [run_bind_ok h1, g1], g2, g3, g4⟩
  · have herr := run_bind_err (f := f) h1 (fun b => hne b) (fun _ => default)
    cases r0 with
    | ok b => exact absurd rfl (hne b)
    | ub => trivial
    | _ => exact ⟨_, herr, .inr ⟨by simp, rfl⟩, by simp, fun _ => h4 (by simp)⟩

/-- A block with a variable. -/
theorem slib_scope {body : Nat → Prog β} {l : Local} {V : β → β → Prop} {W : β → SBook → Prop} {s : DState}
    (hr : ((Prog.scope l body).run s).1 ≠ .ub)
    (h : ∀ B : SBook, B.pend = [] → SSafe (body s.locals.length) (fun r s' B' =>
      SPost (body s.locals.length) V W { s with locals := s.locals ++ [l] } r s' B' ∧
      Slotted (B'.pend.map (·.2)) (s'.locals.length - 1)) { s with locals := s.locals ++ [l] } B) :
    SLib (Prog.scope l body) V W s := by
  intro B hB
  refine ⟨by rw [hB]; exact Slotted.nil, ?_⟩
  apply SSafe.thenDrop
  have hr' : ((body s.locals.length).run { s with locals := s.locals ++ [l] }).1 ≠ .ub := by
    rw [← run_thenDrop_fst]
    exact hr
  refine (h B hB).mono ?_
  rintro r s' B' ⟨⟨r0, h1, h2, h3, h4⟩, h5⟩
  refine ⟨h5, r0, ?_, h2, h3, h4⟩
  rw [h1] at hr'
  exact run_thenDrop h1 hr'

theorem ssafe_sync {k : Prog β} {Q : Res β → DState → SBook → Prop} {s : DState} {B : SBook}
    (hB : ∀ x ∈ B.pend, x.1 ∈ B.coll) (h : ∀ B' : SBook, B'.pend = [] → SSafe k Q s B') : SSafe (Prog.sync k) Q s B := by
  apply h
  refine SWaits.after (e := B.events.length + 1) (B := ⟨B.pend, B.issued, [], B.events ++ [B.coll]⟩) fun x hx => ⟨by simp, ?_⟩
  simpa using hB x hx

/-! ## sequences of operations -/

/-- Operations, and then a program. -/
def seqOps (ops : List COp) (k : Prog β) : Prog β := ops.foldr .issue k

theorem ssafe_seq {ops : List COp} {k : Prog β} {Q : Res β → DState → SBook → Prop} {s : DState} {B : SBook}
    (hr : ((seqOps ops k).run s).1 ≠ .ub) (hp : ops.Pairwise COp.Independent)
    (hB : ∀ x ∈ B.pend, ∀ op ∈ ops, x.2.Independent op)
    (hk : ∀ s' C n l, (seqOps ops k).run s = k.run s' → C.map (·.2) = ops → (∀ x ∈ C, x.1 ∈ l) → (∀ x ∈ B.coll, x ∈ l) →
      SSafe k Q s' ⟨B.pend ++ C, n, l, B.events⟩) : SSafe (seqOps ops k) Q s B := by
  induction ops generalizing s B with
  | nil =>
    have := hk s [] B.issued B.coll rfl rfl (by simp) fun _ h => h
    simpa [seqOps] using this
  | cons op ops ih =>
    obtain ⟨t, h1, h2⟩ := exec_of_run (k := seqOps ops k) hr
    obtain ⟨hp1, hp2⟩ := List.pairwise_cons.1 hp
    refine ⟨t, h1, fun x hx => hB x hx op (List.mem_cons_self ..), ?_⟩
    refine ih (B := ⟨B.pend ++ [(B.issued, op)], B.issued + 1, B.coll ++ [B.issued], B.events⟩) h2 hp2 ?_ ?_
    · intro x hx o ho
      rcases List.mem_append.1 hx with hx | hx
      · exact hB x hx o (List.mem_cons_of_mem _ ho)
      · rw [List.mem_singleton.1 hx]
        exact hp1 o ho
    · intro s' C n l e1 e2 e3 e4
      have := hk s' ((B.issued, op) :: C) n l (by
        show (Prog.issue op (seqOps ops k)).run s = _
        simp only [run, h1]
        exact e1) (by simp [e2]) (by
        intro x hx
        rcases List.mem_cons.1 hx with rfl | hx
        · exact e4 _ (by simp)
        · exact e3 x hx) (fun x hx => e4 x (by simp [hx]))
      simpa using this

/-- A function that only issues operations which are independent, and returns an event. -/
theorem slib_seqEvent {ops : List COp} {s : DState} (hr : ((seqOps ops Prog.retEvent).run s).1 ≠ .ub)
    (hp : ops.Pairwise COp.Independent) : SLib (seqOps ops Prog.retEvent) AnyEvent SWaits s := by
  intro B hB
  refine ssafe_seq hr hp (by simp [hB]) ?_
  intro s' C n l e1 _ e3 _
  refine ⟨by simp, .ok s'.done, e1, .inl ⟨_, _, rfl, rfl, trivial⟩, ?_, by simp⟩
  rintro b hb
  simp only [Res.ok.injEq] at hb
  subst hb
  intro x hx
  simp only [hB, List.nil_append] at hx
  refine ⟨by simp, ?_⟩
  simpa using e3 x hx

/-! ## vectors -/

theorem slib_getSize {v : View} {s : DState} (hr : ((getSize v).run s).1 ≠ .ub) : SLib (getSize v) Eq Idle s := by
  unfold getSize at hr ⊢
  split at hr
  · rename_i h
    rw [if_pos h]
    exact slib_ret (by simp) (fun _ _ => rfl) fun _ _ _ hB => hB
  · rename_i h
    rw [if_neg h]
    refine slib_scope hr fun B hB => ?_
    rw [Prog.scope] at hr
    have hr' := hr
    simp only [run] at hr'
    rw [run_thenDrop_fst] at hr'
    obtain ⟨t, h1, h2⟩ := exec_of_run hr'
    have hl := (exec_done h1).2
    simp only [List.length_append, List.length_singleton] at hl
    have hi : s.locals.length < t.locals.length := by omega
    refine ⟨t, h1, by simp [hB], ssafe_sync (by simp [hB]) fun B' hB' => ?_⟩
    refine ⟨t.locals[s.locals.length], List.getElem?_eq_getElem hi, by simp [hB'], by simp,
      ⟨_, ?_, .inl ⟨_, _, rfl, rfl, rfl⟩, fun _ _ => hB', by simp⟩, by rw [hB']; exact Slotted.nil⟩
    simp only [run, h1, Prog.sync, List.getElem?_eq_getElem hi]

theorem slib_putSize {n : Nat} {v : View} {s : DState} (hr : ((putSize n v).run s).1 ≠ .ub) :
    SLib (putSize n v) Eq Idle s := by
  unfold putSize at hr ⊢
  split at hr
  · rename_i h
    rw [if_pos h]
    exact slib_ret (by simp) (fun _ _ => rfl) fun _ _ _ hB => hB
  · rename_i h
    rw [if_neg h]
    refine slib_scope hr fun B hB => ?_
    rw [Prog.scope] at hr
    simp only [run] at hr
    rw [run_thenDrop_fst] at hr
    obtain ⟨t, h1, h2⟩ := exec_of_run hr
    refine ⟨t, h1, by simp [hB], ssafe_sync (by simp [hB]) fun B' hB' => ?_⟩
    refine ⟨by simp, ⟨_, ?_, .inl ⟨_, _, rfl, rfl, rfl⟩, fun _ _ => hB', by simp⟩, by rw [hB']; exact Slotted.nil⟩
    simp only [run, h1, Prog.sync]

theorem slib_setupVec {v : View} {s : DState} (hr : ((setupVec v).run s).1 ≠ .ub) :
    SLib (setupVec v) AnyEvent SWaits s := by
  unfold setupVec at hr ⊢
  split at hr
  · rename_i h; rw [if_pos h]; exact slib_noEvent
  · rename_i h; rw [if_neg h]; exact slib_seqEvent (ops := [_]) hr (by simp)

theorem slib_memsetVec {t : Nat} {v : View} {x : UInt8} {s : DState} (hr : ((memsetVec t v x).run s).1 ≠ .ub) :
    SLib (memsetVec t v x) AnyEvent SWaits s := by
  unfold memsetVec at hr ⊢
  split at hr
  · rename_i h; rw [if_pos h]; exact slib_noEvent
  · rename_i h; rw [if_neg h]; exact slib_seqEvent (ops := [_]) hr (by simp)

/-- The copies that `copy_view_impl` starts are collected for the next event. -/
def Collected : Bool → SBook → Prop := fun b B =>
  (b = true → ∀ x ∈ B.pend, x.1 ∈ B.coll) ∧ (b = false → B.pend = [])

theorem slib_copyView {t : Nat} {v w : View} {s : DState} (hr : ((copyView t v w).run s).1 ≠ .ub) :
    SLib (copyView t v w) Eq Collected s := by
  unfold copyView at hr ⊢
  refine slib_bind (slib_getSize (run_bind_ub hr)) fun n s1 h1 => ?_
  rw [run_bind_ok h1] at hr
  split at hr
  · rename_i h
    rw [if_pos h]
    refine slib_ret (by simp) (fun _ _ => rfl) fun b hb B hB => ⟨fun h => ?_, fun _ => hB⟩
    cases hb
    cases h
  · rename_i h
    rw [if_neg h]
    split at hr
    · rename_i h2
      rw [if_pos h2]
      exact slib_ret (by simp) (fun _ h => nomatch h) fun _ h => nomatch h
    · rename_i h2
      rw [if_neg h2]
      refine slib_bind (slib_putSize (run_bind_ub hr)) fun _ s2 h3 => ?_
      rw [run_bind_ok h3] at hr
      intro B hB
      refine ssafe_seq (ops := [_]) (k := .ret (.ok true)) hr (by simp) (by simp [hB]) ?_
      intro s' C n l e1 e2 e3 e4
      refine ⟨by simp, _, e1, .inl ⟨_, _, rfl, rfl, rfl⟩, ?_, by simp⟩
      rintro b hb
      cases hb
      refine ⟨fun _ => ?_, fun h => nomatch h⟩
      simp only [hB, List.nil_append]
      exact e3

theorem slib_afterCopy {f : Prog Bool} {s : DState} (h : SLib f Eq Collected s) :
    SLib (f.bind fun b => if b then Prog.retEvent else Prog.retNoEvent) AnyEvent SWaits s := by
  intro B hB
  apply SSafe.bind
  refine (h B hB).mono ?_
  rintro r s' B' ⟨r0, h1, h2, h3, h4⟩
  rcases h2 with ⟨b, b0, rfl, rfl, rfl⟩ | ⟨hne, rfl⟩
  · obtain ⟨h5, h6⟩ := h3 b rfl
    cases b with
    | true =>
      refine ⟨by simp, .ok s'.done, by rw [run_bind_ok h1]; rfl, .inl ⟨_, _, rfl, rfl, trivial⟩, ?_, by simp⟩
      rintro b hb
      simp only [Res.ok.injEq] at hb
      subst hb
      intro x hx
      refine ⟨by simp, ?_⟩
      simpa using h5 rfl x hx
    | false =>
      refine ⟨by simp, .ok 0, by rw [run_bind_ok h1]; rfl, .inl ⟨_, _, rfl, rfl, trivial⟩, ?_, by simp⟩
      intro b _ x hx
      rw [h6 rfl] at hx
      cases hx
  · have herr := run_bind_err (f := fun b => if b then Prog.retEvent else Prog.retNoEvent) h1 (fun b => hne b) (fun _ => 0)
    cases r0 with
    | ok b => exact absurd rfl (hne b)
    | ub => trivial
    | _ => exact ⟨_, herr, .inr ⟨by simp, rfl⟩, by simp, fun _ => h4 (by simp)⟩

theorem slib_copyVec {t : Nat} {v w : View} {s : DState} (hr : ((copyVec t v w).run s).1 ≠ .ub) :
    SLib (copyVec t v w) AnyEvent SWaits s :=
  slib_afterCopy (slib_copyView (run_bind_ub hr))

theorem slib_copyToStd {t : Nat} {v : View} {resize : Nat → Nat} {s : DState}
    (hr : ((copyToStd t v resize).run s).1 ≠ .ub) : SLib (copyToStd t v resize) AnyEvent SWaits s := by
  unfold copyToStd at hr ⊢
  refine slib_bind (slib_getSize (run_bind_ub hr)) fun n s1 h1 => ?_
  rw [run_bind_ok h1] at hr
  exact slib_seqEvent (ops := [_]) hr (by simp)

/-! ## jagged vectors -/

theorem slib_getSizes {vs : List View} {s : DState} (hr : ((getSizes vs).run s).1 ≠ .ub) :
    SLib (getSizes vs) Eq Idle s := by
  unfold getSizes at hr ⊢
  refine slib_scope hr fun B hB => ?_
  rw [Prog.scope] at hr
  simp only [run] at hr
  rw [run_thenDrop_fst] at hr
  split at hr
  · rename_i i hi
    obtain ⟨t, h1, h2⟩ := exec_of_run hr
    have hl := (exec_done h1).2
    simp only [List.length_append, List.length_singleton] at hl
    have hi : s.locals.length < t.locals.length := by omega
    refine ⟨t, h1, by simp [hB], ssafe_sync (by simp [hB]) fun B' hB' => ?_⟩
    refine ⟨t.locals[s.locals.length], List.getElem?_eq_getElem hi, by simp [hB'], by simp,
      ⟨_, ?_, .inl ⟨_, _, rfl, rfl, rfl⟩, fun _ _ => hB', by simp⟩, by rw [hB']; exact Slotted.nil⟩
    simp only [run, h1, Prog.sync, List.getElem?_eq_getElem hi]
  · exact ⟨by simp, ⟨_, rfl, .inl ⟨_, _, rfl, rfl, rfl⟩, fun _ _ => hB, by simp⟩, by rw [hB]; exact Slotted.nil⟩

theorem wrap_le (n : Nat) : wrap64 n ≤ n := Nat.mod_le ..

theorem slib_setupJag {j : JagView} {s : DState} (ha : CopyCall.Apart s.mem (.setupJag j))
    (hr : ((setupJag j).run s).1 ≠ .ub) : SLib (setupJag j) AnyEvent SWaits s := by
  obtain ⟨a1, ⟨t, a2⟩, a3⟩ := ha
  obtain ⟨vs, p, hp⟩ := j
  simp only at a1 a2 a3
  unfold setupJag at hr ⊢
  cases vs with
  | nil => exact slib_noEvent
  | cons v vs =>
    simp only at hr ⊢
    by_cases h1 : v.sizePtr ≠ 0
    · rw [if_pos h1] at hr ⊢
      by_cases h2 : p = hp
      · rw [if_pos h2] at hr ⊢
        exact slib_seqEvent (ops := [_]) hr (by simp)
      · rw [if_neg h2] at hr ⊢
        refine slib_seqEvent (ops := [_, _]) hr ?_
        have hw : ∀ x, v.sizePtr ≤ x → x < v.sizePtr + wrap64 (4 * (v :: vs).length) → ∃ w ∈ v :: vs, w.HasWord x := by
          intro x x1 x2
          rcases a2.words with hz | ⟨h, h0, hh⟩
          · exact absurd (hz v (List.mem_cons_self ..)) h1
          · have hv := hh 0 v rfl
            have hlt : (x - h) / 4 < (v :: vs).length := by
              have := wrap_le (4 * (v :: vs).length)
              omega
            have hw := hh _ _ (List.getElem?_eq_getElem hlt)
            refine ⟨_, List.getElem_mem hlt, ?_, ?_, ?_⟩ <;> omega
        have hl := wrap_le ((v :: vs).length * viewSize)
        simp only [List.pairwise_cons, List.mem_singleton, forall_eq, List.not_mem_nil, false_implies, implies_true,
          List.Pairwise.nil, and_true]
        refine ⟨?_, ?_, fun _ h => h.elim, fun _ h => h.elim⟩
        · rintro x ⟨x1, x2⟩
          obtain ⟨w, hwm, hwx⟩ := hw x x1 x2
          obtain ⟨b1, b2⟩ := a3 w hwm x hwx
          rintro (⟨y1, y2⟩ | ⟨y1, y2⟩)
          · exact b1 ⟨y1, by omega⟩
          · exact b2 ⟨y1, by omega⟩
        · rintro x ⟨x1, x2⟩ (h | ⟨y1, y2⟩)
          · exact h
          · obtain ⟨w, hwm, hwx⟩ := hw x y1 y2
            exact (a3 w hwm x hwx).2 ⟨x1, by omega⟩
    · rw [if_neg h1] at hr ⊢
      by_cases h2 : p = hp
      · rw [if_pos h2] at hr ⊢
        exact slib_seqEvent (ops := []) hr (by simp)
      · rw [if_neg h2] at hr ⊢
        exact slib_seqEvent (ops := [_]) hr (by simp)

theorem slib_memsetFirst {n : Nat} {x : UInt8} {vs : List View} {s : DState} (hr : ((memsetFirst n x vs).run s).1 ≠ .ub) :
    SLib (memsetFirst n x vs) AnyEvent SWaits s := by
  induction vs with
  | nil => exact slib_noEvent
  | cons v vs ih =>
    unfold memsetFirst at hr ⊢
    split at hr
    · rename_i h; rw [if_pos h]; exact slib_seqEvent (ops := [_]) hr (by simp)
    · rename_i h; rw [if_neg h]; exact ih hr

theorem memsetEach_seq (t : Nat) (x : UInt8) (vs : List View) :
    memsetEach t x vs = seqOps (vs.map fun v => .memset (wrap64 (v.capacity * t)) v.ptr x) Prog.retEvent := by
  induction vs with
  | nil => rfl
  | cons v vs ih => rw [memsetEach, ih]; rfl

theorem slib_memsetJag {t : Nat} {j : JagView} {x : UInt8} {s : DState} (ha : CopyCall.Apart s.mem (.memsetJag t j x))
    (hr : ((memsetJag t j x).run s).1 ≠ .ub) : SLib (memsetJag t j x) AnyEvent SWaits s := by
  have ha' : JagPlaced t j.views := ha
  unfold memsetJag at hr ⊢
  split at hr
  · exact absurd rfl hr
  · rename_i h
    rw [if_neg h]
    split at hr
    · rename_i h2; rw [if_pos h2]; exact slib_memsetFirst hr
    · rename_i h2
      rw [if_neg h2]
      rw [memsetEach_seq] at hr ⊢
      refine slib_seqEvent hr ?_
      rw [List.pairwise_map]
      refine ha'.separate.imp fun {v w} hvw => ?_
      have hv := wrap_le (v.capacity * t)
      have hw := wrap_le (w.capacity * t)
      refine ⟨?_, ?_, fun _ h => h.elim, fun _ h => h.elim⟩
      · rintro y ⟨y1, y2⟩ (h | ⟨z1, z2⟩)
        · exact h
        · exact hvw y ⟨.inl ⟨y1, by omega⟩, .inl ⟨z1, by omega⟩⟩
      · rintro y ⟨y1, y2⟩ (h | ⟨z1, z2⟩)
        · exact h
        · exact hvw y ⟨.inl ⟨z1, by omega⟩, .inl ⟨y1, by omega⟩⟩

end Vecmem
