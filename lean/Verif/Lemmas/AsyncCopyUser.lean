import Verif.Lemmas.SyclCopyUser

/-! # Users who wait for every event, on a stream -/

namespace Vecmem

open IntMath Prog

variable {β γ : Type}

/-- What may be pending when the program has ended. -/
def pendAfter : Prog β → DState → List COp → List COp
  | .ret _, _, P => P
  | .issue op k, s, P =>
    match op.exec s with
    | some t => pendAfter k t (P ++ [op])
    | none => P
  | .event k, s, P => pendAfter (k s.done) s P
  | .wait e k, s, P => pendAfter k s (P.drop (P.length - (s.done - e)))
  | .new l k, s, P => pendAfter (k s.locals.length) { s with locals := s.locals ++ [l] } P
  | .read i k, s, P =>
    match s.locals[i]? with
    | some l => pendAfter (k l.bytes) s P
    | none => P
  | .drop k, s, P => pendAfter k { s with locals := s.locals.dropLast } P
  | .load p n k, s, P => pendAfter (k (fun i => if i < n then s.mem (p + i) else 0)) s P
  | .poke p n b k, s, P => pendAfter k { s with mem := memPut s.mem p n b 0 } P

theorem Safe.withPend {Q : Res β → DState → List COp → Prop} {p : Prog β} {s : DState} {P : List COp}
    (h : Safe p Q s P) : Safe p (fun r s' P' => Q r s' P' ∧ P' = pendAfter p s P) s P := by
  induction p generalizing s P with
  | ret r => exact ⟨h.1, h.2, rfl⟩
  | issue op k ih =>
    obtain ⟨t, h1, h2⟩ := h
    exact ⟨t, h1, (ih h2).mono fun r s' P' hq => ⟨hq.1, by simp only [pendAfter, h1]; exact hq.2⟩⟩
  | event k ih => exact ih _ h
  | wait e k ih => exact ⟨h.1, ih h.2⟩
  | new l k ih => exact ⟨h.1, ih _ h.2⟩
  | read i k ih =>
    obtain ⟨l, h1, h2, h3⟩ := h
    exact ⟨l, h1, h2, (ih _ h3).mono fun r s' P' hq => ⟨hq.1, by simp only [pendAfter, h1]; exact hq.2⟩⟩
  | drop k ih => exact ⟨h.1, ih h.2⟩
  | load p n k ih => exact ⟨h.1, ih _ h.2⟩
  | poke p n b k ih => exact ⟨h.1, ih h.2⟩

theorem pend_bind_ok {p : Prog β} {f : β → Prog γ} {s t : DState} {b : β} {P : List COp} (h : p.run s = (.ok b, t)) :
    pendAfter (p.bind f) s P = pendAfter (f b) t (pendAfter p s P) := by
  induction p generalizing s P with
  | ret r =>
    simp only [run, Prod.mk.injEq] at h
    obtain ⟨rfl, rfl⟩ := h
    rfl
  | issue op k ih =>
    simp only [run, Prog.bind, pendAfter] at h ⊢
    cases hx : op.exec s with
    | none => rw [hx] at h; simp at h
    | some u => rw [hx] at h; exact ih h
  | event k ih => exact ih _ h
  | wait e k ih => exact ih h
  | new l k ih => exact ih _ h
  | read i k ih =>
    simp only [run, Prog.bind, pendAfter] at h ⊢
    cases hx : s.locals[i]? with
    | none => rw [hx] at h; simp at h
    | some u => rw [hx] at h; exact ih _ h
  | drop k ih => exact ih h
  | load p n k ih => exact ih _ h
  | poke p n b k ih => exact ih h

theorem pend_bind_err {p : Prog β} {f : β → Prog γ} {s t : DState} {r : Res β} {P : List COp} (h : p.run s = (r, t))
    (hr : ∀ b, r ≠ .ok b) : pendAfter (p.bind f) s P = pendAfter p s P := by
  induction p generalizing s P with
  | ret r' =>
    simp only [run, Prod.mk.injEq] at h
    obtain ⟨rfl, rfl⟩ := h
    cases r' with
    | ok b => exact absurd rfl (hr b)
    | _ => rfl
  | issue op k ih =>
    simp only [run, Prog.bind, pendAfter] at h ⊢
    cases hx : op.exec s with
    | none => rfl
    | some u => rw [hx] at h; exact ih h
  | event k ih => exact ih _ h
  | wait e k ih => exact ih h
  | new l k ih => exact ih _ h
  | read i k ih =>
    simp only [run, Prog.bind, pendAfter] at h ⊢
    cases hx : s.locals[i]? with
    | none => rfl
    | some u => rw [hx] at h; exact ih _ h
  | drop k ih => exact ih h
  | load p n k ih => exact ih _ h
  | poke p n b k ih => exact ih h

theorem pend_thenDrop {p : Prog β} {s : DState} {P : List COp} : pendAfter p.thenDrop s P = pendAfter p s P := by
  induction p generalizing s P with
  | ret r => rfl
  | issue op k ih =>
    simp only [Prog.thenDrop, pendAfter]
    cases op.exec s with
    | none => rfl
    | some u => exact ih
  | event k ih => exact ih _
  | wait e k ih => exact ih
  | new l k ih => exact ih _
  | read i k ih =>
    simp only [Prog.thenDrop, pendAfter]
    cases s.locals[i]? with
    | none => rfl
    | some u => exact ih _
  | drop k ih => exact ih
  | load p n k ih => exact ih _
  | poke p n b k ih => exact ih

theorem pend_scope {body : Nat → Prog β} {l : Local} {s : DState} {P : List COp} :
    pendAfter (Prog.scope l body) s P = pendAfter (body s.locals.length) { s with locals := s.locals ++ [l] } P := by
  unfold Prog.scope
  simp only [pendAfter]
  exact pend_thenDrop

theorem pend_sync {k : Prog β} {s : DState} {P : List COp} : pendAfter (Prog.sync k) s P = pendAfter k s [] := by
  simp [Prog.sync, pendAfter]

/-- Leaves nothing pending. -/
def Quiet (f : Prog β) : Prop := ∀ s, (f.run s).1 ≠ .ub → pendAfter f s [] = []

/-- Leaves only what its event waits for, and nothing if it throws. -/
def EventQuiet (f : Prog Nat) : Prop := ∀ s, (f.run s).1 ≠ .ub →
  match f.run s with
  | (.ok e, s') => e = s'.done ∨ pendAfter f s [] = []
  | _ => pendAfter f s [] = []

theorem scope_body {body : Nat → Prog β} {l : Local} {s : DState} (h : ((Prog.scope l body).run s).1 ≠ .ub) :
    ((body s.locals.length).run { s with locals := s.locals ++ [l] }).1 ≠ .ub := by
  rw [← run_thenDrop_fst]
  exact h

theorem quiet_getSize (v : View) : Quiet (getSize v) := by
  intro s hr
  unfold getSize at hr ⊢
  split at hr
  · rename_i h; rw [if_pos h]; rfl
  · rename_i h
    rw [if_neg h]
    obtain ⟨t, h1, h2⟩ := exec_of_run (scope_body hr)
    rw [pend_scope]
    simp only [pendAfter, h1, pend_sync]
    split <;> rfl

theorem quiet_putSize (n : Nat) (v : View) : Quiet (putSize n v) := by
  intro s hr
  unfold putSize at hr ⊢
  split at hr
  · rename_i h; rw [if_pos h]; rfl
  · rename_i h
    rw [if_neg h]
    obtain ⟨t, h1, h2⟩ := exec_of_run (scope_body hr)
    rw [pend_scope]
    simp only [pendAfter, h1, pend_sync]

theorem quiet_getSizes (vs : List View) : Quiet (getSizes vs) := by
  intro s hr
  unfold getSizes at hr ⊢
  have hr' := scope_body hr
  rw [pend_scope]
  split at hr'
  · rename_i i hi
    obtain ⟨t, h1, h2⟩ := exec_of_run hr'
    simp only [pendAfter, h1, pend_sync]
    split <;> rfl
  · rfl

theorem eventQuiet_setSizes (slot : Nat) (sizes : List Nat) (vs : List View) : EventQuiet (setSizes slot sizes vs) := by
  intro s hr
  unfold setSizes at hr ⊢
  split at hr
  · rename_i h; rw [if_pos h]; exact .inr rfl
  · rename_i h; rw [if_neg h]
    split at hr
    · rename_i h2; rw [if_pos h2]; rfl
    · rename_i h2; rw [if_neg h2]
      cases hc : checkSizes true vs sizes with
      | ok b =>
        rw [hc] at hr
        simp only [Prog.bind] at hr ⊢
        cases b with
        | true =>
          simp only [if_true] at hr ⊢
          obtain ⟨t, h3, h4⟩ := exec_of_run hr
          simp only [run, h3, Prog.retEvent, true_or]
        | false => exact .inr rfl
      | _ => rfl

theorem drop_all {e : Nat} {s : DState} {P : List COp} (h : e = s.done ∨ P = []) : P.drop (P.length - (s.done - e)) = [] := by
  rcases h with rfl | rfl
  · simp
  · simp

theorem quiet_setSizesAndWait (sizes : List Nat) (vs : List View) : Quiet (setSizesAndWait sizes vs) := by
  intro s hr
  unfold setSizesAndWait at hr ⊢
  have hr' := scope_body hr
  rw [pend_scope]
  have h := eventQuiet_setSizes s.locals.length sizes vs _ (run_bind_ub hr')
  cases hx : (setSizes s.locals.length sizes vs).run { s with locals := s.locals ++ [Local.uints sizes] } with
  | mk r s' =>
    rw [hx] at h
    cases r with
    | ok e =>
      rw [pend_bind_ok hx]
      exact drop_all h
    | ub => rw [pend_bind_err hx (by simp)]; exact h
    | _ => rw [pend_bind_err hx (by simp)]; exact h

/-- A function that gets what it needs, and then does the rest. -/
theorem eventQuiet_bind {p : Prog β} {f : β → Prog Nat} (h : Quiet p)
    (hf : ∀ b, EventQuiet (f b)) : EventQuiet (p.bind f) := by
  intro s hr
  have hp := h s (run_bind_ub hr)
  cases hx : p.run s with
  | mk r s' =>
    cases r with
    | ok b =>
      rw [run_bind_ok hx] at hr ⊢
      have := hf b s' hr
      rw [pend_bind_ok hx, hp]
      exact this
    | _ =>
      have herr := run_bind_err (f := f) hx (fun _ => by simp) (fun _ => 0)
      rw [herr]
      simp only [Res.map]
      rw [pend_bind_err hx (by simp)]
      exact hp

/-- A function that ends with creating an event, or returns that nothing was done. -/
def Ends : Prog Nat → Prop
  | .ret r => ∀ e, r = .ok e → e = 0
  | .issue _ k => Ends2 k
  | .event k => Ends2 (.event k)
  | _ => False
where
  Ends2 : Prog Nat → Prop
  | .ret r => r = .ub
  | .issue _ k => Ends2 k
  | .event k => ∀ e, k e = .ret (.ok e)
  | _ => False

theorem ends2_quiet {k : Prog Nat} (hk : Ends.Ends2 k) (s : DState) (P : List COp) (hr : (k.run s).1 ≠ .ub) :
    ∃ s', k.run s = (.ok s'.done, s') := by
  induction k generalizing s P with
  | ret r => exact absurd hk hr
  | issue op k ih =>
    obtain ⟨t, h1, h2⟩ := exec_of_run hr
    obtain ⟨s', h3⟩ := ih hk t P h2
    exact ⟨s', by simp only [run, h1, h3]⟩
  | event k ih => exact ⟨s, by simp only [run]; rw [hk s.done]; rfl⟩
  | _ => exact hk.elim

theorem Ends.quiet {f : Prog Nat} (h : Ends f) : EventQuiet f := by
  intro s hr
  cases f with
  | ret r =>
    cases r with
    | ok e => exact .inr rfl
    | _ => rfl
  | issue op k =>
    obtain ⟨s', h1⟩ := ends2_quiet (k := .issue op k) h s [] hr
    rw [h1]
    exact .inl rfl
  | event k =>
    obtain ⟨s', h1⟩ := ends2_quiet (k := .event k) h s [] hr
    rw [h1]
    exact .inl rfl
  | _ => exact h.elim

theorem ends_setupVec (v : View) : Ends (setupVec v) := by
  unfold setupVec
  split
  · rintro e ⟨⟩; rfl
  · exact fun _ => rfl

theorem ends_memsetVec (t : Nat) (v : View) (x : UInt8) : Ends (memsetVec t v x) := by
  unfold memsetVec
  split
  · rintro e ⟨⟩; rfl
  · exact fun _ => rfl

theorem ends_setupJag (j : JagView) : Ends (setupJag j) := by
  unfold setupJag
  split
  · rintro e ⟨⟩; rfl
  · simp only
    split <;> split <;> exact fun _ => rfl

theorem ends2_memsetEach (t : Nat) (x : UInt8) (vs : List View) : Ends.Ends2 (memsetEach t x vs) := by
  induction vs with
  | nil => exact fun _ => rfl
  | cons v vs ih => exact ih

theorem ends_memsetJag (t : Nat) (j : JagView) (x : UInt8) : Ends (memsetJag t j x) := by
  unfold memsetJag
  split
  · rintro e ⟨⟩
  · split
    · generalize wrap64 _ = n
      generalize j.views = vs
      induction vs with
      | nil => rintro e ⟨⟩; rfl
      | cons v vs ih =>
        unfold memsetFirst
        split
        · exact fun _ => rfl
        · exact ih
    · cases hv : j.views with
      | nil => exact fun _ => rfl
      | cons v vs => exact ends2_memsetEach t x vs

theorem pend_copyView {t : Nat} {v w : View} {s : DState} (hr : ((copyView t v w).run s).1 ≠ .ub) :
    ∀ r s', (copyView t v w).run s = (r, s') → r = .ok true ∨ pendAfter (copyView t v w) s [] = [] := by
  intro r s' hrun
  unfold copyView at hr hrun ⊢
  have hp := quiet_getSize v s (run_bind_ub hr)
  cases hx : (getSize v).run s with
  | mk r1 s1 =>
    cases r1 with
    | ok n =>
      rw [run_bind_ok hx] at hr hrun
      rw [pend_bind_ok hx, hp]
      split at hr
      · rename_i h; rw [if_pos h] at hrun ⊢; exact .inr rfl
      · rename_i h
        rw [if_neg h] at hrun ⊢
        split at hr
        · rename_i h2; rw [if_pos h2] at hrun ⊢; exact .inr rfl
        · rename_i h2
          rw [if_neg h2] at hrun ⊢
          have hp2 := quiet_putSize n w s1 (run_bind_ub hr)
          cases hy : (putSize n w).run s1 with
          | mk r2 s2 =>
            cases r2 with
            | ok u =>
              rw [run_bind_ok hy] at hr hrun
              obtain ⟨t', h3, h4⟩ := exec_of_run hr
              simp only [run, h3, Prod.mk.injEq] at hrun
              exact .inl hrun.1.symm
            | _ => rw [pend_bind_err hy (by simp), hp2]; exact .inr rfl
    | _ => rw [pend_bind_err hx (by simp), hp]; exact .inr rfl

theorem eventQuiet_afterCopy {f : Prog Bool}
    (h : ∀ s, (f.run s).1 ≠ .ub → ∀ r s', f.run s = (r, s') → r = .ok true ∨ pendAfter f s [] = []) :
    EventQuiet (f.bind fun b => if b then Prog.retEvent else Prog.retNoEvent) := by
  intro s hr
  have hp := h s (run_bind_ub hr)
  cases hx : f.run s with
  | mk r s' =>
    cases r with
    | ok b =>
      rw [run_bind_ok hx, pend_bind_ok hx]
      cases b with
      | true => exact .inl rfl
      | false => exact .inr ((hp _ _ hx).resolve_left (by simp))
    | _ =>
      have herr := run_bind_err (f := fun b => if b then Prog.retEvent else Prog.retNoEvent) hx (fun _ => by simp) (fun _ => 0)
      rw [herr]
      simp only [Res.map]
      rw [pend_bind_err hx (by simp)]
      exact (hp _ _ hx).resolve_left (by simp)

theorem pend_copyViewJag {dbg : Bool} {t : Nat} {v w : JagView} {s : DState}
    (hr : ((copyViewJag dbg t v w).run s).1 ≠ .ub) :
    ∀ r s', (copyViewJag dbg t v w).run s = (r, s') → r = .ok true ∨ pendAfter (copyViewJag dbg t v w) s [] = [] := by
  intro r s' hrun
  unfold copyViewJag at hr hrun ⊢
  simp only at hr hrun ⊢
  split at hr
  · rename_i h; rw [if_pos h] at hrun ⊢; exact .inr rfl
  rename_i h1
  rw [if_neg h1] at hrun ⊢
  split at hr
  · rename_i h; rw [if_pos h] at hrun ⊢; exact .inr rfl
  rename_i h2
  rw [if_neg h2] at hrun ⊢
  have hp := quiet_getSizes v.views s (run_bind_ub hr)
  cases hx : (getSizes v.views).run s with
  | mk r1 s1 =>
    cases r1 with
    | ok sizes =>
      rw [run_bind_ok hx] at hr hrun
      rw [pend_bind_ok hx, hp]
      have hr' := scope_body hr
      have hfst := congrArg Prod.fst hrun.symm
      rw [Prog.scope, run, run_thenDrop_fst] at hfst
      rw [pend_scope]
      have hset := eventQuiet_setSizes s1.locals.length sizes w.views _ (run_bind_ub hr')
      cases hy : (setSizes s1.locals.length sizes w.views).run { s1 with locals := s1.locals ++ [Local.uints sizes] } with
      | mk r2 s2 =>
        rw [hy] at hset
        cases r2 with
        | ok e =>
          left
          rw [run_bind_ok hy] at hfst hr'
          have hcopy : Copying (if isContiguous t v.views && isContiguous t (w.views.take v.views.length) &&
              (v.views.map (·.capacity) == (w.views.take v.views.length).map (·.capacity)) then
                copyContiguous dbg t (v.views.map (·.capacity)) v.views w.views
              else copyViews dbg t sizes v.views w.views) := by
            split
            · apply copying_copyFirst
            · apply copying_copyViews
          obtain ⟨P', hpost⟩ := (hcopy s2 [] (run_bind_ub hr')).post
          cases hz : (if isContiguous t v.views && isContiguous t (w.views.take v.views.length) &&
              (v.views.map (·.capacity) == (w.views.take v.views.length).map (·.capacity)) then
                copyContiguous dbg t (v.views.map (·.capacity)) v.views w.views
              else copyViews dbg t sizes v.views w.views).run s2 with
          | mk r3 s3 =>
            rw [hz] at hpost
            have h3 : r3 = .ok () := hpost.1
            subst h3
            rw [run_bind_ok hz] at hfst
            exact hfst
        | _ => rw [pend_bind_err hy (by simp)]; exact .inr hset
    | _ => rw [pend_bind_err hx (by simp), hp]; exact .inr rfl

theorem eventQuiet_copyJag (dbg : Bool) (t : Nat) (v w : JagView) : EventQuiet (copyJag dbg t v w) :=
  eventQuiet_afterCopy fun _ hr => pend_copyViewJag hr

theorem eventQuiet_call (c : CopyCall) : EventQuiet c.prog := by
  have hno : EventQuiet (.ret (.ok 0)) := fun _ _ => .inr rfl
  cases c with
  | setup v => exact (ends_setupVec v).quiet
  | memset t v x => exact (ends_memsetVec t v x).quiet
  | copy t v w => exact eventQuiet_afterCopy fun _ hr => pend_copyView hr
  | toStd t v r => exact eventQuiet_bind (quiet_getSize v) fun n => Ends.quiet (f := .issue _ _) fun _ => rfl
  | setupJag j => exact (ends_setupJag j).quiet
  | memsetJag t j x => exact (ends_memsetJag t j x).quiet
  | copyJag dbg t v w => exact eventQuiet_copyJag dbg t v w
  | toStdJag dbg t v r => exact eventQuiet_bind (quiet_getSizes v.views) fun n => eventQuiet_copyJag _ _ _ _
  | setSizes n v => exact eventQuiet_bind (quiet_setSizesAndWait n v) fun _ => hno
  | getSize v => exact eventQuiet_bind (quiet_getSize v) fun _ => hno
  | getSizes v => exact eventQuiet_bind (quiet_getSizes v) fun _ => hno

theorem safe_host (hs : List HostStep) : ∀ (s : DState), ((hostProg hs).run s).1 ≠ .ub →
    Safe (hostProg hs) (fun _ s' P' => s'.locals.length = s.locals.length ∧ P' = []) s [] := by
  induction hs with
  | nil => intro s _; exact ⟨by simp, rfl, rfl⟩
  | cons h hs ih =>
    intro s hub
    cases h with
    | call c =>
      apply Safe.bind
      refine ((lib_call c s [] .nil (run_bind_ub hub)).withRun.withPend).mono ?_
      rintro r s' P' ⟨⟨⟨g1, g2, g3⟩, g4⟩, rfl⟩
      have hq := eventQuiet_call c s (run_bind_ub hub)
      rw [g4] at hq
      constructor
      · rintro e rfl
        refine ⟨g3 e rfl, ?_⟩
        rw [drop_all hq]
        have hrun : (hostProg (.call c :: hs)).run s = (hostProg hs).run s' := by
          show (c.prog.bind fun e => .wait e (hostProg hs)).run s = _
          rw [run_bind_ok g4]
          rfl
        rw [hrun] at hub
        exact (ih s' hub).mono fun _ _ _ h => ⟨by rw [h.1, g2], h.2⟩
      · intro x hx hne
        refine ⟨g2, ?_⟩
        cases r with
        | ok b => exact absurd rfl (hne b)
        | _ => exact hq
    | read p n =>
      refine ⟨by simp, ?_⟩
      apply Safe.bind
      refine (ih s (run_bind_ub (p := hostProg hs) hub)).mono ?_
      rintro r s' P' ⟨g1, g2⟩
      refine ⟨?_, fun _ _ _ => ⟨g1, g2⟩⟩
      rintro l -
      exact ⟨by simp, g1, g2⟩
    | write p n b =>
      refine ⟨by simp, ?_⟩
      exact (ih { s with mem := memPut s.mem p n b 0 } hub).mono fun _ _ _ h => h

end Vecmem
