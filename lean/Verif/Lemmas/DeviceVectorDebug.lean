import Verif.Lemmas.DeviceVectorConcurrent

/-! # Lemmas about device vectors with assertions enabled -/

namespace Vecmem

variable {α : Type}

namespace DV

/-- `t` differs from `s` only in the size word and in cells of the payload. -/
def Inside (s t : DV α) : Prop := s.SameKind t ∧ ∀ i, s.cap ≤ i → t.mem i = s.mem i

theorem Inside.refl (s : DV α) : s.Inside s := ⟨⟨rfl, rfl, rfl, rfl, rfl, rfl⟩, fun _ _ => rfl⟩

theorem Inside.trans {s t u : DV α} (h1 : s.Inside t) (h2 : t.Inside u) : s.Inside u := by
  obtain ⟨⟨a1, a2, a3, a4, a5, a6⟩, hm⟩ := h1
  obtain ⟨⟨b1, b2, b3, b4, b5, b6⟩, hn⟩ := h2
  exact ⟨⟨b1.trans a1, b2.trans a2, b3.trans a3, b4.trans a4, b5.trans a5, b6.trans a6⟩,
    fun i hi => (hn i (a5 ▸ hi)).trans (hm i hi)⟩

theorem Inside.size {s t : DV α} (h : s.Inside t) (n : Nat) : s.Inside { t with sizeWord := n } := h

theorem put_inside {s : DV α} {pos : Nat} (c : Option α) (hp : pos < s.cap) : s.Inside (s.put pos c) :=
  ⟨⟨rfl, rfl, rfl, rfl, rfl, rfl⟩, fun i hi => if_neg (by omega)⟩

theorem construct_inside {s : DV α} (hd : s.dbg = true) (pos : Nat) (a : Arg α) :
    s.Inside (s.construct pos a).2 ∧ (s.construct pos a).2.sizeWord = s.sizeWord ∧
      ∀ u, (s.construct pos a).1 = .ok u → pos < s.cap := by
  unfold construct
  by_cases hp : pos < s.cap
  · rw [if_neg (by simp [hp])]
    cases s.read a with
    | none => exact ⟨.refl s, rfl, fun u hu => by cases hu⟩
    | some v => exact ⟨put_inside _ hp, rfl, fun _ _ => hp⟩
  · rw [if_pos (by simp [hp, hd])]
    exact ⟨.refl s, rfl, fun u hu => by cases hu⟩

theorem destruct_inside {s : DV α} (hd : s.dbg = true) (pos : Nat) :
    s.Inside (s.destruct pos).2 ∧ (s.destruct pos).2.sizeWord = s.sizeWord ∧
      ∀ u, (s.destruct pos).1 = .ok u → pos < s.cap := by
  unfold destruct
  by_cases hp : pos < s.cap
  · rw [if_neg (by simp [hp])]
    cases s.trivialDtor with
    | true => exact ⟨.refl s, rfl, fun _ _ => hp⟩
    | false =>
      cases s.mem pos with
      | none => exact ⟨.refl s, rfl, fun u hu => by cases hu⟩
      | some v => exact ⟨put_inside _ hp, rfl, fun _ _ => hp⟩
  · rw [if_pos (by simp [hp, hd])]
    exact ⟨.refl s, rfl, fun u hu => by cases hu⟩

theorem constructs_inside (n : Nat) : ∀ {s : DV α}, s.dbg = true → ∀ (pos : Nat) (a : Arg α),
    s.Inside (s.constructs pos a n).2 ∧ (s.constructs pos a n).2.sizeWord = s.sizeWord ∧
      ∀ u, (s.constructs pos a n).1 = .ok u → ∀ j, j < n → (pos + j) % 2 ^ 32 < s.cap := by
  induction n with
  | zero => intro s _ pos a; exact ⟨.refl s, rfl, fun _ _ j hj => absurd hj (Nat.not_lt_zero _)⟩
  | succ n ih =>
    intro s hd pos a
    obtain ⟨h1, h2, h3⟩ := construct_inside hd (pos % 2 ^ 32) a
    unfold constructs
    cases hc : s.construct (pos % 2 ^ 32) a with
    | mk r t =>
      simp only [hc] at h1 h2 h3
      cases r with
      | ok u =>
        obtain ⟨i1, i2, i3⟩ := ih (s := t) (h1.1.1.trans hd) (pos + 1) a
        refine ⟨h1.trans i1, i2.trans h2, ?_⟩
        intro v hv j hj
        cases j with
        | zero => exact h3 u rfl
        | succ j =>
          have := i3 v hv j (by omega)
          rw [show pos + 1 + j = pos + (j + 1) by omega] at this
          have h5 := h1.1.2.2.2.2.1
          omega
      | _ => exact ⟨h1, h2, fun v hv => by cases hv⟩

theorem destructs_inside (n : Nat) : ∀ {s : DV α}, s.dbg = true → ∀ (pos : Nat),
    s.Inside (s.destructs pos n).2 ∧ (s.destructs pos n).2.sizeWord = s.sizeWord := by
  induction n with
  | zero => intro s _ pos; exact ⟨.refl s, rfl⟩
  | succ n ih =>
    intro s hd pos
    obtain ⟨h1, h2, h3⟩ := destruct_inside hd (pos % 2 ^ 32)
    unfold destructs
    cases hc : s.destruct (pos % 2 ^ 32) with
    | mk r t =>
      simp only [hc] at h1 h2 h3
      cases r with
      | ok u =>
        obtain ⟨i1, i2⟩ := ih (s := t) (h1.1.1.trans hd) (pos + 1)
        exact ⟨h1.trans i1, i2.trans h2⟩
      | _ => exact ⟨h1, h2⟩

end DV

/-- What every step of a run with assertions keeps. -/
structure DInv (s0 : DV α) (g : Conc α) : Prop where
  inside : s0.Inside g.vec
  size : g.failed = false → s0.hasSize = true → g.vec.sizeWord ≤ s0.cap ∨
    ∃ (i : Nat) (t : Thread α) (c : ACall α) (idx : Nat), g.threads[i]? = some t ∧ t.phase = .claimed c idx ∧
      (idx + c.count) % 2 ^ 32 = g.vec.sizeWord

theorem DInv.step {s0 : DV α} {g : Conc α} (hd : s0.dbg = true) (hw : s0.cap < 2 ^ 32) (h : DInv s0 g) (i : Nat) :
    DInv s0 (g.step i) := by
  rw [Conc.step]
  cases hf : g.failed with
  | true => simpa [hf] using h
  | false =>
    simp only [Bool.false_eq_true, if_false]
    cases hti : g.threads[i]? with
    | none => exact h
    | some t =>
      simp only
      have hk := h.inside.1
      have hdbg : g.vec.dbg = true := hk.1.trans hd
      have hcap : g.vec.cap = s0.cap := hk.2.2.2.2.1
      have hlt : i < g.threads.length := (List.getElem?_eq_some_iff.1 hti).1
      -- another claim survives
      have hother : s0.hasSize = true → ∀ t' : Thread α, (∀ c idx, t.phase = .claimed c idx → (idx + c.count) % 2 ^ 32 ≤ s0.cap) →
          g.vec.sizeWord ≤ s0.cap ∨ ∃ (j : Nat) (u : Thread α) (c : ACall α) (idx : Nat),
            (g.threads.set i t')[j]? = some u ∧ u.phase = .claimed c idx ∧
              (idx + c.count) % 2 ^ 32 = g.vec.sizeWord := by
        intro hres t' hpass
        rcases h.size hf hres with hs | ⟨j, u, c, idx, hj, hp, he⟩
        · exact .inl hs
        · by_cases hij : i = j
          · subst hij
            rw [hti] at hj
            cases hj
            exact .inl (he ▸ hpass c idx hp)
          · exact .inr ⟨j, u, c, idx, by rw [List.getElem?_set, if_neg hij]; exact hj, hp, he⟩
      cases hph : t.phase with
      | idle =>
        cases htd : t.todo with
        | nil =>
          simp only [Conc.stepThread, hph, htd]
          exact ⟨h.inside, fun _ hr => hother hr t (fun c idx hc => by rw [hph] at hc; cases hc)⟩
        | cons c cs =>
          cases hsz : g.vec.hasSize with
          | false =>
            simp only [Conc.stepThread, hph, htd, hsz, Bool.not_false, if_true]
            exact ⟨h.inside, fun hc => by cases hc⟩
          | true =>
            simp only [Conc.stepThread, hph, htd, hsz, Bool.not_true, Bool.false_eq_true, if_false]
            refine ⟨h.inside, fun _ _ => .inr ⟨i, { t with todo := cs, phase := .claimed c g.vec.sizeWord }, c,
              g.vec.sizeWord, ?_, rfl, rfl⟩⟩
            show (g.threads.set i _)[i]? = _
            rw [List.getElem?_set, if_pos rfl, if_pos hlt]
            rfl
      | claimed c idx =>
        cases hck : c.check g.vec.cap idx with
        | false =>
          simp only [Conc.stepThread, hph, hck, hdbg, Bool.not_false, Bool.and_true, if_true]
          exact ⟨h.inside, fun hc => by cases hc⟩
        | true =>
          simp only [Conc.stepThread, hph, hck, hdbg, Bool.not_true, Bool.and_false, Bool.false_eq_true, if_false]
          have hsw : (c.implicit g.vec idx).sizeWord = g.vec.sizeWord := by cases c <;> rfl
          have hin : g.vec.Inside (c.implicit g.vec idx) := by
            cases c with
            | bulkImplicit n =>
              refine ⟨⟨rfl, rfl, rfl, rfl, rfl, rfl⟩, fun j hj => if_neg (by omega)⟩
            | _ => exact .refl _
          refine ⟨h.inside.trans hin, fun _ hr => ?_⟩
          show (c.implicit g.vec idx).sizeWord ≤ _ ∨ _
          rw [hsw]
          refine hother hr { t with phase := .writing c idx 0 } ?_
          intro c' idx' hc'
          rw [hph] at hc'
          cases hc'
          rw [hcap] at hck
          cases c with
          | push a | emplace a =>
            simp only [ACall.check, decide_eq_true_eq] at hck
            simp only [ACall.count]
            rw [Nat.mod_eq_of_lt (by omega)]
            omega
          | bulk n | bulkValue n a | bulkImplicit n =>
            simpa [ACall.check, ACall.count] using hck
      | writing c idx k =>
        by_cases hk' : k < c.writes
        · obtain ⟨h1, h2, h3⟩ := DV.construct_inside hdbg ((idx + k) % 2 ^ 32) (c.arg g.vec.dflt)
          simp only [Conc.stepThread, hph, hk', if_true]
          cases hc : g.vec.construct ((idx + k) % 2 ^ 32) (c.arg g.vec.dflt) with
          | mk r s =>
            simp only [hc] at h1 h2 h3
            cases r with
            | ok u =>
              refine ⟨h.inside.trans h1, fun _ hr => ?_⟩
              show s.sizeWord ≤ _ ∨ _
              rw [h2]
              exact hother hr { t with phase := .writing c idx (k + 1) } (fun c idx hc => by rw [hph] at hc; cases hc)
            | _ => exact ⟨h.inside, fun hc => by cases hc⟩
        · simp only [Conc.stepThread, hph, hk', if_false]
          exact ⟨h.inside, fun _ hr => hother hr { t with phase := .idle, done := t.done ++ [(c, idx)] }
            (fun c idx hc => by rw [hph] at hc; cases hc)⟩

theorem DInv.run {s0 : DV α} (hd : s0.dbg = true) (hw : s0.cap < 2 ^ 32) (sched : List Nat) :
    ∀ {g : Conc α}, DInv s0 g → DInv s0 (g.run sched) := by
  induction sched with
  | nil => intro g h; exact h
  | cons i sched ih => intro g h; exact ih (h.step hd hw i)

end Vecmem
