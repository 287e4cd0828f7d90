import Verif.Spec.GpuDevice

/-!
# Scopes with a selected device
-/

namespace Vecmem

/-- The state after a call that has been answered with `ok`. -/
def Gpu.after (c : GCall) (ok : Bool) (g : Gpu) : Gpu :=
  { g with
    dev := match c with
      | .setDevice d => if ok then d else g.dev
      | _ => g.dev
    trace := g.trace ++ [⟨c, g.dev, ok⟩] }

theorem check_eq (R : GRuntime) (c : GCall) (g : Gpu) :
    g.check R c = (if R.answer g.trace c g.dev then .done else .exc, g.after c (R.answer g.trace c g.dev)) := by
  unfold Gpu.check Gpu.call Gpu.after
  cases R.answer g.trace c g.dev <;> rfl

theorem getDevice_eq (R : GRuntime) (g : Gpu) :
    g.getDevice R = (if R.answer g.trace .getDevice g.dev then g.dev else 0,
      g.after .getDevice (R.answer g.trace .getDevice g.dev)) := by
  unfold Gpu.getDevice Gpu.call Gpu.after
  cases R.answer g.trace .getDevice g.dev <;> rfl

theorem after_set (d : Int) (ok : Bool) (g : Gpu) : (g.after (.setDevice d) ok).dev = if ok then d else g.dev := rfl

theorem after_get (ok : Bool) (g : Gpu) : (g.after .getDevice ok).dev = g.dev := rfl

theorem check_dev {R : GRuntime} {c : GCall} {g : Gpu} (hc : ∀ d, c ≠ .setDevice d) : (g.check R c).2.dev = g.dev := by
  rw [check_eq]
  cases c with
  | setDevice d => exact absurd rfl (hc d)
  | _ => rfl

theorem check_not_terminate (R : GRuntime) (c : GCall) (g : Gpu) : (g.check R c).1 ≠ .terminate := by
  rw [check_eq]
  simp only
  split <;> simp

theorem leave_eq (R : GRuntime) (old : Int) (e : GEnd) (g : Gpu) :
    Gpu.leave R old (e, g) =
      if e = .terminate then (.terminate, g)
      else (if R.answer g.trace (.setDevice old) g.dev then e else .terminate,
        g.after (.setDevice old) (R.answer g.trace (.setDevice old) g.dev)) := by
  cases e <;> simp only [Gpu.leave, check_eq] <;> cases R.answer g.trace (.setDevice old) g.dev <;> rfl

theorem within_eq (R : GRuntime) (d old : Int) (body : Int → Gpu → GEnd × Gpu) (g : Gpu) :
    g.within R d old body =
      if R.answer g.trace (.setDevice d) g.dev then Gpu.leave R old (body old (g.after (.setDevice d) true))
      else (.exc, g.after (.setDevice d) false) := by
  unfold Gpu.within
  rw [check_eq]
  cases R.answer g.trace (.setDevice d) g.dev <;> rfl

theorem select_eq (fl : GFlavour) (R : GRuntime) (d : Int) (body : Int → Gpu → GEnd × Gpu) (g : Gpu) :
    g.select fl R d body =
      if R.answer g.trace .getDevice g.dev then (g.after .getDevice true).within R d g.dev body
      else match fl with
        | .cuda => (.exc, g.after .getDevice false)
        | .hip => (g.after .getDevice false).within R d 0 body := by
  unfold Gpu.select
  rw [check_eq, getDevice_eq]
  cases fl <;> cases R.answer g.trace .getDevice g.dev <;> rfl

theorem leave_dev {R : GRuntime} {old : Int} {r : GEnd × Gpu} (h : (Gpu.leave R old r).1 ≠ .terminate) :
    (Gpu.leave R old r).2.dev = old := by
  obtain ⟨e, g⟩ := r
  rw [leave_eq] at h ⊢
  split at h
  · exact absurd rfl h
  · rename_i he
    rw [if_neg he]
    cases ha : R.answer g.trace (.setDevice old) g.dev
    · rw [ha] at h
      exact absurd rfl h
    · rfl

theorem select_restores {fl : GFlavour} {R : GRuntime} (hfl : fl = .cuda ∨ GRuntime.CanAsk R) {d : Int}
    {body : Int → Gpu → GEnd × Gpu} {g : Gpu}
    (hend : (g.select fl R d body).1 ≠ .terminate) : (g.select fl R d body).2.dev = g.dev := by
  rw [select_eq] at hend ⊢
  cases hq : R.answer g.trace .getDevice g.dev
  · rcases hfl with rfl | hfl
    · rfl
    · rw [hfl] at hq
      cases hq
  · rw [hq, if_pos rfl, within_eq] at hend
    rw [if_pos rfl, within_eq]
    split
    · rename_i hs
      rw [if_pos hs] at hend
      exact leave_dev hend
    · rfl

theorem select_not_terminate {fl : GFlavour} {R : GRuntime} {Exists : Int → Prop} (hs : GRuntime.CanSelect R Exists)
    (hfl : fl = .cuda ∨ GRuntime.CanAsk R) {d : Int} {body : Int → Gpu → GEnd × Gpu} {g : Gpu} (hg : Exists g.dev)
    (hb : ∀ old g', Exists g'.dev → (body old g').1 ≠ .terminate) : (g.select fl R d body).1 ≠ .terminate := by
  rw [select_eq]
  cases hq : R.answer g.trace .getDevice g.dev
  · rcases hfl with rfl | hfl
    · simp
    · rw [hfl] at hq
      cases hq
  · rw [if_pos rfl, within_eq]
    split
    · rename_i h1
      have := hb g.dev ((g.after .getDevice true).after (.setDevice d) true) ((hs _ _ _).1 h1)
      revert this
      rcases body g.dev _ with ⟨e, g'⟩
      intro he
      rw [leave_eq, if_neg he, (hs _ _ _).2 hg]
      exact he
    · simp

/-- The calls a scope makes: its own, and in between those of the body, which starts with the device `d` selected. -/
theorem select_trace {fl : GFlavour} {R : GRuntime} {d : Int} {body : Int → Gpu → GEnd × Gpu} {g : Gpu}
    {P : GEvent → Prop} (hget : ∀ e : GEvent, e.call = .getDevice → P e) (hset : ∀ (e : GEvent) d, e.call = .setDevice d → P e)
    (hb : ∀ old g', g'.dev = d → ∃ new, (body old g').2.trace = g'.trace ++ new ∧ ∀ e ∈ new, P e) :
    ∃ new, (g.select fl R d body).2.trace = g.trace ++ new ∧ ∀ e ∈ new, P e := by
  have leave : ∀ (old : Int) (r : GEnd × Gpu) (tr new : List GEvent), r.2.trace = tr ++ new → (∀ e ∈ new, P e) →
      ∃ new, (Gpu.leave R old r).2.trace = tr ++ new ∧ ∀ e ∈ new, P e := by
    rintro old ⟨e, g'⟩ tr new h1 h2
    rw [leave_eq]
    split
    · exact ⟨new, h1, h2⟩
    · refine ⟨new ++ [⟨.setDevice old, g'.dev, R.answer g'.trace (.setDevice old) g'.dev⟩], ?_, ?_⟩
      · simp only at h1
        simp only [Gpu.after, h1, List.append_assoc]
      · intro e he
        rcases List.mem_append.1 he with h | h
        · exact h2 e h
        · simp at h; subst h; exact hset _ _ rfl
  have within : ∀ (old : Int) (g₁ : Gpu), ∃ new, (g₁.within R d old body).2.trace = g₁.trace ++ new ∧ ∀ e ∈ new, P e := by
    intro old g₁
    rw [within_eq]
    split
    · obtain ⟨new, h1, h2⟩ := hb old (g₁.after (.setDevice d) true) rfl
      refine leave old _ _ ([⟨.setDevice d, g₁.dev, true⟩] ++ new) ?_ ?_
      · rw [h1]
        simp [Gpu.after]
      · intro e he
        rcases List.mem_append.1 he with h | h
        · simp at h; subst h; exact hset _ _ rfl
        · exact h2 e h
    · exact ⟨[⟨.setDevice d, g₁.dev, false⟩], rfl, by simp; exact hset _ _ rfl⟩
  have fin : ∀ (ok : Bool) (old : Int),
      ∃ new, ((g.after .getDevice ok).within R d old body).2.trace = g.trace ++ new ∧ ∀ e ∈ new, P e := by
    intro ok old
    obtain ⟨new, h1, h2⟩ := within old (g.after .getDevice ok)
    refine ⟨[⟨.getDevice, g.dev, ok⟩] ++ new, ?_, ?_⟩
    · rw [h1]; simp [Gpu.after]
    · intro e he
      rcases List.mem_append.1 he with h | h
      · simp at h; subst h; exact hget _ rfl
      · exact h2 e h
  rw [select_eq]
  split
  · exact fin _ _
  · cases fl with
    | cuda => exact ⟨[⟨.getDevice, g.dev, false⟩], rfl, by simp; exact hget _ rfl⟩
    | hip => exact fin _ _

/-- All calls made since `g` have succeeded, except perhaps for those that ask for the device. -/
def NoFailure (g g' : Gpu) : Prop := ∃ new, g'.trace = g.trace ++ new ∧ ∀ e ∈ new, e.ok = true ∨ e.call = .getDevice

theorem NoFailure.refl (g : Gpu) : NoFailure g g := ⟨[], by simp, by simp⟩

theorem NoFailure.trans {g g' g'' : Gpu} (h : NoFailure g g') (h' : NoFailure g' g'') : NoFailure g g'' := by
  obtain ⟨n, h1, h2⟩ := h
  obtain ⟨n', h3, h4⟩ := h'
  refine ⟨n ++ n', by rw [h3, h1, List.append_assoc], fun e he => ?_⟩
  rcases List.mem_append.1 he with h | h
  · exact h2 e h
  · exact h4 e h

theorem NoFailure.after {g : Gpu} {c : GCall} {ok : Bool} (h : ok = true ∨ c = .getDevice) : NoFailure g (g.after c ok) :=
  ⟨[⟨c, g.dev, ok⟩], rfl, by simpa using h⟩

theorem check_reported {R : GRuntime} {c : GCall} {g : Gpu} (h : (g.check R c).1 = .done) : NoFailure g (g.check R c).2 := by
  rw [check_eq] at h ⊢
  cases ha : R.answer g.trace c g.dev
  · rw [ha] at h; cases h
  · exact .after (.inl rfl)

theorem select_reported {fl : GFlavour} {R : GRuntime} {d : Int} {body : Int → Gpu → GEnd × Gpu} {g : Gpu}
    (hb : ∀ old g', (body old g').1 = .done → NoFailure g' (body old g').2) (h : (g.select fl R d body).1 = .done) :
    NoFailure g (g.select fl R d body).2 := by
  have within : ∀ (old : Int) (g₁ : Gpu), (g₁.within R d old body).1 = .done → NoFailure g₁ (g₁.within R d old body).2 := by
    intro old g₁ h
    rw [within_eq] at h ⊢
    split at h
    · rename_i hs
      rw [if_pos hs]
      have hb' := hb old (g₁.after (.setDevice d) true)
      rcases hr : body old (g₁.after (.setDevice d) true) with ⟨e, g'⟩
      rw [hr, leave_eq] at h
      rw [hr] at hb'
      rw [leave_eq]
      split at h
      · cases h
      · rename_i he
        rw [if_neg he]
        cases ha : R.answer g'.trace (.setDevice old) g'.dev
        · rw [ha] at h; cases h
        · rw [ha] at h
          exact (NoFailure.after (.inl rfl)).trans ((hb' h).trans (.after (.inl rfl)))
    · cases h
  rw [select_eq] at h ⊢
  split at h
  · rename_i hs
    rw [if_pos hs]
    exact (NoFailure.after (.inr rfl)).trans (within _ _ h)
  · rename_i hs
    rw [if_neg hs]
    cases fl with
    | cuda => cases h
    | hip => exact (NoFailure.after (.inr rfl)).trans (within _ _ h)

end Vecmem
