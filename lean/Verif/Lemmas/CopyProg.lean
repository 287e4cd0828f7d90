import Verif.Model.CopyProg
import Verif.Lemmas.Bytes

/-! # Lemmas about running programs of copies -/

namespace Vecmem

namespace Prog

variable {β γ : Type}

/-- The program has outcome `r` and changes the memory from `m` to `m'`. -/
def Does (p : Prog β) (m : Mem) (r : Res β) (m' : Mem) : Prop :=
  ∀ L d, ∃ d', p.run ⟨m, L, d⟩ = (r, ⟨m', L, d'⟩)

/-- The same if the returned value does not matter. -/
def Acts (p : Prog β) (m : Mem) (r : Res Unit) (m' : Mem) : Prop :=
  ∀ L d, ∃ x d', p.run ⟨m, L, d⟩ = (x, ⟨m', L, d'⟩) ∧ x.map (fun _ => ()) = r

theorem Does.acts {p : Prog β} {m r m'} (h : p.Does m r m') : p.Acts m (r.map fun _ => ()) m' := by
  intro L d
  obtain ⟨d', e⟩ := h L d
  exact ⟨r, d', e, rfl⟩

theorem Acts.result {p : Prog β} {m r m'} (h : p.Acts m r m') : p.result m = (r, m') := by
  obtain ⟨x, d', e, hx⟩ := h [] 0
  simp only [Prog.result, e, hx]

theorem Does.value {p : Prog β} {m r m'} (h : p.Does m r m') : p.value m = r ∧ (p.result m).2 = m' := by
  obtain ⟨d', e⟩ := h [] 0
  simp only [Prog.value, Prog.result, e, and_self]

theorem run_bind_ok {p : Prog β} {f : β → Prog γ} {s t : DState} {b : β} (h : p.run s = (.ok b, t)) :
    (p.bind f).run s = (f b).run t := by
  induction p generalizing s with
  | ret r =>
    simp only [run, Prod.mk.injEq] at h
    obtain ⟨rfl, rfl⟩ := h
    rfl
  | issue op k ih =>
    simp only [run, bind] at h ⊢
    cases hx : op.exec s with
    | none => rw [hx] at h; simp at h
    | some u => rw [hx] at h; exact ih h
  | event k ih => exact ih _ h
  | wait e k ih => exact ih h
  | new l k ih => exact ih _ h
  | read i k ih =>
    simp only [run, bind] at h ⊢
    cases hx : s.locals[i]? with
    | none => rw [hx] at h; simp at h
    | some u => rw [hx] at h; exact ih _ h
  | drop k ih => exact ih h
  | load p n k ih => exact ih _ h
  | poke p n b k ih => exact ih h

/-- An exception (of whatever type of results). -/
def Res.Exc (r : Res β) : Prop := ∀ b, r ≠ .ok b

theorem run_bind_err {p : Prog β} {f : β → Prog γ} {s t : DState} {r : Res β} (h : p.run s = (r, t)) (hr : Res.Exc r)
    (g : β → γ) : (p.bind f).run s = (r.map g, t) := by
  induction p generalizing s with
  | ret r' =>
    simp only [run, Prod.mk.injEq] at h
    obtain ⟨rfl, rfl⟩ := h
    cases r' with
    | ok b => exact absurd rfl (hr b)
    | _ => rfl
  | issue op k ih =>
    simp only [run, bind] at h ⊢
    cases hx : op.exec s with
    | none =>
      rw [hx] at h
      simp only [Prod.mk.injEq] at h
      obtain ⟨rfl, rfl⟩ := h
      rfl
    | some u => rw [hx] at h; exact ih h
  | event k ih => exact ih _ h
  | wait e k ih => exact ih h
  | new l k ih => exact ih _ h
  | read i k ih =>
    simp only [run, bind] at h ⊢
    cases hx : s.locals[i]? with
    | none =>
      rw [hx] at h
      simp only [Prod.mk.injEq] at h
      obtain ⟨rfl, rfl⟩ := h
      rfl
    | some u => rw [hx] at h; exact ih _ h
  | drop k ih => exact ih h
  | load p n k ih => exact ih _ h
  | poke p n b k ih => exact ih h

theorem run_thenDrop {p : Prog β} {s t : DState} {r : Res β} (h : p.run s = (r, t)) (hr : r ≠ .ub) :
    p.thenDrop.run s = (r, { t with locals := t.locals.dropLast }) := by
  induction p generalizing s with
  | ret r' =>
    simp only [run, Prod.mk.injEq] at h
    obtain ⟨rfl, rfl⟩ := h
    rfl
  | issue op k ih =>
    simp only [run, thenDrop] at h ⊢
    cases hx : op.exec s with
    | none =>
      rw [hx] at h
      simp only [Prod.mk.injEq] at h
      exact absurd h.1.symm hr
    | some u => rw [hx] at h; exact ih h
  | event k ih => exact ih _ h
  | wait e k ih => exact ih h
  | new l k ih => exact ih _ h
  | read i k ih =>
    simp only [run, thenDrop] at h ⊢
    cases hx : s.locals[i]? with
    | none =>
      rw [hx] at h
      simp only [Prod.mk.injEq] at h
      exact absurd h.1.symm hr
    | some u => rw [hx] at h; exact ih _ h
  | drop k ih => exact ih h
  | load p n k ih => exact ih _ h
  | poke p n b k ih => exact ih h

theorem run_scope {body : Nat → Prog β} {l l' : Local} {m m' : Mem} {L : List Local} {d d' : Nat} {r : Res β}
    (h : (body L.length).run ⟨m, L ++ [l], d⟩ = (r, ⟨m', L ++ [l'], d'⟩)) (hr : r ≠ .ub) :
    (scope l body).run ⟨m, L, d⟩ = (r, ⟨m', L, d'⟩) := by
  simp only [scope, run]
  rw [run_thenDrop h hr]
  simp

theorem Does.bind {p : Prog β} {f : β → Prog γ} {m m1 m2 : Mem} {b : β} {r : Res γ} (h : p.Does m (.ok b) m1)
    (h2 : (f b).Does m1 r m2) : (p.bind f).Does m r m2 := by
  intro L d
  obtain ⟨d1, e1⟩ := h L d
  obtain ⟨d2, e2⟩ := h2 L d1
  exact ⟨d2, by rw [run_bind_ok e1, e2]⟩

theorem Does.bindActs {p : Prog β} {f : β → Prog γ} {m m1 m2 : Mem} {b : β} {r : Res Unit} (h : p.Does m (.ok b) m1)
    (h2 : (f b).Acts m1 r m2) : (p.bind f).Acts m r m2 := by
  intro L d
  obtain ⟨d1, e1⟩ := h L d
  obtain ⟨x, d2, e2, hx⟩ := h2 L d1
  exact ⟨x, d2, by rw [run_bind_ok e1, e2], hx⟩

theorem Does.bindErr {p : Prog β} {f : β → Prog γ} {m m1 : Mem} {r : Res β} (h : p.Does m r m1) (hr : Res.Exc r)
    (g : β → γ) : (p.bind f).Does m (r.map g) m1 := by
  intro L d
  obtain ⟨d1, e1⟩ := h L d
  exact ⟨d1, run_bind_err e1 hr g⟩

theorem does_ret (r : Res β) (m : Mem) : (Prog.ret r).Does m r m := fun _ d => ⟨d, rfl⟩

theorem acts_retEvent (m : Mem) : retEvent.Acts m (.ok ()) m := fun _ d => ⟨.ok d, d, rfl, rfl⟩

theorem acts_retNoEvent (m : Mem) : retNoEvent.Acts m (.ok ()) m := fun _ d => ⟨.ok 0, d, rfl, rfl⟩

theorem does_copy {n src dst : Nat} {k : Prog β} {m m' : Mem} {r : Res β} (ho : ¬ overlap n src dst)
    (h : k.Does (memCopy m dst src n) r m') : (Prog.issue (.copy n src dst) k).Does m r m' := by
  intro L d
  obtain ⟨d', e⟩ := h L (d + 1)
  refine ⟨d', ?_⟩
  simp only [run, COp.exec, if_neg ho]
  exact e

theorem acts_copy {n src dst : Nat} {k : Prog β} {m m' : Mem} {r : Res Unit} (ho : ¬ overlap n src dst)
    (h : k.Acts (memCopy m dst src n) r m') : (Prog.issue (.copy n src dst) k).Acts m r m' := by
  intro L d
  obtain ⟨x, d', e, hx⟩ := h L (d + 1)
  refine ⟨x, d', ?_, hx⟩
  simp only [run, COp.exec, if_neg ho]
  exact e

theorem acts_memset {n dst : Nat} {v : UInt8} {k : Prog β} {m m' : Mem} {r : Res Unit}
    (h : k.Acts (memFill m dst v n) r m') : (Prog.issue (.memset n dst v) k).Acts m r m' := by
  intro L d
  obtain ⟨x, d', e, hx⟩ := h L (d + 1)
  exact ⟨x, d', by simpa only [run, COp.exec] using e, hx⟩

end Prog

end Vecmem
