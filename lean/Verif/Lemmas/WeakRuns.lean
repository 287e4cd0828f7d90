import Verif.Lemmas.WeakPlaces

/-!
# Lemmas: executions of programs, and programs that only push
-/

namespace Vecmem

variable {w : Nat}

theorem WSys.Step.doing {I : WImpl w} {s s' : WSys w} (h : s.Step I s') {e : WEvent w} (ht : s'.trace = s.trace ++ [e]) {i a : Nat} {c : WCall w}
    (hd : WRun.Doing s' i a c) : i ≠ e.thread ∧ WRun.Doing s i a c := by
  have key : ∀ (j : Nat) (code : WCode w) (hj : j = e.thread) (hp : s'.phase = WSys.set s.phase j (WSys.next code)), i ≠ e.thread ∧ WRun.Doing s i a c := by
    intro j code hj hp
    subst hj
    obtain ⟨code', hd⟩ := hd
    rw [hp] at hd
    by_cases hi : i = e.thread
    · simp only [WSys.set, hi, if_true, WSys.next] at hd
      split at hd <;> rcases hd with hd | hd <;> cases hd
    · simp only [WSys.set, hi, if_false] at hd
      exact ⟨hi, code', hd⟩
  cases h with
  | call => simp at ht
  | fence => simp [WSys.fence] at ht
  | leave => simp [WSys.fence] at ht
  | load i _ _ _ code => exact key i code (by simp [WSys.readAt] at ht; rw [← ht]) rfl
  | store i _ _ _ code => exact key i code (by simp [WSys.writeAt] at ht; rw [← ht]) rfl
  | update i _ _ _ code => exact key i code (by simp [WSys.updateAt] at ht; rw [← ht]) rfl
  | keep i _ _ _ code => exact key i code (by simp [WSys.readAt] at ht; rw [← ht]) rfl
  | plainLoad i _ _ _ code => exact key i code (by simp [WSys.plainReadAt] at ht; rw [← ht]) rfl
  | plainStore i _ _ _ code => exact key i code (by simp [WSys.plainWriteAt] at ht; rw [← ht]) rfl

namespace WRun.Reach

variable {I : WImpl w} {m : AMem w} {progs : Nat → WProg w} {s : WRun w}

theorem doing (h : Reach I m progs s) : ∀ i a c, Doing s.sys i a c → ∃ next, s.prog i = .act a c next := by
  induction h with
  | start => intro i a c ⟨code, h⟩; rcases h with h | h <;> cases h
  | step _ hs ih =>
    cases hs with
    | quiet _ _ _ h3 => exact h3
    | access _ e next h1 h2 h3 =>
      intro i a c hd
      obtain ⟨hi, hd⟩ := h1.doing h2 hd
      simpa [WSys.set, hi] using ih i a c hd

theorem call (h : Reach I m progs s) (i a : Nat) (c : WCall w) (code : WCode w) {next : Option (BitVec w) → WProg w} (h1 : s.sys.phase i = .idle)
    (h2 : I c = some code) (h3 : s.prog i = .act a c next) :
    Reach I m progs ⟨{ s.sys with phase := WSys.set s.sys.phase i (if code.before then .fencing a c code else .accessing a c code) }, s.prog⟩ := by
  refine h.step (.quiet s _ (.call _ i a c code h1 h2) rfl ?_)
  intro j b d ⟨code', hd⟩
  by_cases hj : j = i
  · subst hj
    simp only [WSys.set, if_true] at hd
    refine ⟨next, ?_⟩
    split at hd <;> rcases hd with hd | hd <;> cases hd <;> exact h3
  · simp only [WSys.set, hj, if_false] at hd
    exact h.doing j b d ⟨code', hd⟩

theorem fence (h : Reach I m progs s) (i a : Nat) (c : WCall w) (code : WCode w) (h1 : s.sys.phase i = .fencing a c code) :
    Reach I m progs ⟨s.sys.fence i (.accessing a c code), s.prog⟩ := by
  refine h.step (.quiet s _ (.fence _ i a c code h1) rfl ?_)
  intro j b d ⟨code', hd⟩
  by_cases hj : j = i
  · subst hj
    simp only [WSys.fence, WSys.set, if_true] at hd
    rcases hd with hd | hd
    · cases hd
    · cases hd
      exact h.doing _ _ _ ⟨code, .inl h1⟩
  · simp only [WSys.fence, WSys.set, hj, if_false] at hd
    exact h.doing j b d ⟨code', hd⟩

theorem leave (h : Reach I m progs s) (i : Nat) (h1 : s.sys.phase i = .leaving) : Reach I m progs ⟨s.sys.fence i .idle, s.prog⟩ := by
  refine h.step (.quiet s _ (.leave _ i h1) rfl ?_)
  intro j b d ⟨code', hd⟩
  by_cases hj : j = i
  · subst hj
    simp only [WSys.fence, WSys.set, if_true] at hd
    rcases hd with hd | hd <;> cases hd
  · simp only [WSys.fence, WSys.set, hj, if_false] at hd
    exact h.doing j b d ⟨code', hd⟩

end WRun.Reach

theorem pushAll_polite (V : WVec) (hw : 0 < w) (l : List (BitVec w)) : (WTask.pushAll l).Polite V := by
  induction l with
  | nil => trivial
  | cons x l ih =>
    refine ⟨⟨?_, fun _ => rfl, ?_⟩, fun _ => ih⟩
    · show 1 < 2 ^ w
      exact Nat.one_lt_two_pow (by omega)
    · intro st hst
      simp only [WAppend.push, List.mem_singleton] at hst
      subst hst
      exact Nat.zero_lt_one

/-- The accesses of a program that pushes: a claim and a store for each value. -/
theorem pushAll_ran {V : WVec} {vals : List (BitVec w)} {l : List (WEvent w)} (h : (WTask.pushAll vals).Ran V l) :
    l.length = 2 * vals.length ∧ ∀ (j : Nat) x, vals[j]? = some x →
      ∃ e f v, l[2 * j]? = some e ∧ l[2 * j + 1]? = some f ∧ e.Claims V.size v 1 ∧ V.IsStore v (0, 0, x) f := by
  induction vals generalizing l with
  | nil => cases h; exact ⟨rfl, fun j x hx => by cases hx⟩
  | cons y vals ih =>
    cases h with
    | @append _ _ e v stores l h1 h2 h3 =>
      obtain ⟨h4, h5⟩ := ih h3
      simp only [WAppend.push] at h2
      cases h2 with
      | @cons _ f _ _ h6 h7 =>
        cases h7
        refine ⟨by simp [h4]; omega, fun j x hx => ?_⟩
        cases j with
        | zero =>
          simp only [List.getElem?_cons_zero, Option.some.injEq] at hx
          subst hx
          exact ⟨e, f, v, rfl, rfl, h1, h6⟩
        | succ j =>
          obtain ⟨e', f', v', h8, h9, h10⟩ := h5 j x (by simpa using hx)
          refine ⟨e', f', v', ?_, ?_, h10⟩
          · rw [show 2 * (j + 1) = 2 * j + 1 + 1 by omega]; simpa using h8
          · rw [show 2 * (j + 1) + 1 = 2 * j + 1 + 1 + 1 by omega]; simpa using h9

/-- Everything a program that pushes has claimed is one of the claims of its calls. -/
theorem pushAll_claims {V : WVec} (hv : V.Valid w) {vals : List (BitVec w)} {l : List (WEvent w)} (h : (WTask.pushAll vals).Ran V l) {p : Nat} {e : WEvent w}
    (hp : l[p]? = some e) {v n : Nat} (hc : e.Claims V.size v n) : ∃ j, j < vals.length ∧ p = 2 * j := by
  obtain ⟨h1, h2⟩ := pushAll_ran h
  have h3 := (List.getElem?_eq_some_iff.1 hp).1
  rcases Nat.mod_two_eq_zero_or_one p with h4 | h4
  · exact ⟨p / 2, by omega, by omega⟩
  · exfalso
    have hlt : p / 2 < vals.length := by omega
    obtain ⟨e', f, v', h5, h6, h7, h8⟩ := h2 (p / 2) _ (List.getElem?_eq_getElem hlt)
    rw [show 2 * (p / 2) + 1 = p by omega, hp] at h6
    cases h6
    exact hv.size _ _ (h8.1.symm.trans hc.1)

theorem find?_unique {α : Type} {p : α → Bool} {l : List α} {x : α} (h : x ∈ l) (hp : p x = true) (hu : ∀ y ∈ l, p y = true → y = x) : l.find? p = some x := by
  cases hf : l.find? p with
  | none => exact absurd hp (List.find?_eq_none.1 hf x h)
  | some y => rw [hu y (List.mem_of_find?_eq_some hf) (List.find?_some hf)]

end Vecmem
